import Verif.Lemmas.ConcMach
import Verif.Lemmas.ConcRun
import Verif.Lemmas.HeapProgram
import Verif.Lemmas.ConcLaw
import Verif.Spec.ConcVal
/-! # Code between whose steps others do things, and the same code run alone -/

namespace Vtp.Conc
open Spec

/-! ## The objects that values consist of are determined -/

theorem own_unique {S : Schema} {h : Heap} {I : List Item} {F : Multiset Addr} (h1 : OwnL S .none h I F) : ∀ {F' : Multiset Addr}, OwnL S .none h I F' → F = F' := by
  induction h1 with
  | lent ha => exact False.elim ha
  | view ha => exact False.elim ha
  | foreign hf hc _ ih =>
    intro F' h2
    cases h2 with
    | foreign _ hc' h2 => exact congrArg _ (ih h2)
    | msg hf' => rw [hf] at hf'; cases hf'
  | msg hf hc hl _ ih =>
    intro F' h2
    cases h2 with
    | foreign hf' => rw [hf] at hf'; cases hf'
    | msg _ hc' _ h2 => rw [hc] at hc'; cases hc'; exact congrArg _ (ih h2)
  | bytes hc _ ih =>
    intro F' h2
    cases h2 with
    | lent ha => exact False.elim ha
    | bytes _ h2 => exact congrArg _ (ih h2)
  | done => intro F' h2; cases h2; rfl
  | nil _ _ ih => intro F' h2; cases h2 <;> (rename_i h2; exact ih h2)
  | num _ ih => intro F' h2; cases h2 with | num h2 => exact ih h2
  | str _ ih => intro F' h2; cases h2 with | str h2 => exact ih h2
  | is _ ih =>
    intro F' h2
    cases h2 with
    | is h2 => exact ih h2
    | nil _ h2 => exact ih h2
  | wrapNil _ ih => intro F' h2; cases h2 with | wrapNil h2 => exact ih h2
  | mem hc _ ih => intro F' h2; cases h2 with | mem _ h2 => exact congrArg _ (ih h2)
  | box hc _ ih => intro F' h2; cases h2 with | box hc' h2 => rw [hc] at hc'; cases hc'; exact congrArg _ (ih h2)
  | obj hc _ _ ih => intro F' h2; cases h2 with | obj hc' _ h2 => rw [hc] at hc'; cases hc'; exact congrArg _ (ih h2)
  | list hc _ _ ih => intro F' h2; cases h2 with | list hc' _ h2 => rw [hc] at hc'; cases hc'; exact congrArg _ (ih h2)
  | hole hc _ _ _ ih => intro F' h2; cases h2 with | hole hc' _ _ h2 => rw [hc] at hc'; cases hc'; exact congrArg _ (ih h2)
  | map hc _ ih => intro F' h2; cases h2 with | map hc' h2 => rw [hc] at hc'; cases hc'; exact congrArg _ (ih h2)
  | oneof hc hm _ ih =>
    intro F' h2
    cases h2 with
    | oneof hc' hm' h2 =>
      rw [hc] at hc'; cases hc'
      rw [hm] at hm'; cases hm'
      exact congrArg _ (ih h2)
  | wrap hc _ ih => intro F' h2; cases h2 with | wrap hc' h2 => rw [hc] at hc'; cases hc'; exact congrArg _ (ih h2)
  | raw hc _ ih => intro F' h2; cases h2 with | raw hc' h2 => exact congrArg _ (ih h2)

theorem rep_own {S : Schema} {h : Heap} {V : List VItem} {F : Multiset Addr} (hV : RepL S .none h V F) : OwnL S .none h (V.map fun i => (i.1, i.2.1)) F := by
  induction hV with
  | done => exact .done
  | nil ht _ ih => exact .nil ht ih
  | num _ ih => exact .num ih
  | str _ ih => exact .str ih
  | view hb _ _ => cases hb
  | lent hb _ _ _ => cases hb
  | wrapNil _ ih => exact .wrapNil ih
  | bytes hc _ _ ih => exact .bytes hc ih
  | mem hc _ _ ih => exact .mem hc ih
  | box hc _ _ ih => exact .box hc ih
  | foreign hf hc _ _ ih => exact .foreign hf hc ih
  | @msg t a its u uv e I F hf hc ht _ ih =>
    have hl : (its.map (·.2.1)).length = (S.msg t).nslots := by
      have := congrArg List.length ht
      simpa [slotTys] using this
    refine .msg hf hc hl ?_
    rw [← ht]
    have e : (its.map (·.1)).zip (its.map (·.2.1)) = its.map fun i => (i.1, i.2.1) := by rw [← List.zip_map']
    rw [e]
    simpa using ih
  | list hc hl _ _ ih =>
    refine .list hc (by simpa using hl) ?_
    simpa [Function.comp_def] using ih
  | map hc _ ih =>
    refine .map hc ?_
    simpa [Function.comp_def] using ih
  | oneof hc hm _ ih => exact .oneof hc hm ih
  | raw hc _ ih => exact .raw hc ih

/-! ## Memory as the code sees it -/

/-- Messages with values, as items. -/
abbrev valItems (V : List (Nat × Addr × Val)) : List VItem := V.map fun q => (.msg q.1, .ptr q.2.1, q.2.2)

/-- Messages with values, without these. -/
abbrev valMsgs (V : List (Nat × Addr × Val)) : List (Nat × Addr) := V.map fun q => (q.1, q.2.1)

/-- The state `σ` is one in which the code, alone, sees what it sees of the memory `h` of which it owns `F`: `K` are the objects that it gave to pools, as they were, `P` the messages
given. In `σ` the pools hold the messages `V` besides. -/
structure View (C : Ctx) (K : Addr → Option Cell) (P : List (Nat × Addr)) (h : Heap) (F : Multiset Addr) (σ : HState) (V : List (Nat × Addr × Val)) (Fl : Multiset Addr) : Prop where
  agree : Agree F h σ.heap
  linv : LInv C σ.heap F
  kept : ∀ a c, K a = some c → σ.heap[a]? = some c ∧ a ∉ F
  nodup : (F + Fl).Nodup
  apart : ∀ a ∈ Fl, (∀ c, ¬ C.Z a c) ∧ K a = none
  once : σ.free.Nodup
  free : ∀ a ∈ σ.free, σ.heap[a]? = some (.foreign .nil) ∧ a ∉ F ∧ a ∉ Fl ∧ (∀ c, ¬ C.Z a c) ∧ K a = none
  blank : ∀ q ∈ V, Blank C.S q.1 q.2.2
  rep : RepL C.S .none σ.heap (valItems V) Fl
  pool : σ.pool = valMsgs V ++ P

/-- Alone, the code comes to an end at which there is `Q`, in all states in which it sees what it sees. -/
def Virt (C : Ctx) {α : Type} (K : Addr → Option Cell) (P : List (Nat × Addr)) (Q : HState → Res α → Prop) (p : Prog α) (h : Heap) (F : Multiset Addr) : Prop :=
  ∀ σ V Fl, (C.lock → V = []) → View C K P h F σ V Fl → Q (p.run σ).1 (p.run σ).2

section
variable {C : Ctx} {α : Type} {K : Addr → Option Cell} {P : List (Nat × Addr)} {Q : HState → Res α → Prop} {h h' : Heap} {F : Multiset Addr}

theorem Virt.calm {p : Prog α} (hv : Virt C K P Q p h F) (ha : Agree F h h') : Virt C K P Q p h' F :=
  fun σ V Fl hl hw => hv σ V Fl hl { hw with agree := ha.trans hw.agree }

theorem Virt.read {a : Addr} {k : Cell → Prog α} {c : Cell} (hv : Virt C K P Q (.read a k) h F) (hc : h[a]? = some c) (ha : a ∈ F ∨ C.Z a c) : Virt C K P Q (k c) h F := by
  intro σ V Fl hl hw
  have := hv σ V Fl hl hw
  have e : σ.heap[a]? = some c := by
    rcases ha with ha | ha
    · exact (hw.agree a ha).trans hc
    · exact (hw.linv.fixed a c ha).1
  simpa only [Prog.run, e] using this

theorem Virt.write {a : Addr} {c : Cell} {k : Prog α} (hv : Virt C K P Q (.write a c k) h F) (ha : a ∈ F) (hi : LInv C h F) : Virt C K P Q k (h.set a c) F := by
  intro σ V Fl hl hw
  have hlt : a < h.length := hi.inHeap a ha
  have hlt' : a < σ.heap.length := hw.linv.inHeap a ha
  have hne : ∀ b, b ≠ a → (σ.heap.set a h[a])[b]? = σ.heap[b]? := fun b hb => List.getElem?_set_ne (fun e => hb e.symm)
  have hF : ∀ b, b ∉ F → b ≠ a := fun b hb e => hb (e ▸ ha)
  have hFl : ∀ b ∈ Fl, b ∉ F := fun b hb h2 => Multiset.disjoint_left.mp (Multiset.nodup_add.mp hw.nodup).2.2 h2 hb
  have := hv { σ with heap := σ.heap.set a h[a] } V Fl hl
    { agree := fun b hb => by
        by_cases e : b = a
        · subst e
          rw [List.getElem?_set_self hlt', List.getElem?_eq_getElem hlt]
        · rw [hne b e, hw.agree b hb, List.getElem?_set_ne (fun e' => e e'.symm)]
      linv := ⟨hw.linv.nolent, hw.linv.nodup, fun b hb => by rw [List.length_set]; exact hw.linv.inHeap b hb, fun b d hz =>
        ⟨(hne b (hF b (hw.linv.fixed b d hz).2)).trans (hw.linv.fixed b d hz).1, (hw.linv.fixed b d hz).2⟩⟩
      kept := fun b d hk => ⟨(hne b (hF b (hw.kept b d hk).2)).trans (hw.kept b d hk).1, (hw.kept b d hk).2⟩
      nodup := hw.nodup
      apart := hw.apart
      once := hw.once
      free := fun b hb => ⟨(hne b (hF b (hw.free b hb).2.1)).trans (hw.free b hb).1, (hw.free b hb).2⟩
      blank := hw.blank
      rep := hw.rep.frame fun b hb => hne b (hF b (hFl b hb))
      pool := hw.pool }
  have e : (σ.heap.set a h[a]).set a c = σ.heap := by
    rw [List.set_set]
    have hs : σ.heap[a]? = some c := by rw [hw.agree a ha, List.getElem?_set_self hlt]
    exact List.ext_getElem? fun b => by
      by_cases eb : b = a
      · subst eb; rw [List.getElem?_set_self hlt', hs]
      · rw [List.getElem?_set_ne (fun e' => eb e'.symm)]
  simpa only [Prog.run, e] using this

theorem Virt.alloc {c : Addr → Cell} {k : Addr → Prog α} (hv : Virt C K P Q (.alloc c k) h F) (hi : LInv C h F) :
    Virt C K P Q (k h.length) (h ++ [c h.length]) (h.length ::ₘ F) := by
  intro σ V Fl hl hw
  have hn : h.length ∉ F := fun hm => Nat.lt_irrefl _ (hi.inHeap _ hm)
  have hmem : h.length ∈ h.length ::ₘ F := Multiset.mem_cons_self _ _
  have hlt : h.length < σ.heap.length := hw.linv.inHeap _ hmem
  have hat : σ.heap[h.length]? = some (c h.length) := by rw [hw.agree _ hmem]; simp
  have hne : ∀ b, b ≠ h.length → (σ.heap.set h.length (.foreign .nil))[b]? = σ.heap[b]? := fun b hb => List.getElem?_set_ne (fun e => hb e.symm)
  have hF : ∀ b, b ∉ h.length ::ₘ F → b ≠ h.length := fun b hb e => hb (e ▸ hmem)
  have hFl : ∀ b ∈ Fl, b ∉ h.length ::ₘ F := fun b hb h2 => Multiset.disjoint_left.mp (Multiset.nodup_add.mp hw.nodup).2.2 h2 hb
  have hFs : ∀ b ∈ F, b ≠ h.length := fun b hb e => hn (e ▸ hb)
  have := hv { σ with heap := σ.heap.set h.length (.foreign .nil), free := h.length :: σ.free } V Fl hl
    { agree := fun b hb => by
        rw [hne b (hFs b hb), hw.agree b (Multiset.mem_cons_of_mem hb), List.getElem?_append_left (hi.inHeap b hb)]
      linv := ⟨hw.linv.nolent, (Multiset.nodup_cons.mp hw.linv.nodup).2, fun b hb => by rw [List.length_set]; exact hw.linv.inHeap b (Multiset.mem_cons_of_mem hb), fun b d hz =>
        ⟨(hne b (hF b (hw.linv.fixed b d hz).2)).trans (hw.linv.fixed b d hz).1, fun hb => (hw.linv.fixed b d hz).2 (Multiset.mem_cons_of_mem hb)⟩⟩
      kept := fun b d hk => ⟨(hne b (hF b (hw.kept b d hk).2)).trans (hw.kept b d hk).1, fun hb => (hw.kept b d hk).2 (Multiset.mem_cons_of_mem hb)⟩
      nodup := by
        have := hw.nodup
        rw [Multiset.cons_add] at this
        exact (Multiset.nodup_cons.mp this).2
      apart := hw.apart
      once := List.nodup_cons.mpr ⟨fun hb => (hw.free _ hb).2.1 hmem, hw.once⟩
      free := fun b hb => by
        rcases List.mem_cons.mp hb with rfl | hb
        · refine ⟨List.getElem?_set_self hlt, hn, fun h2 => hFl _ h2 hmem, fun d hz => (hw.linv.fixed _ d hz).2 hmem, ?_⟩
          cases hk : K h.length with
          | none => rfl
          | some d => exact absurd hmem (hw.kept _ d hk).2
        · obtain ⟨f1, f2, f3⟩ := hw.free b hb
          exact ⟨(hne b (hF b f2)).trans f1, fun h2 => f2 (Multiset.mem_cons_of_mem h2), f3⟩
      blank := hw.blank
      rep := hw.rep.frame fun b hb => hne b (hF b (hFl b hb))
      pool := hw.pool }
  simp only [Prog.run] at this
  have e1 : HState.next { σ with heap := σ.heap.set h.length (.foreign .nil), free := h.length :: σ.free } = h.length := by
    unfold HState.next
    exact if_pos (List.getElem?_set_self hlt)
  have e2 : (HState.grow { σ with heap := σ.heap.set h.length (.foreign .nil), free := h.length :: σ.free } (c h.length)) = σ := by
    unfold HState.grow
    rw [e1]
    simp only [List.length_set, hlt, if_true, List.tail_cons, List.set_set]
    have e : σ.heap.set h.length (c h.length) = σ.heap := List.ext_getElem? fun b => by
      by_cases eb : b = h.length
      · subst eb; rw [List.getElem?_set_self hlt, hat]
      · rw [List.getElem?_set_ne (fun e' => eb e'.symm)]
    rw [e]
  rw [e1, e2] at this
  exact this

theorem Virt.miss {want : Option Addr} {t : Nat} {k : Option Addr → Prog α} (hv : Virt C K P Q (.get want t k) h F) : Virt C K P Q (k none) h F := by
  intro σ V Fl hl hw
  cases want with
  | none => exact hv σ V Fl hl hw
  | some w => exact hv { σ with gets := none :: σ.gets } V Fl hl { hw with }

theorem Virt.got {want : Option Addr} {t : Nat} {k : Option Addr → Prog α} {a : Addr} {x : Val} {G : Multiset Addr} (hv : Virt C K P Q (.get want t k) h F) (hwant : want ≠ none)
    (hk : ¬ C.lock) (hb : Blank C.S t x) (hr : RepL C.S .none h [(.msg t, .ptr a, x)] G) : Virt C K P Q (k (some a)) h (G + F) := by
  intro σ V Fl hl hw
  obtain ⟨w, rfl⟩ := Option.ne_none_iff_exists'.mp hwant
  have hFin : ∀ b, b ∈ F → b ∈ G + F := fun b hb => Multiset.mem_add.mpr (.inr hb)
  have hGin : ∀ b, b ∈ G → b ∈ G + F := fun b hb => Multiset.mem_add.mpr (.inl hb)
  have hKn : ∀ b, b ∈ G + F → K b = none := fun b hb => by
    cases hx : K b with
    | none => rfl
    | some d => exact absurd hb (hw.kept b d hx).2
  have := hv { σ with pool := (t, a) :: σ.pool, gets := some a :: σ.gets } ((t, a, x) :: V) (G + Fl) (fun h => absurd h hk)
    { agree := fun b hb => hw.agree b (hFin b hb)
      linv := hw.linv.shrink (Multiset.le_add_left _ _)
      kept := fun b d hd => ⟨(hw.kept b d hd).1, fun hb => (hw.kept b d hd).2 (hFin b hb)⟩
      nodup := by
        have := hw.nodup
        rwa [add_comm G F, add_assoc] at this
      apart := fun b hb => by
        rcases Multiset.mem_add.mp hb with hb | hb
        · exact ⟨fun d hz => (hw.linv.fixed b d hz).2 (hGin b hb), hKn b (hGin b hb)⟩
        · exact hw.apart b hb
      once := hw.once
      free := fun b hb => by
        obtain ⟨f1, f2, f3, f4⟩ := hw.free b hb
        exact ⟨f1, fun h2 => f2 (hFin b h2), fun h2 => (Multiset.mem_add.mp h2).elim (fun h3 => f2 (hGin b h3)) f3, f4⟩
      blank := fun q hq => by
        rcases List.mem_cons.mp hq with rfl | hq
        · exact hb
        · exact hw.blank q hq
      rep := (hr.frame fun b hb => hw.agree b (hGin b hb)).append (I1 := [_]) hw.rep
      pool := by simp [hw.pool] }
  have e : ((t, a) :: σ.pool).erase (t, a) = σ.pool := List.erase_cons_head ..
  simpa [Prog.run, HState.ask, HState.asked, e] using this

theorem Virt.put {t : Nat} {a : Addr} {k : Prog α} {G : Multiset Addr} (hv : Virt C K P Q (.put t a k) h (G + F)) (hk : C.lock) (hi : LInv C h (G + F))
    (hK : ∀ a c, K a = some c → a ∉ G + F) : Virt C (fun a => if a ∈ G then h[a]? else K a) ((t, a) :: P) Q k h F := by
  intro σ V Fl hl hw
  obtain rfl := hl hk
  have hFl : Fl = 0 := by cases hw.rep; rfl
  subst hFl
  have hG : ∀ b ∈ G, σ.heap[b]? = h[b]? := fun b hb => by
    have hlt := hi.inHeap b (Multiset.mem_add.mpr (.inl hb))
    rw [List.getElem?_eq_getElem hlt]
    exact (hw.kept b h[b] (by simp only [hb, if_true]; exact List.getElem?_eq_getElem hlt)).1
  have hGk : ∀ b ∈ G, (if b ∈ G then h[b]? else K b) ≠ none := fun b hb e => by
    rw [if_pos hb, List.getElem?_eq_getElem (hi.inHeap b (Multiset.mem_add.mpr (.inl hb)))] at e
    cases e
  have := hv { σ with pool := P } [] 0 (fun _ => rfl)
    { agree := fun b hb => (Multiset.mem_add.mp hb).elim (hG b) (hw.agree b)
      linv := ⟨hi.nolent, hi.nodup, fun b hb => (Multiset.mem_add.mp hb).elim
          (fun h2 => by
            have hlt := hi.inHeap b hb
            have e := hG b h2
            rw [List.getElem?_eq_getElem hlt] at e
            exact (List.getElem?_eq_some_iff.mp e).1) (hw.linv.inHeap b),
        fun b d hz => ⟨(hw.linv.fixed b d hz).1, (hi.fixed b d hz).2⟩⟩
      kept := fun b d hd => by
        have hn := hK b d hd
        have hnG : b ∉ G := fun h2 => hn (Multiset.mem_add.mpr (.inl h2))
        exact ⟨(hw.kept b d (by rw [if_neg hnG]; exact hd)).1, hn⟩
      nodup := by simpa using hi.nodup
      apart := fun b hb => absurd hb (Multiset.notMem_zero b)
      once := hw.once
      free := fun b hb => by
        obtain ⟨f1, f2, f3, f4, f5⟩ := hw.free b hb
        have hnG : b ∉ G := fun h2 => hGk b h2 f5
        rw [if_neg hnG] at f5
        exact ⟨f1, fun h2 => (Multiset.mem_add.mp h2).elim hnG f2, f3, f4, f5⟩
      blank := fun q hq => nomatch hq
      rep := .done
      pool := rfl }
  have e : σ.pool = (t, a) :: P := hw.pool
  have e2 : ({ σ with pool := P } : HState) = { σ with pool := P } := rfl
  simp only [Prog.run] at this
  have e3 : ({ heap := σ.heap, pool := (t, a) :: P, free := σ.free, gets := σ.gets } : HState) = σ := by rw [← e]
  rw [e3] at this
  exact this

/-! ## Objects given to pools -/

/-- What code that only gives messages to pools leaves as it is. -/
theorem run_lock {R : Res α → Heap → Multiset Addr → Prop} (hk : C.lock) {p : Prog α} : ∀ {σ : HState} {F : Multiset Addr}, Safe C R p σ.heap F → LInv C σ.heap F → σ.free = [] →
    (∀ a < σ.heap.length, a ∉ F → (p.run σ).1.heap[a]? = σ.heap[a]?) ∧ ∀ q ∈ σ.pool, q ∈ (p.run σ).1.pool := by
  induction p with
  | done r => exact fun _ _ _ => ⟨fun _ _ _ => rfl, fun _ h => h⟩
  | read a k ih =>
    intro σ F hs hi hf
    obtain ⟨c, hc, -, h1⟩ := hs _ (.refl _ _) hi
    simp only [Prog.run, hc]
    exact ih c h1 hi hf
  | write a c k ih =>
    intro σ F hs hi hf
    obtain ⟨ha, h1⟩ := hs _ (.refl _ _) hi
    have hne : ∀ b, b ∉ F → (σ.heap.set a c)[b]? = σ.heap[b]? := fun b hb => List.getElem?_set_ne (fun e : a = b => hb (e ▸ ha))
    obtain ⟨h2, h3⟩ := ih (σ := { σ with heap := σ.heap.set a c }) h1 ⟨hi.nolent, hi.nodup, fun b hb => by rw [List.length_set]; exact hi.inHeap b hb,
      fun b d hz => ⟨(hne b (hi.fixed b d hz).2).trans (hi.fixed b d hz).1, (hi.fixed b d hz).2⟩⟩ hf
    exact ⟨fun b hb hn => (h2 b (by simpa using hb) hn).trans (hne b hn), h3⟩
  | alloc c k ih =>
    intro σ F hs hi hf
    have h1 := hs _ (.refl _ _) hi
    simp only [Prog.run]
    rw [HState.grow_nofree hf, HState.next_nofree hf]
    have hold : ∀ b < σ.heap.length, (σ.heap ++ [c σ.heap.length])[b]? = σ.heap[b]? := fun b hb => List.getElem?_append_left hb
    obtain ⟨h2, h3⟩ := ih σ.heap.length (σ := { σ with heap := σ.heap ++ [c σ.heap.length] }) h1 ⟨hi.nolent, Multiset.nodup_cons.mpr ⟨fun hm => Nat.lt_irrefl _ (hi.inHeap _ hm), hi.nodup⟩, fun b hb => by
        rw [List.length_append]
        rcases Multiset.mem_cons.mp hb with rfl | hb
        · exact Nat.lt_succ_self _
        · exact Nat.lt_of_lt_of_le (hi.inHeap b hb) (Nat.le_add_right _ _),
      fun b d hz => ⟨(hold b (List.getElem?_eq_some_iff.mp (hi.fixed b d hz).1).1).trans (hi.fixed b d hz).1, fun hm => by
        rcases Multiset.mem_cons.mp hm with rfl | hm
        · exact Nat.lt_irrefl _ (List.getElem?_eq_some_iff.mp (hi.fixed _ d hz).1).1
        · exact (hi.fixed b d hz).2 hm⟩⟩ hf
    refine ⟨fun b hb hn => (h2 b ?_ ?_).trans (hold b hb), h3⟩
    · rw [List.length_append]; exact Nat.lt_of_lt_of_le hb (Nat.le_add_right _ _)
    · intro h
      rcases Multiset.mem_cons.mp h with rfl | h
      · exact Nat.lt_irrefl _ hb
      · exact hn h
  | get want t k ih =>
    intro σ F hs hi hf
    exact absurd hk (hs _ (.refl _ _) hi).1
  | put t a k ih =>
    intro σ F hs hi hf
    obtain ⟨-, G, F', rfl, -, h1⟩ := hs _ (.refl _ _) hi
    obtain ⟨h2, h3⟩ := ih (σ := { σ with pool := (t, a) :: σ.pool }) h1 (hi.shrink (Multiset.le_add_left _ _)) hf
    exact ⟨fun b hb hn => h2 b hb fun h => hn (Multiset.mem_add.mpr (.inr h)), fun q hq => h3 q (.tail _ hq)⟩

/-- A state in which the code sees what it sees: memory as it is, but objects given to pools as they were. -/
def overlay (K : Addr → Option Cell) (P : List (Nat × Addr)) (h : Heap) : HState := { heap := h.mapIdx fun a c => (K a).getD c, pool := P }

theorem overlay_at (a : Addr) : (overlay K P h).heap[a]? = h[a]?.map fun c => (K a).getD c := by
  simp [overlay, List.getElem?_mapIdx]

theorem overlay_none {a : Addr} (hK : K a = none) : (overlay K P h).heap[a]? = h[a]? := by
  rw [overlay_at, hK]
  cases h[a]? <;> rfl

/-- What the code may rely on, of what it gave to pools. -/
def Given (C : Ctx) (K : Addr → Option Cell) (h : Heap) (F : Multiset Addr) : Prop := ∀ a c, K a = some c → a ∉ F ∧ a < h.length ∧ ∀ d, ¬ C.Z a d

theorem overlay_view (hi : LInv C h F) (hK : Given C K h F) : View C K P h F (overlay K P h) [] 0 := by
  have hn : ∀ a ∈ F, K a = none := fun a ha => by
    cases hx : K a with
    | none => rfl
    | some d => exact absurd ha (hK a d hx).1
  have hz : ∀ a c, C.Z a c → K a = none := fun a c hz => by
    cases hx : K a with
    | none => rfl
    | some d => exact absurd hz ((hK a d hx).2.2 c)
  exact
    { agree := fun a ha => overlay_none (hn a ha)
      linv := ⟨hi.nolent, hi.nodup, fun a ha => by simpa [overlay] using hi.inHeap a ha, fun a c h2 => ⟨(overlay_none (hz a c h2)).trans (hi.fixed a c h2).1, (hi.fixed a c h2).2⟩⟩
      kept := fun a c h2 => by
        refine ⟨?_, (hK a c h2).1⟩
        rw [overlay_at, h2, List.getElem?_eq_getElem (hK a c h2).2.1]
        rfl
      nodup := by simpa using hi.nodup
      apart := fun b hb => absurd hb (Multiset.notMem_zero b)
      once := List.nodup_nil
      free := fun b hb => nomatch hb
      blank := fun q hq => nomatch hq
      rep := .done
      pool := rfl }

/-! ## Calls in progress -/

/-- A call that comes, alone, to an end at which there is `Q`. -/
def Going (C : Ctx) (Q : HState → Res α → Prop) (p : Prog α) (h : Heap) (F : Multiset Addr) : Prop := ∃ K P, (¬ C.lock → ∀ a, K a = none) ∧ Given C K h F ∧ Virt C K P Q p h F

theorem Going.start {p : Prog α} (hv : Virt C (fun _ => none) [] Q p h F) : Going C Q p h F := ⟨_, _, fun _ _ => rfl, (fun _ _ h => nomatch h), hv⟩

theorem Going.calm {p : Prog α} (hg : Going C Q p h F) (ha : Agree F h h') (hl : h.length ≤ h'.length) : Going C Q p h' F := by
  obtain ⟨K, P, hno, hK, hv⟩ := hg
  exact ⟨K, P, hno, fun a c h2 => ⟨(hK a c h2).1, Nat.lt_of_lt_of_le (hK a c h2).2.1 hl, (hK a c h2).2.2⟩, hv.calm ha⟩

theorem Going.read {a : Addr} {k : Cell → Prog α} {c : Cell} (hg : Going C Q (.read a k) h F) (hc : h[a]? = some c) (ha : a ∈ F ∨ C.Z a c) : Going C Q (k c) h F := by
  obtain ⟨K, P, hno, hK, hv⟩ := hg
  exact ⟨K, P, hno, hK, hv.read hc ha⟩

theorem Going.write {a : Addr} {c : Cell} {k : Prog α} (hg : Going C Q (.write a c k) h F) (ha : a ∈ F) (hi : LInv C h F) : Going C Q k (h.set a c) F := by
  obtain ⟨K, P, hno, hK, hv⟩ := hg
  exact ⟨K, P, hno, fun a c h2 => ⟨(hK a c h2).1, by rw [List.length_set]; exact (hK a c h2).2.1, (hK a c h2).2.2⟩, hv.write ha hi⟩

theorem Going.alloc {c : Addr → Cell} {k : Addr → Prog α} (hg : Going C Q (.alloc c k) h F) (hi : LInv C h F) :
    Going C Q (k h.length) (h ++ [c h.length]) (h.length ::ₘ F) := by
  obtain ⟨K, P, hno, hK, hv⟩ := hg
  refine ⟨K, P, hno, fun a d h2 => ⟨fun hm => ?_, ?_, (hK a d h2).2.2⟩, hv.alloc hi⟩
  · rcases Multiset.mem_cons.mp hm with rfl | hm
    · exact Nat.lt_irrefl _ (hK _ d h2).2.1
    · exact (hK a d h2).1 hm
  · rw [List.length_append]
    exact Nat.lt_of_lt_of_le (hK a d h2).2.1 (Nat.le_add_right _ _)

theorem Going.miss {want : Option Addr} {t : Nat} {k : Option Addr → Prog α} (hg : Going C Q (.get want t k) h F) : Going C Q (k none) h F := by
  obtain ⟨K, P, hno, hK, hv⟩ := hg
  exact ⟨K, P, hno, hK, hv.miss⟩

theorem Going.got {want : Option Addr} {t : Nat} {k : Option Addr → Prog α} {a : Addr} {x : Val} {G : Multiset Addr} (hg : Going C Q (.get want t k) h F) (hwant : want ≠ none)
    (hk : ¬ C.lock) (hb : Blank C.S t x) (hr : RepL C.S .none h [(.msg t, .ptr a, x)] G) : Going C Q (k (some a)) h (G + F) := by
  obtain ⟨K, P, hno, hK, hv⟩ := hg
  exact ⟨K, P, hno, (fun a c h2 => by rw [hno hk] at h2; cases h2), hv.got hwant hk hb hr⟩

/-- Messages given to pools are empty. -/
theorem Going.put {R : Res α → Heap → Multiset Addr → Prop} {t : Nat} {a : Addr} {k : Prog α} {G : Multiset Addr} (hQ : ∀ σ r, Q σ r → ∃ I, HoldsPool C.S .none σ I)
    (hg : Going C Q (.put t a k) h (G + F)) (hk : C.lock) (hi : LInv C h (G + F)) (ho : OwnL C.S .none h [(.msg t, .ptr a)] G) (hs : Safe C R k h F) :
    (∃ x, Blank C.S t x ∧ RepL C.S .none h [(.msg t, .ptr a, x)] G) ∧ Going C Q k h F := by
  obtain ⟨K, P, hno, hK, hv⟩ := hg
  have hgin : ∀ b ∈ G, b ∈ G + F := fun b hb => Multiset.mem_add.mpr (.inl hb)
  have hgf : ∀ b ∈ G, b ∉ F := fun b hb => Multiset.disjoint_left.mp (Multiset.nodup_add.mp hi.nodup).2.2 hb
  refine ⟨?_, _, _, fun h => absurd hk h, fun b c h2 => ?_, hv.put hk hi fun a c h2 => (hK a c h2).1⟩
  · have hw := overlay_view (P := P) hi hK
    have h1 := hv _ [] 0 (fun _ => rfl) hw
    simp only [Prog.run] at h1
    obtain ⟨h2, h3⟩ := run_lock hk (σ := { overlay K P h with pool := (t, a) :: (overlay K P h).pool }) (F := F)
      (hs.stable fun b hb => hw.agree b (Multiset.mem_add.mpr (.inr hb))) (hw.linv.shrink (Multiset.le_add_left _ _)) rfl
    generalize hσ : (k.run { overlay K P h with pool := (t, a) :: (overlay K P h).pool }).1 = σ' at h1 h2 h3
    obtain ⟨I, L, h4, h5, F', h6, h7⟩ := hQ _ _ h1
    have hmem := h3 (t, a) (.head _)
    rw [← h4] at hmem
    obtain ⟨q, hq, e⟩ := List.mem_map.mp hmem
    obtain ⟨x, hx⟩ : ∃ x, (t, a, x) ∈ L := ⟨q.2.2, by cases e; exact hq⟩
    obtain ⟨L1, L2, rfl⟩ := List.append_of_mem hx
    rw [List.map_append, List.map_cons, ← List.append_assoc] at h6
    obtain ⟨F1, F2, -, -, h8⟩ := RepL.append_iff.mp h6
    obtain ⟨G', F3, -, h9, -⟩ := RepL.append_iff (I1 := [_]) |>.mp h8
    have hag : ∀ b ∈ G, σ'.heap[b]? = h[b]? := fun b hb =>
      (h2 b (hw.linv.inHeap b (hgin b hb)) (hgf b hb)).trans (hw.agree b (hgin b hb))
    have h10 : OwnL C.S .none σ'.heap [(.msg t, .ptr a)] G := ho.frame hag
    obtain rfl := own_unique h10 (rep_own h9)
    exact ⟨x, h5 _ hx, h9.frame fun b hb => (hag b hb).symm⟩
  · split at h2
    · rename_i hb
      exact ⟨hgf b hb, hi.inHeap b (hgin b hb), fun d hz => (hi.fixed b d hz).2 (hgin b hb)⟩
    · exact ⟨fun hm => (hK b c h2).1 (Multiset.mem_add.mpr (.inr hm)), (hK b c h2).2⟩

theorem Going.done {r : Res α} (hg : Going C Q (.done r) h F) (hi : LInv C h F) : ∃ σ, Agree F h σ.heap ∧ Q σ r := by
  obtain ⟨K, P, hno, hK, hv⟩ := hg
  have hw := overlay_view (P := P) hi hK
  exact ⟨_, hw.agree, hv _ [] 0 (fun _ => rfl) hw⟩

end

end Vtp.Conc
