import Verif.Lemmas.ConcVirt
import Verif.Spec.ConcRead
import Verif.Lemmas.ConcReadEqual
import Verif.Lemmas.EqualFuel
import Verif.Props.Conc
import Mathlib.Data.List.Pairwise
/-! # Goroutines that look at messages -/

namespace Vtp.Conc
open Spec

/-! ## Code that only reads -/

theorem Gives.run {α : Type} {Z : Addr → Cell → Prop} {x : Prog α} {r : Res α} (hx : Gives Z x r) {σ : HState} (hz : ∀ a c, Z a c → σ.heap[a]? = some c) : x.run σ = (σ, r) := by
  induction x with
  | done r' => cases hx; rfl
  | read a k ih =>
    obtain ⟨c, h1, h2⟩ := hx
    simp only [Prog.run, hz a c h1]
    exact ih c h2
  | _ => exact False.elim hx

theorem Gives.pstep {α : Type} {Z : Addr → Cell → Prop} {x x' : Prog α} {r : Res α} {σ σ' : HState} (hx : Gives Z x r) (hz : ∀ a c, Z a c → σ.heap[a]? = some c)
    (hs : PStep σ x σ' x') : σ' = σ ∧ Gives Z x' r := by
  cases hs with
  | read h =>
    obtain ⟨c, h1, h2⟩ := hx
    rw [hz _ c h1] at h
    cases h
    exact ⟨rfl, h2⟩
  | fault h =>
    obtain ⟨c, h1, h2⟩ := hx
    rw [hz _ c h1] at h
    cases h
  | _ => exact False.elim hx

theorem Gives.writes {α : Type} {Z : Addr → Cell → Prop} {x : Prog α} {r : Res α} (hx : Gives Z x r) : x.writes = none := by
  cases x <;> first | rfl | exact False.elim hx

theorem Gives.reads {α : Type} {Z : Addr → Cell → Prop} {x : Prog α} {r : Res α} (hx : Gives Z x r) {a : Addr} (ha : x.reads = some a) : ∃ c, Z a c := by
  cases x with
  | read b k =>
    obtain ⟨c, h1, -⟩ := hx
    cases ha
    exact ⟨c, h1⟩
  | _ => cases ha

theorem sees_heap {B : Bufs} {h : Heap} {F : Addr → Prop} (hb : ∀ a b, B.mem a = some b → h[a]? = some (.bytes b)) : ∀ a c, Sees B h F a c → h[a]? = some c := by
  rintro a c (⟨-, h1⟩ | ⟨b, h1, rfl⟩)
  · exact h1
  · exact hb a b h1

/-- The methods on memory. -/
theorem at_rep {S : Schema} {B : Bufs} {h : Heap} {F : Multiset Addr} {ty : Ty} {x : HV} {v : Val} (hv : RepL S B h [(ty, x, v)] F) : At S B h (· ∈ F) ty x v := ⟨F, fun _ ha => ha, hv⟩

/-! ## Objects of a value are reachable -/

theorem rep_reach {S : Schema} {B : Bufs} {h : Heap} {I : List VItem} {F : Multiset Addr} (hI : RepL S B h I F) :
    ∀ a ∈ F, ∃ it ∈ I, ∃ b, HV.target it.2.1 = some b ∧ Reach h b a := by
  have skip : ∀ {it : VItem} {I : List VItem} {a : Addr}, (∃ i ∈ I, ∃ b, HV.target i.2.1 = some b ∧ Reach h b a) → ∃ i ∈ it :: I, ∃ b, HV.target i.2.1 = some b ∧ Reach h b a :=
    fun ⟨i, hi, hb⟩ => ⟨i, .tail _ hi, hb⟩
  have obj : ∀ {ty : Ty} {x : HV} {v : Val} {I J : List VItem} {G : Multiset Addr} {a : Addr} {c : Cell}, HV.target x = some a → h[a]? = some c →
      (∀ it ∈ J, it.2.1 ∈ Cell.values c ∨ it ∈ I) → (∀ b ∈ G, ∃ it ∈ J, ∃ b', HV.target it.2.1 = some b' ∧ Reach h b' b) →
      ∀ b ∈ a ::ₘ G, ∃ it ∈ (ty, x, v) :: I, ∃ b', HV.target it.2.1 = some b' ∧ Reach h b' b := by
    intro ty x v I J G a c hx hc hJ hG b hb
    rcases Multiset.mem_cons.mp hb with rfl | hb
    · exact ⟨_, .head _, _, hx, .here _⟩
    · obtain ⟨it, h1, b', h2, h3⟩ := hG b hb
      rcases hJ it h1 with h4 | h4
      · exact ⟨_, .head _, _, hx, .there hc h4 h2 h3⟩
      · exact ⟨it, .tail _ h4, b', h2, h3⟩
  induction hI with
  | done => intro a ha; simp at ha
  | nil _ _ ih => exact fun a ha => skip (ih a ha)
  | num _ ih => exact fun a ha => skip (ih a ha)
  | str _ ih => exact fun a ha => skip (ih a ha)
  | view _ _ ih => exact fun a ha => skip (ih a ha)
  | wrapNil _ ih => exact fun a ha => skip (ih a ha)
  | lent _ _ _ ih => exact fun a ha => skip (ih a ha)
  | bytes hc _ _ ih => exact obj rfl hc (fun it h => .inr h) ih
  | mem hc _ _ ih => exact obj rfl hc (fun it h => .inr h) ih
  | raw hc _ ih => exact obj rfl hc (fun it h => .inr h) ih
  | foreign _ hc _ _ ih => exact obj rfl hc (fun it h => .inr h) ih
  | box hc _ _ ih =>
    refine obj rfl hc (fun it hit => ?_) ih
    rcases List.mem_cons.mp hit with rfl | hit
    · exact .inl (by simp [Cell.values])
    · exact .inr hit
  | oneof hc _ _ ih =>
    refine obj rfl hc (fun it hit => ?_) ih
    rcases List.mem_cons.mp hit with rfl | hit
    · exact .inl (by simp [Cell.values])
    · exact .inr hit
  | msg _ hc _ _ ih =>
    refine obj rfl hc (fun it hit => ?_) ih
    rcases List.mem_append.mp hit with hit | hit
    · exact .inl (List.mem_cons_of_mem _ (List.mem_map.mpr ⟨it, hit, rfl⟩))
    · rcases List.mem_cons.mp hit with rfl | hit
      · exact .inl (List.mem_cons_self ..)
      · exact .inr hit
  | list hc _ _ _ ih =>
    refine obj rfl hc (fun it hit => ?_) ih
    rcases List.mem_append.mp hit with hit | hit
    · obtain ⟨x, hx, rfl⟩ := List.mem_map.mp hit
      exact .inl (List.mem_map.mpr ⟨x, hx, rfl⟩)
    · exact .inr hit
  | map hc _ ih =>
    refine obj rfl hc (fun it hit => ?_) ih
    rcases List.mem_append.mp hit with hit | hit
    · obtain ⟨x, hx, rfl⟩ := List.mem_map.mp hit
      refine .inl ?_
      simp only [Cell.values, List.map_map, List.mem_map]
      exact ⟨x, hx, rfl⟩
    · exact .inr hit

theorem at_reach {S : Schema} {B : Bufs} {h : Heap} {F : Multiset Addr} {t : Nat} {a : Addr} {v : Val} (hv : RepL S B h [(.msg t, .ptr a, v)] F) :
    At S B h (Reach h a) (.msg t) (.ptr a) v := by
  refine ⟨F, fun b hb => ?_, hv⟩
  obtain ⟨it, h1, b', h2, h3⟩ := rep_reach hv b hb
  rcases List.mem_singleton.mp h1 with rfl
  cases h2
  exact h3

/-! ## Calls -/

/-- Objects of the messages looked at. -/
def Look.near (l : Look) (h : Heap) : Addr → Prop := fun x => ∃ q ∈ l.args, Reach h q.2 x

theorem look_gives {E : Env} (hS : schemaOK E.S = true) {n : Nat} {h : Heap} {l : Look} {r : Res Seen} (hr : l.Shows E n h r)
    (hap : ∀ p ∈ l.args, ∀ q ∈ l.args, p.2 ≠ q.2 → ∀ x, ¬ (Reach h p.2 x ∧ Reach h q.2 x)) : Gives (Sees .none h (Look.near l h)) (l.prog E n) r := by
  cases hr with
  | @size t a v F hf hv hn =>
    have h1 := gives_sizeN (R := E.R) hS n t _ v hf (at_reach hv) hn
    rw [sizeN_eq _ (Nat.le_of_lt hn)] at h1
    exact .bind_ok (h1.mono (Sees.mono fun x hx => ⟨(t, a), by simp [Look.args], hx⟩)) (.pure _)
  | @marshal strict t a v F hf hv hn =>
    have h1 := gives_marshalVT (R := E.R) (strict := strict) hS hf (at_reach hv) hn
    exact .bind (h1.mono (Sees.mono fun x hx => ⟨(t, a), by simp [Look.args], hx⟩)) fun b _ => .pure _
  | @same t a hn =>
    obtain ⟨n, rfl⟩ : ∃ k, n = k + 1 := ⟨n - 1, by omega⟩
    refine .bind_ok (a := true) ?_ (.pure _)
    unfold hequalN
    simp only [Src.same, HV.same, beq_self_eq_true, if_true]
    exact .pure _
  | @equal t a b v w F G hf hab hv hw hn hn' =>
    have h1 := gives_equalN (R := E.R) (F1 := Reach h a) (F2 := Reach h b) (fun x hx hy => hap (t, a) (by simp [Look.args]) (t, b) (by simp [Look.args]) hab x ⟨hx, hy⟩)
      hS n [] t _ _ v w hf (.inl ⟨_, rfl, at_reach hv⟩) (.inl ⟨_, rfl, at_reach hw⟩)
    rw [equalN_eq _ hn hn'] at h1
    refine .bind (h1.mono (Sees.mono fun x hx => ?_)) fun b _ => .pure _
    rcases hx with hx | hx
    · exact ⟨(t, a), by simp [Look.args], hx⟩
    · exact ⟨(t, b), by simp [Look.args], hx⟩

/-! ## Machines -/

theorem gstep_shared {S : Schema} {m m' : Mach} {who : Option Nat} (hs : GStep S m who m') {q : Nat × Addr} (hq : q ∈ m.shared) : q ∈ m'.shared := by
  cases hs with
  | share => exact List.mem_append_right _ hq
  | _ => exact hq

theorem gstep_other {S : Schema} {m m' : Mach} {who : Option Nat} (hs : GStep S m who m') {i : Nat} (hi : who ≠ some i) {held : List (Nat × Addr)}
    (hg : m.gors[i]? = some ⟨held, none⟩) : ∃ held', m'.gors[i]? = some ⟨held', none⟩ ∧ ∀ q ∈ held, q ∈ held' := by
  have set : ∀ {j : Nat} {g : Gor}, some j ≠ some i → (m.gors.set j g)[i]? = some ⟨held, none⟩ := fun hj => by
    rw [List.getElem?_set_ne (fun e => hj (by rw [e]))]; exact hg
  cases hs with
  | gc => exact ⟨held, hg, fun _ h => h⟩
  | go =>
    refine ⟨held, ?_, fun _ h => h⟩
    show (m.gors.set _ _ ++ _)[i]? = _
    have hl : i < m.gors.length := (List.getElem?_eq_some_iff.mp hg).1
    rw [List.getElem?_append_left (by rw [List.length_set]; exact hl)]
    exact set hi
  | @send k j _ other rest q hk hj hij hsplit =>
    by_cases hji : j = i
    · subst hji
      rw [hg] at hj
      cases hj
      refine ⟨q :: held, ?_, fun _ h => .tail _ h⟩
      have hl : j < m.gors.length := (List.getElem?_eq_some_iff.mp hg).1
      show ((m.gors.set k _).set j _)[j]? = _
      rw [List.getElem?_set_self (by rw [List.length_set]; exact hl)]
    · refine ⟨held, ?_, fun _ h => h⟩
      show ((m.gors.set k _).set j _)[i]? = _
      rw [List.getElem?_set_ne hji]
      exact set hi
  | _ => exact ⟨held, set hi, fun _ h => h⟩

/-- What is known about a call in progress. -/
structure Looking (m : Mach) (i : Nat) (l : Look) (p : Prog Seen) (r : Res Seen) : Prop where
  args : ∃ held, m.gors[i]? = some ⟨held, none⟩ ∧ ∀ q ∈ l.args, q ∈ held ∨ q ∈ m.shared
  gives : Gives (Sees .none m.st.heap (Look.near l m.st.heap)) p r

/-- Nothing of what others do concerns it. -/
theorem near_constant {S : Schema} (hS : schemaOK S = true) {m m' : Mach} (hm : GReach S m) {who : Option Nat} (hs : GStep S m who m') {i : Nat} (hi : who ≠ some i)
    {l : Look} {held : List (Nat × Addr)} (hg : m.gors[i]? = some ⟨held, none⟩) (ha : ∀ q ∈ l.args, q ∈ held ∨ q ∈ m.shared) :
    ∀ x, Look.near l m.st.heap x → m'.st.heap[x]? = m.st.heap[x]? ∧ Look.near l m'.st.heap x := by
  obtain ⟨k1, k2⟩ := Props.others_keep_their_messages hS hm hs
  rintro x ⟨q, hq, hx⟩
  have hk : ∀ y, Reach m.st.heap q.2 y → m'.st.heap[y]? = m.st.heap[y]? := fun y hy => by
    rcases ha q hq with h | h
    · exact k2 i _ hg (.inl hi) q h y hy
    · exact k1 q (.inr h) y hy
  exact ⟨hk x hx, q, hq, reach_agree hk hx⟩

theorem Looking.gstep {S : Schema} (hS : schemaOK S = true) {m m' : Mach} (hm : GReach S m) {who : Option Nat} (hs : GStep S m who m') {i : Nat} (hi : who ≠ some i)
    {l : Look} {p : Prog Seen} {r : Res Seen} (hl : Looking m i l p r) : Looking m' i l p r := by
  obtain ⟨⟨held, hg, ha⟩, hp⟩ := hl
  obtain ⟨held', hg', hh⟩ := gstep_other hs hi hg
  refine ⟨⟨held', hg', fun q hq => (ha q hq).imp (hh q) (gstep_shared hs)⟩, hp.mono ?_⟩
  rintro x c (⟨h1, h2⟩ | ⟨b, h1, -⟩)
  · obtain ⟨h3, h4⟩ := near_constant hS hm hs hi hg ha x h1
    exact .inl ⟨h4, h3.trans h2⟩
  · cases h1

theorem sees_none {h : Heap} {F : Addr → Prop} : ∀ a c, Sees .none h F a c → h[a]? = some c := sees_heap fun _ _ hb => nomatch hb

theorem Looking.pstep {m : Mach} {i : Nat} {l : Look} {p p' : Prog Seen} {r : Res Seen} {σ : HState} (hl : Looking m i l p r) (hs : PStep m.st p σ p') :
    σ = m.st ∧ Looking m i l p' r := by
  obtain ⟨h1, h2⟩ := hl.gives.pstep sees_none hs
  exact ⟨h1, hl.args, h2⟩

/-- Messages that may be looked at at the same time are apart. -/
theorem args_apart {S : Schema} (hS : schemaOK S = true) {m : Mach} (hm : GReach S m) {i : Nat} {held : List (Nat × Addr)} {c : Option (Op × Prog (List (Nat × Addr)))}
    (hg : m.gors[i]? = some ⟨held, c⟩) {l : Look} (ha : ∀ q ∈ l.args, q ∈ held ∨ q ∈ m.shared) :
    ∀ p ∈ l.args, ∀ q ∈ l.args, p.2 ≠ q.2 → ∀ x, ¬ (Reach m.st.heap p.2 x ∧ Reach m.st.heap q.2 x) := by
  intro p hp q hq hne
  have hmem : ∀ q ∈ l.args, q ∈ m.messages := by
    intro q hq
    rcases ha q hq with h | h
    · exact List.mem_append_left _ (List.mem_append_left _ (List.mem_flatMap.mpr ⟨_, List.mem_of_getElem? hg, h⟩))
    · exact List.mem_append_right _ h
  have h1 := Props.messages_apart hS hm
  have hsym : Std.Symm (fun p q : Nat × Addr => p.2 ≠ q.2 ∧ ∀ x, ¬ (Reach m.st.heap p.2 x ∧ Reach m.st.heap q.2 x)) :=
    ⟨fun _ _ h => ⟨h.1.symm, fun x hx => h.2 x hx.symm⟩⟩
  exact (h1.forall (hmem p hp) (hmem q hq) (fun e => hne (by rw [e]))).2

/-- The invariant. -/
structure RInv (E : Env) (m : RMach) : Prop where
  base : GReach E.S m.base
  looks : ∀ i l p, m.looks i = some (l, p) → ∃ r, Looking m.base i l p r

theorem rinv_step {E : Env} (hS : schemaOK E.S = true) {m m' : RMach} (hm : RInv E m) {who : Option Nat} (hs : RStep E m who m') : RInv E m' := by
  cases hs with
  | @base _ b hs free =>
    refine ⟨.step hm.base hs, fun i l p hl => ?_⟩
    obtain ⟨r, h1⟩ := hm.looks i l p hl
    exact ⟨r, h1.gstep hS hm.base hs fun e => by rw [free i e] at hl; cases hl⟩
  | @look i n held l hg hl ha hr =>
    refine ⟨hm.base, fun j l' p hj => ?_⟩
    by_cases hji : j = i
    · subst hji
      simp only [Function.update_self, Option.some.injEq, Prod.mk.injEq] at hj
      obtain ⟨rfl, rfl⟩ := hj
      obtain ⟨r, hr⟩ := hr
      exact ⟨r, ⟨held, hg, ha⟩, look_gives hS hr (args_apart hS hm.base hg ha)⟩
    · simp only [Function.update_of_ne hji] at hj
      exact hm.looks j l' p hj
  | @step i l p p' σ hl hs =>
    obtain ⟨r, h1⟩ := hm.looks i l p hl
    obtain ⟨rfl, h2⟩ := h1.pstep hs
    refine ⟨hm.base, fun j l' q hj => ?_⟩
    by_cases hji : j = i
    · subst hji
      simp only [Function.update_self, Option.some.injEq, Prod.mk.injEq] at hj
      obtain ⟨rfl, rfl⟩ := hj
      exact ⟨r, h2⟩
    · simp only [Function.update_of_ne hji] at hj
      exact hm.looks j l' q hj
  | @seen i l r hl =>
    refine ⟨hm.base, fun j l' q hj => ?_⟩
    by_cases hji : j = i
    · subst hji
      simp only [Function.update_self] at hj
      cases hj
    · simp only [Function.update_of_ne hji] at hj
      exact hm.looks j l' q hj

theorem rinv {E : Env} (hS : schemaOK E.S = true) {m : RMach} (hm : RReach E m) : RInv E m := by
  induction hm with
  | start => exact ⟨.start, fun _ _ _ h => nomatch h⟩
  | step _ hs ih => exact rinv_step hS ih hs

/-! ## Memory stands for values -/

/-- The slice of bytes is within its array. -/
def InArray (h : Heap) (x : HV) : Prop := ∀ (b : Addr) (off len : Nat) (d : Bytes), x = .bytes b off len → h[b]? = some (.bytes d) → off + len ≤ d.length

theorem own_values {S : Schema} {h : Heap} (hs : SaneHeap h) {I : List Item} {F : Multiset Addr} (ho : OwnL S .none h I F) :
    (∀ it ∈ I, plain it.1 = true) → (∀ it ∈ I, InArray h it.2) → ∃ V : List VItem, V.map (fun i => (i.1, i.2.1)) = I ∧ RepL S .none h V F := by
  have sane : ∀ {a : Addr} {c : Cell}, h[a]? = some c → ∀ x ∈ Cell.values c, InArray h x := fun hc x hx b off len d e hd => (hs _ _ hc).1 b off len d (e ▸ hx) hd
  have split : ∀ {J I : List Item} {V : List VItem}, V.map (fun i => (i.1, i.2.1)) = J ++ I → ∃ V1 V2, V = V1 ++ V2 ∧ V1.map (fun i => (i.1, i.2.1)) = J ∧ V2.map (fun i => (i.1, i.2.1)) = I :=
    fun e => List.map_eq_append_iff.mp e
  have one : ∀ {it : Item} {I : List Item} {V : List VItem}, V.map (fun i => (i.1, i.2.1)) = it :: I → ∃ v V2, V = (it.1, it.2, v) :: V2 ∧ V2.map (fun i => (i.1, i.2.1)) = I := by
    intro it I V e
    obtain ⟨⟨ty, x, v⟩, V2, rfl, rfl, h2⟩ := List.map_eq_cons_iff.mp e
    exact ⟨v, V2, rfl, h2⟩
  have elems : ∀ {ty : Ty} {xs : List HV} {V : List VItem}, V.map (fun i => (i.1, i.2.1)) = xs.map (fun x => (ty, x)) →
      ∃ L : List (HV × Val), V = L.map (fun x => (ty, x)) ∧ L.map (·.1) = xs := by
    intro ty xs V
    induction V generalizing xs with
    | nil =>
      intro e
      cases xs with
      | nil => exact ⟨[], rfl, rfl⟩
      | cons => cases e
    | cons i V ih =>
      intro e
      cases xs with
      | nil => cases e
      | cons x xs =>
        simp only [List.map_cons, List.cons.injEq] at e
        obtain ⟨L, rfl, rfl⟩ := ih e.2
        obtain ⟨ty', x', v⟩ := i
        cases e.1
        exact ⟨(_, v) :: L, rfl, rfl⟩
  induction ho with
  | done => exact fun _ _ => ⟨[], rfl, .done⟩
  | @nil ty I F ht _ ih =>
    intro hp ha
    obtain ⟨V, h1, h2⟩ := ih (fun it hit => hp it (.tail _ hit)) fun it hit => ha it (.tail _ hit)
    exact ⟨(ty, .nil, .nil) :: V, by rw [List.map_cons, h1], .nil ht h2⟩
  | @num n I F _ ih =>
    intro hp ha
    obtain ⟨V, h1, h2⟩ := ih (fun it hit => hp it (.tail _ hit)) fun it hit => ha it (.tail _ hit)
    exact ⟨(.flat, .num n, .num n) :: V, by rw [List.map_cons, h1], .num h2⟩
  | @str b I F _ ih =>
    intro hp ha
    obtain ⟨V, h1, h2⟩ := ih (fun it hit => hp it (.tail _ hit)) fun it hit => ha it (.tail _ hit)
    exact ⟨(.flat, .str b, .str b) :: V, by rw [List.map_cons, h1], .str h2⟩
  | view hb _ _ => exact False.elim hb
  | lent hb _ _ => exact False.elim hb
  | is _ _ => intro hp; exact nomatch hp _ (.head _)
  | @wrapNil d slot n I F _ ih =>
    intro hp ha
    obtain ⟨V, h1, h2⟩ := ih (fun it hit => hp it (.tail _ hit)) fun it hit => ha it (.tail _ hit)
    exact ⟨(.oneof d slot, .wrapNil n, .wrapNil n) :: V, by rw [List.map_cons, h1], .wrapNil h2⟩
  | @bytes a off len c I F hc _ ih =>
    intro hp ha
    obtain ⟨V, h1, h2⟩ := ih (fun it hit => hp it (.tail _ hit)) fun it hit => ha it (.tail _ hit)
    exact ⟨(.bytes, .bytes a off len, .str (cut c off len)) :: V, by rw [List.map_cons, h1], .bytes hc (ha _ (.head _) _ _ _ _ rfl hc) h2⟩
  | @mem a off len c I F hc _ ih =>
    intro hp ha
    obtain ⟨V, h1, h2⟩ := ih (fun it hit => hp it (.tail _ hit)) fun it hit => ha it (.tail _ hit)
    exact ⟨(.mem, .bytes a off len, .str (cut c off len)) :: V, by rw [List.map_cons, h1], .mem hc (ha _ (.head _) _ _ _ _ rfl hc) h2⟩
  | @box a x I F hc _ ih =>
    intro hp ha
    obtain ⟨V, h1, h2⟩ := ih (fun it hit => by
        rcases List.mem_cons.mp hit with rfl | hit
        · rfl
        · exact hp it (.tail _ hit)) fun it hit => by
        rcases List.mem_cons.mp hit with rfl | hit
        · exact sane hc _ (by simp [Cell.values])
        · exact ha it (.tail _ hit)
    obtain ⟨v, V, rfl, h3⟩ := one h1
    exact ⟨(.box, .ptr a, v) :: V, by rw [List.map_cons, h3], .box hc (fun e => (hs _ _ hc).2.1 (by rw [e])) h2⟩
  | @foreign t a v I F hf hc _ ih =>
    intro hp ha
    obtain ⟨V, h1, h2⟩ := ih (fun it hit => hp it (.tail _ hit)) fun it hit => ha it (.tail _ hit)
    exact ⟨(.msg t, .ptr a, v) :: V, by rw [List.map_cons, h1], .foreign hf hc (fun e => (hs _ _ hc).2.2 (by rw [e])) h2⟩
  | @msg t a slots u e I F hf hc hl _ ih =>
    intro hp ha
    have hlen : (slotTys (S.msg t)).length = slots.length := by simp [slotTys, hl]
    obtain ⟨V, h1, h2⟩ := ih (fun it hit => by
        rcases List.mem_append.mp hit with hit | hit
        · obtain ⟨s, -, hs⟩ := List.mem_map.mp (List.of_mem_zip hit).1
          rw [← hs]
          exact slotTy_plain _ _
        · rcases List.mem_cons.mp hit with rfl | hit
          · rfl
          · exact hp it (.tail _ hit)) fun it hit => by
        rcases List.mem_append.mp hit with hit | hit
        · exact sane hc _ (List.mem_cons_of_mem _ (List.of_mem_zip hit).2)
        · rcases List.mem_cons.mp hit with rfl | hit
          · exact sane hc _ (List.mem_cons_self ..)
          · exact ha it (.tail _ hit)
    obtain ⟨its, V, rfl, h3, h4⟩ := split h1
    obtain ⟨uv, V, rfl, h5⟩ := one h4
    have e1 : its.map (·.1) = slotTys (S.msg t) := by
      have := congrArg (List.map Prod.fst) h3
      rw [List.map_map, List.map_fst_zip (by omega)] at this
      exact this
    have e2 : its.map (·.2.1) = slots := by
      have := congrArg (List.map Prod.snd) h3
      rw [List.map_map, List.map_snd_zip (by omega)] at this
      exact this
    exact ⟨(.msg t, .ptr a, .msg (its.map (·.2.2)) uv.bytes e) :: V, by rw [List.map_cons, h5], .msg hf (e2 ▸ hc) e1 h2⟩
  | obj _ _ _ _ => intro hp; exact nomatch hp _ (.head _)
  | hole _ _ _ _ _ => intro hp; exact nomatch hp _ (.head _)
  | wrap _ _ _ => intro hp; exact nomatch hp _ (.head _)
  | raw _ _ _ => intro hp; exact nomatch hp _ (.head _)
  | @list ty a len xs I F hc hl _ ih =>
    intro hp ha
    have hty : plain ty = true := hp (.list ty, .slice a len) (.head _)
    obtain ⟨V, h1, h2⟩ := ih (fun it hit => by
        rcases List.mem_append.mp hit with hit | hit
        · obtain ⟨y, -, rfl⟩ := List.mem_map.mp hit
          exact hty
        · exact hp it (.tail _ hit)) fun it hit => by
        rcases List.mem_append.mp hit with hit | hit
        · obtain ⟨y, hy, rfl⟩ := List.mem_map.mp hit
          exact sane hc _ hy
        · exact ha it (.tail _ hit)
    obtain ⟨V1, V, rfl, h3, h4⟩ := split h1
    obtain ⟨L, rfl, rfl⟩ := elems h3
    refine ⟨(.list ty, .slice a len, .list ((L.map (·.2)).take len) (if ty.keeps then (L.map (·.2)).drop len else [])) :: V, by rw [List.map_cons, h4],
      .list hc (by simpa using hl) ?_ h2⟩
    unfold SpareRep
    split
    · exact ⟨0, by simp⟩
    · rfl
  | @map ty a es I F hc _ ih =>
    intro hp ha
    have hty : plain ty = true := hp (.map ty, .ptr a) (.head _)
    obtain ⟨V, h1, h2⟩ := ih (fun it hit => by
        rcases List.mem_append.mp hit with hit | hit
        · obtain ⟨y, -, rfl⟩ := List.mem_map.mp hit
          exact hty
        · exact hp it (.tail _ hit)) fun it hit => by
        rcases List.mem_append.mp hit with hit | hit
        · obtain ⟨y, hy, rfl⟩ := List.mem_map.mp hit
          exact sane hc _ (List.mem_map.mpr ⟨y, hy, rfl⟩)
        · exact ha it (.tail _ hit)
    obtain ⟨V1, V, rfl, h3, h4⟩ := split h1
    obtain ⟨L, rfl, e⟩ := elems (xs := es.map (·.2)) (by rw [h3, List.map_map]; rfl)
    have hlen : es.length = L.length := by simpa using (congrArg List.length e).symm
    have e1 : (((es.map (·.1)).zip L).map fun x : Key × HV × Val => (x.1, x.2.1)) = es := by
      have h5 : (((es.map (·.1)).zip L).map fun x : Key × HV × Val => (x.1, x.2.1)) = (es.map (·.1)).zip (L.map (·.1)) := by
        rw [List.zip_map_right]; rfl
      rw [h5, e]
      exact (List.zip_of_prod rfl rfl).symm
    have e2 : (((es.map (·.1)).zip L).map fun x : Key × HV × Val => (ty, x.2)) = L.map (fun x => (ty, x)) := by
      have h5 : (((es.map (·.1)).zip L).map fun x : Key × HV × Val => (ty, x.2)) = (((es.map (·.1)).zip L).map Prod.snd).map (fun x => (ty, x)) := by rw [List.map_map]; rfl
      rw [h5, List.map_snd_zip (by simp [hlen])]
    refine ⟨(.map ty, .ptr a, .map (((es.map (·.1)).zip L).map fun e => (e.1, e.2.2))) :: V, by rw [List.map_cons, h4], .map (by rw [e1]; exact hc) (by rw [e2]; exact h2)⟩
  | @oneof d slot n f a x I F hc hm _ ih =>
    intro hp ha
    obtain ⟨V, h1, h2⟩ := ih (fun it hit => by
        rcases List.mem_cons.mp hit with rfl | hit
        · exact elemTy_plain _ _
        · exact hp it (.tail _ hit)) fun it hit => by
        rcases List.mem_cons.mp hit with rfl | hit
        · exact sane hc _ (by simp [Cell.values])
        · exact ha it (.tail _ hit)
    obtain ⟨v, V, rfl, h3⟩ := one h1
    exact ⟨(.oneof d slot, .ptr a, .wrap n v) :: V, by rw [List.map_cons, h3], .oneof hc hm h2⟩

theorem own_value {S : Schema} {h : Heap} (hs : SaneHeap h) {L : List (Nat × Addr)} {F : Multiset Addr} (ho : OwnL S .none h (msgItems L) F) {q : Nat × Addr} (hq : q ∈ L) :
    ∃ v G, RepL S .none h [(.msg q.1, .ptr q.2, v)] G := by
  obtain ⟨G, F', -, h1, -⟩ := own_erase (t := q.1) (a := q.2) ho hq
  obtain ⟨V, h2, h3⟩ := own_values hs h1 (fun it hit => by rcases List.mem_singleton.mp hit with rfl; rfl) fun it hit => by
    rcases List.mem_singleton.mp hit with rfl
    exact fun _ _ _ _ e => nomatch e
  obtain ⟨⟨ty, x, v⟩, V2, rfl, h4, h5⟩ := List.map_eq_cons_iff.mp h2
  cases h4
  rcases List.map_eq_nil_iff.mp h5 with rfl
  exact ⟨v, G, h3⟩

theorem mach_value {S : Schema} (hS : schemaOK S = true) {m : Mach} (hm : GReach S m) (hs : SaneHeap m.st.heap) {i : Nat} {held : List (Nat × Addr)}
    (hg : m.gors[i]? = some ⟨held, none⟩) {q : Nat × Addr} (hq : q ∈ held ∨ q ∈ m.shared) : ∃ v G, RepL S .none m.st.heap [(.msg q.1, .ptr q.2, v)] G := by
  obtain ⟨F, hF⟩ := minv_reach hS hm
  rcases hq with hq | hq
  · exact own_value hs (hF.goroutine hg) hq
  · exact own_value hs (hF.ok .shared) hq

end Vtp.Conc
