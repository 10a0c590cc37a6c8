import Verif.Lemmas.ConcDecode
import Verif.Lemmas.ConcReset
import Verif.Lemmas.ConcClone
import Verif.Lemmas.HeapWorld
/-! # Machines: who owns what, in every order of the steps of goroutines -/

namespace Vtp.Conc
open Spec

/-! ## The code of operations -/

/-- Does the operation give messages to pools? -/
def _root_.Vtp.Spec.Op.gives : Op → Prop
  | .put _ _ => True
  | .reset _ _ => True
  | _ => False

theorem tri_given {C : Ctx} {t : Nat} {x : Prog HV} {I K : List Item} (h : Tri C I x (fun v => [(.msg t, v)]) K) :
    Tri C I (x >>= fun v => pure (HV.given t v)) (fun l => msgItems l) K := by
  refine Tri.bind h fun v => Tri.pure ?_
  cases v with
  | ptr a => exact Ent.refl _
  | _ => exact Ent.empty _

theorem tri_op {S : Schema} (hS : schemaOK S = true) {held shared : List (Nat × Addr)} {op : Op} (ha : op.permitted S held shared) {Z : Addr → Cell → Prop} {h0 : Heap}
    (ho : ∀ E t a, op = .clone E t a → Orig ⟨S, .none, Z, op.gives⟩ .none h0 [(.msg t, .ptr a)]) (n : Nat) :
    Tri ⟨S, .none, Z, op.gives⟩ (msgItems op.takes) (op.prog S n) (fun l => msgItems l) (msgItems op.left) := by
  cases op with
  | new t => exact tri_given tri_new
  | get want t => exact tri_given (tri_poolGet id)
  | put t a => exact Tri.bind (tri_returnWith (tri_resetN hS trivial n)) fun _ => Tri.pure (Ent.refl _)
  | reset t a => exact Tri.bind ((tri_resetN hS trivial n).2 _ _) fun _ => Tri.pure (Ent.refl _)
  | decode E t b a =>
    obtain ⟨-, hf, hE, hal⟩ := ha
    exact Tri.bind (tri_unmarshalN ⟨⟨hE, hS, fun h => absurd h (by simp [hal]), fun _ _ _ h => False.elim h⟩, id⟩ n _ _ _ _ hf) fun _ => Tri.pure (Ent.refl _)
  | clone E t a =>
    obtain ⟨-, hf, hE⟩ := ha
    exact tri_given (tri_cloneN (B0 := .none) (h0 := h0) ⟨⟨hE, hS, fun _ h => h⟩, fun _ h => h, id⟩ n _ _ _ hf (ho E t a rfl))

theorem takes_perm {S : Schema} {held shared : List (Nat × Addr)} {op : Op} (ha : op.permitted S held shared) :
    held.Perm (op.takes ++ op.takes.foldl List.erase held) := by
  cases op with
  | new t => exact List.Perm.refl _
  | get want t => exact List.Perm.refl _
  | put t a => exact List.perm_cons_erase ha
  | reset t a => exact List.perm_cons_erase ha
  | decode E t b a => exact List.perm_cons_erase ha.1
  | clone E t a => exact List.Perm.refl _

/-! ## The invariant -/

/-- What a goroutine owns. During a call, the messages held are apart from what the call works on; the call relies on objects which are common or which the goroutine holds. -/
def GorOK (S : Schema) (h : Heap) (Fz : Multiset Addr) (g : Gor) (F : Multiset Addr) : Prop :=
  match g.call with
  | none => OwnL S .none h (msgItems g.held) F
  | some (op, p) => ∃ Fp Fh Z, F = Fp + Fh ∧ OwnL S .none h (msgItems g.held) Fh ∧ (∀ a c, Z a c → h[a]? = some c ∧ (a ∈ Fz ∨ a ∈ Fh)) ∧
      Safe ⟨S, .none, Z, op.gives⟩ (Post ⟨S, .none, Z, op.gives⟩ (fun l => msgItems l) (msgItems op.left) []) p h Fp

theorem GorOK.mono {S : Schema} {h h' : Heap} {Fz Fz' : Multiset Addr} {g : Gor} {F : Multiset Addr} (hg : GorOK S h Fz g F) (ha : Agree F h h')
    (hz : ∀ a ∈ Fz, a ∈ Fz' ∧ h'[a]? = h[a]?) : GorOK S h' Fz' g F := by
  rcases g with ⟨held, _ | ⟨op, p⟩⟩
  · exact ha.own hg
  · obtain ⟨Fp, Fh, Z, rfl, ho, hZ, hs⟩ := hg
    have hah : Agree Fh h h' := ha.mono (Multiset.le_add_left _ _)
    refine ⟨Fp, Fh, Z, rfl, hah.own ho, fun a c hc => ?_, hs.stable (ha.mono (Multiset.le_add_right _ _))⟩
    obtain ⟨hc', hm | hm⟩ := hZ a c hc
    · exact ⟨((hz a hm).2).trans hc', .inl (hz a hm).1⟩
    · exact ⟨(hah a hm).trans hc', .inr hm⟩

/-- Those who own objects. -/
inductive Owner where
  | gor (i : Nat)
  | pool
  | shared
  deriving DecidableEq

/-- What an owner has. -/
def OwnerOK (S : Schema) (m : Mach) (F : Owner → Multiset Addr) : Owner → Prop
  | .gor i => ∀ g, m.gors[i]? = some g → GorOK S m.st.heap (F .shared) g (F (.gor i))
  | .pool => OwnL S .none m.st.heap (msgItems m.st.pool) (F .pool)
  | .shared => OwnL S .none m.st.heap (msgItems m.shared) (F .shared)

/-- Objects have one owner at most. -/
structure MInv (S : Schema) (m : Mach) (F : Owner → Multiset Addr) : Prop where
  nodup : ∀ o, (F o).Nodup
  apart : ∀ o o' a, a ∈ F o → a ∈ F o' → o = o'
  inHeap : ∀ o, ∀ a ∈ F o, a < m.st.heap.length
  ok : ∀ o, OwnerOK S m F o
  plain : m.st.free = [] ∧ m.st.gets = []

theorem MInv.asked {S : Schema} {m : Mach} {F : Owner → Multiset Addr} (hm : MInv S m F) (want : Option Addr) : m.st.asked want = m.st := by
  cases want with
  | none => rfl
  | some a =>
    have := hm.plain.2
    rcases hst : m.st with ⟨h, p, f, g⟩
    rw [hst] at this
    cases this
    rfl

/-- A step changes what is of the owners `A` and allocates. -/
theorem MInv.update {S : Schema} {m m' : Mach} {F F' : Owner → Multiset Addr} (hm : MInv S m F) (A : Owner → Prop)
    (nodup : ∀ o, A o → (F' o).Nodup) (apart : ∀ o o' a, A o → A o' → a ∈ F' o → a ∈ F' o' → o = o') (inHeap : ∀ o, A o → ∀ a ∈ F' o, a < m'.st.heap.length)
    (from' : ∀ o, A o → ∀ a ∈ F' o, (∃ o', A o' ∧ a ∈ F o') ∨ m.st.heap.length ≤ a) (same : ∀ o, ¬ A o → F' o = F o)
    (keep : ∀ a < m.st.heap.length, (∀ o, A o → a ∉ F o) → m'.st.heap[a]? = m.st.heap[a]?) (shared : ∀ a ∈ F .shared, a ∈ F' .shared ∧ m'.st.heap[a]? = m.st.heap[a]?)
    (gors : ∀ i, ¬ A (.gor i) → m'.gors[i]? = m.gors[i]?) (pool : ¬ A .pool → m'.st.pool = m.st.pool) (shared' : ¬ A .shared → m'.shared = m.shared)
    (ok : ∀ o, A o → OwnerOK S m' F' o) (plain : m'.st.free = m.st.free ∧ m'.st.gets = m.st.gets) : MInv S m' F' where
  plain := ⟨plain.1.trans hm.plain.1, plain.2.trans hm.plain.2⟩
  nodup o := by
    by_cases ho : A o
    · exact nodup o ho
    · exact same o ho ▸ hm.nodup o
  apart o o' a h1 h2 := by
    by_cases ho : A o <;> by_cases ho' : A o'
    · exact apart o o' a ho ho' h1 h2
    · rw [same o' ho'] at h2
      rcases from' o ho a h1 with ⟨o2, h3, h4⟩ | h3
      · exact absurd (hm.apart _ _ _ h4 h2 ▸ h3) ho'
      · exact absurd (hm.inHeap _ _ h2) (Nat.not_lt.mpr h3)
    · rw [same o ho] at h1
      rcases from' o' ho' a h2 with ⟨o2, h3, h4⟩ | h3
      · exact absurd (hm.apart _ _ _ h4 h1 ▸ h3) ho
      · exact absurd (hm.inHeap _ _ h1) (Nat.not_lt.mpr h3)
    · rw [same o ho] at h1
      rw [same o' ho'] at h2
      exact hm.apart _ _ _ h1 h2
  inHeap o a ha := by
    by_cases ho : A o
    · exact inHeap o ho a ha
    · have ha' : a ∈ F o := same o ho ▸ ha
      have hlt := hm.inHeap o a ha'
      have := keep a hlt fun o' ho' h => absurd (hm.apart _ _ _ h ha' ▸ ho') ho
      rw [List.getElem?_eq_getElem hlt] at this
      exact (List.getElem?_eq_some_iff.mp this).1
  ok o := by
    by_cases ho : A o
    · exact ok o ho
    have hag : Agree (F o) m.st.heap m'.st.heap := fun a ha => keep a (hm.inHeap o a ha) fun o' ho' h => absurd (hm.apart _ _ _ h ha ▸ ho') ho
    have := hm.ok o
    cases o with
    | gor i =>
      intro g hg
      rw [gors i ho] at hg
      rw [same _ ho]
      exact (this g hg).mono hag shared
    | pool =>
      show OwnL _ _ _ (msgItems m'.st.pool) _
      rw [pool ho, same _ ho]
      exact hag.own this
    | shared =>
      show OwnL _ _ _ (msgItems m'.shared) _
      rw [shared' ho, same _ ho]
      exact hag.own this

/-- One goroutine does something. -/
theorem MInv.one {S : Schema} {m : Mach} {F : Owner → Multiset Addr} (hm : MInv S m F) {i : Nat} {h' : Heap} {g' : Gor} {F1 : Multiset Addr}
    (nodup : F1.Nodup) (inHeap : ∀ a ∈ F1, a < h'.length) (from' : ∀ a ∈ F1, a ∈ F (.gor i) ∨ m.st.heap.length ≤ a)
    (keep : ∀ a < m.st.heap.length, a ∉ F (.gor i) → h'[a]? = m.st.heap[a]?) (ok : GorOK S h' (F .shared) g' F1) :
    MInv S { m with st := { m.st with heap := h' }, gors := m.gors.set i g' } (Function.update F (.gor i) F1) := by
  have hs : ∀ o, ¬ o = .gor i → Function.update F (.gor i) F1 o = F o := fun o ho => Function.update_of_ne ho _ _
  refine hm.update (m' := ⟨{ m.st with heap := h' }, m.gors.set i g', m.shared⟩) (· = .gor i) ?_ ?_ ?_ ?_ hs ?_ ?_ ?_ (fun _ => rfl) (fun _ => rfl) ?_ ⟨rfl, rfl⟩
  · rintro o rfl
    rwa [Function.update_self]
  · rintro o o' a rfl rfl _ _
    rfl
  · rintro o rfl
    rwa [Function.update_self]
  · rintro o rfl a ha
    rw [Function.update_self] at ha
    exact (from' a ha).imp (fun h => ⟨_, rfl, h⟩) id
  · exact fun a ha h => keep a ha (h _ rfl)
  · intro a ha
    rw [hs _ (by simp)]
    exact ⟨ha, keep a (hm.inHeap _ a ha) fun h => nomatch hm.apart _ _ _ ha h⟩
  · intro j hj
    exact List.getElem?_set_ne (fun e : i = j => hj (by rw [e]))
  · rintro o rfl g hg
    rw [Function.update_self, hs _ (by simp)]
    rw [List.getElem?_set_self'] at hg
    cases hx : m.gors[i]? with
    | none => rw [hx] at hg; exact nomatch hg
    | some g0 => rw [hx] at hg; cases hg; exact ok

theorem own_erase {S : Schema} {h : Heap} {L : List (Nat × Addr)} {F : Multiset Addr} (ho : OwnL S .none h (msgItems L) F) {t : Nat} {a : Addr} (hq : (t, a) ∈ L) :
    ∃ G F', F = G + F' ∧ OwnL S .none h [(.msg t, .ptr a)] G ∧ OwnL S .none h (msgItems (L.erase (t, a))) F' := by
  obtain ⟨F1, F2, rfl, o1, o2⟩ := (OwnL.append_iff (I1 := [_])).mp (ho.perm ((List.perm_cons_erase hq).map _))
  exact ⟨F1, F2, rfl, o1, o2⟩

theorem MInv.linv {S : Schema} {m : Mach} {F : Owner → Multiset Addr} (hm : MInv S m F) {i : Nat} {Fp Fh : Multiset Addr} (hF : F (.gor i) = Fp + Fh) {Z : Addr → Cell → Prop}
    (hZ : ∀ a c, Z a c → m.st.heap[a]? = some c ∧ (a ∈ F .shared ∨ a ∈ Fh)) {lock : Prop} : LInv ⟨S, .none, Z, lock⟩ m.st.heap Fp where
  nolent _ h := h
  nodup := Multiset.nodup_of_le (Multiset.le_add_right _ _) (hF ▸ hm.nodup (.gor i))
  inHeap a ha := hm.inHeap (.gor i) a (hF ▸ Multiset.mem_add.mpr (.inl ha))
  fixed a c hz := by
    refine ⟨(hZ a c hz).1, fun ha => ?_⟩
    have hg : a ∈ F (.gor i) := hF ▸ Multiset.mem_add.mpr (.inl ha)
    rcases (hZ a c hz).2 with h | h
    · exact nomatch hm.apart _ _ _ h hg
    · exact Multiset.disjoint_left.mp (Multiset.nodup_add.mp (hF ▸ hm.nodup (.gor i))).2.2 ha h

theorem MInv.goroutine {S : Schema} {m : Mach} {F : Owner → Multiset Addr} (hm : MInv S m F) {i : Nat} {g : Gor} (hg : m.gors[i]? = some g) :
    GorOK S m.st.heap (F .shared) g (F (.gor i)) := hm.ok (.gor i) g hg

/-- A step of a method. -/
theorem MInv.pstep {S : Schema} {m : Mach} {F : Owner → Multiset Addr} (hm : MInv S m F) {i : Nat} {held : List (Nat × Addr)} {op : Op} {p p' : Prog (List (Nat × Addr))} {σ : HState}
    (hg : m.gors[i]? = some ⟨held, some (op, p)⟩) (hs : PStep m.st p σ p') :
    ∃ F', MInv S { m with st := σ, gors := m.gors.set i ⟨held, some (op, p')⟩ } F' := by
  obtain ⟨Fp, Fh, Z, hF, ho, hZ, hsafe⟩ := hm.goroutine hg
  have hl := hm.linv hF hZ (lock := op.gives)
  have hsub : ∀ a, a ∈ Fp + Fh → a ∈ F (.gor i) := fun a ha => hF ▸ ha
  have hnd := hm.nodup (.gor i)
  rw [hF] at hnd
  have hdis : ∀ a ∈ Fp, a ∉ Fh := fun a => Multiset.disjoint_left.mp (Multiset.nodup_add.mp hnd).2.2
  have hin : ∀ a ∈ Fp + Fh, a < m.st.heap.length := fun a ha => hm.inHeap _ a (hsub a ha)
  have hZin : ∀ a c, Z a c → a < m.st.heap.length ∧ a ∉ Fp := fun a c hz => ⟨(List.getElem?_eq_some_iff.mp (hZ a c hz).1).1, (hl.fixed a c hz).2⟩
  cases hs with
  | @read a c k h =>
    obtain ⟨c', hc, -, hk⟩ := hsafe _ (.refl _ _) hl
    rw [h] at hc
    cases hc
    exact ⟨_, hm.one (F1 := Fp + Fh) hnd hin (fun a ha => .inl (hsub a ha)) (fun _ _ _ => rfl) ⟨Fp, Fh, Z, rfl, ho, hZ, hk⟩⟩
  | @fault a k h =>
    obtain ⟨c', hc, -⟩ := hsafe _ (.refl _ _) hl
    rw [h] at hc
    exact nomatch hc
  | @write a c k =>
    obtain ⟨ha, hk⟩ := hsafe _ (.refl _ _) hl
    have hne : ∀ b, b ∉ Fp → (m.st.heap.set a c)[b]? = m.st.heap[b]? := fun b hb => List.getElem?_set_ne (fun e : a = b => hb (e ▸ ha))
    refine ⟨_, hm.one (F1 := Fp + Fh) hnd (fun b hb => by rw [List.length_set]; exact hin b hb) (fun a ha => .inl (hsub a ha))
      (fun b _ hb => hne b fun h => hb (hsub b (Multiset.mem_add.mpr (.inl h))))
      ⟨Fp, Fh, Z, rfl, ho.frame fun b hb => hne b fun h => hdis b h hb, fun b d hz => ⟨?_, (hZ b d hz).2⟩, hk⟩⟩
    rw [hne b (hZin b d hz).2]
    exact (hZ b d hz).1
  | @alloc c k =>
    rw [HState.grow_nofree hm.plain.1, HState.next_nofree hm.plain.1]
    have hk := hsafe _ (.refl _ _) hl
    have hold : ∀ b < m.st.heap.length, (m.st.heap ++ [c m.st.heap.length])[b]? = m.st.heap[b]? := fun b hb => List.getElem?_append_left hb
    refine ⟨_, hm.one (F1 := m.st.heap.length ::ₘ Fp + Fh) ?_ ?_ ?_ (fun b hb _ => hold b hb)
      ⟨_, Fh, Z, rfl, ho.frame fun b hb => hold b (hin b (Multiset.mem_add.mpr (.inr hb))), fun b d hz => ⟨?_, (hZ b d hz).2⟩, hk⟩⟩
    · rw [Multiset.cons_add]
      exact Multiset.nodup_cons.mpr ⟨fun h => absurd (hin _ h) (Nat.lt_irrefl _), hnd⟩
    · intro b hb
      rw [Multiset.cons_add] at hb
      rw [List.length_append, List.length_singleton]
      rcases Multiset.mem_cons.mp hb with rfl | hb
      · exact Nat.lt_succ_self _
      · exact Nat.lt_succ_of_lt (hin b hb)
    · intro b hb
      rw [Multiset.cons_add] at hb
      rcases Multiset.mem_cons.mp hb with rfl | hb
      · exact .inr le_rfl
      · exact .inl (hsub b hb)
    · rw [hold b (hZin b d hz).1]
      exact (hZ b d hz).1
  | @got want t a k hw h =>
    rw [hm.asked]
    obtain ⟨-, -, hk⟩ := hsafe _ (.refl _ _) hl
    obtain ⟨G, P', hP, oG, oP⟩ := own_erase (hm.ok .pool) h
    have hpn := hm.nodup .pool
    rw [hP] at hpn
    have hinP : ∀ a ∈ G + P', a ∈ F .pool := fun a ha => hP ▸ ha
    have hpg : ∀ a, a ∈ G + P' → a ∈ Fp + Fh → False := fun a h1 h2 => nomatch hm.apart _ _ _ (hinP a h1) (hsub a h2)
    have hGn : (G + (Fp + Fh)).Nodup := Multiset.nodup_add.mpr ⟨(Multiset.nodup_add.mp hpn).1, hnd, Multiset.disjoint_left.mpr fun {a} h1 h2 => hpg a (Multiset.mem_add.mpr (.inl h1)) h2⟩
    have hl' : LInv ⟨S, .none, Z, op.gives⟩ m.st.heap (G + Fp) := by
      refine ⟨fun _ h => h, Multiset.nodup_of_le ?_ hGn, fun b hb => ?_, fun b d hz => ⟨(hZ b d hz).1, fun hb => ?_⟩⟩
      · rw [← add_assoc]; exact Multiset.le_add_right _ _
      · rcases Multiset.mem_add.mp hb with hb | hb
        · exact hm.inHeap .pool b (hinP b (Multiset.mem_add.mpr (.inl hb)))
        · exact hin b (Multiset.mem_add.mpr (.inl hb))
      · rcases Multiset.mem_add.mp hb with hb | hb
        · have hb' := hinP b (Multiset.mem_add.mpr (.inl hb))
          rcases (hZ b d hz).2 with h1 | h1
          · exact nomatch hm.apart _ _ _ h1 hb'
          · exact nomatch hm.apart _ _ _ (hsub b (Multiset.mem_add.mpr (.inr h1))) hb'
        · exact (hZin b d hz).2 hb
    have hk' := hk a G oG hl'
    refine ⟨fun o => match o with | .gor j => if j = i then G + (Fp + Fh) else F (.gor j) | .pool => P' | .shared => F .shared,
      hm.update (fun o => o = .gor i ∨ o = .pool) ?_ ?_ ?_ ?_ ?_ (fun _ _ _ => rfl) (fun a ha => ⟨ha, rfl⟩) ?_ (fun h => absurd (.inr rfl) h) (fun _ => rfl) ?_ ⟨rfl, rfl⟩⟩
    · rintro o (rfl | rfl)
      · simpa using hGn
      · exact (Multiset.nodup_add.mp hpn).2.1
    · rintro o o' b (rfl | rfl) (rfl | rfl) h1 h2
      · rfl
      · simp only [if_pos] at h1
        rcases Multiset.mem_add.mp h1 with h1 | h1
        · exact absurd h2 (Multiset.disjoint_left.mp (Multiset.nodup_add.mp hpn).2.2 h1)
        · exact absurd h1 (hpg b (Multiset.mem_add.mpr (.inr h2)))
      · simp only [if_pos] at h2
        rcases Multiset.mem_add.mp h2 with h2 | h2
        · exact absurd h1 (Multiset.disjoint_left.mp (Multiset.nodup_add.mp hpn).2.2 h2)
        · exact absurd h2 (hpg b (Multiset.mem_add.mpr (.inr h1)))
      · rfl
    · rintro o (rfl | rfl) b hb
      · simp only [if_pos] at hb
        rcases Multiset.mem_add.mp hb with hb | hb
        · exact hm.inHeap .pool b (hinP b (Multiset.mem_add.mpr (.inl hb)))
        · exact hin b hb
      · exact hm.inHeap .pool b (hinP b (Multiset.mem_add.mpr (.inr hb)))
    · rintro o (rfl | rfl) b hb
      · simp only [if_pos] at hb
        rcases Multiset.mem_add.mp hb with hb | hb
        · exact .inl ⟨.pool, .inr rfl, hinP b (Multiset.mem_add.mpr (.inl hb))⟩
        · exact .inl ⟨.gor i, .inl rfl, hsub b hb⟩
      · exact .inl ⟨.pool, .inr rfl, hinP b (Multiset.mem_add.mpr (.inr hb))⟩
    · intro o h'
      cases o with
      | gor j => exact if_neg fun e => h' (.inl (by rw [e]))
      | pool => exact absurd (.inr rfl) h'
      | shared => rfl
    · intro j hj
      exact List.getElem?_set_ne (fun e : i = j => hj (.inl (by rw [e])))
    · rintro o (rfl | rfl)
      · intro g hg'
        simp only [if_pos]
        rw [List.getElem?_set_self', hg] at hg'
        cases hg'
        exact ⟨G + Fp, Fh, Z, (add_assoc _ _ _).symm, ho, hZ, hk'⟩
      · exact oP
  | @miss want t k =>
    rw [hm.asked]
    obtain ⟨-, hk, -⟩ := hsafe _ (.refl _ _) hl
    exact ⟨_, hm.one (F1 := Fp + Fh) hnd hin (fun a ha => .inl (hsub a ha)) (fun _ _ _ => rfl) ⟨Fp, Fh, Z, rfl, ho, hZ, hk⟩⟩
  | @put t a k =>
    obtain ⟨-, G, F1, rfl, oG, hk⟩ := hsafe _ (.refl _ _) hl
    have hpn := hm.nodup .pool
    have hpg : ∀ a, a ∈ F .pool → a ∈ G + F1 + Fh → False := fun a h1 h2 => nomatch hm.apart _ _ _ h1 (hsub a h2)
    have hG : ∀ b, b ∈ G → b ∈ G + F1 + Fh := fun b hb => Multiset.mem_add.mpr (.inl (Multiset.mem_add.mpr (.inl hb)))
    have hle : F1 + Fh ≤ G + F1 + Fh := by rw [add_assoc]; exact Multiset.le_add_left _ _
    have hGF : ∀ b, b ∈ G → b ∈ F1 + Fh → False := by
      rw [add_assoc] at hnd
      exact fun b h1 h2 => Multiset.disjoint_left.mp (Multiset.nodup_add.mp hnd).2.2 h1 h2
    refine ⟨fun o => match o with | .gor j => if j = i then F1 + Fh else F (.gor j) | .pool => G + F .pool | .shared => F .shared,
      hm.update (fun o => o = .gor i ∨ o = .pool) ?_ ?_ ?_ ?_ ?_ (fun _ _ _ => rfl) (fun a ha => ⟨ha, rfl⟩) ?_ (fun h => absurd (.inr rfl) h) (fun _ => rfl) ?_ ⟨rfl, rfl⟩⟩
    · rintro o (rfl | rfl)
      · simpa using Multiset.nodup_of_le hle hnd
      · exact Multiset.nodup_add.mpr ⟨(Multiset.nodup_add.mp (Multiset.nodup_add.mp hnd).1).1, hpn, Multiset.disjoint_left.mpr fun {b} h1 h2 => hpg b h2 (hG b h1)⟩
    · rintro o o' b (rfl | rfl) (rfl | rfl) h1 h2
      · rfl
      · simp only [if_pos] at h1
        rcases Multiset.mem_add.mp h2 with h2 | h2
        · exact absurd h1 (hGF b h2)
        · exact absurd (Multiset.mem_of_le hle h1) (hpg b h2)
      · simp only [if_pos] at h2
        rcases Multiset.mem_add.mp h1 with h1 | h1
        · exact absurd h2 (hGF b h1)
        · exact absurd (Multiset.mem_of_le hle h2) (hpg b h1)
      · rfl
    · rintro o (rfl | rfl) b hb
      · simp only [if_pos] at hb
        exact hin b (Multiset.mem_of_le hle hb)
      · rcases Multiset.mem_add.mp hb with hb | hb
        · exact hin b (hG b hb)
        · exact hm.inHeap .pool b hb
    · rintro o (rfl | rfl) b hb
      · simp only [if_pos] at hb
        exact .inl ⟨.gor i, .inl rfl, hsub b (Multiset.mem_of_le hle hb)⟩
      · rcases Multiset.mem_add.mp hb with hb | hb
        · exact .inl ⟨.gor i, .inl rfl, hsub b (hG b hb)⟩
        · exact .inl ⟨.pool, .inr rfl, hb⟩
    · intro o h'
      cases o with
      | gor j => exact if_neg fun e => h' (.inl (by rw [e]))
      | pool => exact absurd (.inr rfl) h'
      | shared => rfl
    · intro j hj
      exact List.getElem?_set_ne (fun e : i = j => hj (.inl (by rw [e])))
    · rintro o (rfl | rfl)
      · intro g hg'
        simp only [if_pos]
        rw [List.getElem?_set_self', hg] at hg'
        cases hg'
        exact ⟨F1, Fh, Z, rfl, ho, hZ, hk⟩
      · exact (OwnL.append_iff (I1 := [_])).mpr ⟨G, F .pool, rfl, oG, hm.ok .pool⟩

/-! ## Other steps -/

theorem flat_none {h : Heap} : FlatLent .none h := fun _ hb => False.elim hb

theorem own_reach_none {S : Schema} {h : Heap} {L : List (Nat × Addr)} {F : Multiset Addr} (ho : OwnL S .none h (msgItems L) F) {q : Nat × Addr} (hq : q ∈ L) {x : Addr}
    (hr : Reach h q.2 x) : x ∈ F := (own_reach ho flat_none hq hr).resolve_right fun h => h

theorem MInv.call {S : Schema} (hS : schemaOK S = true) {m : Mach} {F : Owner → Multiset Addr} (hm : MInv S m F) {i : Nat} (n : Nat) {held : List (Nat × Addr)} {op : Op}
    (hg : m.gors[i]? = some ⟨held, none⟩) (ha : op.permitted S held m.shared) :
    ∃ F', MInv S { m with gors := m.gors.set i ⟨op.takes.foldl List.erase held, some (op, op.prog S n)⟩ } F' := by
  have ho : OwnL S .none m.st.heap (msgItems held) (F (.gor i)) := hm.goroutine hg
  have ho' : OwnL S .none m.st.heap (msgItems op.takes ++ msgItems (op.takes.foldl List.erase held)) (F (.gor i)) := by
    rw [← List.map_append]
    exact ho.perm ((takes_perm ha).map _)
  obtain ⟨F1, F2, hF, o1, o2⟩ := OwnL.append_iff.mp ho'
  let Z : Addr → Cell → Prop := fun a c => m.st.heap[a]? = some c ∧ (a ∈ F .shared ∨ a ∈ F2)
  refine ⟨_, hm.one (F1 := F (.gor i)) (hm.nodup _) (hm.inHeap _) (fun a ha => .inl ha) (fun _ _ _ => rfl) ⟨F1, F2, Z, hF, o2, fun _ _ h => h, ?_⟩⟩
  refine tri_op hS ha (h0 := m.st.heap) (fun E t a e => ?_) n [] _ _ (by simpa using o1) (hm.linv hF fun _ _ h => h)
  subst e
  rcases ha.1 with h | h
  · obtain ⟨F', hle, hF'⟩ := own_sub o2 (q := (t, a)) h
    exact ⟨F', hF', fun x hx c hc => ⟨hc, .inr (Multiset.mem_of_le hle hx)⟩⟩
  · obtain ⟨F', hle, hF'⟩ := own_sub (hm.ok .shared) (q := (t, a)) h
    exact ⟨F', hF', fun x hx c hc => ⟨hc, .inl (Multiset.mem_of_le hle hx)⟩⟩

/-- A method is at its end. -/
theorem MInv.done {S : Schema} {m : Mach} {F : Owner → Multiset Addr} (hm : MInv S m F) {i : Nat} {held l : List (Nat × Addr)} {op : Op} {r : Res (List (Nat × Addr))}
    (hg : m.gors[i]? = some ⟨held, some (op, .done r)⟩) (hl : (r = .ok l) ∨ ((∀ l, r ≠ .ok l) ∧ l = op.left)) :
    ∃ F', MInv S { m with gors := m.gors.set i ⟨l ++ held, none⟩ } F' := by
  obtain ⟨Fp, Fh, Z, hF, ho, hZ, hsafe⟩ := hm.goroutine hg
  obtain ⟨F', hle, h1, h2⟩ := hsafe _ (.refl _ _) (hm.linv hF hZ)
  have ol : OwnL S .none m.st.heap (msgItems l) F' := by
    rcases hl with rfl | ⟨hr, rfl⟩
    · simpa using h1 l rfl
    · simpa using h2 hr
  have hle' : F' + Fh ≤ F (.gor i) := hF ▸ add_le_add_left hle Fh
  refine ⟨_, hm.one (F1 := F' + Fh) (Multiset.nodup_of_le hle' (hm.nodup _)) (fun a ha => hm.inHeap _ a (Multiset.mem_of_le hle' ha)) (fun a ha => .inl (Multiset.mem_of_le hle' ha)) (fun _ _ _ => rfl) ?_⟩
  show OwnL S .none m.st.heap (msgItems (l ++ held)) _
  rw [msgItems, List.map_append]
  exact ol.append ho

/-- Messages change hands: from the goroutine `i` to the owner `o`. -/
theorem MInv.give {S : Schema} {m : Mach} {F : Owner → Multiset Addr} (hm : MInv S m F) {i : Nat} {held H rest : List (Nat × Addr)} (hg : m.gors[i]? = some ⟨held, none⟩)
    (split : held.Perm (H ++ rest)) (o : Owner) (hio : o ≠ .gor i) (hop : o ≠ .pool) {gors' : List Gor} {shared' : List (Nat × Addr)}
    (hi : gors'[i]? = some ⟨rest, none⟩) (hsame : ∀ j, j ≠ i → o ≠ .gor j → gors'[j]? = m.gors[j]?) (hsh : o ≠ .shared → shared' = m.shared)
    (hto : ∀ G, OwnL S .none m.st.heap (msgItems H) G → match o with
      | .gor j => ∃ G', (∀ a, a ∈ G' → a ∈ G + F o) ∧ ((G + F o).Nodup → G'.Nodup) ∧ ∀ g, gors'[j]? = some g → GorOK S m.st.heap (F .shared) g G'
      | .pool => False
      | .shared => OwnL S .none m.st.heap (msgItems shared') (G + F .shared)) :
    ∃ F', MInv S { m with gors := gors', shared := shared' } F' := by
  have ho : OwnL S .none m.st.heap (msgItems held) (F (.gor i)) := hm.goroutine hg
  have ho' : OwnL S .none m.st.heap (msgItems H ++ msgItems rest) (F (.gor i)) := by
    rw [← List.map_append]
    exact ho.perm (split.map _)
  obtain ⟨G, R, hF, oG, oR⟩ := OwnL.append_iff.mp ho'
  have hnd := hm.nodup (.gor i)
  rw [hF] at hnd
  have hsub : ∀ a, a ∈ G + R → a ∈ F (.gor i) := fun a ha => hF ▸ ha
  have hGo : (G + F o).Nodup := Multiset.nodup_add.mpr ⟨(Multiset.nodup_add.mp hnd).1, hm.nodup o,
    Multiset.disjoint_left.mpr fun {a} h1 h2 => hio (hm.apart _ _ _ h2 (hsub a (Multiset.mem_add.mpr (.inl h1))))⟩
  obtain ⟨G', hG1, hG2, hG3⟩ : ∃ G', (∀ a, a ∈ G' → a ∈ G + F o) ∧ G'.Nodup ∧ (match o with
      | .gor j => ∀ g, gors'[j]? = some g → GorOK S m.st.heap (F .shared) g G'
      | .pool => False
      | .shared => G' = G + F .shared ∧ OwnL S .none m.st.heap (msgItems shared') G') := by
    have := hto G oG
    cases o with
    | gor j =>
      obtain ⟨G', h1, h2, h3⟩ := this
      exact ⟨G', h1, h2 hGo, h3⟩
    | pool => exact absurd rfl hop
    | shared => exact ⟨G + F .shared, fun _ h => h, hGo, rfl, this⟩
  have hGR : ∀ a, a ∈ G' → a ∈ R → False := by
    intro a h1 h2
    rcases Multiset.mem_add.mp (hG1 a h1) with h | h
    · exact Multiset.disjoint_left.mp (Multiset.nodup_add.mp hnd).2.2 h h2
    · exact hio (hm.apart _ _ _ h (hsub a (Multiset.mem_add.mpr (.inr h2))))
  have hG4 : ∀ a, a ∈ G' → ∃ o', (o' = .gor i ∨ o' = o) ∧ a ∈ F o' := by
    intro a ha
    rcases Multiset.mem_add.mp (hG1 a ha) with h | h
    · exact ⟨_, .inl rfl, hsub a (Multiset.mem_add.mpr (.inl h))⟩
    · exact ⟨_, .inr rfl, h⟩
  have hR : ∀ a, a ∈ R → a ∈ F (.gor i) := fun a ha => hsub a (Multiset.mem_add.mpr (.inr ha))
  let F' : Owner → Multiset Addr := Function.update (Function.update F (.gor i) R) o G'
  have e1 : F' (.gor i) = R := by
    show Function.update _ _ _ _ = _
    rw [Function.update_of_ne hio.symm, Function.update_self]
  have e2 : F' o = G' := Function.update_self _ _ _
  have hsh' : ∀ a ∈ F .shared, a ∈ F' .shared := by
    intro a ha
    by_cases h : o = .shared
    · subst h
      rw [e2, hG3.1]
      exact Multiset.mem_add.mpr (.inr ha)
    · show a ∈ Function.update (Function.update F (.gor i) R) o G' .shared
      rw [Function.update_of_ne (fun e => h e.symm), Function.update_of_ne (by simp)]
      exact ha
  refine ⟨F', hm.update (fun x => x = .gor i ∨ x = o) ?_ ?_ ?_ ?_ ?_ (fun _ _ _ => rfl) (fun a ha => ⟨hsh' a ha, rfl⟩) ?_ (fun _ => rfl) ?_ ?_ ⟨rfl, rfl⟩⟩
  · rintro x (rfl | rfl)
    · rw [e1]; exact (Multiset.nodup_add.mp hnd).2.1
    · rw [e2]; exact hG2
  · rintro x y a (rfl | rfl) (rfl | rfl) h1 h2
    · rfl
    · rw [e1] at h1
      rw [e2] at h2
      exact (hGR a h2 h1).elim
    · rw [e1] at h2
      rw [e2] at h1
      exact (hGR a h1 h2).elim
    · rfl
  · rintro x (rfl | rfl) a hx
    · rw [e1] at hx; exact hm.inHeap _ a (hR a hx)
    · rw [e2] at hx
      obtain ⟨o', -, h⟩ := hG4 a hx
      exact hm.inHeap _ a h
  · rintro x (rfl | rfl) a hx
    · rw [e1] at hx; exact .inl ⟨_, .inl rfl, hR a hx⟩
    · rw [e2] at hx; exact .inl (hG4 a hx)
  · intro x hx
    show Function.update (Function.update F (.gor i) R) o G' x = _
    rw [Function.update_of_ne (fun e => hx (.inr e)), Function.update_of_ne (fun e => hx (.inl e))]
  · intro j hj
    exact hsame j (fun e => hj (.inl (by rw [e]))) fun e => hj (.inr e.symm)
  · exact fun h => hsh fun e => h (.inr e.symm)
  · rintro x (rfl | rfl)
    · intro g hg'
      rw [hi] at hg'
      cases hg'
      rw [e1]
      exact oR
    · cases x with
      | gor j =>
        intro g hg'
        have := hG3 g hg'
        rw [e2]
        exact this.mono (.refl _ _) fun a ha => ⟨hsh' a ha, rfl⟩
      | pool => exact absurd rfl hop
      | shared =>
        show OwnL _ _ _ _ (F' .shared)
        rw [e2]
        exact hG3.2

theorem MInv.gstep {S : Schema} (hS : schemaOK S = true) {m m' : Mach} {F : Owner → Multiset Addr} (hm : MInv S m F) {who : Option Nat} (hs : GStep S m who m') : ∃ F', MInv S m' F' := by
  cases hs with
  | call hg ha => exact hm.call hS _ hg ha
  | step hg hp => exact hm.pstep hg hp
  | ret hg => exact hm.done hg (.inl rfl)
  | fail hr hg => exact hm.done hg (.inr ⟨hr, rfl⟩)
  | @use i held H H' rest h' F1 hg split keep grow own nodup within =>
    have ho : OwnL S .none m.st.heap (msgItems held) (F (.gor i)) := hm.goroutine hg
    have ho' : OwnL S .none m.st.heap (msgItems H ++ msgItems rest) (F (.gor i)) := by
      rw [← List.map_append]
      exact ho.perm (split.map _)
    obtain ⟨G, R, hF, oG, oR⟩ := OwnL.append_iff.mp ho'
    have hnd := hm.nodup (.gor i)
    rw [hF] at hnd
    have hsub : ∀ a, a ∈ G + R → a ∈ F (.gor i) := fun a ha => hF ▸ ha
    have hkeep : ∀ a < m.st.heap.length, a ∉ G → h'[a]? = m.st.heap[a]? := fun a ha hn => keep a ha fun q hq hr => hn (own_reach_none oG hq hr)
    have hfrom : ∀ a ∈ F1, a ∈ G ∨ m.st.heap.length ≤ a := fun a ha => (within a ha).imp (fun ⟨q, hq, hr⟩ => own_reach_none oG hq hr) id
    have hR : ∀ a ∈ R, a < m.st.heap.length ∧ a ∉ G := fun a ha => ⟨hm.inHeap _ a (hsub a (Multiset.mem_add.mpr (.inr ha))),
      fun h => Multiset.disjoint_left.mp (Multiset.nodup_add.mp hnd).2.2 h ha⟩
    have oR' : OwnL S .none h' (msgItems rest) R := oR.frame fun a ha => hkeep a (hR a ha).1 (hR a ha).2
    refine ⟨_, hm.one (F1 := F1 + R) ?_ ?_ ?_ (fun a ha hn => hkeep a ha fun h => hn (hsub a (Multiset.mem_add.mpr (.inl h)))) ?_⟩
    · refine Multiset.nodup_add.mpr ⟨nodup, (Multiset.nodup_add.mp hnd).2.1, Multiset.disjoint_left.mpr fun {a} h1 h2 => ?_⟩
      rcases hfrom a h1 with h | h
      · exact (hR a h2).2 h
      · exact absurd (hR a h2).1 (Nat.not_lt.mpr h)
    · intro a ha
      rcases Multiset.mem_add.mp ha with ha | ha
      · exact own.inHeap a ha
      · exact oR'.inHeap a ha
    · intro a ha
      rcases Multiset.mem_add.mp ha with ha | ha
      · exact (hfrom a ha).imp (fun h => hsub a (Multiset.mem_add.mpr (.inl h))) id
      · exact .inl (hsub a (Multiset.mem_add.mpr (.inr ha)))
    · show OwnL S .none h' (msgItems (H' ++ rest)) _
      rw [msgItems, List.map_append]
      exact own.append oR'
  | drop hg hsub =>
    obtain ⟨F', hle, ho⟩ := own_sublist hsub (hm.goroutine hg)
    exact ⟨_, hm.one (Multiset.nodup_of_le hle (hm.nodup _)) (fun a ha => hm.inHeap _ a (Multiset.mem_of_le hle ha)) (fun a ha => .inl (Multiset.mem_of_le hle ha)) (fun _ _ _ => rfl) ho⟩
  | @go i held H rest hg split =>
    have hlt : i < m.gors.length := (List.getElem?_eq_some_iff.mp hg).1
    refine hm.give hg split (.gor m.gors.length) (by simpa using Nat.ne_of_gt hlt) (by simp) ?_ ?_ (fun _ => rfl) ?_
    · rw [List.getElem?_append_left (by simpa using hlt), List.getElem?_set_self hlt]
    · intro j hj hj'
      have hj' : j ≠ m.gors.length := fun e => hj' (by rw [e])
      rcases Nat.lt_or_ge j m.gors.length with h | h
      · rw [List.getElem?_append_left (by simpa using h), List.getElem?_set_ne (fun e => hj e.symm)]
      · rw [List.getElem?_eq_none (by simp; omega), List.getElem?_eq_none h]
    · intro G hG
      refine ⟨G, fun a ha => Multiset.mem_add.mpr (.inl ha), fun h => (Multiset.nodup_add.mp h).1, fun g hg' => ?_⟩
      rw [List.getElem?_append_right (by simp), List.length_set, Nat.sub_self] at hg'
      cases hg'
      exact hG
  | @send i j held other rest q hi hj hij split =>
    have hlt : i < m.gors.length := (List.getElem?_eq_some_iff.mp hi).1
    have hltj : j < m.gors.length := (List.getElem?_eq_some_iff.mp hj).1
    refine hm.give hi (H := [q]) split (.gor j) (by simpa using hij.symm) (by simp) ?_ ?_ (fun _ => rfl) ?_
    · rw [List.getElem?_set_ne hij.symm, List.getElem?_set_self hlt]
    · intro k hk hk'
      rw [List.getElem?_set_ne (fun e => hk' (by rw [e])), List.getElem?_set_ne (fun e => hk e.symm)]
    · intro G hG
      refine ⟨G + F (.gor j), fun _ h => h, fun h => h, fun g hg' => ?_⟩
      rw [List.getElem?_set_self (by simpa using hltj)] at hg'
      cases hg'
      exact (OwnL.append_iff (I1 := [_])).mpr ⟨G, _, rfl, hG, hm.goroutine hj⟩
  | @share i held H rest hg split =>
    have hlt : i < m.gors.length := (List.getElem?_eq_some_iff.mp hg).1
    refine hm.give hg split .shared (by simp) (by simp) (List.getElem?_set_self hlt) (fun j hj _ => List.getElem?_set_ne (fun e => hj e.symm)) (fun h => absurd rfl h) ?_
    intro G hG
    show OwnL _ _ _ (msgItems (H ++ m.shared)) _
    rw [msgItems, List.map_append]
    exact hG.append (hm.ok .shared)
  | @gc pool hsub =>
    obtain ⟨P, hle, ho⟩ := own_sublist hsub (hm.ok .pool)
    have e : ∀ o, ¬ o = .pool → Function.update F .pool P o = F o := fun o ho => Function.update_of_ne ho _ _
    refine ⟨Function.update F .pool P, hm.update (· = .pool) ?_ ?_ ?_ ?_ e (fun _ _ _ => rfl) (fun a ha => ⟨by rw [e _ (by simp)]; exact ha, rfl⟩) (fun _ _ => rfl) (fun h => absurd rfl h) (fun _ => rfl) ?_ ⟨rfl, rfl⟩⟩
    · rintro o rfl
      rw [Function.update_self]
      exact Multiset.nodup_of_le hle (hm.nodup _)
    · rintro o o' a rfl rfl _ _
      rfl
    · rintro o rfl a ha
      rw [Function.update_self] at ha
      exact hm.inHeap _ a (Multiset.mem_of_le hle ha)
    · rintro o rfl a ha
      rw [Function.update_self] at ha
      exact .inl ⟨_, rfl, Multiset.mem_of_le hle ha⟩
    · rintro o rfl
      show OwnL _ _ _ _ (Function.update F .pool P .pool)
      rw [Function.update_self]
      exact ho

/-- What changes in memory is of the goroutine that does something. -/
theorem MInv.keeps {S : Schema} {m m' : Mach} {F : Owner → Multiset Addr} (hm : MInv S m F) {who : Option Nat} (hs : GStep S m who m') :
    ∀ a < m.st.heap.length, (∀ i, who = some i → a ∉ F (.gor i)) → m'.st.heap[a]? = m.st.heap[a]? := by
  cases hs with
  | @step i held op p p' σ hg hp =>
    intro a ha hn
    obtain ⟨Fp, Fh, Z, hF, ho, hZ, hsafe⟩ := hm.goroutine hg
    have hn' : a ∉ Fp := fun h => hn i rfl (hF ▸ Multiset.mem_add.mpr (.inl h))
    cases hp with
    | @write b c k => exact List.getElem?_set_ne fun e : b = a => hn' (e ▸ (hsafe _ (.refl _ _) (hm.linv hF hZ)).1)
    | alloc =>
      rw [HState.grow_nofree hm.plain.1]
      exact List.getElem?_append_left ha
    | got =>
      rw [hm.asked]
    | miss =>
      rw [hm.asked]
    | _ => rfl
  | @use i held H H' rest h' F1 hg split keep grow own nodup within =>
    intro a ha hn
    refine keep a ha fun q hq hr => hn i rfl ?_
    exact own_reach_none (hm.goroutine hg) (split.mem_iff.mpr (List.mem_append_left _ hq)) hr
  | _ => exact fun _ _ _ => rfl

/-- What a step of a method changes is of the call. -/
theorem MInv.pkeeps {S : Schema} {m : Mach} {F : Owner → Multiset Addr} (hm : MInv S m F) {i : Nat} {held : List (Nat × Addr)} {op : Op} {p : Prog (List (Nat × Addr))}
    (hg : m.gors[i]? = some ⟨held, some (op, p)⟩) : ∃ Fp Fh, F (.gor i) = Fp + Fh ∧ OwnL S .none m.st.heap (msgItems held) Fh ∧ (∀ a, p.writes = some a → a ∈ Fp) ∧
      ∀ a, p.reads = some a → a < m.st.heap.length ∧ (a ∈ Fp ∨ a ∈ Fh ∨ a ∈ F .shared) := by
  obtain ⟨Fp, Fh, Z, hF, ho, hZ, hsafe⟩ := hm.goroutine hg
  have hl := hm.linv hF hZ (lock := op.gives)
  refine ⟨Fp, Fh, hF, ho, fun a ha => ?_, fun a ha => ?_⟩
  · cases p with
    | write b c k => cases ha; exact (hsafe _ (.refl _ _) hl).1
    | _ => exact nomatch ha
  · cases p with
    | read b k =>
      cases ha
      obtain ⟨c, hc, hm', -⟩ := hsafe _ (.refl _ _) hl
      refine ⟨(List.getElem?_eq_some_iff.mp hc).1, hm'.imp id fun hz => ?_⟩
      exact ((hZ _ c hz).2).symm
    | _ => exact nomatch ha

/-- What a goroutine holds, it owns. -/
theorem gor_own {S : Schema} {m : Mach} {F : Owner → Multiset Addr} (hm : MInv S m F) {i : Nat} {g : Gor} (hg : m.gors[i]? = some g) :
    ∃ G, G ≤ F (.gor i) ∧ OwnL S .none m.st.heap (msgItems g.held) G := by
  have := hm.goroutine hg
  rcases g with ⟨held, _ | ⟨op, p⟩⟩
  · exact ⟨_, le_rfl, this⟩
  · obtain ⟨Fp, Fh, Z, hF, ho, -⟩ := this
    exact ⟨Fh, hF ▸ Multiset.le_add_left _ _, ho⟩

theorem gor_reach {S : Schema} {m : Mach} {F : Owner → Multiset Addr} (hm : MInv S m F) {i : Nat} {g : Gor} (hg : m.gors[i]? = some g) {q : Nat × Addr} (hq : q ∈ g.held)
    {x : Addr} (hr : Reach m.st.heap q.2 x) : x ∈ F (.gor i) := by
  obtain ⟨G, hle, ho⟩ := gor_own hm hg
  exact Multiset.mem_of_le hle (own_reach_none ho hq hr)

/-- Reaching through objects that are as they were. -/
theorem reach_agree {h h' : Heap} {a x : Addr} (hk : ∀ y, Reach h a y → h'[y]? = h[y]?) (hr : Reach h a x) : Reach h' a x := by
  induction hr with
  | here a => exact .here a
  | @there a b c y v hx hv ht _ ih =>
    exact .there ((hk a (.here a)).trans hx) hv ht (ih fun z hz => hk z (.there hx hv ht hz))

theorem minv_start (S : Schema) : MInv S .start (fun _ => 0) where
  plain := ⟨rfl, rfl⟩
  nodup _ := Multiset.nodup_zero
  apart _ _ _ h := absurd h (Multiset.notMem_zero _)
  inHeap _ _ h := absurd h (Multiset.notMem_zero _)
  ok o := by
    cases o with
    | gor i =>
      intro g hg
      rcases i with _ | i
      · cases hg
        exact .done
      · exact nomatch hg
    | pool => exact .done
    | shared => exact .done

/-- In every machine that programs can get to, objects have one owner at most. -/
theorem minv_reach {S : Schema} (hS : schemaOK S = true) {m : Mach} (hm : GReach S m) : ∃ F, MInv S m F := by
  induction hm with
  | start => exact ⟨_, minv_start S⟩
  | step _ hs ih =>
    obtain ⟨F, hF⟩ := ih
    exact hF.gstep hS hs

end Vtp.Conc
