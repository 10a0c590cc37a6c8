import Verif.Lemmas.ConcMach
/-! # Machines: what holds of messages and of calls besides ownership

`Verif/Lemmas/ConcMach.lean` says who owns what. Here more is said of the messages that goroutines hold and of those in pools, and of calls in progress; what, is left open.
-/

namespace Vtp.Conc
open Spec

/-- What calls are judged against. -/
abbrev opCtx (S : Schema) (Z : Addr → Cell → Prop) (op : Op) : Ctx := ⟨S, .none, Z, op.gives⟩

/-- What there is at the end of calls. -/
abbrev opPost (S : Schema) (Z : Addr → Cell → Prop) (op : Op) : Res (List (Nat × Addr)) → Heap → Multiset Addr → Prop :=
  Post (opCtx S Z op) (fun l => msgItems l) (msgItems op.left) []

/-- What holds of messages that are held or common, of messages in pools, and of the calls of goroutines. -/
structure Law where
  own : Heap → Nat × Addr → Prop
  pool : Heap → Nat × Addr → Prop
  call : Nat → Op → Prog (List (Nat × Addr)) → Heap → Multiset Addr → (Addr → Cell → Prop) → Prop

/-- A claim about a message that depends on its objects only. -/
def Framed (S : Schema) (P : Heap → Nat × Addr → Prop) : Prop :=
  ∀ h h' q G, P h q → OwnL S .none h [(.msg q.1, .ptr q.2)] G → Agree G h h' → P h' q

/-- The steps of methods respect what is said. -/
structure Law.Keeps (S : Schema) (T : Law) : Prop where
  own : Framed S T.own
  pool : Framed S T.pool
  calm : ∀ {i op p h h' F Z}, T.call i op p h F Z → Agree F h h' → h.length ≤ h'.length → T.call i op p h' F Z
  read : ∀ {i op a k h F Z c}, T.call i op (.read a k) h F Z → h[a]? = some c → (a ∈ F ∨ Z a c) → LInv (opCtx S Z op) h F → T.call i op (k c) h F Z
  write : ∀ {i op a c k h F Z}, T.call i op (.write a c k) h F Z → a ∈ F → LInv (opCtx S Z op) h F → T.call i op k (h.set a c) F Z
  alloc : ∀ {i op c k h F Z}, T.call i op (.alloc c k) h F Z → LInv (opCtx S Z op) h F → T.call i op (k h.length) (h ++ [c h.length]) (h.length ::ₘ F) Z
  miss : ∀ {i op want t k h F Z}, T.call i op (.get want t k) h F Z → T.call i op (k none) h F Z
  got : ∀ {i op want t k h F Z a G}, T.call i op (.get want t k) h F Z → want ≠ none → ¬ op.gives → T.pool h (t, a) → OwnL S .none h [(.msg t, .ptr a)] G →
    LInv (opCtx S Z op) h (G + F) → T.call i op (k (some a)) h (G + F) Z
  put : ∀ {i op t a k h F Z G}, T.call i op (.put t a k) h (G + F) Z → op.gives → OwnL S .none h [(.msg t, .ptr a)] G → Safe (opCtx S Z op) (opPost S Z op) k h F →
    LInv (opCtx S Z op) h (G + F) → T.pool h (t, a) ∧ T.call i op k h F Z
  ret : ∀ {i op r h F Z l F'}, T.call i op (.done r) h F Z → (r = .ok l ∨ (∀ l, r ≠ .ok l) ∧ l = op.left) → F' ≤ F → OwnL S .none h (msgItems l) F' →
    LInv (opCtx S Z op) h F → ∀ q ∈ l, T.own h q

/-- Messages that are owned, and of which something holds. -/
def VOwn (S : Schema) (P : Heap → Nat × Addr → Prop) (h : Heap) (L : List (Nat × Addr)) (F : Multiset Addr) : Prop :=
  OwnL S .none h (msgItems L) F ∧ ∀ q ∈ L, P h q

section
variable {S : Schema} {P : Heap → Nat × Addr → Prop} {h h' : Heap} {L L1 L2 : List (Nat × Addr)} {F : Multiset Addr}

theorem VOwn.frame (hP : Framed S P) (hv : VOwn S P h L F) (ha : Agree F h h') : VOwn S P h' L F := by
  refine ⟨ha.own hv.1, fun q hq => ?_⟩
  obtain ⟨G, hle, hG⟩ := own_sub hv.1 hq
  exact hP _ _ _ _ (hv.2 q hq) hG (ha.mono hle)

theorem VOwn.perm (hv : VOwn S P h L F) (hp : L.Perm L1) : VOwn S P h L1 F :=
  ⟨hv.1.perm (hp.map _), fun q hq => hv.2 q (hp.mem_iff.mpr hq)⟩

theorem VOwn.split (hv : VOwn S P h (L1 ++ L2) F) : ∃ F1 F2, F = F1 + F2 ∧ VOwn S P h L1 F1 ∧ VOwn S P h L2 F2 := by
  obtain ⟨h1, h2⟩ := hv
  rw [msgItems, List.map_append] at h1
  obtain ⟨F1, F2, rfl, o1, o2⟩ := OwnL.append_iff.mp h1
  exact ⟨F1, F2, rfl, ⟨o1, fun q hq => h2 q (List.mem_append_left _ hq)⟩, ⟨o2, fun q hq => h2 q (List.mem_append_right _ hq)⟩⟩

theorem VOwn.append {F1 F2 : Multiset Addr} (h1 : VOwn S P h L1 F1) (h2 : VOwn S P h L2 F2) : VOwn S P h (L1 ++ L2) (F1 + F2) := by
  refine ⟨?_, fun q hq => (List.mem_append.mp hq).elim (h1.2 q) (h2.2 q)⟩
  rw [msgItems, List.map_append]
  exact h1.1.append h2.1

theorem VOwn.sublist (hv : VOwn S P h L F) (hs : L1.Sublist L) : ∃ F', F' ≤ F ∧ VOwn S P h L1 F' := by
  obtain ⟨F', hle, ho⟩ := own_sublist hs hv.1
  exact ⟨F', hle, ho, fun q hq => hv.2 q (hs.subset hq)⟩

end

/-! ## The invariant -/

/-- What a goroutine owns, as in `GorOK`. -/
def TGor (S : Schema) (T : Law) (h : Heap) (Fz : Multiset Addr) (i : Nat) (g : Gor) (F : Multiset Addr) : Prop :=
  match g.call with
  | none => VOwn S T.own h g.held F
  | some (op, p) => ∃ Fp Fh Z, F = Fp + Fh ∧ VOwn S T.own h g.held Fh ∧ (∀ a c, Z a c → h[a]? = some c ∧ (a ∈ Fz ∨ a ∈ Fh)) ∧
      Safe (opCtx S Z op) (opPost S Z op) p h Fp ∧ T.call i op p h Fp Z

variable {S : Schema} {T : Law}

theorem TGor.mono (hT : T.Keeps S) {h h' : Heap} {Fz Fz' : Multiset Addr} {i : Nat} {g : Gor} {F : Multiset Addr} (hg : TGor S T h Fz i g F) (ha : Agree F h h') (hlen : h.length ≤ h'.length)
    (hz : ∀ a ∈ Fz, a ∈ Fz' ∧ h'[a]? = h[a]?) : TGor S T h' Fz' i g F := by
  rcases g with ⟨held, _ | ⟨op, p⟩⟩
  · exact VOwn.frame hT.own hg ha
  · obtain ⟨Fp, Fh, Z, rfl, ho, hZ, hs, hc⟩ := hg
    have hah : Agree Fh h h' := ha.mono (Multiset.le_add_left _ _)
    have hap : Agree Fp h h' := ha.mono (Multiset.le_add_right _ _)
    refine ⟨Fp, Fh, Z, rfl, ho.frame hT.own hah, fun a c hc => ?_, hs.stable hap, hT.calm hc hap hlen⟩
    obtain ⟨hc', hm | hm⟩ := hZ a c hc
    · exact ⟨((hz a hm).2).trans hc', .inl (hz a hm).1⟩
    · exact ⟨(hah a hm).trans hc', .inr hm⟩

/-- What an owner has. -/
def TOwner (S : Schema) (T : Law) (m : Mach) (F : Owner → Multiset Addr) : Owner → Prop
  | .gor i => ∀ g, m.gors[i]? = some g → TGor S T m.st.heap (F .shared) i g (F (.gor i))
  | .pool => VOwn S T.pool m.st.heap m.st.pool (F .pool)
  | .shared => VOwn S T.own m.st.heap m.shared (F .shared)

/-- Objects have one owner at most. -/
structure TInv (S : Schema) (T : Law) (m : Mach) (F : Owner → Multiset Addr) : Prop where
  nodup : ∀ o, (F o).Nodup
  apart : ∀ o o' a, a ∈ F o → a ∈ F o' → o = o'
  inHeap : ∀ o, ∀ a ∈ F o, a < m.st.heap.length
  ok : ∀ o, TOwner S T m F o
  plain : m.st.free = [] ∧ m.st.gets = []

/-- Forgetting what is said besides ownership. -/
theorem TInv.minv {m : Mach} {F : Owner → Multiset Addr} (hm : TInv S T m F) : MInv S m F where
  nodup := hm.nodup
  apart := hm.apart
  inHeap := hm.inHeap
  plain := hm.plain
  ok o := by
    have := hm.ok o
    cases o with
    | gor i =>
      intro g hg
      have := this g hg
      rcases g with ⟨held, _ | ⟨op, p⟩⟩
      · exact this.1
      · obtain ⟨Fp, Fh, Z, hF, ho, hZ, hs, -⟩ := this
        exact ⟨Fp, Fh, Z, hF, ho.1, hZ, hs⟩
    | pool => exact this.1
    | shared => exact this.1

/-- A step changes what is of the owners `A` and allocates. -/
theorem TInv.update (hT : T.Keeps S) {m m' : Mach} {F F' : Owner → Multiset Addr} (hm : TInv S T m F) (A : Owner → Prop)
    (nodup : ∀ o, A o → (F' o).Nodup) (apart : ∀ o o' a, A o → A o' → a ∈ F' o → a ∈ F' o' → o = o') (inHeap : ∀ o, A o → ∀ a ∈ F' o, a < m'.st.heap.length)
    (from' : ∀ o, A o → ∀ a ∈ F' o, (∃ o', A o' ∧ a ∈ F o') ∨ m.st.heap.length ≤ a) (same : ∀ o, ¬ A o → F' o = F o)
    (keep : ∀ a < m.st.heap.length, (∀ o, A o → a ∉ F o) → m'.st.heap[a]? = m.st.heap[a]?) (shared : ∀ a ∈ F .shared, a ∈ F' .shared ∧ m'.st.heap[a]? = m.st.heap[a]?)
    (gors : ∀ i, ¬ A (.gor i) → m'.gors[i]? = m.gors[i]?) (pool : ¬ A .pool → m'.st.pool = m.st.pool) (shared' : ¬ A .shared → m'.shared = m.shared)
    (ok : ∀ o, A o → TOwner S T m' F' o) (plain : m'.st.free = m.st.free ∧ m'.st.gets = m.st.gets) (grow : m.st.heap.length ≤ m'.st.heap.length) : TInv S T m' F' where
  plain := ⟨plain.1.trans hm.plain.1, plain.2.trans hm.plain.2⟩
  nodup o := by
    by_cases ho : A o
    · exact nodup o ho
    · exact same o ho ▸ hm.nodup o
  apart o o' a h1 h2 := by
    by_cases ho : A o <;> by_cases ho' : A o'
    · exact apart o o' a ho ho' h1 h2
    · rw [same o' ho'] at h2
      rcases from' o ho a h1 with ⟨o2, h3, h4⟩ | h3
      · exact absurd (hm.apart _ _ _ h4 h2 ▸ h3) ho'
      · exact absurd (hm.inHeap _ _ h2) (Nat.not_lt.mpr h3)
    · rw [same o ho] at h1
      rcases from' o' ho' a h2 with ⟨o2, h3, h4⟩ | h3
      · exact absurd (hm.apart _ _ _ h4 h1 ▸ h3) ho
      · exact absurd (hm.inHeap _ _ h1) (Nat.not_lt.mpr h3)
    · rw [same o ho] at h1
      rw [same o' ho'] at h2
      exact hm.apart _ _ _ h1 h2
  inHeap o a ha := by
    by_cases ho : A o
    · exact inHeap o ho a ha
    · have ha' : a ∈ F o := same o ho ▸ ha
      have hlt := hm.inHeap o a ha'
      have := keep a hlt fun o' ho' h => absurd (hm.apart _ _ _ h ha' ▸ ho') ho
      rw [List.getElem?_eq_getElem hlt] at this
      exact (List.getElem?_eq_some_iff.mp this).1
  ok o := by
    by_cases ho : A o
    · exact ok o ho
    have hag : Agree (F o) m.st.heap m'.st.heap := fun a ha => keep a (hm.inHeap o a ha) fun o' ho' h => absurd (hm.apart _ _ _ h ha ▸ ho') ho
    have := hm.ok o
    cases o with
    | gor i =>
      intro g hg
      rw [gors i ho] at hg
      rw [same _ ho]
      exact (this g hg).mono hT hag grow shared
    | pool =>
      show VOwn _ _ _ m'.st.pool _
      rw [pool ho, same _ ho]
      exact VOwn.frame hT.pool this hag
    | shared =>
      show VOwn _ _ _ m'.shared _
      rw [shared' ho, same _ ho]
      exact VOwn.frame hT.own this hag

/-- One goroutine does something. -/
theorem TInv.one (hT : T.Keeps S) {m : Mach} {F : Owner → Multiset Addr} (hm : TInv S T m F) {i : Nat} {h' : Heap} {g' : Gor} {F1 : Multiset Addr}
    (nodup : F1.Nodup) (inHeap : ∀ a ∈ F1, a < h'.length) (from' : ∀ a ∈ F1, a ∈ F (.gor i) ∨ m.st.heap.length ≤ a)
    (keep : ∀ a < m.st.heap.length, a ∉ F (.gor i) → h'[a]? = m.st.heap[a]?) (grow : m.st.heap.length ≤ h'.length) (ok : TGor S T h' (F .shared) i g' F1) :
    TInv S T { m with st := { m.st with heap := h' }, gors := m.gors.set i g' } (Function.update F (.gor i) F1) := by
  have hs : ∀ o, ¬ o = .gor i → Function.update F (.gor i) F1 o = F o := fun o ho => Function.update_of_ne ho _ _
  refine hm.update hT (m' := ⟨{ m.st with heap := h' }, m.gors.set i g', m.shared⟩) (· = .gor i) ?_ ?_ ?_ ?_ hs ?_ ?_ ?_ (fun _ => rfl) (fun _ => rfl) ?_ ⟨rfl, rfl⟩ grow
  · rintro o rfl
    rwa [Function.update_self]
  · rintro o o' a rfl rfl _ _
    rfl
  · rintro o rfl
    rwa [Function.update_self]
  · rintro o rfl a ha
    rw [Function.update_self] at ha
    exact (from' a ha).imp (fun h => ⟨_, rfl, h⟩) id
  · exact fun a ha h => keep a ha (h _ rfl)
  · intro a ha
    rw [hs _ (by simp)]
    exact ⟨ha, keep a (hm.inHeap _ a ha) fun h => nomatch hm.apart _ _ _ ha h⟩
  · intro j hj
    exact List.getElem?_set_ne (fun e : i = j => hj (by rw [e]))
  · rintro o rfl g hg
    rw [Function.update_self, hs _ (by simp)]
    rw [List.getElem?_set_self'] at hg
    cases hx : m.gors[i]? with
    | none => rw [hx] at hg; exact nomatch hg
    | some g0 => rw [hx] at hg; cases hg; exact ok

/-- A goroutine and the pools exchange messages. -/
theorem TInv.two (hT : T.Keeps S) {m : Mach} {F : Owner → Multiset Addr} (hm : TInv S T m F) {i : Nat} {pool' : List (Nat × Addr)} {g' : Gor} {F1 P1 : Multiset Addr}
    (hg : i < m.gors.length) (nodup : (F1 + P1).Nodup) (from' : ∀ a ∈ F1 + P1, a ∈ F (.gor i) ∨ a ∈ F .pool) (ok : TGor S T m.st.heap (F .shared) i g' F1)
    (okP : VOwn S T.pool m.st.heap pool' P1) :
    ∃ F', TInv S T { m with st := { m.st with pool := pool' }, gors := m.gors.set i g' } F' := by
  obtain ⟨n1, n2, n3⟩ := Multiset.nodup_add.mp nodup
  have hin : ∀ a ∈ F1 + P1, a < m.st.heap.length := fun a ha => (from' a ha).elim (hm.inHeap _ a) (hm.inHeap _ a)
  refine ⟨fun o => match o with | .gor j => if j = i then F1 else F (.gor j) | .pool => P1 | .shared => F .shared,
    hm.update hT (fun o => o = .gor i ∨ o = .pool) ?_ ?_ ?_ ?_ ?_ (fun _ _ _ => rfl) (fun a ha => ⟨ha, rfl⟩) ?_ (fun h => absurd (.inr rfl) h) (fun _ => rfl) ?_ ⟨rfl, rfl⟩ le_rfl⟩
  · rintro o (rfl | rfl)
    · simpa using n1
    · exact n2
  · rintro o o' b (rfl | rfl) (rfl | rfl) h1 h2
    · rfl
    · simp only [if_pos] at h1
      exact absurd h2 (Multiset.disjoint_left.mp n3 h1)
    · simp only [if_pos] at h2
      exact absurd h1 (Multiset.disjoint_left.mp n3 h2)
    · rfl
  · rintro o (rfl | rfl) b hb
    · simp only [if_pos] at hb
      exact hin b (Multiset.mem_add.mpr (.inl hb))
    · exact hin b (Multiset.mem_add.mpr (.inr hb))
  · rintro o (rfl | rfl) b hb
    · simp only [if_pos] at hb
      exact .inl ((from' b (Multiset.mem_add.mpr (.inl hb))).elim (fun h => ⟨_, .inl rfl, h⟩) fun h => ⟨_, .inr rfl, h⟩)
    · exact .inl ((from' b (Multiset.mem_add.mpr (.inr hb))).elim (fun h => ⟨_, .inl rfl, h⟩) fun h => ⟨_, .inr rfl, h⟩)
  · intro o h'
    cases o with
    | gor j => exact if_neg fun e => h' (.inl (by rw [e]))
    | pool => exact absurd (.inr rfl) h'
    | shared => rfl
  · intro j hj
    exact List.getElem?_set_ne (fun e : i = j => hj (.inl (by rw [e])))
  · rintro o (rfl | rfl)
    · intro g hg'
      simp only [if_pos]
      rw [List.getElem?_set_self hg] at hg'
      cases hg'
      exact ok
    · exact okP

/-- A step of a method. -/
theorem TInv.pstep (hT : T.Keeps S) {m : Mach} {F : Owner → Multiset Addr} (hm : TInv S T m F) {i : Nat} {held : List (Nat × Addr)} {op : Op}
    {p p' : Prog (List (Nat × Addr))} {σ : HState} (hg : m.gors[i]? = some ⟨held, some (op, p)⟩) (hs : PStep m.st p σ p') :
    ∃ F', TInv S T { m with st := σ, gors := m.gors.set i ⟨held, some (op, p')⟩ } F' := by
  obtain ⟨Fp, Fh, Z, hF, ho, hZ, hsafe, hcall⟩ := hm.ok (.gor i) _ hg
  have hl : LInv (opCtx S Z op) m.st.heap Fp := hm.minv.linv hF hZ
  have hsub : ∀ a, a ∈ Fp + Fh → a ∈ F (.gor i) := fun a ha => hF ▸ ha
  have hnd := hm.nodup (.gor i)
  rw [hF] at hnd
  have hdis : ∀ a ∈ Fp, a ∉ Fh := fun a => Multiset.disjoint_left.mp (Multiset.nodup_add.mp hnd).2.2
  have hin : ∀ a ∈ Fp + Fh, a < m.st.heap.length := fun a ha => hm.inHeap _ a (hsub a ha)
  have hZin : ∀ a c, Z a c → a < m.st.heap.length ∧ a ∉ Fp := fun a c hz => ⟨(List.getElem?_eq_some_iff.mp (hZ a c hz).1).1, (hl.fixed a c hz).2⟩
  have hlt : i < m.gors.length := (List.getElem?_eq_some_iff.mp hg).1
  cases hs with
  | @read a c k h =>
    obtain ⟨c', hc, ha, hk⟩ := hsafe _ (.refl _ _) hl
    rw [h] at hc
    cases hc
    exact ⟨_, hm.one hT (F1 := Fp + Fh) hnd hin (fun a ha => .inl (hsub a ha)) (fun _ _ _ => rfl) le_rfl ⟨Fp, Fh, Z, rfl, ho, hZ, hk, hT.read hcall h ha hl⟩⟩
  | @fault a k h =>
    obtain ⟨c', hc, -⟩ := hsafe _ (.refl _ _) hl
    rw [h] at hc
    exact nomatch hc
  | @write a c k =>
    obtain ⟨ha, hk⟩ := hsafe _ (.refl _ _) hl
    have hne : ∀ b, b ∉ Fp → (m.st.heap.set a c)[b]? = m.st.heap[b]? := fun b hb => List.getElem?_set_ne (fun e : a = b => hb (e ▸ ha))
    refine ⟨_, hm.one hT (F1 := Fp + Fh) hnd (fun b hb => by rw [List.length_set]; exact hin b hb) (fun a ha => .inl (hsub a ha))
      (fun b _ hb => hne b fun h => hb (hsub b (Multiset.mem_add.mpr (.inl h)))) (by rw [List.length_set])
      ⟨Fp, Fh, Z, rfl, ho.frame hT.own fun b hb => hne b fun h => hdis b h hb, fun b d hz => ⟨?_, (hZ b d hz).2⟩, hk, hT.write hcall ha hl⟩⟩
    rw [hne b (hZin b d hz).2]
    exact (hZ b d hz).1
  | @alloc c k =>
    rw [HState.grow_nofree hm.plain.1, HState.next_nofree hm.plain.1]
    have hk := hsafe _ (.refl _ _) hl
    have hold : ∀ b < m.st.heap.length, (m.st.heap ++ [c m.st.heap.length])[b]? = m.st.heap[b]? := fun b hb => List.getElem?_append_left hb
    refine ⟨_, hm.one hT (F1 := m.st.heap.length ::ₘ Fp + Fh) ?_ ?_ ?_ (fun b hb _ => hold b hb) (by rw [List.length_append]; exact Nat.le_add_right _ _)
      ⟨_, Fh, Z, rfl, ho.frame hT.own fun b hb => hold b (hin b (Multiset.mem_add.mpr (.inr hb))), fun b d hz => ⟨?_, (hZ b d hz).2⟩, hk, hT.alloc hcall hl⟩⟩
    · rw [Multiset.cons_add]
      exact Multiset.nodup_cons.mpr ⟨fun h => absurd (hin _ h) (Nat.lt_irrefl _), hnd⟩
    · intro b hb
      rw [Multiset.cons_add] at hb
      rw [List.length_append, List.length_singleton]
      rcases Multiset.mem_cons.mp hb with rfl | hb
      · exact Nat.lt_succ_self _
      · exact Nat.lt_succ_of_lt (hin b hb)
    · intro b hb
      rw [Multiset.cons_add] at hb
      rcases Multiset.mem_cons.mp hb with rfl | hb
      · exact .inr le_rfl
      · exact .inl (hsub b hb)
    · rw [hold b (hZin b d hz).1]
      exact (hZ b d hz).1
  | @got want t a k hw h =>
    rw [hm.minv.asked]
    obtain ⟨hng, -, hk⟩ := hsafe _ (.refl _ _) hl
    have hpool : VOwn S T.pool m.st.heap m.st.pool (F .pool) := hm.ok .pool
    obtain ⟨G, P', hP, oG, oP⟩ := (hpool.perm (List.perm_cons_erase h)).split (L1 := [_])
    have hpn := hm.nodup .pool
    rw [hP] at hpn
    have hinP : ∀ a ∈ G + P', a ∈ F .pool := fun a ha => hP ▸ ha
    have hpg : ∀ a, a ∈ G + P' → a ∈ Fp + Fh → False := fun a h1 h2 => nomatch hm.apart _ _ _ (hinP a h1) (hsub a h2)
    have hGn : (G + (Fp + Fh)).Nodup := Multiset.nodup_add.mpr ⟨(Multiset.nodup_add.mp hpn).1, hnd, Multiset.disjoint_left.mpr fun {a} h1 h2 => hpg a (Multiset.mem_add.mpr (.inl h1)) h2⟩
    have hl' : LInv (opCtx S Z op) m.st.heap (G + Fp) := by
      refine ⟨fun _ h => h, Multiset.nodup_of_le ?_ hGn, fun b hb => ?_, fun b d hz => ⟨(hZ b d hz).1, fun hb => ?_⟩⟩
      · rw [← add_assoc]; exact Multiset.le_add_right _ _
      · rcases Multiset.mem_add.mp hb with hb | hb
        · exact hm.inHeap .pool b (hinP b (Multiset.mem_add.mpr (.inl hb)))
        · exact hin b (Multiset.mem_add.mpr (.inl hb))
      · rcases Multiset.mem_add.mp hb with hb | hb
        · have hb' := hinP b (Multiset.mem_add.mpr (.inl hb))
          rcases (hZ b d hz).2 with h1 | h1
          · exact nomatch hm.apart _ _ _ h1 hb'
          · exact nomatch hm.apart _ _ _ (hsub b (Multiset.mem_add.mpr (.inr h1))) hb'
        · exact (hZin b d hz).2 hb
    have oG1 : OwnL S .none m.st.heap [(.msg t, .ptr a)] G := oG.1
    refine hm.two hT (F1 := G + Fp + Fh) (P1 := P') hlt ?_ ?_ ⟨G + Fp, Fh, Z, rfl, ho, hZ, hk a G oG1 hl', hT.got hcall hw hng (oG.2 _ (List.mem_singleton_self _)) oG1 hl'⟩ oP
    · refine Multiset.nodup_add.mpr ⟨by rwa [add_assoc], (Multiset.nodup_add.mp hpn).2.1, Multiset.disjoint_left.mpr fun {b} h1 h2 => ?_⟩
      rw [add_assoc] at h1
      rcases Multiset.mem_add.mp h1 with h1 | h1
      · exact Multiset.disjoint_left.mp (Multiset.nodup_add.mp hpn).2.2 h1 h2
      · exact hpg b (Multiset.mem_add.mpr (.inr h2)) h1
    · intro b hb
      rcases Multiset.mem_add.mp hb with hb | hb
      · rw [add_assoc] at hb
        rcases Multiset.mem_add.mp hb with hb | hb
        · exact .inr (hinP b (Multiset.mem_add.mpr (.inl hb)))
        · exact .inl (hsub b hb)
      · exact .inr (hinP b (Multiset.mem_add.mpr (.inr hb)))
  | @miss want t k =>
    rw [hm.minv.asked]
    obtain ⟨-, hk, -⟩ := hsafe _ (.refl _ _) hl
    exact ⟨_, hm.one hT (F1 := Fp + Fh) hnd hin (fun a ha => .inl (hsub a ha)) (fun _ _ _ => rfl) le_rfl ⟨Fp, Fh, Z, rfl, ho, hZ, hk, hT.miss hcall⟩⟩
  | @put t a k =>
    obtain ⟨hgv, G, F1, rfl, oG, hk⟩ := hsafe _ (.refl _ _) hl
    obtain ⟨hblank, hcall'⟩ := hT.put hcall hgv oG hk hl
    have hpg : ∀ a, a ∈ F .pool → a ∈ G + F1 + Fh → False := fun a h1 h2 => nomatch hm.apart _ _ _ h1 (hsub a h2)
    have hpool : VOwn S T.pool m.st.heap m.st.pool (F .pool) := hm.ok .pool
    refine hm.two hT (F1 := F1 + Fh) (P1 := G + F .pool) hlt ?_ ?_ ⟨F1, Fh, Z, rfl, ho, hZ, hk, hcall'⟩
      (VOwn.append (L1 := [(t, a)]) ⟨oG, fun q hq => by rw [List.mem_singleton.mp hq]; exact hblank⟩ hpool)
    · have e : F1 + Fh + (G + F .pool) = G + F1 + Fh + F .pool := by rw [← add_assoc, add_comm (F1 + Fh) G, ← add_assoc]
      rw [e]
      exact Multiset.nodup_add.mpr ⟨hnd, hm.nodup .pool, Multiset.disjoint_left.mpr fun {b} h1 h2 => hpg b h2 h1⟩
    · intro b hb
      rcases Multiset.mem_add.mp hb with hb | hb
      · refine .inl (hsub b ?_)
        rw [add_assoc]
        exact Multiset.mem_add.mpr (.inr hb)
      · rcases Multiset.mem_add.mp hb with hb | hb
        · exact .inl (hsub b (Multiset.mem_add.mpr (.inl (Multiset.mem_add.mpr (.inl hb)))))
        · exact .inr hb

/-! ## Other steps -/

/-- What a call that begins relies on: memory that is common, or that the goroutine holds. -/
def callZ (h : Heap) (Fz Fh : Multiset Addr) : Addr → Cell → Prop := fun a c => h[a]? = some c ∧ (a ∈ Fz ∨ a ∈ Fh)

theorem TInv.call (hT : T.Keeps S) (hS : schemaOK S = true) {m : Mach} {F : Owner → Multiset Addr} (hm : TInv S T m F) {i : Nat} (n : Nat) {held : List (Nat × Addr)} {op : Op}
    (hg : m.gors[i]? = some ⟨held, none⟩) (ha : op.permitted S held m.shared)
    (hb : ∀ F1 F2, VOwn S T.own m.st.heap op.takes F1 → VOwn S T.own m.st.heap (op.takes.foldl List.erase held) F2 → VOwn S T.own m.st.heap m.shared (F .shared) →
      (F1 + F2 + F .shared).Nodup → T.call i op (op.prog S n) m.st.heap F1 (callZ m.st.heap (F .shared) F2)) :
    ∃ F', TInv S T { m with gors := m.gors.set i ⟨op.takes.foldl List.erase held, some (op, op.prog S n)⟩ } F' := by
  have ho : VOwn S T.own m.st.heap held (F (.gor i)) := hm.ok (.gor i) _ hg
  obtain ⟨F1, F2, hF, o1, o2⟩ := (ho.perm (takes_perm ha)).split
  refine ⟨_, hm.one hT (F1 := F (.gor i)) (hm.nodup _) (hm.inHeap _) (fun a ha => .inl ha) (fun _ _ _ => rfl) le_rfl
    ⟨F1, F2, callZ m.st.heap (F .shared) F2, hF, o2, fun _ _ h => h, ?_, hb F1 F2 o1 o2 (hm.ok .shared) ?_⟩⟩
  · refine tri_op hS ha (h0 := m.st.heap) (fun E t a e => ?_) n [] _ _ (by simpa using o1.1) (hm.minv.linv hF fun _ _ h => h)
    subst e
    rcases ha.1 with h | h
    · obtain ⟨F', hle, hF'⟩ := own_sub o2.1 (q := (t, a)) h
      exact ⟨F', hF', fun x hx c hc => ⟨hc, .inr (Multiset.mem_of_le hle hx)⟩⟩
    · obtain ⟨F', hle, hF'⟩ := own_sub (hm.ok .shared).1 (q := (t, a)) h
      exact ⟨F', hF', fun x hx c hc => ⟨hc, .inl (Multiset.mem_of_le hle hx)⟩⟩
  · rw [← hF]
    exact Multiset.nodup_add.mpr ⟨hm.nodup _, hm.nodup _, Multiset.disjoint_left.mpr fun {a} h1 h2 => nomatch hm.apart _ _ _ h1 h2⟩

/-- A method is at its end. -/
theorem TInv.done (hT : T.Keeps S) {m : Mach} {F : Owner → Multiset Addr} (hm : TInv S T m F) {i : Nat} {held l : List (Nat × Addr)} {op : Op} {r : Res (List (Nat × Addr))}
    (hg : m.gors[i]? = some ⟨held, some (op, .done r)⟩) (hl : (r = .ok l) ∨ ((∀ l, r ≠ .ok l) ∧ l = op.left)) :
    ∃ F', TInv S T { m with gors := m.gors.set i ⟨l ++ held, none⟩ } F' := by
  obtain ⟨Fp, Fh, Z, hF, ho, hZ, hsafe, hcall⟩ := hm.ok (.gor i) _ hg
  have hli : LInv (opCtx S Z op) m.st.heap Fp := hm.minv.linv hF hZ
  obtain ⟨F', hle, h1, h2⟩ := hsafe _ (.refl _ _) hli
  have ol : OwnL S .none m.st.heap (msgItems l) F' := by
    rcases hl with rfl | ⟨hr, rfl⟩
    · simpa using h1 l rfl
    · simpa using h2 hr
  have hle' : F' + Fh ≤ F (.gor i) := hF ▸ add_le_add_left hle Fh
  refine ⟨_, hm.one hT (F1 := F' + Fh) (Multiset.nodup_of_le hle' (hm.nodup _)) (fun a ha => hm.inHeap _ a (Multiset.mem_of_le hle' ha)) (fun a ha => .inl (Multiset.mem_of_le hle' ha)) (fun _ _ _ => rfl) le_rfl ?_⟩
  exact VOwn.append ⟨ol, hT.ret hcall hl hle ol hli⟩ ho

/-- Messages change hands: from the goroutine `i` to the owner `o`. -/
theorem TInv.give (hT : T.Keeps S) {m : Mach} {F : Owner → Multiset Addr} (hm : TInv S T m F) {i : Nat} {held H rest : List (Nat × Addr)} (hg : m.gors[i]? = some ⟨held, none⟩)
    (split : held.Perm (H ++ rest)) (o : Owner) (hio : o ≠ .gor i) (hop : o ≠ .pool) {gors' : List Gor} {shared' : List (Nat × Addr)}
    (hi : gors'[i]? = some ⟨rest, none⟩) (hsame : ∀ j, j ≠ i → o ≠ .gor j → gors'[j]? = m.gors[j]?) (hsh : o ≠ .shared → shared' = m.shared)
    (hto : ∀ G, VOwn S T.own m.st.heap H G → match o with
      | .gor j => ∃ G', (∀ a, a ∈ G' → a ∈ G + F o) ∧ ((G + F o).Nodup → G'.Nodup) ∧ ∀ g, gors'[j]? = some g → TGor S T m.st.heap (F .shared) j g G'
      | .pool => False
      | .shared => VOwn S T.own m.st.heap shared' (G + F .shared)) :
    ∃ F', TInv S T { m with gors := gors', shared := shared' } F' := by
  have ho : VOwn S T.own m.st.heap held (F (.gor i)) := hm.ok (.gor i) _ hg
  obtain ⟨G, R, hF, oG, oR⟩ := (ho.perm split).split
  have hnd := hm.nodup (.gor i)
  rw [hF] at hnd
  have hsub : ∀ a, a ∈ G + R → a ∈ F (.gor i) := fun a ha => hF ▸ ha
  have hGo : (G + F o).Nodup := Multiset.nodup_add.mpr ⟨(Multiset.nodup_add.mp hnd).1, hm.nodup o,
    Multiset.disjoint_left.mpr fun {a} h1 h2 => hio (hm.apart _ _ _ h2 (hsub a (Multiset.mem_add.mpr (.inl h1))))⟩
  obtain ⟨G', hG1, hG2, hG3⟩ : ∃ G', (∀ a, a ∈ G' → a ∈ G + F o) ∧ G'.Nodup ∧ (match o with
      | .gor j => ∀ g, gors'[j]? = some g → TGor S T m.st.heap (F .shared) j g G'
      | .pool => False
      | .shared => G' = G + F .shared ∧ VOwn S T.own m.st.heap shared' G') := by
    have := hto G oG
    cases o with
    | gor j =>
      obtain ⟨G', h1, h2, h3⟩ := this
      exact ⟨G', h1, h2 hGo, h3⟩
    | pool => exact absurd rfl hop
    | shared => exact ⟨G + F .shared, fun _ h => h, hGo, rfl, this⟩
  have hGR : ∀ a, a ∈ G' → a ∈ R → False := by
    intro a h1 h2
    rcases Multiset.mem_add.mp (hG1 a h1) with h | h
    · exact Multiset.disjoint_left.mp (Multiset.nodup_add.mp hnd).2.2 h h2
    · exact hio (hm.apart _ _ _ h (hsub a (Multiset.mem_add.mpr (.inr h2))))
  have hG4 : ∀ a, a ∈ G' → ∃ o', (o' = .gor i ∨ o' = o) ∧ a ∈ F o' := by
    intro a ha
    rcases Multiset.mem_add.mp (hG1 a ha) with h | h
    · exact ⟨_, .inl rfl, hsub a (Multiset.mem_add.mpr (.inl h))⟩
    · exact ⟨_, .inr rfl, h⟩
  have hR : ∀ a, a ∈ R → a ∈ F (.gor i) := fun a ha => hsub a (Multiset.mem_add.mpr (.inr ha))
  let F' : Owner → Multiset Addr := Function.update (Function.update F (.gor i) R) o G'
  have e1 : F' (.gor i) = R := by
    show Function.update _ _ _ _ = _
    rw [Function.update_of_ne hio.symm, Function.update_self]
  have e2 : F' o = G' := Function.update_self _ _ _
  have hsh' : ∀ a ∈ F .shared, a ∈ F' .shared := by
    intro a ha
    by_cases h : o = .shared
    · subst h
      rw [e2, hG3.1]
      exact Multiset.mem_add.mpr (.inr ha)
    · show a ∈ Function.update (Function.update F (.gor i) R) o G' .shared
      rw [Function.update_of_ne (fun e => h e.symm), Function.update_of_ne (by simp)]
      exact ha
  refine ⟨F', hm.update hT (fun x => x = .gor i ∨ x = o) ?_ ?_ ?_ ?_ ?_ (fun _ _ _ => rfl) (fun a ha => ⟨hsh' a ha, rfl⟩) ?_ (fun _ => rfl) ?_ ?_ ⟨rfl, rfl⟩ le_rfl⟩
  · rintro x (rfl | rfl)
    · rw [e1]; exact (Multiset.nodup_add.mp hnd).2.1
    · rw [e2]; exact hG2
  · rintro x y a (rfl | rfl) (rfl | rfl) h1 h2
    · rfl
    · rw [e1] at h1
      rw [e2] at h2
      exact (hGR a h2 h1).elim
    · rw [e1] at h2
      rw [e2] at h1
      exact (hGR a h1 h2).elim
    · rfl
  · rintro x (rfl | rfl) a hx
    · rw [e1] at hx; exact hm.inHeap _ a (hR a hx)
    · rw [e2] at hx
      obtain ⟨o', -, h⟩ := hG4 a hx
      exact hm.inHeap _ a h
  · rintro x (rfl | rfl) a hx
    · rw [e1] at hx; exact .inl ⟨_, .inl rfl, hR a hx⟩
    · rw [e2] at hx; exact .inl (hG4 a hx)
  · intro x hx
    show Function.update (Function.update F (.gor i) R) o G' x = _
    rw [Function.update_of_ne (fun e => hx (.inr e)), Function.update_of_ne (fun e => hx (.inl e))]
  · intro j hj
    exact hsame j (fun e => hj (.inl (by rw [e]))) fun e => hj (.inr e.symm)
  · exact fun h => hsh fun e => h (.inr e.symm)
  · rintro x (rfl | rfl)
    · intro g hg'
      rw [hi] at hg'
      cases hg'
      rw [e1]
      exact oR
    · cases x with
      | gor j =>
        intro g hg'
        have := hG3 g hg'
        rw [e2]
        exact this.mono hT (.refl _ _) le_rfl fun a ha => ⟨hsh' a ha, rfl⟩
      | pool => exact absurd rfl hop
      | shared =>
        show VOwn _ _ _ _ (F' .shared)
        rw [e2]
        exact hG3.2

/-- All steps: calls that begin as they should, and code of the program that leaves messages as they should be, are taken as given. -/
theorem TInv.gstep (hT : T.Keeps S) (hS : schemaOK S = true) {m m' : Mach} {F : Owner → Multiset Addr} (hm : TInv S T m F) {who : Option Nat} (hs : GStep S m who m')
    (hb : ∀ i n held op, m.gors[i]? = some ⟨held, none⟩ → op.permitted S held m.shared → who = some i →
      m'.gors[i]? = some ⟨op.takes.foldl List.erase held, some (op, op.prog S n)⟩ → ∀ F1 F2, VOwn S T.own m.st.heap op.takes F1 →
      VOwn S T.own m.st.heap (op.takes.foldl List.erase held) F2 → VOwn S T.own m.st.heap m.shared (F .shared) →
      (F1 + F2 + F .shared).Nodup → T.call i op (op.prog S n) m.st.heap F1 (callZ m.st.heap (F .shared) F2))
    (hu : ∀ i held held', m.gors[i]? = some ⟨held, none⟩ → who = some i → m'.gors[i]? = some ⟨held', none⟩ → ∀ q ∈ held', T.own m'.st.heap q) :
    ∃ F', TInv S T m' F' := by
  cases hs with
  | @call i n held op hg ha =>
    exact hm.call hT hS _ hg ha (hb i n held op hg ha rfl (List.getElem?_set_self (List.getElem?_eq_some_iff.mp hg).1))
  | step hg hp => exact hm.pstep hT hg hp
  | ret hg => exact hm.done hT hg (.inl rfl)
  | fail hr hg => exact hm.done hT hg (.inr ⟨hr, rfl⟩)
  | @use i held H H' rest h' F1 hg split keep grow own nodup within =>
    have ho : VOwn S T.own m.st.heap held (F (.gor i)) := hm.ok (.gor i) _ hg
    obtain ⟨G, R, hF, oG, oR⟩ := (ho.perm split).split
    have hnd := hm.nodup (.gor i)
    rw [hF] at hnd
    have hsub : ∀ a, a ∈ G + R → a ∈ F (.gor i) := fun a ha => hF ▸ ha
    have hkeep : ∀ a < m.st.heap.length, a ∉ G → h'[a]? = m.st.heap[a]? := fun a ha hn => keep a ha fun q hq hr => hn (own_reach_none oG.1 hq hr)
    have hfrom : ∀ a ∈ F1, a ∈ G ∨ m.st.heap.length ≤ a := fun a ha => (within a ha).imp (fun ⟨q, hq, hr⟩ => own_reach_none oG.1 hq hr) id
    have hR : ∀ a ∈ R, a < m.st.heap.length ∧ a ∉ G := fun a ha => ⟨hm.inHeap _ a (hsub a (Multiset.mem_add.mpr (.inr ha))),
      fun h => Multiset.disjoint_left.mp (Multiset.nodup_add.mp hnd).2.2 h ha⟩
    have oR' : VOwn S T.own h' rest R := oR.frame hT.own fun a ha => hkeep a (hR a ha).1 (hR a ha).2
    refine ⟨_, hm.one hT (F1 := F1 + R) ?_ ?_ ?_ (fun a ha hn => hkeep a ha fun h => hn (hsub a (Multiset.mem_add.mpr (.inl h)))) grow ?_⟩
    · refine Multiset.nodup_add.mpr ⟨nodup, (Multiset.nodup_add.mp hnd).2.1, Multiset.disjoint_left.mpr fun {a} h1 h2 => ?_⟩
      rcases hfrom a h1 with h | h
      · exact (hR a h2).2 h
      · exact absurd (hR a h2).1 (Nat.not_lt.mpr h)
    · intro a ha
      rcases Multiset.mem_add.mp ha with ha | ha
      · exact own.inHeap a ha
      · exact oR'.1.inHeap a ha
    · intro a ha
      rcases Multiset.mem_add.mp ha with ha | ha
      · exact (hfrom a ha).imp (fun h => hsub a (Multiset.mem_add.mpr (.inl h))) id
      · exact .inl (hsub a (Multiset.mem_add.mpr (.inr ha)))
    · refine VOwn.append ⟨own, fun q hq => ?_⟩ oR'
      exact hu i held (H' ++ rest) hg rfl (List.getElem?_set_self (List.getElem?_eq_some_iff.mp hg).1) q (List.mem_append_left _ hq)
  | @drop i held held' hg hsub =>
    have ho : VOwn S T.own m.st.heap held (F (.gor i)) := hm.ok (.gor i) _ hg
    obtain ⟨F', hle, ho⟩ := ho.sublist hsub
    exact ⟨_, hm.one hT (Multiset.nodup_of_le hle (hm.nodup _)) (fun a ha => hm.inHeap _ a (Multiset.mem_of_le hle ha)) (fun a ha => .inl (Multiset.mem_of_le hle ha)) (fun _ _ _ => rfl) le_rfl ho⟩
  | @go i held H rest hg split =>
    have hlt : i < m.gors.length := (List.getElem?_eq_some_iff.mp hg).1
    refine hm.give hT hg split (.gor m.gors.length) (by simpa using Nat.ne_of_gt hlt) (by simp) ?_ ?_ (fun _ => rfl) ?_
    · rw [List.getElem?_append_left (by simpa using hlt), List.getElem?_set_self hlt]
    · intro j hj hj'
      have hj' : j ≠ m.gors.length := fun e => hj' (by rw [e])
      rcases Nat.lt_or_ge j m.gors.length with h | h
      · rw [List.getElem?_append_left (by simpa using h), List.getElem?_set_ne (fun e => hj e.symm)]
      · rw [List.getElem?_eq_none (by simp; omega), List.getElem?_eq_none h]
    · intro G hG
      refine ⟨G, fun a ha => Multiset.mem_add.mpr (.inl ha), fun h => (Multiset.nodup_add.mp h).1, fun g hg' => ?_⟩
      rw [List.getElem?_append_right (by simp), List.length_set, Nat.sub_self] at hg'
      cases hg'
      exact hG
  | @send i j held other rest q hi hj hij split =>
    have hlt : i < m.gors.length := (List.getElem?_eq_some_iff.mp hi).1
    have hltj : j < m.gors.length := (List.getElem?_eq_some_iff.mp hj).1
    refine hm.give hT hi (H := [q]) split (.gor j) (by simpa using hij.symm) (by simp) ?_ ?_ (fun _ => rfl) ?_
    · rw [List.getElem?_set_ne hij.symm, List.getElem?_set_self hlt]
    · intro k hk hk'
      rw [List.getElem?_set_ne (fun e => hk' (by rw [e])), List.getElem?_set_ne (fun e => hk e.symm)]
    · intro G hG
      refine ⟨G + F (.gor j), fun _ h => h, fun h => h, fun g hg' => ?_⟩
      rw [List.getElem?_set_self (by simpa using hltj)] at hg'
      cases hg'
      exact VOwn.append (L1 := [q]) hG (hm.ok (.gor j) _ hj)
  | @share i held H rest hg split =>
    have hlt : i < m.gors.length := (List.getElem?_eq_some_iff.mp hg).1
    refine hm.give hT hg split .shared (by simp) (by simp) (List.getElem?_set_self hlt) (fun j hj _ => List.getElem?_set_ne (fun e => hj e.symm)) (fun h => absurd rfl h) ?_
    intro G hG
    exact VOwn.append hG (hm.ok .shared)
  | @gc pool hsub =>
    have hpool : VOwn S T.pool m.st.heap m.st.pool (F .pool) := hm.ok .pool
    obtain ⟨P, hle, ho⟩ := hpool.sublist hsub
    have e : ∀ o, ¬ o = .pool → Function.update F .pool P o = F o := fun o ho => Function.update_of_ne ho _ _
    refine ⟨Function.update F .pool P, hm.update hT (· = .pool) ?_ ?_ ?_ ?_ e (fun _ _ _ => rfl) (fun a ha => ⟨by rw [e _ (by simp)]; exact ha, rfl⟩) (fun _ _ => rfl) (fun h => absurd rfl h) (fun _ => rfl) ?_ ⟨rfl, rfl⟩ le_rfl⟩
    · rintro o rfl
      rw [Function.update_self]
      exact Multiset.nodup_of_le hle (hm.nodup _)
    · rintro o o' a rfl rfl _ _
      rfl
    · rintro o rfl a ha
      rw [Function.update_self] at ha
      exact hm.inHeap _ a (Multiset.mem_of_le hle ha)
    · rintro o rfl a ha
      rw [Function.update_self] at ha
      exact .inl ⟨_, rfl, Multiset.mem_of_le hle ha⟩
    · rintro o rfl
      show VOwn _ _ _ _ (Function.update F .pool P .pool)
      rw [Function.update_self]
      exact ho

theorem tinv_start (S : Schema) (T : Law) : TInv S T .start (fun _ => 0) where
  plain := ⟨rfl, rfl⟩
  nodup _ := Multiset.nodup_zero
  apart _ _ _ h := absurd h (Multiset.notMem_zero _)
  inHeap _ _ h := absurd h (Multiset.notMem_zero _)
  ok o := by
    cases o with
    | gor i =>
      intro g hg
      rcases i with _ | i
      · cases hg
        exact ⟨.done, fun _ h => nomatch h⟩
      · exact nomatch hg
    | pool => exact ⟨.done, fun _ h => nomatch h⟩
    | shared => exact ⟨.done, fun _ h => nomatch h⟩

end Vtp.Conc
