import Verif.Lemmas.ConcLook
import Verif.Props.HeapVal
/-!
# Methods that only look at messages, on memory and by several goroutines

`SizeVT`, `MarshalVT`, `MarshalVTStrict` and `EqualVT` as code that reads objects of memory one by one.
-/

namespace Vtp.Props
open Spec Conc

/-! ## Alone -/

/-- `SizeVT` of a message in memory is the size of the value it stands for; it changes nothing. -/
theorem size_on_memory {S : Schema} {R : Runtime} (hS : schemaOK S = true) {B : Bufs} {t : Nat} (hf : (S.msg t).foreign = false) {x : HV} {v : Val} {F : Multiset Addr} {σ : HState}
    (hv : RepL S B σ.heap [(.msg t, x, v)] F) (hb : ∀ a b, B.mem a = some b → σ.heap[a]? = some (.bytes b)) {n : Nat} (hn : v.depth < n) :
    (hsizeN ⟨S, R⟩ n t x).run σ = (σ, .ok (sizeVT ⟨S, R⟩ t v)) := by
  have h1 := gives_sizeN (R := R) hS n t x v hf (at_rep hv) hn
  rw [sizeN_eq _ (Nat.le_of_lt hn)] at h1
  exact h1.run (sees_heap hb)

/-- `MarshalVT` of a message in memory returns what it returns for the value it stands for; it changes nothing. -/
theorem marshal_on_memory {S : Schema} {R : Runtime} (hS : schemaOK S = true) {B : Bufs} (strict : Bool) {t : Nat} (hf : (S.msg t).foreign = false) {x : HV} {v : Val}
    {F : Multiset Addr} {σ : HState} (hv : RepL S B σ.heap [(.msg t, x, v)] F) (hb : ∀ a b, B.mem a = some b → σ.heap[a]? = some (.bytes b)) {n : Nat} (hn : v.depth < n) :
    (hmarshalVT ⟨S, R⟩ strict n t x).run σ = (σ, marshalVT ⟨S, R⟩ strict t v) :=
  (gives_marshalVT (strict := strict) hS hf (at_rep hv) hn).run (sees_heap hb)

/-- `EqualVT` of two messages in memory that do not share objects returns what it returns for the values they stand for; it changes nothing. -/
theorem equal_on_memory {S : Schema} {R : Runtime} (hS : schemaOK S = true) {B : Bufs} {t : Nat} (hf : (S.msg t).foreign = false) {x y : HV} {v w : Val} {F G : Multiset Addr}
    {σ : HState} (hv : RepL S B σ.heap [(.msg t, x, v)] F) (hw : RepL S B σ.heap [(.msg t, y, w)] G) (hd : ∀ a, a ∈ F → a ∉ G)
    (hb : ∀ a b, B.mem a = some b → σ.heap[a]? = some (.bytes b)) {n : Nat} (hn : v.depth < n) (hn' : w.depth < n) :
    (hequalN ⟨S, R, fun _ => false⟩ n t (.at x) (.at y)).run σ = (σ, equalVT ⟨S, R, fun _ => false⟩ t v w) := by
  have h1 := gives_equalN (R := R) (F1 := (· ∈ F)) (F2 := (· ∈ G)) (B := B) (h := σ.heap) (fun a => hd a) hS n [] t (.at x) (.at y) v w hf (.inl ⟨_, rfl, at_rep hv⟩) (.inl ⟨_, rfl, at_rep hw⟩)
  rw [equalN_eq _ hn hn'] at h1
  exact h1.run (sees_heap hb)

/-- A message is equal to itself, whatever is in memory. -/
theorem equal_itself {C : CEnv} {n t : Nat} {a : Addr} {σ : HState} : (hequalN C (n + 1) t (.at (.ptr a)) (.at (.ptr a))).run σ = (σ, .ok true) := by
  unfold hequalN
  simp only [Src.same, HV.same, beq_self_eq_true, if_true]
  rfl

/-! ## Several goroutines -/

variable {E : Env}

/-- Those who look do not interfere: programs get to the same machines as without them, for which everything else is proved. -/
theorem lookers_change_nothing (hS : schemaOK E.S = true) {m : RMach} (hm : RReach E m) :
    GReach E.S m.base ∧ ∀ i l p, m.looks i = some (l, p) → p.writes = none ∧ ∀ σ p', PStep m.base.st p σ p' → σ = m.base.st := by
  refine ⟨(rinv hS hm).base, fun i l p hl => ?_⟩
  obtain ⟨r, h1⟩ := (rinv hS hm).looks i l p hl
  exact ⟨h1.gives.writes, fun σ p' hs => (h1.pstep hs).1⟩

/-- No goroutine is about to write what another one is about to read or write. -/
theorem lookers_do_not_race (hS : schemaOK E.S = true) {m : RMach} (hm : RReach E m) {i j : Nat} (hij : i ≠ j) {a : Addr} (hw : m.writesNext i a) :
    ¬ (m.readsNext j a ∨ m.writesNext j a) := by
  have hi := rinv hS hm
  have hlw : ∀ k b, ¬ ∃ l p, m.looks k = some (l, p) ∧ p.writes = some b := by
    rintro k b ⟨l, p, h1, h2⟩
    obtain ⟨r, h3⟩ := hi.looks k l p h1
    rw [h3.gives.writes] at h2
    cases h2
  obtain ⟨held, op, p, hg, hp⟩ := hw.resolve_right (hlw i a)
  rintro ((⟨held', op', p', hg', hp'⟩ | ⟨l, p', hl, hp'⟩) | hw')
  · exact no_data_race hS hi.base ⟨i, j, _, _, _, _, _, _, a, hij, hg, hg', rfl, rfl, hp, .inr hp'⟩
  · obtain ⟨r, ⟨held', hg', ha⟩, h3⟩ := hi.looks j l p' hl
    obtain ⟨c, h4⟩ := h3.reads hp'
    rcases h4 with ⟨⟨q, hq, hr⟩, -⟩ | ⟨b, h5, -⟩
    · obtain ⟨k1, k2, -⟩ := call_stays_inside hS hi.base hg
      rcases ha q hq with h | h
      · exact (k1 a (.inr hp)).2 j _ hij.symm hg' q h hr
      · exact k2 a hp q (.inl h) hr
    · cases h5
  · obtain ⟨held', op', p', hg', hp'⟩ := hw'.resolve_right (hlw j a)
    exact no_data_race hS hi.base ⟨i, j, _, _, _, _, _, _, a, hij, hg, hg', rfl, rfl, hp, .inl hp'⟩

/-- A call that looks at messages returns what it returns for the values they stood for when it began, whatever the others do in the meantime; nothing of the messages is
changed until it returns. -/
theorem lookers_see_the_value (hS : schemaOK E.S = true) {m : RMach} (hm : RReach E m) {i n : Nat} {held : List (Nat × Addr)} {l : Look} {r : Res Seen}
    (hg : m.base.gors[i]? = some ⟨held, none⟩) (hl : m.looks i = none) (ha : ∀ q ∈ l.args, q ∈ held ∨ q ∈ m.base.shared) (hr : l.Shows E n m.base.st.heap r)
    {m' : RMach} (hd : RDuring E i { m with looks := Function.update m.looks i (some (l, l.prog E n)) } m') :
    (∃ p, m'.looks i = some (l, p) ∧ p.run m'.base.st = (m'.base.st, r) ∧ ∀ r', p = .done r' → r' = r) ∧
    ∀ q ∈ l.args, ∀ x, Reach m.base.st.heap q.2 x → m'.base.st.heap[x]? = m.base.st.heap[x]? := by
  have key : RReach E m' ∧ (∃ p, m'.looks i = some (l, p) ∧ Looking m'.base i l p r) ∧
      ∀ q ∈ l.args, ∀ x, Reach m.base.st.heap q.2 x → m'.base.st.heap[x]? = m.base.st.heap[x]? ∧ Reach m'.base.st.heap q.2 x := by
    induction hd with
    | refl =>
      refine ⟨.step hm (.look hg hl ha ⟨r, hr⟩), ⟨l.prog E n, by simp, ⟨held, hg, ha⟩, look_gives hS hr (args_apart hS (rinv hS hm).base hg ha)⟩, fun q _ x hx => ⟨rfl, hx⟩⟩
    | @tail m1 m2 who _ hs hi ih =>
      obtain ⟨h1, ⟨p, h2, h3⟩, h4⟩ := ih
      refine ⟨.step h1 hs, ?_⟩
      have hb := (rinv hS h1).base
      cases hs with
      | @base _ b hs free =>
        have hw : who ≠ some i := fun e => by rw [free i e] at h2; cases h2
        refine ⟨⟨p, h2, h3.gstep hS hb hs hw⟩, fun q hq x hx => ?_⟩
        obtain ⟨h5, h6⟩ := h4 q hq x hx
        obtain ⟨⟨held1, hg1, ha1⟩, -⟩ := h3
        have hk : ∀ y, Reach m1.base.st.heap q.2 y → b.st.heap[y]? = m1.base.st.heap[y]? := fun y hy => (near_constant hS hb hs hw hg1 ha1 y ⟨q, hq, hy⟩).1
        exact ⟨(hk x h6).trans h5, reach_agree hk h6⟩
      | @look j n' held' l' hg' hl' ha' hr' =>
        have hji : i ≠ j := fun e => by subst e; rw [hl'] at h2; cases h2
        exact ⟨⟨p, by simp only [Function.update_of_ne hji]; exact h2, h3⟩, h4⟩
      | @step j l' q q' σ hl' hs =>
        obtain ⟨r', h5⟩ := (rinv hS h1).looks j l' q hl'
        by_cases hji : i = j
        · subst hji
          rw [h2] at hl'
          cases hl'
          obtain ⟨rfl, h6⟩ := h3.pstep hs
          exact ⟨⟨q', by simp, h6⟩, h4⟩
        · obtain ⟨rfl, -⟩ := h5.pstep hs
          exact ⟨⟨p, by simp only [Function.update_of_ne hji]; exact h2, h3⟩, h4⟩
      | @seen j l' r' hl' =>
        have hji : i ≠ j := fun e => by subst e; simp at hi
        exact ⟨⟨p, by simp only [Function.update_of_ne hji]; exact h2, h3⟩, h4⟩
  obtain ⟨-, ⟨p, h1, h2⟩, h3⟩ := key
  refine ⟨⟨p, h1, h2.gives.run sees_none, fun r' e => ?_⟩, fun q hq x hx => (h3 q hq x hx).1⟩
  have h4 := h2.gives
  rw [e] at h4
  exact h4

/-- Such a call is possible, if memory is as Go makes it, for all messages that the goroutine holds and that are common. -/
theorem lookers_can_look (hS : schemaOK E.S = true) {m : RMach} (hm : RReach E m) (hs : SaneHeap m.base.st.heap) {i : Nat} {held : List (Nat × Addr)}
    (hg : m.base.gors[i]? = some ⟨held, none⟩) {l : Look} (hf : ∀ q ∈ l.args, (E.S.msg q.1).foreign = false) (ha : ∀ q ∈ l.args, q ∈ held ∨ q ∈ m.base.shared) :
    ∃ n r, l.Shows E n m.base.st.heap r := by
  have hb := (rinv hS hm).base
  cases l with
  | size t a =>
    obtain ⟨v, G, hv⟩ := mach_value hS hb hs hg (ha (t, a) (by simp [Look.args]))
    exact ⟨v.depth + 1, _, .size (hf (t, a) (by simp [Look.args])) hv (Nat.lt_succ_self _)⟩
  | marshal strict t a =>
    obtain ⟨v, G, hv⟩ := mach_value hS hb hs hg (ha (t, a) (by simp [Look.args]))
    exact ⟨v.depth + 1, _, .marshal (hf (t, a) (by simp [Look.args])) hv (Nat.lt_succ_self _)⟩
  | equal t a b =>
    by_cases hab : a = b
    · subst hab
      exact ⟨1, _, .same (by decide)⟩
    · obtain ⟨v, G, hv⟩ := mach_value hS hb hs hg (ha (t, a) (by simp [Look.args]))
      obtain ⟨w, G', hw⟩ := mach_value hS hb hs hg (ha (t, b) (by simp [Look.args]))
      exact ⟨max v.depth w.depth + 1, _, .equal (hf (t, a) (by simp [Look.args])) hab hv hw (by omega) (by omega)⟩

/-! ## Examples -/

/-- The machine whose memory is that of the decoded node: that is common, and one goroutine decodes into the other, empty, node. -/
def lookingAt : Mach := ⟨filledNode, [⟨[], some (.decode gdecode 0 [18, 1, 5] 0, Op.prog nodes 4 (.decode gdecode 0 [18, 1, 5] 0))⟩, ⟨[], none⟩], [(0, 1)]⟩

theorem lookingAt_reachable : GReach nodes lookingAt := by
  obtain ⟨F, h1, h2⟩ := filledNode_holds
  have s1 := GReach.step (.start (S := nodes)) (.use (i := 0) (H := []) (rest := []) (H' := [(0, 1), (0, 0)]) (h' := filledNode.heap) rfl (.refl _)
    (fun a ha => (nomatch ha)) (Nat.zero_le _) (rep_own h1) h2.nodup (fun a _ => .inr (Nat.zero_le _)))
  have s2 := GReach.step s1 (.share (i := 0) (H := [(0, 1)]) (rest := [(0, 0)]) rfl (.refl _))
  have s3 := GReach.step s2 (.go (i := 0) (H := []) (rest := [(0, 0)]) rfl (.refl _))
  exact GReach.step s3 (.call (i := 0) (n := 4) (op := .decode gdecode 0 [18, 1, 5] 0) rfl ⟨.head _, rfl, rfl, rfl⟩)

theorem alone_reachable {m : Mach} (hm : GReach E.S m) : RReach E ⟨m, fun _ => none⟩ := by
  induction hm with
  | start => exact .start
  | step _ hs ih => exact .step ih (.base hs fun _ _ => rfl)

abbrev lenv : Env := ⟨nodes, structural⟩

theorem filledNode_rep : ∃ F, RepL nodes .none filledNode.heap [(.msg 0, .ptr 1, nodeOf)] F := by
  obtain ⟨F, h1, -⟩ := filledNode_holds
  obtain ⟨F1, F2, -, h2, -⟩ := RepL.append_iff (I1 := [_]) |>.mp h1
  exact ⟨F1, h2⟩

/-- It is marshalled strictly: the bytes are those that it was decoded from. -/
theorem looking_shows : (Look.marshal true 0 1).Shows lenv 5 filledNode.heap (.ok (.bytes (some nodeBytes))) := by
  obtain ⟨F, h⟩ := filledNode_rep
  have e : (marshalVT lenv true 0 nodeOf >>= fun b => Res.ok (Seen.bytes b)) = .ok (.bytes (some nodeBytes)) := by decide +kernel
  rw [← e]
  exact .marshal rfl h (by decide)

/-- The same code, run alone. -/
example : (hmarshalVT lenv true 5 0 (.ptr 1)).run filledNode = (filledNode, .ok (some nodeBytes)) := by decide +kernel
example : (hmarshalVT lenv false 5 0 (.ptr 1)).run filledNode = (filledNode, .ok (some [10, 3, 18, 1, 5, 26, 2, 40, 7, 58, 1, 65, 34, 0])) := by decide +kernel
example : (hsizeN lenv 5 0 (.ptr 1)).run filledNode = (filledNode, .ok 14) := by decide +kernel
example : (hequalN ⟨nodes, structural, fun _ => false⟩ 5 0 (.at (.ptr 1)) (.at (.ptr 0))).run filledNode = (filledNode, .ok false) := by decide +kernel
example : ∃ F, RepL nodes .none filledNode.heap [(.msg 0, .ptr 1, nodeOf)] F := filledNode_rep

/-- The two nodes do not share objects. -/
example : (hequalN ⟨nodes, structural, fun _ => false⟩ 5 0 (.at (.ptr 1)) (.at (.ptr 0))).run filledNode =
    (filledNode, equalVT ⟨nodes, structural, fun _ => false⟩ 0 nodeOf (zeroMsg nodes 0)) := by
  obtain ⟨F, h1, h2⟩ := filledNode_holds
  obtain ⟨F1, F2, rfl, h3, h4⟩ := RepL.append_iff (I1 := [_]) |>.mp h1
  exact equal_on_memory nodes_ok rfl h3 h4 (fun a => Multiset.disjoint_left.mp (Multiset.nodup_add.mp h2.nodup).2.2) (fun _ _ h => nomatch h) (by decide) (by decide)

theorem filledNode_sane : SaneHeap filledNode.heap := by
  have key : ∀ c ∈ filledNode.heap, (∀ x ∈ Cell.values c, ∀ b off len, x = HV.bytes b off len → b = 4 ∧ off + len ≤ 1) ∧ c ≠ .box .nil ∧ c ≠ .foreign .nil := by
    simp [filledNode, Cell.values, emptyNode]
  intro a c hc
  obtain ⟨h1, h2⟩ := key c (List.mem_of_getElem? hc)
  refine ⟨fun b off len d hx hd => ?_, h2⟩
  obtain ⟨rfl, h3⟩ := h1 _ hx b off len rfl
  cases hd
  exact h3

/-- Everything may be looked at there. -/
example : ∃ n r, (Look.size 0 1).Shows lenv n filledNode.heap r :=
  lookers_can_look (E := lenv) nodes_ok (alone_reachable (E := lenv) lookingAt_reachable) filledNode_sane (i := 1) (held := []) rfl (fun q hq => by
    rcases List.mem_singleton.mp hq with rfl; rfl) (fun _ hq => .inr hq)

/-- Decoding and marshalling under way. -/
def lookingOn : RMach := ⟨lookingAt, Function.update (fun _ => none) 1 (some (.marshal true 0 1, Look.prog lenv 5 (.marshal true 0 1)))⟩

theorem lookingOn_reachable : RReach lenv lookingOn :=
  .step (alone_reachable (E := lenv) lookingAt_reachable) (.look (held := []) rfl rfl (fun _ hq => .inr hq) ⟨_, looking_shows⟩)

/-- The one reads the node it decodes into, the other the common one. -/
example : lookingOn.readsNext 0 0 ∧ lookingOn.readsNext 1 1 :=
  ⟨.inl ⟨_, _, _, rfl, by decide⟩, .inr ⟨_, _, rfl, by decide +kernel⟩⟩

/-- Whatever happens, the second goroutine gets the bytes. -/
example {m' : RMach} (hd : RDuring lenv 1 lookingOn m') {l : Look} {r : Res Seen} (hl : m'.looks 1 = some (l, .done r)) : r = .ok (.bytes (some nodeBytes)) := by
  obtain ⟨⟨p, h1, -, h2⟩, -⟩ := lookers_see_the_value (E := lenv) nodes_ok (alone_reachable (E := lenv) lookingAt_reachable) (held := []) rfl rfl (l := .marshal true 0 1) (fun _ hq => .inr hq) looking_shows hd
  rw [hl] at h1
  cases h1
  exact h2 r rfl

end Vtp.Props
