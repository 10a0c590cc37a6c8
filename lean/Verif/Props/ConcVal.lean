import Verif.Lemmas.ConcVal
import Verif.Props.ConcRead
import Verif.Props.HeapProgram
/-!
# Calls of goroutines do what they do alone (C95)

Any number of goroutines take messages from pools and return them, decode into messages that they hold and clone messages; their steps come in any order. See
`Verif/Spec/ConcVal.lean` for what calls do on values, and for how programs should call the library.
-/

namespace Vtp.Props
open Spec Conc

theorem creach_greach {L : Lib} {m : Mach} (hm : CReach L m) : GReach L.S m := by
  induction hm with
  | start => exact .start
  | step _ hs ih => exact .step ih hs.step

theorem during_creach {L : Lib} {i : Nat} {m m' : Mach} (hd : During L i m m') (hm : CReach L m) : CReach L m' := by
  induction hd with
  | refl => exact hm
  | tail _ hs _ ih => exact .step ih hs

/-- C95: a call does what it does alone, whatever other goroutines do while it is under way and whatever they return to the pools that it takes messages from. If the
message that it is called on stands for `v` when the call begins, the call ends with the outcome that it has on `v`, without memory, pools and other goroutines, and
the messages that the caller then has stand for what comes out of it there; messages decoded into or emptied stay where they are. -/
theorem call_alone_partial {L : Lib} (hL : LibOK L) {m m1 m2 : Mach} (hm : CReach L m) {i : Nat} {held held1 held2 : List (Nat × Addr)} (hg : m.gors[i]? = some ⟨held, none⟩)
    (hs : CStep L m (some i) m1) {op op2 : Op} {p : Prog (List (Nat × Addr))} (hc : m1.gors[i]? = some ⟨held1, some (op, p)⟩) (hd : During L i m1 m2)
    {r : Res (List (Nat × Addr))} (he : m2.gors[i]? = some ⟨held2, some (op2, .done r)⟩) {v : Val} (hv : ∀ q, op.arg = some q → ShowsAt L.S m.st.heap q v) :
    op2 = op ∧ r.outcome = (op.alone L v).1 ∧ op.same <+: op.has r ∧ List.Forall₂ (ShowsAs L.S m2.st.heap) (op.has r) (op.alone L v).2 := by
  obtain ⟨F, hF⟩ := creach_inv hL hm
  have hF' : TInv L.S (valLaw L (inCall i op v)) m F := hF.ghost fun j _ _ _ _ hj _ e => by
    subst e
    rw [hg] at hj
    cases hj
  have h1 := hF'.cstep hL hs fun j _ _ op' p' hj _ _ hj' => by
    cases hj
    rw [hc] at hj'
    cases hj'
    exact ⟨v, fun _ => ⟨rfl, rfl⟩, hv⟩
  obtain ⟨-, F2, h2⟩ := during_inv hL hd ⟨_, _, hc⟩ h1
  obtain ⟨v', hg', h3⟩ := done_shows h2 he
  obtain ⟨rfl, rfl⟩ := hg' rfl
  exact ⟨rfl, h3⟩

/-- C95: calls that begin as they should return, with results or errors; what other goroutines do meanwhile does not make them panic. -/
theorem call_returns_partial {L : Lib} (hL : LibOK L) {m m1 m2 : Mach} (hm : CReach L m) {i : Nat} {held held1 held2 : List (Nat × Addr)} (hg : m.gors[i]? = some ⟨held, none⟩)
    (hs : CStep L m (some i) m1) {op op2 : Op} {p : Prog (List (Nat × Addr))} (hc : m1.gors[i]? = some ⟨held1, some (op, p)⟩) (hd : During L i m1 m2)
    {r : Res (List (Nat × Addr))} (he : m2.gors[i]? = some ⟨held2, some (op2, .done r)⟩) : r.settled = true := by
  have hf := (hs.call i _ _ _ _ rfl hg hc).2
  have key : ∀ v, (∀ q, op.arg = some q → ShowsAt L.S m.st.heap q v) → (op.alone L v).1.settled = true → r.settled = true := fun v hv h => by
    have := (call_alone_partial hL hm hg hs hc hd he hv).2.1
    rw [← this] at h
    cases r <;> simpa [Res.outcome, Res.settled] using h
  cases ha : op.arg with
  | none =>
    refine key .nil (fun _ h => nomatch ha.symm.trans h) ?_
    cases op <;> first | rfl | cases ha
  | some q =>
    obtain ⟨v, h1, h2⟩ := hf.1 q ha
    exact key v (fun q' h => by rw [ha] at h; cases h; exact h1) h2

/-- C95: messages in pools are as new, at all times: also while calls are under way, some of which return messages. -/
theorem pools_as_new_partial {L : Lib} (hL : LibOK L) {m : Mach} (hm : CReach L m) : ∀ q ∈ m.st.pool, ShowsAt L.S m.st.heap q (zeroMsg L.S q.1) := by
  obtain ⟨F, hF⟩ := creach_inv hL hm
  exact (show VOwn L.S _ m.st.heap m.st.pool _ from hF.ok .pool).2

/-- Messages that goroutines hold and common messages stand for values. -/
theorem messages_stand {L : Lib} (hL : LibOK L) {m : Mach} (hm : CReach L m) :
    (∀ q ∈ m.shared, ∃ v, ShowsAt L.S m.st.heap q v) ∧ ∀ (i : Nat) (g : Gor), m.gors[i]? = some g → ∀ q ∈ g.held, ∃ v, ShowsAt L.S m.st.heap q v := by
  obtain ⟨F, hF⟩ := creach_inv hL hm
  refine ⟨(show VOwn L.S _ m.st.heap m.shared _ from hF.ok .shared).2, fun i g hi => ?_⟩
  have := hF.ok (.gor i) g hi
  rcases g with ⟨held, _ | ⟨op, p⟩⟩
  · exact (show VOwn L.S _ m.st.heap held _ from this).2
  · obtain ⟨Fp, Fh, Z, -, ho, -⟩ := this
    exact (show VOwn L.S _ m.st.heap held _ from ho).2

/-- C95: what messages stand for changes only by what their holders do: messages of goroutines other than the one that acts, messages held that a call under way does not
work on, messages in pools and common messages stand for the same values after a step. -/
theorem values_kept {S : Schema} (hS : schemaOK S = true) {m m' : Mach} (hm : GReach S m) {who : Option Nat} (hs : GStep S m who m') {v : Val} :
    (∀ q, q ∈ m.st.pool ∨ q ∈ m.shared → ShowsAt S m.st.heap q v → ShowsAt S m'.st.heap q v) ∧
    ∀ j g, m.gors[j]? = some g → who ≠ some j ∨ g.call ≠ none → ∀ q ∈ g.held, ShowsAt S m.st.heap q v → ShowsAt S m'.st.heap q v := by
  obtain ⟨F, hF⟩ := minv_reach hS hm
  have key : ∀ o, (∀ i, who = some i → o ≠ .gor i) → ∀ x ∈ F o, m'.st.heap[x]? = m.st.heap[x]? := fun o ho x hx =>
    hF.keeps hs x (hF.inHeap o x hx) fun i hi h => ho i hi (hF.apart _ _ _ hx h)
  have move : ∀ {L : List (Nat × Addr)} {G : Multiset Addr}, OwnL S .none m.st.heap (msgItems L) G → (∀ x ∈ G, m'.st.heap[x]? = m.st.heap[x]?) → ∀ q ∈ L,
      ShowsAt S m.st.heap q v → ShowsAt S m'.st.heap q v := fun ho hk q hq hv => by
    obtain ⟨G', hle, hG⟩ := own_sub ho hq
    exact shows_frame hv hG fun a ha => hk a (Multiset.mem_of_le hle ha)
  refine ⟨fun q hq => ?_, fun j g gj hj q hq => ?_⟩
  · rcases hq with hq | hq
    · exact move (hF.ok .pool) (key .pool (by simp)) q hq
    · exact move (hF.ok .shared) (key .shared (by simp)) q hq
  · by_cases hw : who = some j
    · subst hw
      rcases g with ⟨held, call⟩
      rcases call with _ | ⟨op, p⟩
      · exact absurd rfl (hj.resolve_left fun h => h rfl)
      obtain ⟨Fp, Fh, e, o, w, -⟩ := hF.pkeeps gj
      have hn := hF.nodup (.gor j)
      rw [e] at hn
      refine move o (fun x hx => ?_) q hq
      have hnp : x ∉ Fp := fun h => Multiset.disjoint_left.mp (Multiset.nodup_add.mp hn).2.2 h hx
      have hlt := hF.inHeap (.gor j) x (e ▸ Multiset.mem_add.mpr (.inr hx))
      cases hs with
      | step hg hp =>
        rw [gj] at hg
        cases hg
        cases hp with
        | @write b c k => exact List.getElem?_set_ne fun e : b = x => hnp (e ▸ w b rfl)
        | alloc =>
          rw [HState.grow_nofree hF.plain.1]
          exact List.getElem?_append_left hlt
        | got => rw [hF.asked]
        | miss => rw [hF.asked]
        | _ => rfl
      | use hg => rw [gj] at hg; exact nomatch hg
      | _ => rfl
    · obtain ⟨G, hle, ho⟩ := gor_own hF gj
      exact move ho (fun x hx => key (.gor j) (fun i hi e => hw (by cases e; exact hi)) x (Multiset.mem_of_le hle hx)) q hq

/-! ## Calls end -/

/-- The call of a goroutine goes on. -/
theorem call_goes {L : Lib} {m : Mach} {i : Nat} {held : List (Nat × Addr)} {op : Op} {p p' : Prog (List (Nat × Addr))} {σ : HState}
    (hg : m.gors[i]? = some ⟨held, some (op, p)⟩) (hs : PStep m.st p σ p') : CStep L m (some i) { m with st := σ, gors := m.gors.set i ⟨held, some (op, p')⟩ } where
  step := .step hg hs
  call j _ _ _ _ hj h := by cases hj; rw [hg] at h; cases h
  own j _ _ hj h := by cases hj; rw [hg] at h; cases h

theorem call_runs {L : Lib} {i : Nat} {held : List (Nat × Addr)} {op : Op} {p p' : Prog (List (Nat × Addr))} {σ σ' : HState} (hs : PSteps σ p σ' p') :
    ∀ {m0 m : Mach}, During L i m0 m → m.st = σ → m.gors[i]? = some ⟨held, some (op, p)⟩ → During L i m0 { m with st := σ', gors := m.gors.set i ⟨held, some (op, p')⟩ } := by
  induction hs with
  | refl =>
    intro m0 m hd e hg
    subst e
    obtain ⟨hi, h⟩ := List.getElem?_eq_some_iff.mp hg
    rw [← h, List.set_getElem_self]
    exact hd
  | @head _ _ _ _ p1 _ h _ ih =>
    intro m0 m hd e hg
    subst e
    have hi : i < m.gors.length := (List.getElem?_eq_some_iff.mp hg).1
    have hi' : (m.gors.set i ⟨held, some (op, p1)⟩)[i]? = some ⟨held, some (op, p1)⟩ := List.getElem?_set_self hi
    have := ih (.tail hd (call_goes hg h) ⟨_, _, hi'⟩) rfl hi'
    simpa only [List.set_set] using this

/-- C95: a call that is under way can end, without any other goroutine doing anything. -/
theorem call_can_end {L : Lib} {m : Mach} {i : Nat} {held : List (Nat × Addr)} {op : Op} {p : Prog (List (Nat × Addr))} (hg : m.gors[i]? = some ⟨held, some (op, p)⟩) :
    During L i m { m with st := (p.run m.st).1, gors := m.gors.set i ⟨held, some (op, .done (p.run m.st).2)⟩ } :=
  call_runs (run_steps p m.st) .refl rfl hg

/-- Steps make what is left to do shorter. -/
theorem steps_acc {α : Type} (p : Prog α) : Acc (fun p' p : Prog α => ∃ σ σ', PStep σ p σ' p') p := by
  induction p with
  | done r => exact ⟨_, fun _ ⟨_, _, h⟩ => nomatch h⟩
  | read a k ih =>
    refine ⟨_, fun _ ⟨_, _, h⟩ => ?_⟩
    cases h with
    | read _ => exact ih _
    | fault _ => exact ⟨_, fun _ ⟨_, _, h⟩ => nomatch h⟩
  | write a c k ih => exact ⟨_, fun _ ⟨_, _, h⟩ => by cases h; exact ih⟩
  | alloc c k ih => exact ⟨_, fun _ ⟨_, _, h⟩ => by cases h; exact ih _⟩
  | get w t k ih => exact ⟨_, fun _ ⟨_, _, h⟩ => by cases h <;> exact ih _⟩
  | put t a k ih => exact ⟨_, fun _ ⟨_, _, h⟩ => by cases h; exact ih⟩

/-- What others do leaves goroutines in calls as they are. -/
theorem others_leave_calls {S : Schema} {m m' : Mach} {who : Option Nat} (hs : GStep S m who m') {i : Nat} (hi : who ≠ some i) {held : List (Nat × Addr)}
    {c : Op × Prog (List (Nat × Addr))} (hg : m.gors[i]? = some ⟨held, some c⟩) : m'.gors[i]? = some ⟨held, some c⟩ := by
  have set : ∀ {j : Nat} {g : Gor}, some j ≠ some i → (m.gors.set j g)[i]? = some ⟨held, some c⟩ := fun h => (List.getElem?_set_ne fun e => h (congrArg some e)).trans hg
  cases hs with
  | go _ _ => exact List.getElem?_append_left (List.getElem?_eq_some_iff.mp (set hi)).1 |>.trans (set hi)
  | send _ hj _ _ =>
    rw [List.getElem?_set_ne fun e => by subst e; rw [hg] at hj; cases hj]
    exact set hi
  | gc _ => exact hg
  | _ => exact set hi

/-- C95: calls end: a goroutine that is in a call and gets to act again and again does not stay in the call forever, however the steps of goroutines come. -/
theorem calls_end {S : Schema} {f : Nat → Mach} {who : Nat → Option Nat} (hf : ∀ n, GStep S (f n) (who n) (f (n + 1))) {i : Nat} (fair : ∀ n, ∃ n', n ≤ n' ∧ who n' = some i) (n : Nat)
    {g : Gor} (hg : (f n).gors[i]? = some g) : ∃ n', n ≤ n' ∧ ∃ held, (f n').gors[i]? = some ⟨held, none⟩ := by
  rcases g with ⟨held, _ | ⟨op, p⟩⟩
  · exact ⟨n, le_rfl, _, hg⟩
  induction steps_acc p generalizing n with
  | intro p _ ih =>
  obtain ⟨n1, h1, h2⟩ := fair n
  -- the goroutine is in the same place when it acts next, or has acted before
  have wait : ∀ k, (∀ j, j < k → who (n + j) ≠ some i) → (f (n + k)).gors[i]? = some ⟨held, some (op, p)⟩ := by
    intro k
    induction k with
    | zero => exact fun _ => hg
    | succ k ihk => exact fun h => others_leave_calls (hf _) (h k (Nat.lt_succ_self k)) (ihk fun j hj => h j (Nat.lt_succ_of_lt hj))
  have ex : ∃ k, who (n + k) = some i := ⟨n1 - n, by rwa [Nat.add_sub_cancel' h1]⟩
  classical
  have hk := wait (Nat.find ex) fun j hj => Nat.find_min ex hj
  have hw := Nat.find_spec ex
  generalize Nat.find ex = k at hk hw
  have hs := hf (n + k)
  rw [hw] at hs
  have hi : i < (f (n + k)).gors.length := (List.getElem?_eq_some_iff.mp hk).1
  generalize hm' : f (n + k + 1) = m' at hs
  cases hs with
  | step h hp =>
    rw [hk] at h
    cases h
    obtain ⟨n', h3, h4⟩ := ih _ ⟨_, _, hp⟩ (n + k + 1) (by rw [hm']; exact List.getElem?_set_self hi)
    exact ⟨n', Nat.le_trans (Nat.le_trans (Nat.le_add_right n k) (Nat.le_succ _)) h3, h4⟩
  | ret h => exact ⟨n + k + 1, Nat.le_trans (Nat.le_add_right n k) (Nat.le_succ _), _, by rw [hm']; exact List.getElem?_set_self hi⟩
  | fail _ h => exact ⟨n + k + 1, Nat.le_trans (Nat.le_add_right n k) (Nat.le_succ _), _, by rw [hm']; exact List.getElem?_set_self hi⟩
  | call h => rw [hk] at h; cases h
  | use h => rw [hk] at h; cases h
  | drop h => rw [hk] at h; cases h
  | go h => rw [hk] at h; cases h
  | send h => rw [hk] at h; cases h
  | share h => rw [hk] at h; cases h

/-! ## A program -/

/-- A call begins. -/
theorem call_begins {L : Lib} {m : Mach} {i : Nat} {held : List (Nat × Addr)} {op : Op} (hg : m.gors[i]? = some ⟨held, none⟩)
    (hp : op.permitted L.S held m.shared) (hf : op.fits L m.st.heap) :
    CStep L m (some i) { m with gors := m.gors.set i ⟨op.takes.foldl List.erase held, some (op, op.prog L.S (op.limit m.st))⟩ } := by
  have hi : i < m.gors.length := (List.getElem?_eq_some_iff.mp hg).1
  refine ⟨.call hg hp, fun j _ _ op' p hj _ h => ?_, fun j _ _ hj _ h => ?_⟩
  · cases hj
    simp only [List.getElem?_set_self hi] at h
    cases h
    exact ⟨rfl, hf⟩
  · cases hj
    simp only [List.getElem?_set_self hi] at h
    cases h

/-- A call from beginning to end. -/
theorem call_whole {L : Lib} (hL : LibOK L) {m : Mach} {i : Nat} {held : List (Nat × Addr)} {op : Op} (hm : CReach L m) (hg : m.gors[i]? = some ⟨held, none⟩)
    (hp : op.permitted L.S held m.shared) {v : Val} (hv : ∀ q, op.arg = some q → ShowsAt L.S m.st.heap q v) (hf : op.fits L m.st.heap) {σ : HState}
    {l : List (Nat × Addr)} (hr : (op.prog L.S (op.limit m.st)).run m.st = (σ, .ok l)) :
    CReach L { m with st := σ, gors := m.gors.set i ⟨l ++ op.takes.foldl List.erase held, none⟩ } ∧ List.Forall₂ (ShowsAs L.S σ.heap) l (op.alone L v).2 := by
  have hi : i < m.gors.length := (List.getElem?_eq_some_iff.mp hg).1
  have hc := call_begins hg hp hf
  have hd := call_can_end (L := L) (m := { m with gors := m.gors.set i ⟨op.takes.foldl List.erase held, some (op, op.prog L.S (op.limit m.st))⟩ }) (List.getElem?_set_self hi)
  have h2 := during_creach hd (.step hm hc)
  have hs := call_alone_partial hL hm hg hc (List.getElem?_set_self hi) hd (List.getElem?_set_self (by simpa using hi)) hv
  rw [hr] at h2 hs
  simp only [List.set_set] at h2
  have h3 : (m.gors.set i ⟨op.takes.foldl List.erase held, some (op, .done (.ok l))⟩)[i]? = some ⟨_, some (op, .done (.ok l))⟩ := List.getElem?_set_self hi
  refine ⟨?_, hs.2.2.2⟩
  have h4 : CStep L ⟨σ, m.gors.set i ⟨op.takes.foldl List.erase held, some (op, .done (.ok l))⟩, m.shared⟩ (some i) _ := ⟨.ret h3, (fun j _ _ _ _ hj h => by
    cases hj
    rw [h3] at h
    cases h), (fun j _ _ hj h => by
    cases hj
    rw [h3] at h
    cases h)⟩
  simpa only [List.set_set] using CReach.step h2 h4

/-- Code of a goroutine that does not change messages: what it holds afterwards is what it held, or handed out. -/
theorem calm_step {L : Lib} {m m' : Mach} {i : Nat} (hL : LibOK L) (hm : CReach L m) {held : List (Nat × Addr)} (hg : m.gors[i]? = some ⟨held, none⟩) (hs : GStep L.S m (some i) m')
    (hh : m'.st.heap = m.st.heap) {held' : List (Nat × Addr)} (hg' : m'.gors[i]? = some ⟨held', none⟩) (hsub : held' ⊆ held) : CReach L m' := by
  refine CReach.step hm ⟨hs, fun j _ _ _ _ hj _ h => ?_, fun j a b hj _ h q hq => ?_⟩
  · cases hj; rw [hg'] at h; cases h
  · cases hj
    rw [hg'] at h
    cases h
    rw [hh]
    exact (messages_stand hL hm).2 i _ hg q (hsub hq)

/-- A goroutine makes a node, decodes into it and hands it to a second goroutine. -/
def handed : Mach := ⟨(hunmarshalVT (safely none) 0 nodeBytes (.ptr 0) ⟨[hzeroCell nodes 0], [], [], []⟩).1, [⟨[], none⟩, ⟨[(0, 0)], none⟩], []⟩

/-- The second goroutine returns the node to the pool, the first one gets a node; both calls are under way. -/
def poolTraffic : Mach := { handed with gors := [⟨[], some (.get (some 0) 0, Op.prog nodes handed.st.fuel (.get (some 0) 0))⟩,
  ⟨[], some (.put 0 0, Op.prog nodes handed.st.fuel (.put 0 0))⟩] }

theorem poolTraffic_reachable : CReach nodeLib poolTraffic ∧ CReach nodeLib handed ∧ ShowsAt nodes handed.st.heap (0, 0) nodeOf := by
  have L := nodeLib_ok
  obtain ⟨h1, s1⟩ := call_whole L (m := .start) (i := 0) (held := []) (op := .new 0) (v := .nil) .start rfl trivial (fun _ h => nomatch h) ⟨(fun _ h => nomatch h), trivial⟩
    (σ := ⟨[hzeroCell nodes 0], [], [], []⟩) (l := [(0, 0)]) rfl
  obtain ⟨h2, s2⟩ := call_whole L (i := 0) (held := [(0, 0)]) (op := .decode (safely none) 0 nodeBytes 0) (v := zeroMsg nodes 0) h1 rfl ⟨.head _, rfl, rfl, rfl⟩
    (fun q h => by cases h; cases s1 with | cons h _ => exact h.2) ⟨fun q h => by cases h; cases s1 with | cons h _ => exact ⟨_, h.2, by decide +kernel⟩, rfl, rfl⟩
    (σ := handed.st) (l := [(0, 0)]) (by decide +kernel)
  have hv : ShowsAt nodes handed.st.heap (0, 0) nodeOf := by
    cases s2 with
    | cons h _ => exact (show (unmarshalVT nodeLib.uenv 0 nodeBytes (zeroMsg nodes 0)).1 = nodeOf by decide +kernel) ▸ h.2
  have h3 : CReach nodeLib handed := calm_step L h2 (i := 0) (held := [(0, 0)]) rfl (.go (i := 0) (H := [(0, 0)]) (rest := []) rfl (.refl _)) rfl (held' := []) rfl (List.nil_subset _)
  have h4 := CReach.step h3 (call_begins (L := nodeLib) (i := 0) (held := []) (op := .get (some 0) 0) rfl trivial ⟨(fun _ h => nomatch h), trivial⟩)
  exact ⟨.step h4 (call_begins (L := nodeLib) (i := 1) (held := [(0, 0)]) (op := .put 0 0) rfl (.head _)
    ⟨fun q h => by cases h; exact ⟨_, hv, by decide +kernel⟩, rfl⟩), h3, hv⟩

/-- Whatever the order of steps, and whether or not the first goroutine gets the node that the second one returns: it gets one that is as new. -/
example {m : Mach} (hd : During nodeLib 0 { handed with gors := [⟨[], some (.get (some 0) 0, Op.prog nodes handed.st.fuel (.get (some 0) 0))⟩, ⟨[(0, 0)], none⟩] } m) {held : List (Nat × Addr)}
    {op : Op} {r : Res (List (Nat × Addr))} (he : m.gors[0]? = some ⟨held, some (op, .done r)⟩) : ∃ a, r = .ok [(0, a)] ∧ ShowsAt nodes m.st.heap (0, a) (zeroMsg nodes 0) := by
  obtain ⟨rfl, h1, -, h2⟩ := call_alone_partial nodeLib_ok poolTraffic_reachable.2.1 (i := 0) (held := []) rfl
    (call_begins (L := nodeLib) (op := .get (some 0) 0) rfl trivial ⟨(fun _ h => nomatch h), trivial⟩) rfl hd he (v := .nil) (fun _ h => nomatch h)
  cases r with
  | ok l =>
    cases h2 with
    | @cons q _ _ _ h3 h4 =>
      cases h4
      obtain ⟨t, a⟩ := q
      obtain ⟨rfl, h5⟩ := h3
      exact ⟨a, rfl, h5⟩
  | _ => cases h1

/-- It does get one. -/
example : ∃ m held op r, During nodeLib 0 { handed with gors := [⟨[], some (.get (some 0) 0, Op.prog nodes handed.st.fuel (.get (some 0) 0))⟩, ⟨[(0, 0)], none⟩] } m ∧
    m.gors[0]? = some ⟨held, some (op, .done r)⟩ := ⟨_, _, _, _, call_can_end rfl, rfl⟩

/-- Memory after the call of the second goroutine. -/
def givenBack : HState := ((Op.prog nodes handed.st.fuel (.put 0 0)).run handed.st).1

/-- The node is then in the pool, as new; and so are the nodes that were in it. -/
example : ∃ m, CReach nodeLib m ∧ (0, 0) ∈ m.st.pool ∧ m.st.pool.length = 3 ∧ ∀ q ∈ m.st.pool, ShowsAt nodes m.st.heap q (zeroMsg nodes q.1) := by
  have h := during_creach (call_can_end (L := nodeLib) (m := poolTraffic) (i := 1) rfl) poolTraffic_reachable.1
  have e : (0, 0) ∈ givenBack.pool ∧ givenBack.pool.length = 3 := by decide +kernel
  exact ⟨_, h, e.1, e.2, pools_as_new_partial nodeLib_ok h⟩

/-- A goroutine makes a message, and then does nothing of interest. -/
def oneNew : Nat → Mach
  | 0 => ⟨⟨[], [], [], []⟩, [⟨[], some (.new 0, Op.prog nodes 0 (.new 0))⟩], []⟩
  | 1 => ⟨⟨[hzeroCell nodes 0], [], [], []⟩, [⟨[], some (.new 0, .done (.ok [(0, 0)]))⟩], []⟩
  | _ + 2 => ⟨⟨[hzeroCell nodes 0], [], [], []⟩, [⟨[(0, 0)], none⟩], []⟩

example : ∃ n', 0 ≤ n' ∧ ∃ held, (oneNew n').gors[0]? = some ⟨held, none⟩ := by
  refine calls_end (S := nodes) (f := oneNew) (who := fun _ => some 0) (fun n => ?_) (fun n => ⟨n, le_rfl, rfl⟩) 0 rfl
  match n with
  | 0 => exact .step (i := 0) rfl .alloc
  | 1 => exact .ret (i := 0) (l := [(0, 0)]) rfl
  | _ + 2 => exact .drop (i := 0) rfl (List.Sublist.refl _)

/-- The message that the second goroutine holds stands for the same value after the first one's steps. -/
example {m : Mach} {i : Nat} (h : GStep nodes handed (some i) m) (hi : i ≠ 1) : ShowsAt nodes m.st.heap (0, 0) nodeOf :=
  (values_kept nodes_ok (creach_greach poolTraffic_reachable.2.1) h).2 1 _ rfl (.inl fun e => hi (Option.some.inj e)) _ (.head _) poolTraffic_reachable.2.2

end Vtp.Props
