import Verif.Lemmas.ConcRun
import Verif.Lemmas.ConcMach
import Verif.Props.Pool
/-!
# Goroutines (C91, C92)

Any number of goroutines call methods, whose steps come in any order. See `Verif/Spec/Conc.lean` for what programs may do.
-/

namespace Vtp.Props
open Spec Conc

/-- C91: no data races. In whatever state a program with goroutines is, no two goroutines are about to access the same object if one of them writes to it. -/
theorem no_data_race {S : Schema} (hS : schemaOK S = true) {m : Mach} (hm : GReach S m) : ¬ Race m := by
  obtain ⟨F, hF⟩ := minv_reach hS hm
  rintro ⟨i, j, ⟨hi, _⟩, ⟨hj, _⟩, opi, opj, pi, pj, a, hij, gi, gj, rfl, rfl, hw, ha⟩
  obtain ⟨Fp, Fh, e, -, w, -⟩ := hF.pkeeps gi
  obtain ⟨Gp, Gh, e', -, w', r'⟩ := hF.pkeeps gj
  have h1 : a ∈ F (.gor i) := e ▸ Multiset.mem_add.mpr (.inl (w a hw))
  rcases ha with ha | ha
  · have h2 : a ∈ F (.gor j) := e' ▸ Multiset.mem_add.mpr (.inl (w' a ha))
    exact hij (Owner.gor.inj (hF.apart _ _ _ h1 h2))
  · rcases (r' a ha).2 with h | h | h
    · exact hij (Owner.gor.inj (hF.apart _ _ _ h1 (e' ▸ Multiset.mem_add.mpr (.inl h))))
    · exact hij (Owner.gor.inj (hF.apart _ _ _ h1 (e' ▸ Multiset.mem_add.mpr (.inr h))))
    · exact nomatch hF.apart _ _ _ h1 h

/-- C91: a method called by a goroutine accesses nothing that can be reached from messages that other goroutines hold or that are in pools; it does not write to
anything that can be reached from common messages or from those of the goroutine which are not the receiver. What it reads is there. -/
theorem call_stays_inside {S : Schema} (hS : schemaOK S = true) {m : Mach} (hm : GReach S m) {i : Nat} {held : List (Nat × Addr)} {op : Op} {p : Prog (List (Nat × Addr))}
    (hg : m.gors[i]? = some ⟨held, some (op, p)⟩) :
    (∀ a, p.reads = some a ∨ p.writes = some a → (∀ q ∈ m.st.pool, ¬ Reach m.st.heap q.2 a) ∧
      ∀ j g, j ≠ i → m.gors[j]? = some g → ∀ q ∈ g.held, ¬ Reach m.st.heap q.2 a) ∧
    (∀ a, p.writes = some a → ∀ q, q ∈ m.shared ∨ q ∈ held → ¬ Reach m.st.heap q.2 a) ∧
    ∀ a, p.reads = some a → a < m.st.heap.length := by
  obtain ⟨F, hF⟩ := minv_reach hS hm
  obtain ⟨Fp, Fh, e, o, w, r⟩ := hF.pkeeps hg
  have hall : ∀ a, p.reads = some a ∨ p.writes = some a → a ∈ F (.gor i) ∨ a ∈ F .shared := by
    rintro a (h | h)
    · rcases (r a h).2 with h | h | h
      · exact .inl (e ▸ Multiset.mem_add.mpr (.inl h))
      · exact .inl (e ▸ Multiset.mem_add.mpr (.inr h))
      · exact .inr h
    · exact .inl (e ▸ Multiset.mem_add.mpr (.inl (w a h)))
  have hother : ∀ {a : Addr} {o' : Owner}, (a ∈ F (.gor i) ∨ a ∈ F .shared) → o' ≠ .gor i → o' ≠ .shared → a ∉ F o' := by
    rintro a o' (h | h) h1 h2 h3
    · exact h1 (hF.apart _ _ _ h3 h)
    · exact h2 (hF.apart _ _ _ h3 h)
  refine ⟨fun a ha => ⟨fun q hq hr => ?_, fun j g hj gj q hq hr => ?_⟩, fun a ha q hq hr => ?_, fun a ha => (r a ha).1⟩
  · exact hother (hall a ha) (by simp) (by simp) (own_reach_none (hF.ok .pool) hq hr)
  · exact hother (o' := .gor j) (hall a ha) (by simpa using hj) (by simp) (gor_reach hF gj hq hr)
  · have h1 : a ∈ F (.gor i) := e ▸ Multiset.mem_add.mpr (.inl (w a ha))
    rcases hq with hq | hq
    · exact nomatch hF.apart _ _ _ h1 (own_reach_none (hF.ok .shared) hq hr)
    · have hn := hF.nodup (.gor i)
      rw [e] at hn
      exact Multiset.disjoint_left.mp (Multiset.nodup_add.mp hn).2.2 (w a ha) (own_reach_none o hq hr)

/-- C92: messages are apart, whoever holds them: two messages that goroutines hold, that are in pools or that are common are different and nothing can be reached from both. -/
theorem messages_apart {S : Schema} (hS : schemaOK S = true) {m : Mach} (hm : GReach S m) :
    m.messages.Pairwise fun p q => p.2 ≠ q.2 ∧ ∀ x, ¬ (Reach m.st.heap p.2 x ∧ Reach m.st.heap q.2 x) := by
  obtain ⟨F, hF⟩ := minv_reach hS hm
  have within : ∀ {L : List (Nat × Addr)} {G : Multiset Addr}, OwnL S .none m.st.heap (msgItems L) G → G.Nodup →
      L.Pairwise fun p q => p.2 ≠ q.2 ∧ ∀ x, ¬ (Reach m.st.heap p.2 x ∧ Reach m.st.heap q.2 x) := fun ho hn =>
    (own_pairwise flat_none ho hn fun _ _ h => h).imp fun h => ⟨h.1, fun x hx => h.2 x hx.1 hx.2⟩
  have across : ∀ {p q : Nat × Addr} {o o' : Owner}, o ≠ o' → (∀ x, Reach m.st.heap p.2 x → x ∈ F o) → (∀ x, Reach m.st.heap q.2 x → x ∈ F o') →
      p.2 ≠ q.2 ∧ ∀ x, ¬ (Reach m.st.heap p.2 x ∧ Reach m.st.heap q.2 x) := fun {p q o o'} hne h1 h2 =>
    ⟨fun e => hne (hF.apart _ _ _ (h1 _ (.here _)) (e ▸ h2 _ (.here _))), fun x hx => hne (hF.apart _ _ _ (h1 x hx.1) (h2 x hx.2))⟩
  have hpool : ∀ q ∈ m.st.pool, ∀ x, Reach m.st.heap q.2 x → x ∈ F .pool := fun q hq x hr => own_reach_none (hF.ok .pool) hq hr
  have hshared : ∀ q ∈ m.shared, ∀ x, Reach m.st.heap q.2 x → x ∈ F .shared := fun q hq x hr => own_reach_none (hF.ok .shared) hq hr
  have hgor : ∀ q ∈ m.gors.flatMap Gor.held, ∃ i, ∀ x, Reach m.st.heap q.2 x → x ∈ F (.gor i) := by
    intro q hq
    obtain ⟨g, hg, hq⟩ := List.mem_flatMap.mp hq
    obtain ⟨i, hi⟩ := List.mem_iff_getElem?.mp hg
    exact ⟨i, fun x hr => gor_reach hF hi hq hr⟩
  unfold Mach.messages
  rw [List.pairwise_append, List.pairwise_append]
  refine ⟨⟨?_, within (hF.ok .pool) (hF.nodup _), fun p hp q hq => ?_⟩, within (hF.ok .shared) (hF.nodup _), fun p hp q hq => ?_⟩
  · rw [List.pairwise_flatMap]
    refine ⟨fun g hg => ?_, ?_⟩
    · obtain ⟨i, hi⟩ := List.mem_iff_getElem?.mp hg
      obtain ⟨G, hle, ho⟩ := gor_own hF hi
      exact within ho (Multiset.nodup_of_le hle (hF.nodup _))
    · rw [List.pairwise_iff_getElem]
      intro i j hi hj hij p hp q hq
      exact across (o := .gor i) (o' := .gor j) (by simpa using Nat.ne_of_lt hij) (fun x hr => gor_reach hF (List.getElem?_eq_getElem hi) hp hr)
        (fun x hr => gor_reach hF (List.getElem?_eq_getElem hj) hq hr)
  · obtain ⟨i, hi⟩ := hgor p hp
    exact across (by simp) hi (hpool q hq)
  · rcases List.mem_append.mp hp with hp | hp
    · obtain ⟨i, hi⟩ := hgor p hp
      exact across (by simp) hi (hshared q hq)
    · exact across (by simp) (hpool p hp) (hshared q hq)

/-- C92: what a goroutine does changes nothing that can be reached from messages of other goroutines, from messages in pools and from common messages; nor, if
it is in a call, from messages that it holds itself, other than the receiver. -/
theorem others_keep_their_messages {S : Schema} (hS : schemaOK S = true) {m m' : Mach} (hm : GReach S m) {who : Option Nat} (hs : GStep S m who m') :
    (∀ q, q ∈ m.st.pool ∨ q ∈ m.shared → ∀ x, Reach m.st.heap q.2 x → m'.st.heap[x]? = m.st.heap[x]?) ∧
    ∀ j g, m.gors[j]? = some g → who ≠ some j ∨ g.call ≠ none → ∀ q ∈ g.held, ∀ x, Reach m.st.heap q.2 x → m'.st.heap[x]? = m.st.heap[x]? := by
  obtain ⟨F, hF⟩ := minv_reach hS hm
  have key : ∀ o, (∀ i, who = some i → o ≠ .gor i) → ∀ x ∈ F o, m'.st.heap[x]? = m.st.heap[x]? := fun o ho x hx =>
    hF.keeps hs x (hF.inHeap o x hx) fun i hi h => ho i hi (hF.apart _ _ _ hx h)
  refine ⟨fun q hq x hr => ?_, fun j g gj hj q hq x hr => ?_⟩
  · rcases hq with hq | hq
    · exact key .pool (by simp) x (own_reach_none (hF.ok .pool) hq hr)
    · exact key .shared (by simp) x (own_reach_none (hF.ok .shared) hq hr)
  · by_cases hw : who = some j
    · subst hw
      rcases g with ⟨held, call⟩
      rcases call with _ | ⟨op, p⟩
      · exact absurd rfl (hj.resolve_left fun h => h rfl)
      obtain ⟨Fp, Fh, e, o, w, -⟩ := hF.pkeeps gj
      have hn := hF.nodup (.gor j)
      rw [e] at hn
      have hx := own_reach_none o hq hr
      have hnp : x ∉ Fp := fun h => Multiset.disjoint_left.mp (Multiset.nodup_add.mp hn).2.2 h hx
      have hlt := hF.inHeap (.gor j) x (e ▸ Multiset.mem_add.mpr (.inr hx))
      cases hs with
      | step hg hp =>
        rw [gj] at hg
        cases hg
        cases hp with
        | @write b c k => exact List.getElem?_set_ne fun e : b = x => hnp (e ▸ w b rfl)
        | alloc =>
          rw [HState.grow_nofree hF.plain.1]
          exact List.getElem?_append_left hlt
        | got => rw [hF.asked]
        | miss => rw [hF.asked]
        | _ => rfl
      | use hg => rw [gj] at hg; exact nomatch hg
      | _ => rfl
    · exact key (.gor j) (fun i hi e => hw (by cases e; exact hi)) x (gor_reach hF gj hq hr)

/-- C92: common messages stay as they are, whatever happens. -/
theorem common_messages_constant {S : Schema} (hS : schemaOK S = true) {m m' : Mach} (hm : GReach S m) (hs : GSteps S m m') {q : Nat × Addr} (hq : q ∈ m.shared) :
    q ∈ m'.shared ∧ ∀ x, Reach m.st.heap q.2 x → m'.st.heap[x]? = m.st.heap[x]? ∧ Reach m'.st.heap q.2 x := by
  induction hs with
  | refl => exact ⟨hq, fun x hr => ⟨rfl, hr⟩⟩
  | @tail m1 m2 who h1 h2 ih =>
    have hm1 : GReach S m1 := by
      clear ih h2
      induction h1 with
      | refl => exact hm
      | tail _ hs ih => exact .step ih hs
    obtain ⟨hq1, hk⟩ := ih
    have hstep := (others_keep_their_messages hS hm1 h2).1 q (.inr hq1)
    refine ⟨?_, fun x hr => ?_⟩
    · cases h2 with
      | share => exact List.mem_append_right _ hq1
      | _ => exact hq1
    · obtain ⟨e, hr1⟩ := hk x hr
      exact ⟨(hstep x hr1).trans e, reach_agree hstep hr1⟩

/-- The code in steps is that of the methods: run alone, it does what the function on memory does (for a large enough limit on recursion), and to run alone is one of
the orders in which steps may come. -/
theorem code_in_steps (S : Schema) (op : Op) (σ : HState) : ∃ n, (op.prog S n).run σ = op.run S σ ∧ PSteps σ (op.prog S n) (op.run S σ).1 (.done (op.run S σ).2) := by
  obtain ⟨n, hn⟩ := runs_op S op σ
  exact ⟨n, hn, hn ▸ run_steps _ σ⟩

/-! ## A program with goroutines -/

def gclone : HKEnv := { S := nodes, R := structural, pick := fun _ => none, direct := fun _ => false }
def gdecode : HEnv := { S := nodes, R := structural, A := .b64, pick := fun _ => none }

/-- A goroutine makes a message, makes it common, makes another one and starts a second goroutine, to which it hands that; then one goroutine clones the common message,
and the other one decodes into the message that it was handed. -/
def twoGoroutines : Mach :=
  ⟨⟨[hzeroCell nodes 0, hzeroCell nodes 0], [], [], []⟩,
   [⟨[], some (.clone gclone 0 0, Op.prog nodes 3 (.clone gclone 0 0))⟩,
    ⟨[], some (.decode gdecode 0 [18, 1, 5] 1,
      Op.prog nodes 4 (.decode gdecode 0 [18, 1, 5] 1))⟩],
   [(0, 0)]⟩

theorem twoGoroutines_reachable : GReach nodes twoGoroutines := by
  have h1 := GReach.step .start (.call (S := nodes) (i := 0) (n := 0) (op := .new 0) rfl trivial)
  have h2 := GReach.step h1 (.step (i := 0) rfl .alloc)
  have h3 := GReach.step h2 (.ret (i := 0) (l := [(0, 0)]) rfl)
  have h4 := GReach.step h3 (.share (i := 0) (H := [(0, 0)]) (rest := []) rfl (.refl _))
  have h5 := GReach.step h4 (.call (i := 0) (n := 0) (op := .new 0) rfl trivial)
  have h6 := GReach.step h5 (.step (i := 0) rfl .alloc)
  have h7 := GReach.step h6 (.ret (i := 0) (l := [(0, 1)]) rfl)
  have h8 := GReach.step h7 (.go (i := 0) (H := [(0, 1)]) (rest := []) rfl (.refl _))
  have h9 := GReach.step h8 (.call (i := 0) (n := 3) (op := .clone gclone 0 0) rfl ⟨.inr (.head _), rfl, rfl⟩)
  exact GReach.step h9 (.call (i := 1) (n := 4) (op := .decode gdecode 0 [18, 1, 5] 1) rfl
    ⟨.head _, rfl, rfl, rfl⟩)

/-- Both calls are under way there. -/
example : ¬ Race twoGoroutines := no_data_race nodes_ok twoGoroutines_reachable

/-- The second goroutine is about to read the message that it decodes into. -/
example : (Op.prog nodes 4 (.decode gdecode 0 [18, 1, 5] 1)).reads = some 1 := by decide

/-- A common message may be cloned by several goroutines at the same time: they can get to where both are about to read it. -/
theorem common_message_cloned_twice : ∃ m, GReach nodes m ∧ ∃ hi hj opi opj pi pj, m.gors = [⟨hi, some (opi, pi)⟩, ⟨hj, some (opj, pj)⟩] ∧
    pi.reads = some 0 ∧ pj.reads = some 0 ∧ (0, 0) ∈ m.shared := by
  have h1 := GReach.step .start (.call (S := nodes) (i := 0) (n := 0) (op := .new 0) rfl trivial)
  have h2 := GReach.step h1 (.step (i := 0) rfl .alloc)
  have h3 := GReach.step h2 (.ret (i := 0) (l := [(0, 0)]) rfl)
  have h4 := GReach.step h3 (.share (i := 0) (H := [(0, 0)]) (rest := []) rfl (.refl _))
  have h5 := GReach.step h4 (.go (i := 0) (H := []) (rest := []) rfl (.refl _))
  have h6 := GReach.step h5 (.call (i := 0) (n := 3) (op := .clone gclone 0 0) rfl ⟨.inr (.head _), rfl, rfl⟩)
  have h7 := GReach.step h6 (.call (i := 1) (n := 3) (op := .clone gclone 0 0) rfl ⟨.inr (.head _), rfl, rfl⟩)
  have h8 := GReach.step h7 (.step (i := 0) rfl .miss)
  have h9 := GReach.step h8 (.step (i := 1) rfl .miss)
  have h10 := GReach.step h9 (.step (i := 0) rfl .alloc)
  have h11 := GReach.step h10 (.step (i := 1) rfl .alloc)
  exact ⟨_, h11, _, _, _, _, _, _, rfl, by decide, by decide, .head _⟩

/-- One step of code, run alone. -/
def stepAlone {α : Type} : HState × Prog α → HState × Prog α
  | (σ, .read a k) => match σ.heap[a]? with
    | some c => (σ, k c)
    | none => (σ, .done (.panic .typeConfusion))
  | (σ, .write a c k) => ({ σ with heap := σ.heap.set a c }, k)
  | x => x

theorem stepAlone_steps {α : Type} (n : Nat) : ∀ x : HState × Prog α, PSteps x.1 x.2 (stepAlone^[n] x).1 (stepAlone^[n] x).2 := by
  induction n with
  | zero => exact fun _ => .refl
  | succ n ih =>
    rintro ⟨σ, p⟩
    have := ih (stepAlone (σ, p))
    rw [Function.iterate_succ_apply]
    cases p with
    | read a k =>
      simp only [stepAlone] at this ⊢
      cases h : σ.heap[a]? with
      | some c => rw [h] at this; exact .head (.read h) this
      | none => rw [h] at this; exact .head (.fault h) this
    | write a c k => exact .head .write this
    | _ => exact this

/-- Without the rule that only those who hold a message call methods that change it there are races: two goroutines that return the same message to its pool. -/
theorem shared_return_races : ∃ p, PSteps ⟨[hzeroCell nodes 0], [], [], []⟩ (Op.prog nodes 2 (.put 0 0)) ⟨[hzeroCell nodes 0], [], [], []⟩ p ∧
    Race ⟨⟨[hzeroCell nodes 0], [], [], []⟩, [⟨[], some (.put 0 0, p)⟩, ⟨[], some (.put 0 0, p)⟩], []⟩ := by
  refine ⟨_, stepAlone_steps 9 (⟨[hzeroCell nodes 0], [], [], []⟩, Op.prog nodes 2 (.put 0 0)), ?_⟩
  exact ⟨0, 1, _, _, _, _, _, _, 0, by decide, rfl, rfl, rfl, rfl, by decide, .inl (by decide)⟩

end Vtp.Props
