import Verif.Lemmas.HeapWorld
import Verif.Props.Pool
/-!
# Theorems about memory: C46, C52, C54

`WReach S w`: a program using the library can get to the world `w`: the program holds the messages `w.held` and may have decoded, without copying,
from the buffers `w.bufs`. Messages are used, reset and returned only by those who hold them, and not after they were returned. The operations of
the library are atomic; what is done by different goroutines between them is not told apart.
-/

namespace Vtp.Props
open Spec

/-! ## C52 -/

/-- C52. In all histories in which nobody uses or returns what they do not hold, no two of the messages that are in use or in a pool share any
memory, their sub-messages included, apart from buffers of unsafe decoding. In particular no message is in use twice, or in a pool twice, or both. -/
theorem pool_exclusive {S : Schema} (hS : schemaOK S = true) {w : World} (h : WReach S w) :
    (w.held ++ w.st.pool).Pairwise fun p q => p.2 ≠ q.2 ∧ ∀ x, Reach w.st.heap p.2 x → Reach w.st.heap q.2 x → x ∈ w.bufs := by
  obtain ⟨F, P, ho, hinv⟩ := reachable_inv hS h
  refine own_pairwise (S := S) (B := w.lent) hinv.below (F := F + P) ?_ hinv.nodup fun a ha => hinv.apart a (Multiset.mem_add.mp ha)
  rw [msgItems, List.map_append]
  exact ho.append hinv.pool

/-- C52. What a pool hands out was not in use. -/
theorem pool_hands_out_unused {S : Schema} (hS : schemaOK S = true) {w : World} (h : WReach S w) {want : Option Addr} {t : Nat} {σ : HState} {b : Addr}
    (hr : poolGet S want t w.st = (σ, .ok (.ptr b))) :
    ∀ q ∈ w.held, q.2 ≠ b ∧ ∀ x, Reach σ.heap q.2 x → Reach σ.heap b x → x ∈ w.bufs := by
  have h' := pool_exclusive hS (.step h (.op (.get want t) trivial))
  have he : w.exec S (.get want t) = ⟨σ, (t, b) :: w.held, w.bufs⟩ := by
    simp only [World.exec, Op.run, bind, HM.bind, hr]
    rfl
  rw [he] at h'
  intro q hq
  have := (List.pairwise_cons.mp h').1 q (List.mem_append_left _ hq)
  exact ⟨fun e => this.1 e.symm, fun x h1 h2 => this.2 x h2 h1⟩

/-- C52. Operations on a message change no other message in use, apart from what these share with buffers. -/
theorem operations_isolated {S : Schema} (hS : schemaOK S = true) {w : World} (h : WReach S w) {op : Op} (ha : op.allowed S w) {q : Nat × Addr}
    (hq : q ∈ w.others op) {x : Addr} (hx : Reach w.st.heap q.2 x) : x ∈ w.bufs ∨ (w.exec S op).st.heap[x]? = w.st.heap[x]? :=
  (exec_inv hS (reachable_inv hS h) ha False fun h => h.elim).2.1 q hq x hx

/-- C52. Operations change no memory but that of the messages they are called on, of messages in the pools, and buffers. -/
theorem operations_framed {S : Schema} (hS : schemaOK S = true) {w : World} (h : WReach S w) {op : Op} (ha : op.allowed S w) {x : Addr} (hx : x < w.st.heap.length)
    (hr : ∀ q ∈ op.takes ++ w.st.pool, ¬ Reach w.st.heap q.2 x) (hb : x ∉ w.bufs) : (w.exec S op).st.heap[x]? = w.st.heap[x]? :=
  exec_frame hS (reachable_inv hS h) ha hx hr hb

/-! ## C46 -/

/-- C46, for originals that do not depend on buffers of unsafe decoding. Cloning does not change the original; code that got a pointer to the
clone cannot change the original, nor can code with a pointer to the original change the clone. -/
theorem clone_separate_partial {S : Schema} (hS : schemaOK S = true) {w : World} (h : WReach S w) {E : HKEnv} {t : Nat} {a : Addr}
    (ha : (Op.clone E t a).allowed S w) (hs : ∀ x, Sees w.st.heap a x → x ∉ w.bufs) {σ : HState} {b : Addr}
    (hr : hcloneVT E t (.ptr a) w.st = (σ, .ok (.ptr b))) :
    (∀ x, Sees w.st.heap a x → σ.heap[x]? = w.st.heap[x]?) ∧
    (∀ h', Mutation (· = b) σ.heap h' → ∀ x, Sees w.st.heap a x → h'[x]? = w.st.heap[x]?) ∧
    (∀ h', Mutation (· = a) σ.heap h' → ∀ x, Sees σ.heap b x → h'[x]? = σ.heap[x]?) := by
  obtain ⟨F, F', ho, ho', hd, hF, hk, hfl⟩ := clone_run hS (reachable_inv hS h) ha (fun _ h => h) (fun h => h) hr
  have hfl' : FlatLent ⟨(· ∈ w.bufs), fun a => w.lent.byt a ∨ w.lent.str a⟩ w.st.heap := fun a ha => hfl a (ha.elim id id)
  have hflσ : FlatLent w.lent σ.heap := fun a ha => by
    rw [(hk a (.inr ha)).1]
    exact hfl a ha
  have hflσ' : FlatLent ⟨(· ∈ w.bufs), fun a => w.lent.byt a ∨ w.lent.str a⟩ σ.heap := fun a ha => hflσ a (ha.elim id id)
  -- what the original sees
  have hsee : ∀ x, Sees w.st.heap a x → x ∈ F := by
    intro x hx
    rcases (own_closed ho plain_msgs).2.sees hfl' (.inl (own_root ho ha.1)) hx with h1 | h1
    · exact h1
    · exact absurd (h1.elim id id) (hs x hx)
  -- what can be reached from the clone
  have hb : b ∈ F' := own_root (L := [(t, b)]) ho' (.head _)
  have hcl := own_closed ho' (plain_msgs (L := [(t, b)]))
  have hreach : ∀ x, Reach σ.heap b x → x ∉ F := by
    intro x hx hxF
    rcases hcl.2.reach hflσ (.inl hb) hx with h1 | h1
    · exact (hd x h1).1 hxF
    · exact hF x hxF h1
  have hlen : ∀ x ∈ F, x < σ.heap.length := fun x hx => by
    have := (hk x (.inl hx)).1
    rw [List.getElem?_eq_getElem (hk x (.inl hx)).2] at this
    exact (List.getElem?_eq_some_iff.mp this).1
  refine ⟨fun x hx => (hk x (.inl (hsee x hx))).1, fun h' hm x hx => ?_, fun h' hm x hx => ?_⟩
  · have hxF := hsee x hx
    rw [mutation_reach hm (hlen x hxF) fun hr => hreach x hr hxF, (hk x (.inl hxF)).1]
  · have hxl : x < σ.heap.length := by
      rcases hcl.2.sees hflσ' (.inl hb) hx with h1 | h1
      · exact ho'.inHeap x h1
      · obtain ⟨d, hd⟩ := hflσ x (h1.elim id id)
        exact (List.getElem?_eq_some_iff.mp hd).1
    refine mutation_reach hm hxl fun hr => ?_
    -- what can be reached from the original did not change
    have hra : Sees w.st.heap a x := by
      have : ∀ {y z}, Reach σ.heap y z → y ∈ F → (∀ u, Sees w.st.heap y u → u ∉ w.bufs) → Sees w.st.heap y z := by
        intro y z hyz
        induction hyz with
        | here => exact fun _ _ => .here _
        | there hx hv ht _ ih =>
          intro hy hsy
          rw [(hk _ (.inl hy)).1] at hx
          have hb : ∀ u, Sees w.st.heap _ u → u ∉ w.bufs := fun u hu => hsy u (.there hx hv (target_source ht) hu)
          refine .there hx hv (target_source ht) (ih ?_ hb)
          rcases (own_closed ho plain_msgs).2 _ hy _ hx _ hv _ (target_source ht) with h1 | h1 | h1
          · exact h1
          · exact absurd h1 (hb _ (.here _))
          · rw [ht] at h1
            exact nomatch h1.2
      exact this hr (own_root ho ha.1) hs
    rcases hcl.2.sees hflσ' (.inl hb) hx with h1 | h1
    · exact (hd x h1).1 (hsee x hra)
    · exact hs x hra (h1.elim id id)

/-- C46, for all originals, also decoded without copying, if no buffer can be reached through the messages in the pools: code that got a pointer to the clone cannot change
the original, nor the buffers. -/
theorem clone_guards_original_partial {S : Schema} (hS : schemaOK S = true) {w : World} (h : WReach S w) {E : HKEnv} {t : Nat} {a : Addr}
    (ha : (Op.clone E t a).allowed S w) (hp : ∀ q ∈ w.st.pool, ∀ x, Reach w.st.heap q.2 x → x ∉ w.bufs) {σ : HState} {b : Addr}
    (hr : hcloneVT E t (.ptr a) w.st = (σ, .ok (.ptr b))) :
    ∀ h', Mutation (· = b) σ.heap h' → ∀ x, Sees w.st.heap a x ∨ x ∈ w.bufs → h'[x]? = w.st.heap[x]? := by
  obtain ⟨F, F', ho, ho', hd, hF, hk, hfl⟩ := clone_run hS (reachable_inv hS h) ha (β := fun _ => False) (fun _ h => h.elim) (fun h => own_pure h hp) hr
  have hfl' : FlatLent ⟨(· ∈ w.bufs), fun a => w.lent.byt a ∨ w.lent.str a⟩ w.st.heap := fun a ha => hfl a (ha.elim id id)
  have hsee : ∀ x, Sees w.st.heap a x ∨ x ∈ w.bufs → x ∈ F ∨ x ∈ w.bufs := by
    rintro x (hx | hx)
    · exact ((own_closed ho plain_msgs).2.sees hfl' (.inl (own_root ho ha.1)) hx).imp id (Or.elim · id id)
    · exact .inr hx
  have hb : b ∈ F' := own_root (L := [(t, b)]) ho' (.head _)
  have hreach : ∀ x, Reach σ.heap b x → x ∈ F' := by
    intro x hx
    exact ((own_closed ho' (plain_msgs (L := [(t, b)]))).2.reach (fun _ h => h.elim) (.inl hb) hx).elim id fun h => h.elim
  intro h' hm x hx
  have hx' := hsee x hx
  have hlen : x < σ.heap.length := by
    have := (hk x hx').1
    rw [List.getElem?_eq_getElem (hk x hx').2] at this
    exact (List.getElem?_eq_some_iff.mp this).1
  rw [mutation_reach hm hlen fun hr => ?_, (hk x hx').1]
  exact hx'.elim (hd x (hreach x hr)).1 (hd x (hreach x hr)).2

/-! ## C54 -/

/-- C54. No operation but decoding with copies (`UnmarshalVT`) writes to any buffer from which messages were decoded without copying; nor does that
if no message type has a `bytes` field that is neither repeated nor in a oneof. -/
theorem buffers_kept_partial {S : Schema} (hS : schemaOK S = true) {w : World} (h : WReach S w) {op : Op} (ha : op.allowed S w)
    (hop : (∀ E t b a, op = .decode E t b a → E.aliasing = true) ∨
      ∀ t, ∀ f ∈ (S.msg t).fields, f.kind = .bytes → f.oneof = false → f.card = .repeated) :
    ∀ x ∈ w.bufs, (w.exec S op).st.heap[x]? = w.st.heap[x]? := by
  refine (exec_inv hS (reachable_inv hS h) ha True fun _ E t b a he hal t' f hf => ?_).2.2 trivial
  rcases hop with hop | hop
  · rw [hop E t b a he] at hal
    cases hal
  · exact hop t' f hf

/-- C54. Decoding with copies does not write to buffers either if they cannot be reached from the message, or from messages in the pools. -/
theorem decode_keeps_buffers_partial {S : Schema} (hS : schemaOK S = true) {w : World} (h : WReach S w) {E : HEnv} {t : Nat} {b : Bytes} {a : Addr}
    (ha : (Op.decode E t b a).allowed S w) (hal : E.aliasing = false) (hp : ∀ q ∈ (t, a) :: w.st.pool, ∀ x, Reach w.st.heap q.2 x → x ∉ w.bufs) :
    ∀ x ∈ w.bufs, (w.exec S (.decode E t b a)).st.heap[x]? = w.st.heap[x]? :=
  decode_pure hS (reachable_inv hS h) ha hal hp

/-! ## Cases -/

/-- Decoding of `nodes` with copies; `some a` is asked for where the pool is used. -/
def safely (want : Option Addr) : HEnv := { S := nodes, R := structural, A := .b64, pick := fun _ => want }

/-- Decoding of `nodes` without copies, from the buffer at `a`. -/
def unsafely (a : Addr) : HEnv := { S := nodes, R := structural, A := .b64, aliasing := true, buf := a, pick := fun _ => none }

def cloning (want : Option Addr) : HKEnv := { S := nodes, R := structural, pick := fun _ => want, direct := fun _ => true }

/-- The program has a buffer. -/
def World.withBuffer (w : World) (b : Bytes) : World := { w with st := { w.st with heap := w.st.heap ++ [.bytes b] }, bufs := w.st.heap.length :: w.bufs }

/-- The program has written to a buffer. -/
def World.filled (w : World) (a : Addr) (b : Bytes) : World := { w with st := { w.st with heap := w.st.heap.set a (.bytes b) } }

theorem did {w : World} (h : WReach nodes w) (op : Op) (ha : op.allowed nodes w) : WReach nodes (w.exec nodes op) := .step h (.op op ha)
theorem gotBuffer {w : World} (h : WReach nodes w) (b : Bytes) : WReach nodes (World.withBuffer w b) := .step h (.buffer b)
theorem wroteBuffer {w : World} (h : WReach nodes w) (a : Addr) (b : Bytes) (ha : a ∈ w.bufs) : WReach nodes (World.filled w a b) := .step h (.fill a b ha)

/-- Memory of an empty node. -/
abbrev emptyNode : Cell := .msg [.nil, .nil, .nil, .nil, .nil, .nil] .nil []

/-- The program has an empty node. -/
def fresh : World := ⟨⟨[emptyNode], [], [], []⟩, [(0, 0)], []⟩

theorem fresh_reached : WReach nodes fresh := by
  have : World.start.exec nodes (.new 0) = fresh := by decide
  exact this ▸ did .start (.new 0) trivial

/-- Then it has decoded one, with copies, that has sub-messages in a list, in a field and in a oneof. -/
def decoded : World := ⟨⟨[.msg [.slice 2 1, .nil, .ptr 4, .ptr 7, .nil, .slice 8 1] .nil [], .msg [.nil, .bytes 3 0 1, .nil, .nil, .nil, .nil] .nil [], .arr [.ptr 1], .bytes [5],
  .msg [.nil, .nil, .nil, .ptr 5, .nil, .nil] .nil [], .wrap 5 (.num 7), emptyNode, .wrap 4 (.ptr 6), .arr [.str [65]]], [], [], []⟩, [(0, 0)], []⟩

theorem decoded_reached : WReach nodes decoded := by
  have : fresh.exec nodes (.decode (safely none) 0 [10, 3, 18, 1, 5, 26, 2, 40, 7, 34, 0, 58, 1, 65] 0) = decoded := by decide
  exact this ▸ did fresh_reached _ ⟨by decide, by decide, rfl, fun h => by cases h⟩

/-- Then it has returned it, which puts two of its sub-messages into the pool as well. -/
def returned : World := ⟨⟨[.msg [.slice 2 0, .nil, .nil, .nil, .nil, .slice 8 0] .nil [], .msg [.nil, .bytes 3 0 0, .nil, .nil, .nil, .nil] .nil [], .arr [.ptr 1], .bytes [5],
  emptyNode, .wrap 5 (.num 7), emptyNode, .wrap 4 (.ptr 6), .arr [.str []]], [(0, 0), (0, 6), (0, 4)], [], []⟩, [], []⟩

theorem returned_reached : WReach nodes returned := by
  have : decoded.exec nodes (.put 0 0) = returned := by decide +kernel
  exact this ▸ did decoded_reached (.put 0 0) (show _ ∈ _ by decide)

/-- Then it has taken two of the three from the pool. -/
def recycled : World := ⟨⟨returned.st.heap, [(0, 4)], [], []⟩, [(0, 6), (0, 0)], []⟩

theorem recycled_reached : WReach nodes recycled := by
  have : (returned.exec nodes (.get (some 0) 0)).exec nodes (.get (some 6) 0) = recycled := by decide
  exact this ▸ did (did returned_reached (.get (some 0) 0) trivial) (.get (some 6) 0) trivial

example := pool_exclusive nodes_ok recycled_reached
example : ∃ σ, poolGet nodes (some 4) 0 recycled.st = (σ, .ok (.ptr 4)) ∧
    ∀ q ∈ recycled.held, q.2 ≠ 4 ∧ ∀ x, Reach σ.heap q.2 x → Reach σ.heap 4 x → x ∈ recycled.bufs :=
  ⟨_, rfl, pool_hands_out_unused nodes_ok recycled_reached (want := some 4) (t := 0) rfl⟩
example : 1 ∈ recycled.bufs ∨ (recycled.exec nodes (.decode (safely (some 4)) 0 [26, 0] 6)).st.heap[1]? = recycled.st.heap[1]? :=
  operations_isolated nodes_ok recycled_reached (op := .decode (safely (some 4)) 0 [26, 0] 6) ⟨by decide, by decide, rfl, fun h => by cases h⟩ (q := (0, 0)) (by decide)
    (.there (v := .slice 2 0) (b := 2) rfl (by decide) rfl (.there (v := .ptr 1) (b := 1) rfl (by decide) rfl (.here _)))

/-- Nothing can be reached from empty nodes. -/
theorem reach_empty {h : Heap} {a x : Addr} (ha : h[a]? = some emptyNode) (hr : Reach h a x) : x = a := by
  cases hr with
  | here => rfl
  | there hx hv ht _ =>
    rw [ha] at hx
    cases hx
    simp only [Cell.values, List.mem_cons, List.not_mem_nil, or_false, or_self] at hv
    subst hv
    cases ht

/-- The oneof wrapper of the returned message belongs to nobody any more, and is not changed. -/
example : (recycled.exec nodes (.decode (safely (some 4)) 0 [26, 0] 6)).st.heap[5]? = recycled.st.heap[5]? := by
  refine operations_framed nodes_ok recycled_reached (op := .decode (safely (some 4)) 0 [26, 0] 6) ⟨by decide, by decide, rfl, fun h => by cases h⟩ (x := 5) (by decide)
    (fun q hq hr => ?_) (by decide)
  have : q ∈ [((0 : Nat), 6), (0, 4)] := hq
  simp only [List.mem_cons, List.not_mem_nil, or_false] at this
  rcases this with rfl | rfl
  · exact absurd (reach_empty rfl hr) (by decide)
  · exact absurd (reach_empty rfl hr) (by decide)

/-- Without the rule that messages are returned by those who hold them: after `ReturnToVTPool` was called twice, the pool hands out the message
twice. -/
theorem double_return_shares : WReach nodes returned ∧ (0, 0) ∉ returned.held ∧
    (((returned.exec nodes (.put 0 0)).exec nodes (.get (some 0) 0)).exec nodes (.get (some 0) 0)).held = [(0, 0), (0, 0)] :=
  ⟨returned_reached, by decide, by decide⟩

/-- A program makes a message with a sub-message and a list that holds nil. -/
def risky : World := ⟨⟨[.msg [.nil, .nil, .ptr 1, .nil, .slice 2 1, .nil] .nil [], .msg [.nil, .nil, .nil, .nil, .nil, .nil] .nil [], .arr [.nil]], [], [], []⟩, [(0, 0)], []⟩

theorem risky_reached : WReach nodes risky := by
  refine .step (w := ((World.start.exec nodes (.new 0)).exec nodes (.new 0))) (did (did .start (.new 0) trivial) (.new 0) trivial) ?_
  refine WStep.use (H := [(0, 1), (0, 0)]) (H' := [(0, 0)]) (rest := []) (F := 0 ::ₘ 1 ::ₘ 2 ::ₘ 0) (List.Perm.refl _) ?_ ?_ (by decide) ?_ ?_ ?_
  · intro a ha hn
    have : a < 2 := ha
    rcases Nat.lt_or_ge a 1 with h | h
    · obtain rfl : a = 0 := by omega
      exact absurd (.here 0) (hn (0, 0) (by decide))
    · obtain rfl : a = 1 := by omega
      exact absurd (.here 1) (hn (0, 1) (by decide))
  · refine .msg rfl rfl rfl ?_
    refine .nil rfl (.nil rfl (.msg rfl rfl rfl ?_))
    refine .nil rfl (.nil rfl (.nil rfl (.nil rfl (.nil rfl (.nil rfl (.nil rfl (.nil rfl ?_)))))))
    exact .list rfl (by decide) (.nil rfl (.nil rfl (.nil rfl .done)))
  · intro a ha
    simp only [Multiset.mem_cons, Multiset.notMem_zero, or_false] at ha
    rcases ha with rfl | rfl | rfl
    · exact .inl ⟨(0, 0), by decide, .here _⟩
    · exact .inl ⟨(0, 1), by decide, .here _⟩
    · exact .inr (by decide)
  · intro a _ h
    cases h
  · intro a h
    cases h

/-- What is left of a message whose `ResetVT` panicked must not be used, even if the program recovers: its sub-message is in the pool, and the message
still refers to it. -/
theorem reset_panic_shares : WReach nodes risky ∧ (hresetVT nodes 0 (.ptr 0) risky.st).2 = .panic .nilDeref ∧
    (0, 1) ∈ (hresetVT nodes 0 (.ptr 0) risky.st).1.pool ∧ Reach (hresetVT nodes 0 (.ptr 0) risky.st).1.heap 0 1 :=
  ⟨risky_reached, by decide, by decide, .there (v := .ptr 1) (b := 1) rfl (by decide) rfl (.here _)⟩

/-! ### C46 -/

/-- The decoded node does not depend on buffers: there are none. -/
theorem decoded_sees : ∀ x, Sees decoded.st.heap 0 x → x ∉ decoded.bufs := fun _ _ => List.not_mem_nil

/-- Memory with its clone. -/
def decodedClone : HState := ⟨decoded.st.heap ++ [.msg [.slice 12 1, .nil, .ptr 10, .ptr 15, .nil, .slice 17 1] .nil [], .msg [.nil, .nil, .nil, .ptr 11, .nil, .nil] .nil [],
  .wrap 5 (.num 7), .arr [.ptr 13], .msg [.nil, .bytes 14 0 1, .nil, .nil, .nil, .nil] .nil [], .bytes [5], .wrap 4 (.ptr 16), emptyNode, .arr [.str [65]]], [], [], []⟩

theorem decoded_cloned : hcloneVT (cloning none) 0 (.ptr 0) decoded.st = (decodedClone, .ok (.ptr 9)) := by decide +kernel

example : (∀ h', Mutation (· = 9) decodedClone.heap h' → ∀ x, Sees decoded.st.heap 0 x → h'[x]? = decoded.st.heap[x]?) ∧
    (∀ h', Mutation (· = 0) decodedClone.heap h' → ∀ x, Sees decodedClone.heap 9 x → h'[x]? = decodedClone.heap[x]?) :=
  (clone_separate_partial nodes_ok decoded_reached (E := cloning none) (t := 0) (a := 0) ⟨by decide, by decide, rfl⟩ decoded_sees decoded_cloned).2

/-- Code with a pointer to the clone sets the bytes of the clone's node in a list. -/
example : Mutation (· = 9) decodedClone.heap (decodedClone.heap.set 14 (.bytes [6])) :=
  .write (x := 14) (c := .bytes [6]) ⟨9, rfl, .there (v := .slice 12 1) (b := 12) rfl (by decide) rfl (.there (v := .ptr 13) (b := 13) rfl (by decide) rfl
    (.there (v := .bytes 14 0 1) (b := 14) rfl (by decide) rfl (.here _)))⟩ (fun _ h => nomatch h) .done

/-- A buffer, and a node decoded from it without copying, that has bytes and a string. -/
def borrowed : World := ⟨⟨[.bytes [18, 1, 5, 58, 1, 65], .msg [.nil, .bytes 0 2 1, .nil, .nil, .nil, .slice 2 1] .nil [], .arr [.view 0 5 1]], [], [], []⟩, [(0, 1)], [0]⟩

theorem borrowed_reached : WReach nodes borrowed := by
  have : ((World.withBuffer .start [18, 1, 5, 58, 1, 65]).exec nodes (.new 0)).exec nodes (.decode (unsafely 0) 0 [18, 1, 5, 58, 1, 65] 1) = borrowed := by decide
  exact this ▸ did (did (gotBuffer .start _) (.new 0) trivial) _ ⟨by decide, by decide, rfl, fun _ => by decide⟩

/-- The clone of that. -/
def borrowedClone : HState := ⟨borrowed.st.heap ++ [.msg [.nil, .bytes 4 0 1, .nil, .nil, .nil, .slice 5 1] .nil [], .bytes [5], .arr [.view 0 5 1]], [], [], []⟩

theorem borrowed_cloned : hcloneVT (cloning none) 0 (.ptr 1) borrowed.st = (borrowedClone, .ok (.ptr 3)) := by decide

example : ∀ h', Mutation (· = 3) borrowedClone.heap h' → ∀ x, Sees borrowed.st.heap 1 x ∨ x ∈ borrowed.bufs → h'[x]? = borrowed.st.heap[x]? :=
  clone_guards_original_partial nodes_ok borrowed_reached (t := 0) (a := 1) ⟨by decide, by decide, rfl⟩ (fun _ h => absurd h List.not_mem_nil) borrowed_cloned

/-- C46 fails for originals decoded without copying: strings of the clone are in the buffer still. Writing to the bytes of the original, or to the buffer,
changes the clone. -/
theorem clone_keeps_alias : WReach nodes borrowed ∧ hcloneVT (cloning none) 0 (.ptr 1) borrowed.st = (borrowedClone, .ok (.ptr 3)) ∧
    ∃ h', Mutation (· = 1) borrowedClone.heap h' ∧ Sees borrowedClone.heap 3 0 ∧ h'[0]? ≠ borrowedClone.heap[0]? := by
  refine ⟨borrowed_reached, borrowed_cloned, borrowedClone.heap.set 0 (.bytes [18, 1, 5, 58, 1, 66]), ?_, ?_, by decide⟩
  · exact .write (x := 0) (c := .bytes [18, 1, 5, 58, 1, 66]) ⟨1, rfl, .there (v := .bytes 0 2 1) (b := 0) rfl (by decide) rfl (.here _)⟩ (fun _ h => nomatch h) .done
  · exact .there (v := .slice 5 1) (b := 5) rfl (by decide) rfl (.there (v := .view 0 5 1) (b := 0) rfl (by decide) rfl (.here _))

/-- A node with a string in a buffer, after another with bytes in the same buffer was returned to the pool. -/
def leftover : World := ⟨⟨[.bytes [58, 1, 65], .msg [.nil, .bytes 0 2 0, .nil, .nil, .nil, .nil] .nil [], .msg [.nil, .nil, .nil, .nil, .nil, .slice 3 1] .nil [], .arr [.view 0 2 1]],
  [(0, 1)], [], []⟩, [(0, 2)], [0]⟩

theorem leftover_reached : WReach nodes leftover := by
  have : ((World.filled ((((World.withBuffer .start [18, 1, 65]).exec nodes (.new 0)).exec nodes (.decode (unsafely 0) 0 [18, 1, 65] 1)).exec nodes (.put 0 1)) 0 [58, 1, 65]).exec nodes
      (.new 0)).exec nodes (.decode (unsafely 0) 0 [58, 1, 65] 2) = leftover := by decide
  refine this ▸ did (did (wroteBuffer (did (did (did (gotBuffer .start _) (.new 0) trivial) _ ?_) (.put 0 1) ?_) _ _ ?_) (.new 0) trivial) _ ?_
  · exact ⟨by decide, by decide, rfl, fun _ => by decide⟩
  · exact (show _ ∈ _ by decide)
  · decide
  · exact ⟨by decide, by decide, rfl, fun _ => by decide⟩

/-- C46 fails the other way for originals decoded without copying if the clone gets a message from the pool that has bytes in the same buffer:
appending to the clone's bytes changes the string of the original. -/
theorem clone_of_leftover : WReach nodes leftover ∧ ∃ σ, hcloneVT (cloning (some 1)) 0 (.ptr 2) leftover.st = (σ, .ok (.ptr 1)) ∧
    ∃ h', Mutation (· = 1) σ.heap h' ∧ Sees leftover.st.heap 2 0 ∧ h'[0]? ≠ leftover.st.heap[0]? := by
  refine ⟨leftover_reached, ⟨[.bytes [58, 1, 65], .msg [.nil, .bytes 0 2 0, .nil, .nil, .nil, .slice 4 1] .nil [], .msg [.nil, .nil, .nil, .nil, .nil, .slice 3 1] .nil [],
    .arr [.view 0 2 1], .arr [.view 0 2 1]], [], [], []⟩, by decide, [.bytes [58, 1, 66], .msg [.nil, .bytes 0 2 0, .nil, .nil, .nil, .slice 4 1] .nil [],
    .msg [.nil, .nil, .nil, .nil, .nil, .slice 3 1] .nil [], .arr [.view 0 2 1], .arr [.view 0 2 1]], ?_, ?_, by decide⟩
  · exact .write (x := 0) (c := .bytes [58, 1, 66]) ⟨1, rfl, .there (v := .bytes 0 2 0) (b := 0) rfl (by decide) rfl (.here _)⟩ (fun _ h => nomatch h) .done
  · exact .there (v := .slice 3 1) (b := 3) rfl (by decide) rfl (.there (v := .view 0 2 1) (b := 0) rfl (by decide) rfl (.here _))

/-! ### C54 -/

example : ∀ x ∈ borrowed.bufs, (borrowed.exec nodes (.put 0 1)).st.heap[x]? = borrowed.st.heap[x]? :=
  buffers_kept_partial nodes_ok borrowed_reached (op := .put 0 1) (show _ ∈ _ by decide) (.inl fun _ _ _ _ h => nomatch h)

/-- The same after the program got another node; that is decoded into. -/
def borrowedToo : World := ⟨⟨borrowed.st.heap ++ [emptyNode], [], [], []⟩, [(0, 3), (0, 1)], [0]⟩

theorem borrowedToo_reached : WReach nodes borrowedToo := by
  have : borrowed.exec nodes (.new 0) = borrowedToo := by decide
  exact this ▸ did borrowed_reached (.new 0) trivial

example : ∀ x ∈ borrowedToo.bufs, (borrowedToo.exec nodes (.decode (safely none) 0 [18, 2, 8, 9] 3)).st.heap[x]? = borrowedToo.st.heap[x]? := by
  refine decode_keeps_buffers_partial nodes_ok borrowedToo_reached ⟨by decide, by decide, rfl, fun h => by cases h⟩ rfl fun q hq x hx => ?_
  have : q = (0, 3) := by simpa [borrowedToo] using hq
  subst this
  rw [reach_empty rfl hx]
  decide

/-- C54 fails: after a message that was decoded without copying was returned to its pool and taken from there, decoding into it with copies writes to the old buffer. -/
theorem decode_writes_old_buffer : WReach nodes ((borrowed.exec nodes (.put 0 1)).exec nodes (.get (some 1) 0)) ∧
    (((borrowed.exec nodes (.put 0 1)).exec nodes (.get (some 1) 0)).exec nodes (.decode (safely none) 0 [18, 2, 8, 9] 1)).st.heap[0]? = some (.bytes [18, 1, 8, 9, 1, 65]) :=
  ⟨did (did borrowed_reached (.put 0 1) (show _ ∈ _ by decide)) (.get (some 1) 0) trivial, by decide⟩

/-- It also fails without pools: if the message is decoded into again. -/
theorem decode_again_writes_old_buffer :
    (borrowed.exec nodes (.decode (safely none) 0 [18, 2, 8, 9] 1)).st.heap[0]? = some (.bytes [18, 1, 8, 9, 1, 65]) := by decide

end Vtp.Props
