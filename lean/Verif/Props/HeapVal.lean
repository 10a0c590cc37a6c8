import Verif.Lemmas.HeapSimLoop
import Verif.Lemmas.HeapSimReset
import Verif.Lemmas.HeapSimClone
import Verif.Lemmas.HeapPoolDec
import Verif.Lemmas.PoolHistory
import Verif.Props.Heap
/-!
# Theorems about the contents of memory

`Holds S B σ I`: each of the items `I` is a value in the memory `σ` together with what it stands for as a value without addresses; the items
share no memory. The theorems say that methods, on memory, do what the model on values says, and leave all other items as they are.
-/

namespace Vtp.Props
open Spec

/-! ## C70 -/

/-- C70, for programs that do not take messages from pools while decoding. Decoding in memory gives the
result that decoding of values gives; the memory then holds the message which that gives, also if it fails; all other messages and values
keep their contents. Without copying, what the message stands for depends on the contents `later` of the buffer. -/
theorem memory_decodes_partial {S : Schema} {B : Bufs} {E : HEnv} {later : Bytes} (hE : HSimEnv S B E later) {t : Nat} (hf : (S.msg t).foreign = false)
    (b : Bytes) {p : HV} {m : Val} {R : List VItem} {σ : HState} (h : Holds S B σ ((.msg t, p, m) :: R)) :
    (hunmarshalVT E t b p σ).2 = (unmarshalVT (E.toU later) t b m).2 ∧
    Holds S B (hunmarshalVT E t b p σ).1 ((.msg t, p, (unmarshalVT (E.toU later) t b m).1) :: R) :=
  unmarshalVT_sim hE hf m R σ h

/-- C70. After `UnmarshalVTUnsafe` from the buffer at `a` and then overwriting the buffer with `later`, the message stands for what decoding without
copying gives when the buffer is taken to have the contents `later` afterwards. All other messages keep their contents. -/
theorem overwritten_buffer_partial {S : Schema} {E : HEnv} {b later : Bytes} (hE : HSimEnv S (.one E.buf b later True) E later) {t : Nat}
    (hf : (S.msg t).foreign = false) {p : HV} {m : Val} {R : List VItem} {σ : HState} (h : Holds S (.one E.buf b later True) σ ((.msg t, p, m) :: R)) :
    (hunmarshalVT E t b p σ).2 = (unmarshalVT (E.toU later) t b m).2 ∧
    Holds S (.one E.buf later later True) { (hunmarshalVT E t b p σ).1 with heap := (hunmarshalVT E t b p σ).1.heap.set E.buf (.bytes later) }
      ((.msg t, p, (unmarshalVT (E.toU later) t b m).1) :: R) := by
  obtain ⟨h1, h2⟩ := unmarshalVT_sim hE hf m R σ h
  have := Spec.Holds.refill (now' := fun _ => later) (a := E.buf) h2 (by simp) (fun b hb hm => absurd (if_neg hb) hm)
  exact ⟨h1, this⟩

/-! ## C71 -/

/-- C71. `ResetVT` in memory returns or panics as `ResetVT` on values does. If it returns, the memory holds the message which that gives; the pools
have received exactly the messages which that says, in this order, with these contents, and they share no memory with the message or with
each other; all other messages keep their contents. -/
theorem memory_resets {S : Schema} {B : Bufs} (hS : schemaOK S = true) (hL : poolsLocal S) {t : Nat} (hf : (S.msg t).foreign = false) {p : HV} {m : Val}
    {R : List VItem} {σ : HState} (h : Holds S B σ ((.msg t, p, m) :: R)) :
    ((hresetVT S t p σ).2 = resetVT S t m >>= fun _ => .ok ()) ∧
    ∀ m' ps, resetVT S t m = .ok (m', ps) → ∃ L : List (Nat × Addr × Val), L.map (fun q => (q.1, q.2.2)) = ps ∧
      (hresetVT S t p σ).1.pool = (L.map fun q => (q.1, q.2.1)).reverse ++ σ.pool ∧
      Holds S B (hresetVT S t p σ).1 ((.msg t, p, m') :: (L.map (fun q => (.msg q.1, .ptr q.2.1, q.2.2)) ++ R)) := by
  have h1 := resetVT_sim hS hL hf h
  unfold PutSim at h1
  cases hr : resetVT S t m with
  | ok q =>
    rw [hr] at h1
    obtain ⟨σ', a, L, h2, h3, h4, -, h5⟩ := h1
    rw [h2]
    refine ⟨rfl, fun m' ps e => ?_⟩
    cases e
    exact ⟨L, h3, h4, h5⟩
  | err e => rw [hr] at h1; exact ⟨h1, fun _ _ e => nomatch e⟩
  | panic e => rw [hr] at h1; exact ⟨h1, fun _ _ e => nomatch e⟩
  | diverge => rw [hr] at h1; exact ⟨h1, fun _ _ e => nomatch e⟩

/-- C71. The same for `ReturnToVTPool`; the message itself is the last one put into a pool. -/
theorem memory_returns {S : Schema} {B : Bufs} (hS : schemaOK S = true) (hL : poolsLocal S) {t : Nat} (hf : (S.msg t).foreign = false) {p : HV} {m : Val}
    {R : List VItem} {σ : HState} (h : Holds S B σ ((.msg t, p, m) :: R)) :
    ((hreturnToVTPool S t p σ).2 = returnToVTPool S t m >>= fun _ => .ok ()) ∧
    ∀ ps, returnToVTPool S t m = .ok ps → ∃ L : List (Nat × Addr × Val), L.map (fun q => (q.1, q.2.2)) = ps ∧
      (hreturnToVTPool S t p σ).1.pool = (L.map fun q => (q.1, q.2.1)).reverse ++ σ.pool ∧
      Holds S B (hreturnToVTPool S t p σ).1 (L.map (fun q => (.msg q.1, .ptr q.2.1, q.2.2)) ++ R) := by
  have h1 := returnToVTPool_sim hS hL hf h
  unfold PutSim at h1
  cases hr : returnToVTPool S t m with
  | ok q =>
    rw [hr] at h1
    obtain ⟨σ', a, L, h2, h3, h4, -, h5⟩ := h1
    rw [h2]
    refine ⟨rfl, fun ps e => ?_⟩
    cases e
    exact ⟨L, h3, h4, h5⟩
  | err e => rw [hr] at h1; exact ⟨h1, fun _ e => nomatch e⟩
  | panic e => rw [hr] at h1; exact ⟨h1, fun _ e => nomatch e⟩
  | diverge => rw [hr] at h1; exact ⟨h1, fun _ e => nomatch e⟩

/-! ## C72 -/

/-- C72. `CloneVT` in memory, whatever the pools hand out, ends as `CloneVT` without pools does on values. If it returns, the memory it returns holds,
up to memory kept for reuse, the message which that gives; it is not shared with the original, any other message or what is left in the
pools. In each case all messages and what is left in the pools keep their contents. -/
theorem memory_clones {S : Schema} {B : Bufs} {E : HKEnv} (hE : CloneEnv S B E) {t : Nat} (hf : (S.msg t).foreign = false) {p : HV} {m m' : Val}
    {R : List VItem} {σ : HState} (hp : (.msg t, p, m) ∈ R) (hm : Reuse S t m m') (h : HoldsPool S B σ R) :
    HoldsPool S B (hcloneVT E t p σ).1 R ∧
    ((hcloneVT E t p σ).2 >>= fun _ => .ok ()) = (cloneVT E.plain t m' >>= fun _ => .ok ()) ∧
    ∀ r, cloneVT E.plain t m' = .ok r → ∃ q r', (hcloneVT E t p σ).2 = .ok q ∧ Reuse S t r' r ∧
      HoldsPool S B (hcloneVT E t p σ).1 ((.msg t, q, r') :: R) := by
  have h1 := cloneVT_sim hE hf hp hm h
  unfold PoolSim at h1
  cases hr : cloneVT E.plain t m' with
  | ok r =>
    rw [hr] at h1
    obtain ⟨σ', a, I, h2, ⟨r', rfl, h3⟩, h4⟩ := h1
    rw [h2]
    refine ⟨h4.tail, rfl, fun r1 e => ?_⟩
    cases e
    exact ⟨a, r', rfl, h3, h4⟩
  | err e =>
    rw [hr] at h1
    obtain ⟨σ', h2, h3⟩ := h1
    rw [h2]
    exact ⟨h3, rfl, fun _ e => nomatch e⟩
  | panic e =>
    rw [hr] at h1
    obtain ⟨σ', h2, h3⟩ := h1
    rw [h2]
    exact ⟨h3, rfl, fun _ e => nomatch e⟩
  | diverge =>
    rw [hr] at h1
    obtain ⟨σ', h2, h3⟩ := h1
    rw [h2]
    exact ⟨h3, rfl, fun _ e => nomatch e⟩

/-! ## C73 -/

/-- C73, with copies only into messages decoded with copies. Decoding in memory, whatever the pools hand out for sub-messages, into a message that may have memory kept
for reuse, gives the result that decoding of values gives with code generated without pools; up to memory kept for reuse the memory then holds
the message which that gives, also if it fails; all other messages, and what is left in the pools, keep their contents and are not shared with
the message. -/
theorem memory_decodes_pooled_partial {S : Schema} {B : Bufs} {E : HEnv} {later : Bytes} (hE : HPoolEnv S B E later) {t : Nat}
    (hf : (S.msg t).foreign = false) (b : Bytes) {p : HV} {m m' : Val} {R : List VItem} {σ : HState} (hm : Reuse S t m m')
    (h : HoldsPool S B σ ((.msg t, p, m) :: R)) :
    (hunmarshalVT E t b p σ).2 = (unmarshalVT (E.plain later) t b m').2 ∧
    ∃ m1, Reuse S t m1 (unmarshalVT (E.plain later) t b m').1 ∧ HoldsPool S B (hunmarshalVT E t b p σ).1 ((.msg t, p, m1) :: R) := by
  obtain ⟨m1, h1, h2, h3⟩ := unmarshalVT_simP hE hf m m' R σ h hm
  exact ⟨h1, m1, h2, h3⟩

/-! ## Cases -/

theorem nodes_noExt : ∀ t, (nodes.msg t).extRanges = [] := by
  intro t
  match t with
  | 0 => rfl
  | 1 => rfl
  | t + 2 => rfl

theorem nodes_ext (R : Runtime) (A : Arch) : ExtOK nodes R A := by
  rintro t b v ⟨whole, i, j, k, wire, -, -, -, -, r, hr, -⟩ -
  rw [nodes_noExt] at hr
  cases hr

theorem safely_sim : HSimEnv nodes .none (safely none) [] :=
  ⟨rfl, nodes_ok, nodes_ext _ _, fun _ => rfl, fun _ _ _ h => (nomatch h), fun h => (nomatch h), fun _ h => h.elim⟩

/-- Two new nodes. -/
def twoNodes : HState := ⟨[emptyNode, emptyNode], [], [], []⟩

theorem twoNodes_hold : Holds nodes .none twoNodes [(.msg 0, .ptr 1, zeroMsg nodes 0), (.msg 0, .ptr 0, zeroMsg nodes 0)] := by
  have h0 : Holds nodes .none ⟨[], [], [], []⟩ [] := ⟨0, .done, Multiset.nodup_zero, fun _ h => (by simp at h), (fun _ _ h => (nomatch h)), List.nodup_nil, fun _ h => (nomatch h)⟩
  obtain ⟨σ, p, h1, h2⟩ := new_sim 0 h0
  obtain ⟨σ', p', h3, h4⟩ := new_sim 0 h2
  have e1 : hnew nodes 0 ⟨[], [], [], []⟩ = (⟨[emptyNode], [], [], []⟩, .ok (.ptr 0)) := by decide
  rw [e1] at h1
  cases h1
  have e2 : hnew nodes 0 ⟨[emptyNode], [], [], []⟩ = (twoNodes, .ok (.ptr 1)) := by decide
  rw [e2] at h3
  cases h3
  exact h4


/-- What `decoded` is decoded from: sub-messages in a list, in a field and in a oneof, and a string in a list. -/
abbrev nodeBytes : Bytes := [10, 3, 18, 1, 5, 26, 2, 40, 7, 34, 0, 58, 1, 65]

/-- What is decoded. -/
def nodeOf : Val := .msg [.list [.msg [.nil, .str [5], .nil, .nil, .nil, .nil] [] []] [], .nil, .msg [.nil, .nil, .nil, .wrap 5 (.num 7), .nil, .nil] [] [],
  .wrap 4 (zeroMsg nodes 0), .nil, .list [.str [65]] []] [] []

/-- Memory after decoding into the second node. -/
def filledNode : HState := ⟨[emptyNode, .msg [.slice 3 1, .nil, .ptr 5, .ptr 8, .nil, .slice 9 1] .nil [], .msg [.nil, .bytes 4 0 1, .nil, .nil, .nil, .nil] .nil [], .arr [.ptr 2], .bytes [5],
  .msg [.nil, .nil, .nil, .ptr 6, .nil, .nil] .nil [], .wrap 5 (.num 7), emptyNode, .wrap 4 (.ptr 7), .arr [.str [65]]], [], [], []⟩

theorem filledNode_holds : Holds nodes .none filledNode [(.msg 0, .ptr 1, nodeOf), (.msg 0, .ptr 0, zeroMsg nodes 0)] := by
  have h := (memory_decodes_partial safely_sim (t := 0) (by decide) nodeBytes twoNodes_hold).2
  have e1 : hunmarshalVT (safely none) 0 nodeBytes (.ptr 1) twoNodes = (filledNode, .ok ()) := by decide
  have e2 : (unmarshalVT ((safely none).toU []) 0 nodeBytes (zeroMsg nodes 0)).1 = nodeOf := by decide
  rwa [e1, e2] at h

/-- Decoding into it again: the sub-message is merged into, the oneof is replaced, the lists grow. -/
example := memory_decodes_partial safely_sim (t := 0) (by decide) [10, 0, 26, 2, 18, 0, 40, 3, 58, 1, 66] filledNode_holds

/-- The decoded node is returned to the pool: the nodes in its field and oneof go there, too; the one in its list stays with it. -/
example : ∃ σ, hreturnToVTPool nodes 0 (.ptr 1) filledNode = (σ, .ok ()) ∧ σ.pool = [(0, 1), (0, 7), (0, 5)] ∧
    Holds nodes .none σ [(.msg 0, .ptr 5, zeroMsg nodes 0), (.msg 0, .ptr 7, zeroMsg nodes 0),
      (.msg 0, .ptr 1, .msg [.list [] [.msg [.nil, .str [], .nil, .nil, .nil, .nil] [] []], .nil, .nil, .nil, .nil, .list [] []] [] []),
      (.msg 0, .ptr 0, zeroMsg nodes 0)] := by
  have h := memory_returns nodes_ok nodes_local (t := 0) (by decide) filledNode_holds
  have e1 : (hreturnToVTPool nodes 0 (.ptr 1) filledNode).1.pool = [(0, 1), (0, 7), (0, 5)] := by decide +kernel
  have e2 : returnToVTPool nodes 0 nodeOf = .ok [(0, zeroMsg nodes 0), (0, zeroMsg nodes 0),
    (0, .msg [.list [] [.msg [.nil, .str [], .nil, .nil, .nil, .nil] [] []], .nil, .nil, .nil, .nil, .list [] []] [] [])] := by decide
  generalize hreturnToVTPool nodes 0 (.ptr 1) filledNode = q at h e1 ⊢
  rw [e2] at h
  obtain ⟨h1, h2⟩ := h
  obtain ⟨L, h3, h4, h5⟩ := h2 _ rfl
  refine ⟨q.1, Prod.ext rfl h1, e1, ?_⟩
  rw [e1] at h4
  match L, h3 with
  | [(t1, a1, v1), (t2, a2, v2), (t3, a3, v3)], h3 =>
    simp only [List.map_cons, List.map_nil, List.cons.injEq, Prod.mk.injEq, and_true] at h3
    obtain ⟨⟨rfl, rfl⟩, ⟨rfl, rfl⟩, rfl, rfl⟩ := h3
    simp [filledNode] at h4
    obtain ⟨rfl, rfl, rfl⟩ := h4
    exact h5

/-- One of the nodes is in the pool. -/
theorem filledNode_pool : HoldsPool nodes .none { filledNode with pool := [(0, 0)] } [(.msg 0, .ptr 1, nodeOf)] :=
  ⟨[(0, 0, zeroMsg nodes 0)], rfl, fun q hq => by
    simp only [List.mem_singleton] at hq
    subst hq
    exact zeroMsg_reuse nodes_ok 0, filledNode_holds.same rfl rfl⟩

theorem cloning_env : CloneEnv nodes .none (cloning (some 0)) := ⟨rfl, nodes_ok, fun _ _ h => (nomatch h), fun _ => rfl, fun _ _ h => h⟩

/-- The clone of the decoded node: the first node in it comes from the pool. -/
example : ∃ σ w, hcloneVT (cloning (some 0)) 0 (.ptr 1) { filledNode with pool := [(0, 0)] } = (σ, .ok (.ptr 0)) ∧ σ.pool = [] ∧ Reuse nodes 0 w nodeOf ∧
    HoldsPool nodes .none σ [(.msg 0, .ptr 0, w), (.msg 0, .ptr 1, nodeOf)] := by
  have hc : Clean nodes 0 nodeOf := clean_of_noSpare (tn := .typedNil) nodes_ok (by decide) (by decide)
  have h := memory_clones cloning_env (t := 0) rfl (.head _) hc filledNode_pool
  have e1 : (hcloneVT (cloning (some 0)) 0 (.ptr 1) { filledNode with pool := [(0, 0)] }).2 = .ok (.ptr 0) := by decide +kernel
  have e2 : (hcloneVT (cloning (some 0)) 0 (.ptr 1) { filledNode with pool := [(0, 0)] }).1.pool = [] := by decide +kernel
  have e3 : cloneVT (cloning (some 0)).plain 0 nodeOf = .ok nodeOf := by decide +kernel
  generalize hcloneVT (cloning (some 0)) 0 (.ptr 1) { filledNode with pool := [(0, 0)] } = q at h e1 e2 ⊢
  obtain ⟨q', w, h1, h2, h3⟩ := h.2.2 _ e3
  rw [e1] at h1
  cases h1
  exact ⟨q.1, w, Prod.ext rfl e1, e2, h2, h3⟩

theorem safely_pool : HPoolEnv nodes .none (safely (some 0)) [] :=
  ⟨rfl, nodes_ok, nodes_ext _ _, fun _ _ _ h => (nomatch h), fun h => (nomatch h), fun _ h => h.elim⟩

/-- Decoding into the decoded node again: the node added two levels below comes from the pool. -/
example : ∃ σ w, hunmarshalVT (safely (some 0)) 0 [26, 5, 26, 3, 18, 1, 9] (.ptr 1) { filledNode with pool := [(0, 0)] } = (σ, .ok ()) ∧ σ.pool = [] ∧
    Reuse nodes 0 w (.msg [.list [.msg [.nil, .str [5], .nil, .nil, .nil, .nil] [] []] [], .nil,
      .msg [.nil, .nil, .msg [.nil, .str [9], .nil, .nil, .nil, .nil] [] [], .wrap 5 (.num 7), .nil, .nil] [] [], .wrap 4 (zeroMsg nodes 0), .nil, .list [.str [65]] []] [] []) ∧
    HoldsPool nodes .none σ [(.msg 0, .ptr 1, w)] := by
  have hc : Clean nodes 0 nodeOf := clean_of_noSpare (tn := .typedNil) nodes_ok (by decide) (by decide)
  have h := memory_decodes_pooled_partial safely_pool (t := 0) rfl [26, 5, 26, 3, 18, 1, 9] hc filledNode_pool
  have e1 : (hunmarshalVT (safely (some 0)) 0 [26, 5, 26, 3, 18, 1, 9] (.ptr 1) { filledNode with pool := [(0, 0)] }).2 = .ok () := by decide +kernel
  have e2 : (hunmarshalVT (safely (some 0)) 0 [26, 5, 26, 3, 18, 1, 9] (.ptr 1) { filledNode with pool := [(0, 0)] }).1.pool = [] := by decide +kernel
  have e3 : unmarshalVT ((safely (some 0)).plain []) 0 [26, 5, 26, 3, 18, 1, 9] nodeOf =
    (.msg [.list [.msg [.nil, .str [5], .nil, .nil, .nil, .nil] [] []] [], .nil,
      .msg [.nil, .nil, .msg [.nil, .str [9], .nil, .nil, .nil, .nil] [] [], .wrap 5 (.num 7), .nil, .nil] [] [], .wrap 4 (zeroMsg nodes 0), .nil, .list [.str [65]] []] [] [], .ok ()) := by decide +kernel
  generalize hunmarshalVT (safely (some 0)) 0 [26, 5, 26, 3, 18, 1, 9] (.ptr 1) { filledNode with pool := [(0, 0)] } = q at h e1 e2 ⊢
  rw [e3] at h
  obtain ⟨-, w, h1, h2⟩ := h
  exact ⟨q.1, w, Prod.ext rfl e1, e2, h1, h2⟩

/-- A buffer with a message, and a node. -/
def withBuf : HState := ⟨[.bytes [18, 1, 5, 58, 1, 65], emptyNode], [], [], []⟩

theorem unsafely_sim : HSimEnv nodes (.one 0 [18, 1, 5, 58, 1, 65] [0, 1, 2, 3, 4, 66] True) (unsafely 0) [0, 1, 2, 3, 4, 66] :=
  ⟨rfl, nodes_ok, nodes_ext _ _, fun _ => rfl, fun _ _ _ h => (nomatch h), fun _ => ⟨trivial, rfl⟩, fun h => (nomatch h)⟩

theorem withBuf_holds : Holds nodes (.one 0 [18, 1, 5, 58, 1, 65] [0, 1, 2, 3, 4, 66] True) withBuf [(.msg 0, .ptr 1, zeroMsg nodes 0)] := by
  have h0 : Holds nodes (.one 0 [18, 1, 5, 58, 1, 65] [0, 1, 2, 3, 4, 66] True) ⟨[.bytes [18, 1, 5, 58, 1, 65]], [], [], []⟩ [] := by
    refine ⟨0, .done, Multiset.nodup_zero, fun _ h => (by simp at h), (fun a c h => ?_), List.nodup_nil, fun _ h => (nomatch h)⟩
    have : a = 0 := by
      by_cases e : a = 0
      · exact e
      · simp [Bufs.one, e] at h
    subst this
    rfl
  obtain ⟨σ, p, h1, h2⟩ := new_sim 0 h0
  have e1 : hnew nodes 0 ⟨[.bytes [18, 1, 5, 58, 1, 65]], [], [], []⟩ = (withBuf, .ok (.ptr 1)) := by decide
  rw [e1] at h1
  cases h1
  exact h2

/-- The bytes and the string change with the buffer. -/
example : Holds nodes (.one 0 [0, 1, 2, 3, 4, 66] [0, 1, 2, 3, 4, 66] True)
    ⟨[.bytes [0, 1, 2, 3, 4, 66], .msg [.nil, .bytes 0 2 1, .nil, .nil, .nil, .slice 2 1] .nil [], .arr [.view 0 5 1]], [], [], []⟩
    [(.msg 0, .ptr 1, .msg [.nil, .str [2], .nil, .nil, .nil, .list [.str [66]] []] [] [])] := by
  have h := (overwritten_buffer_partial (S := nodes) (E := unsafely 0) unsafely_sim (t := 0) (by decide) withBuf_holds).2
  have e1 : hunmarshalVT (unsafely 0) 0 [18, 1, 5, 58, 1, 65] (.ptr 1) withBuf =
    (⟨[.bytes [18, 1, 5, 58, 1, 65], .msg [.nil, .bytes 0 2 1, .nil, .nil, .nil, .slice 2 1] .nil [], .arr [.view 0 5 1]], [], [], []⟩, .ok ()) := by decide
  have e2 : (unmarshalVT ((unsafely 0).toU [0, 1, 2, 3, 4, 66]) 0 [18, 1, 5, 58, 1, 65] (zeroMsg nodes 0)).1 =
    .msg [.nil, .str [2], .nil, .nil, .nil, .list [.str [66]] []] [] [] := by decide
  rw [e1, e2] at h
  exact h

/-- Messages with extensions, from pools. -/
def ranged : Schema := [
  { fields := [{ num := 1, slot := 0, kind := .message, presence := true, msg := 0 }, { num := 2, slot := 1, kind := .bytes }], nslots := 2, extRanges := [(100, 200)],
    pooled := true }]

/-- The runtime knows the extension 100 of `ranged`. -/
def rangedEnv : HEnv :=
  { S := ranged, R := { structural with unmarshalPartial := fun _ b => some (.msg [.nil, .nil] (if b.take 1 = [160] then [] else b) (if b.take 1 = [160] then b else [])) }, A := .b64, pick := fun _ => none }

theorem ranged_pool : HPoolEnv ranged .none rangedEnv [] := by
  refine ⟨rfl, by decide, ?_, fun _ _ _ h => (nomatch h), fun h => (nomatch h), fun _ h => h.elim⟩
  rintro t b v ⟨whole, i, j, k, wire, -, -, -, -, r, hr, -⟩ h
  cases h
  match t with
  | 0 => exact ⟨_, _, _, rfl, rfl⟩
  | t + 1 => cases hr

theorem ranged_new : HoldsPool ranged .none ⟨[.msg [.nil, .nil] .nil []], [], [], []⟩ [(.msg 0, .ptr 0, zeroMsg ranged 0)] := by
  have h0 : Holds ranged .none ⟨[], [], [], []⟩ [] := ⟨0, .done, Multiset.nodup_zero, fun _ h => (by simp at h), (fun _ _ h => (nomatch h)), List.nodup_nil, fun _ h => (nomatch h)⟩
  obtain ⟨σ, p, h1, h2⟩ := new_sim 0 h0
  have e1 : hnew ranged 0 ⟨[], [], [], []⟩ = (⟨[.msg [.nil, .nil] .nil []], [], [], []⟩, .ok (.ptr 0)) := by decide
  rw [e1] at h1
  cases h1
  exact ⟨[], rfl, (fun _ h => nomatch h), by simpa using h2⟩

/-- Records of extensions, in a message and in its sub-message, one known and one not: what was there before the first, bytes and a sub-message, is gone (C36), in memory as for values. -/
example : ∃ σ w, hunmarshalVT rangedEnv 0 [18, 1, 5, 10, 0, 160, 6, 1, 10, 6, 18, 1, 5, 168, 6, 2] (.ptr 0) ⟨[.msg [.nil, .nil] .nil []], [], [], []⟩ = (σ, .ok ()) ∧
    Reuse ranged 0 w (.msg [.msg [.nil, .nil] [168, 6, 2] [], .nil] [] [160, 6, 1]) ∧ HoldsPool ranged .none σ [(.msg 0, .ptr 0, w)] := by
  have hc : Clean ranged 0 (zeroMsg ranged 0) := clean_of_noSpare (tn := .typedNil) (by decide) (by decide) (by decide)
  have h := memory_decodes_pooled_partial ranged_pool (t := 0) rfl [18, 1, 5, 10, 0, 160, 6, 1, 10, 6, 18, 1, 5, 168, 6, 2] hc ranged_new
  have e1 : (hunmarshalVT rangedEnv 0 [18, 1, 5, 10, 0, 160, 6, 1, 10, 6, 18, 1, 5, 168, 6, 2] (.ptr 0) ⟨[.msg [.nil, .nil] .nil []], [], [], []⟩).2 = .ok () := by decide +kernel
  have e3 : unmarshalVT (rangedEnv.plain []) 0 [18, 1, 5, 10, 0, 160, 6, 1, 10, 6, 18, 1, 5, 168, 6, 2] (zeroMsg ranged 0) =
    (.msg [.msg [.nil, .nil] [168, 6, 2] [], .nil] [] [160, 6, 1], .ok ()) := by decide +kernel
  generalize hunmarshalVT rangedEnv 0 [18, 1, 5, 10, 0, 160, 6, 1, 10, 6, 18, 1, 5, 168, 6, 2] (.ptr 0) ⟨[.msg [.nil, .nil] .nil []], [], [], []⟩ = q at h e1 ⊢
  rw [e3] at h
  obtain ⟨-, w, h1, h2⟩ := h
  exact ⟨q.1, w, Prod.ext rfl e1, h1, h2⟩

end Vtp.Props
