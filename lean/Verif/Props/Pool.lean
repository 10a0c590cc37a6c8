import Verif.Lemmas.PoolHistory
import Verif.Props.Equal
import Verif.Props.Decode
import Verif.Props.Unmarshal
/-!
# Properties of pooled messages: C50, C51, C53

`Blank S t v`: `v` is a new message of type `t`, except that lists and byte fields of pooled messages may be empty instead of nil, and
lists may have empty messages beyond their lengths. `Clean S t v`: the messages beyond the lengths of lists of pooled messages in `v` are
empty; messages built by the program from new memory are. `noKeptBytes`: no pooled type has an `optional bytes` field outside of a oneof.
-/

namespace Vtp.Props
open Spec

/-! ## C53 -/

/-- C53. `ResetVT` returns unless it meets a typed nil oneof wrapper or a nil element of a list of unpooled messages, and panics
otherwise (C20 in reverse: no message that was only decoded into has these). -/
theorem reset_returns_iff {S : Schema} (hS : schemaOK S = true) (hL : poolsLocal S) {t : Nat} (hp : (S.msg t).pooled = true) {v : Val}
    (hv : wtM S .typedNil t v = true) :
    ((∃ r, resetVT S t v = .ok r) ↔ Resettable S t v) ∧ (¬ Resettable S t v → resetVT S t v = .panic .nilDeref) := by
  obtain ⟨s, u, e, rfl⟩ := wtM_isMsg hv
  have := resetN_gives hS hL _ t (.msg s u e) (Nat.le_succ _) hp (by simp) hv
  simp only [resetVT, Val.isNil, Bool.false_eq_true, if_false]
  rcases this with ⟨h1, a, h2⟩ | ⟨h1, h2⟩
  · exact ⟨⟨fun _ => h1, fun _ => ⟨a, h2⟩⟩, fun h => absurd h1 h⟩
  · exact ⟨⟨fun ⟨r, h⟩ => by (rw [h2] at h; cases h), fun h => absurd h h1⟩, fun _ => h2⟩

/-- C53. After `ResetVT` the message is a new one, apart from memory kept for reuse; and so is every message it puts into a pool. -/
theorem reset_blank {S : Schema} (hS : schemaOK S = true) (hL : poolsLocal S) {t : Nat} (hp : (S.msg t).pooled = true) {v v' : Val} {ps : Puts}
    (hn : v ≠ .nil) (hc : Clean S t v) (h : resetVT S t v = .ok (v', ps)) :
    Blank S t v' ∧ ∀ p ∈ ps, (S.msg p.1).pooled = true ∧ Blank S p.1 p.2 := by
  have : v.isNil = false := by cases v <;> simp_all [Val.isNil]
  rw [resetVT, this] at h
  exact resetN_blank hS hL _ t v v' ps v hp hc h

/-- C50, C53. A message that is new apart from memory kept for reuse behaves as a new one: it marshals to the same bytes (none, if
there are no required fields), has the same size and is `EqualVT` to a new one. -/
theorem blank_is_new_partial {C : CEnv} (hS : schemaOK C.S = true) (hR : RuntimeEqual C.R) (hE : RuntimeEnc C.R) (hb : noKeptBytes C.S) {t : Nat}
    (hf : (C.S.msg t).foreign = false) {v : Val} (h : Blank C.S t v) :
    wtM C.S .solid t v = true ∧ equalVT C t v (zeroMsg C.S t) = .ok true ∧ equalVT C t (zeroMsg C.S t) v = .ok true ∧
    sizeVT ⟨C.S, C.R⟩ t v = sizeVT ⟨C.S, C.R⟩ t (zeroMsg C.S t) ∧
    ∀ strict, (∀ b, marshalVT ⟨C.S, C.R⟩ strict t v = .ok (some b) ↔ marshalVT ⟨C.S, C.R⟩ strict t (zeroMsg C.S t) = .ok (some b)) ∧
      ((∀ f ∈ (C.S.msg t).fields, f.card ≠ .required) → marshalVT ⟨C.S, C.R⟩ strict t v = .ok (some [])) := by
  have ha := alike_of_reuse hR.refl hb hf h
  have hw := blank_typed hS _ t v (Nat.le_refl _) h
  have hz : wtM C.S .solid t (zeroMsg C.S t) = true := zeroMsg_typed hS t
  have hw1 : wt C.S t v = true := members_weaken (by simp) (by simp) _ _ _ hw
  have hz1 : wt C.S t (zeroMsg C.S t) = true := members_weaken (by simp) (by simp) _ _ _ hz
  have hw2 : wtM C.S .typedNil t v = true := members_weaken (by simp) (by simp) _ _ _ hw
  have hz2 : wtM C.S .typedNil t (zeroMsg C.S t) = true := members_weaken (by simp) (by simp) _ _ _ hz
  have hs : Same C.S C.R t v (zeroMsg C.S t) := same_of_alike hS ha (same_refl hS hR.refl hf hw2 (blank_noNaN hS h))
  have he : ∀ strict, encode ⟨C.S, C.R⟩ strict t v = encode ⟨C.S, C.R⟩ strict t (zeroMsg C.S t) := fun strict => encode_alike (E := ⟨C.S, C.R⟩) hS strict ha
  refine ⟨hw, equal_of_same hS hR hf (.inr hw2) (.inr hz2) hs, equal_of_same hS hR hf (.inr hz2) (.inr hw2) (same_symm hR.symm hs),
    sizeVT_alike (E := ⟨C.S, C.R⟩) hS ha, fun strict => ⟨fun b => ?_, fun hr => ?_⟩⟩
  · rw [(marshal_encodes (E := ⟨C.S, C.R⟩) strict hS hE hw1 hf).1, (marshal_encodes (E := ⟨C.S, C.R⟩) strict hS hE hz1 hf).1, he]
  · rw [(marshal_encodes (E := ⟨C.S, C.R⟩) strict hS hE hw1 hf).1, he]
    exact encode_zero (E := ⟨C.S, C.R⟩) hS t hr

/-- ```
message Node {                      // type 0, proto3, pooled
  repeated Node p = 1; bytes q = 2; Node r = 3; oneof o { Node s = 4; int32 t = 5; } repeated Leaf l = 6; repeated string n = 7;
}
message Leaf { int32 x = 1; }       // type 1, proto3
``` -/
def nodes : Schema := [
  { fields := [
      { num := 1, slot := 0, kind := .message, card := .repeated, msg := 0 },
      { num := 2, slot := 1, kind := .bytes },
      { num := 3, slot := 2, kind := .message, presence := true, msg := 0 },
      { num := 4, slot := 3, kind := .message, presence := true, oneof := true, msg := 0 },
      { num := 5, slot := 3, kind := .int32, presence := true, oneof := true },
      { num := 6, slot := 4, kind := .message, card := .repeated, msg := 1 },
      { num := 7, slot := 5, kind := .string, card := .repeated }],
    nslots := 6, pooled := true },
  { fields := [{ num := 1, slot := 0, kind := .int32 }], nslots := 1 }]

theorem nodes_ok : schemaOK nodes = true := by decide

theorem nodes_local : poolsLocal nodes := by
  intro t h
  match t with
  | 0 => rfl
  | 1 => rfl
  | t + 2 => rfl

theorem nodes_bytes : noKeptBytes nodes := by
  intro t
  match t with
  | 0 => decide
  | 1 => decide
  | t + 2 => intro h; cases h

def leaf (n : BitVec 64) : Val := .msg [.num n] [] []

/-- A node with everything set, two levels deep. -/
def node : Val := .msg [.list [.msg [.nil, .str [7], .nil, .wrap 5 (.num 3), .nil, .nil] [1] [2]] [], .str [8, 9], .msg [.nil, .nil, .nil, .nil, .nil, .nil] [] [],
  .wrap 4 (.msg [.nil, .nil, .nil, .nil, .list [leaf 6] [], .nil] [] []), .list [leaf 4, leaf 5] [], .list [.str [65]] []] [248, 1, 5] [7]

def nenv : UEnv := { S := nodes, R := structural, A := .b64, alloc := fun _ t => zeroMsg nodes t }

theorem node_wt : wtM nodes .typedNil 0 node = true := by decide
theorem node_clean : Clean nodes 0 node := clean_of_noSpare nodes_ok node_wt (by decide)

/-- The node after `ResetVT`: its list keeps an empty node, the other list two empty leaves. -/
def nodeReset : Val := .msg [.list [] [.msg [.nil, .str [], .nil, .nil, .nil, .nil] [] []], .str [], .nil, .nil, .list [] [leaf 0, leaf 0], .list [] []] [] []

/-- The messages `ResetVT` puts into the pool: the singular one and the member of the oneof. -/
def nodePuts : Puts := [(0, zeroMsg nodes 0), (0, .msg [.nil, .nil, .nil, .nil, .list [] [leaf 0], .nil] [] [])]

theorem node_reset : resetVT nodes 0 node = .ok (nodeReset, nodePuts) := by decide

example : Resettable nodes 0 node := (reset_returns_iff nodes_ok nodes_local (by decide) node_wt).1.1 ⟨_, node_reset⟩

theorem nodeReset_blank : Blank nodes 0 nodeReset :=
  (reset_blank nodes_ok nodes_local (t := 0) (by decide) (by decide) node_clean node_reset).1

def nodeCmp : CEnv := { S := nodes, R := structural }

example := blank_is_new_partial (C := nodeCmp) (t := 0) nodes_ok structural_ok structural_enc nodes_bytes (by decide) nodeReset_blank

/-- C53 fails for `optional bytes` fields: the reset message has the field set to the empty string, marshals to two bytes and is not
`EqualVT` to a new message. -/
theorem reset_keeps_bytes : ∃ v', resetVT Demo.schema 5 (.msg [.str [1, 2], .nil] [] []) = .ok (v', []) ∧
    marshalVT Demo.env false 5 v' = .ok (some [10, 0]) ∧ equalVT cenv 5 v' (zeroMsg Demo.schema 5) = .ok false :=
  ⟨.msg [.str [], .nil] [] [], by decide⟩

/-- C53 fails for nil elements of lists of unpooled messages, and for typed nil oneof wrappers: `ResetVT` panics. -/
theorem reset_panics :
    wt nodes 0 (.msg [.nil, .nil, .nil, .nil, .list [.nil] [], .nil] [] []) = true ∧
    resetVT nodes 0 (.msg [.nil, .nil, .nil, .nil, .list [.nil] [], .nil] [] []) = .panic .nilDeref ∧
    resetVT nodes 0 (.msg [.nil, .nil, .nil, .wrapNil 4, .nil, .nil] [] []) = .panic .nilDeref := by decide

/-! ## C50 -/

/-- C50. Whatever was done before - messages taken from pools, built, changed, decoded into with any outcome, reset, returned, collected -
a message the pool may give out is a new one apart from memory kept for reuse. What programs do with messages is restricted in one way: they
do not leave messages that are not empty beyond the length of a list (see `truncated_list_leaks`). -/
theorem from_pool_blank {E : UEnv} (hS : schemaOK E.S = true) (hL : poolsLocal E.S) (hA : E.A.Valid)
    (hp : ∀ t b v, E.R.unmarshalPartial t b = some v → Clean E.S t v) {h : Hist} (hr : Reachable E h) {t : Nat} {v : Val} (ho : h.offers E.S t v) :
    Blank E.S t v := by
  rcases ho with ho | rfl
  · exact ((hist_inv hS hL hA hp hr).1 _ ho).2
  · exact blank_zero hS t

/-- C50. So it is `EqualVT` to a new message, has its size and marshals like one. Missing: types with `optional bytes` fields, for which this
is wrong (`reset_keeps_bytes`). -/
theorem from_pool_is_new_partial {E : UEnv} (hS : schemaOK E.S = true) (hL : poolsLocal E.S) (hA : E.A.Valid)
    (hp : ∀ t b v, E.R.unmarshalPartial t b = some v → Clean E.S t v) (hR : RuntimeEqual E.R) (hE : RuntimeEnc E.R) (hb : noKeptBytes E.S)
    {h : Hist} (hr : Reachable E h) {t : Nat} (ht : (E.S.msg t).pooled = true) {v : Val} (ho : h.offers E.S t v) :
    wtM E.S .solid t v = true ∧ equalVT ⟨E.S, E.R, fun _ => false⟩ t v (zeroMsg E.S t) = .ok true ∧
    sizeVT ⟨E.S, E.R⟩ t v = sizeVT ⟨E.S, E.R⟩ t (zeroMsg E.S t) ∧
    ∀ strict b, marshalVT ⟨E.S, E.R⟩ strict t v = .ok (some b) ↔ marshalVT ⟨E.S, E.R⟩ strict t (zeroMsg E.S t) = .ok (some b) := by
  obtain ⟨h1, h2, -, h3, h4⟩ := blank_is_new_partial (C := ⟨E.S, E.R, fun _ => false⟩) hS hR hE hb (hL t ht) (from_pool_blank hS hL hA hp hr ho)
  exact ⟨h1, h2, h3, fun strict b => (h4 strict).1 b⟩

/-- What the node puts into pools after another node was decoded into its list. -/
def nodePuts2 : Puts := [(0, zeroMsg nodes 0), (0, .msg [.nil, .nil, .nil, .nil, .list [] [leaf 0], .nil] [] []),
  (0, .msg [.list [] [.msg [.nil, .str [], .nil, .nil, .nil, .nil] [] [], .msg [.nil, .str [], .nil, .nil, .nil, .nil] [] []], .str [], .nil, .nil,
      .list [] [leaf 0, leaf 0], .list [] []] [] [])]

/-- A history: the node is built, decoded into, and returned; the pool then offers three messages. -/
theorem nodes_history : Reachable nenv ⟨nodePuts2, []⟩ := by
  have h1 : Reachable nenv ⟨[], [(0, node)]⟩ := .step .start (.build node_clean)
  have h2 := Reachable.step h1 (.decode (b := [10, 3, 18, 1, 5]) (alloc := fun _ t => zeroMsg nodes t) (aliasing := false) (later := []) [] [] rfl
    (by decide) (by decide) (fun _ t => .inr rfl) .slnil)
  exact .step h2 (.put (ps := nodePuts2) (by decide) [] [] rfl (by decide))

/-- The last of them. -/
def again : Val := .msg [.list [] [.msg [.nil, .str [], .nil, .nil, .nil, .nil] [] [], .msg [.nil, .str [], .nil, .nil, .nil, .nil] [] []], .str [], .nil, .nil,
      .list [] [leaf 0, leaf 0], .list [] []] [] []

example := from_pool_is_new_partial (E := nenv) (t := 0) (v := again) nodes_ok nodes_local (.inr rfl)
  (fun _ _ _ h => (nomatch h)) structural_ok structural_enc nodes_bytes nodes_history (by decide) (.inl (by decide))

/-- C50 fails if a list of messages was cut short before: the reset does not see the messages beyond the length, and decoding into the
list brings back the old contents (the bytes 7 and 9 instead of nothing). -/
theorem truncated_list_leaks :
    wt nodes 0 (.msg [.list [] [.msg [.nil, .str [7, 9], .nil, .nil, .nil, .nil] [] []], .nil, .nil, .nil, .nil, .nil] [] []) = true ∧
    (∃ v', resetVT nodes 0 (.msg [.list [] [.msg [.nil, .str [7, 9], .nil, .nil, .nil, .nil] [] []], .nil, .nil, .nil, .nil, .nil] [] []) = .ok (v', []) ∧
      equalVT nodeCmp 0 v' (zeroMsg nodes 0) = .ok true ∧
      unmarshalVT nenv 0 [10, 0] v' = (.msg [.list [.msg [.nil, .str [7, 9], .nil, .nil, .nil, .nil] [] []] [], .nil, .nil, .nil, .nil, .nil] [] [], .ok ())) := by
  refine ⟨by decide, .msg [.list [] [.msg [.nil, .str [7, 9], .nil, .nil, .nil, .nil] [] []], .nil, .nil, .nil, .nil, .nil] [] [], by decide, by decide, by decide⟩

/-! ## C51 -/

/-- C51. Decoding into a message from the pool, taking sub-messages from the pool and reusing memory kept in lists, has the outcome of
decoding into a new message with code generated without pools, and gives the same message apart from memory kept for reuse - also if the
decode fails. -/
theorem decode_from_pool {E : UEnv} (hS : schemaOK E.S = true) (hL : poolsLocal E.S) (hA : E.A.Valid)
    (hp : ∀ t b v, E.R.unmarshalPartial t b = some v → Clean E.S t v) {h : Hist} (hr : Reachable E h) {t : Nat} (ht : (E.S.msg t).pooled = true) {v : Val}
    (ho : h.offers E.S t v) (ha : ∀ off t, h.offers E.S t (E.alloc off t)) {b : Bytes} (hF : E.A.Fits b.length) :
    (unmarshalVT E t b v).2 = (unmarshalVT { E with S := unpool E.S } t b (zeroMsg E.S t)).2 ∧
    Reuse E.S t (unmarshalVT E t b v).1 (unmarshalVT { E with S := unpool E.S } t b (zeroMsg E.S t)).1 :=
  pooled_sim hS hA hp (fun off t _ => from_pool_blank hS hL hA hp hr (ha off t)) (hL t ht) hF (from_pool_blank hS hL hA hp hr ho)

/-- C51. So the messages have the same size, marshal to the same bytes and are `EqualVT` (unless there is a NaN). Missing: `optional bytes`
fields of pooled messages, for which this is wrong (`pooled_decode_differs`). -/
theorem decode_from_pool_same_partial {E : UEnv} (hE : DecodeEnv E) (hL : poolsLocal E.S)
    (hp : ∀ t b v, E.R.unmarshalPartial t b = some v → Clean E.S t v) (hR : RuntimeEqual E.R) (hE' : RuntimeEnc E.R) (hb : noKeptBytes E.S) {h : Hist}
    (hr : Reachable E h) {t : Nat} (ht : (E.S.msg t).pooled = true) {v : Val} (ho : h.offers E.S t v) (ha : ∀ off t, h.offers E.S t (E.alloc off t))
    {b : Bytes} (hF : E.A.Fits b.length) {m m' : Val} {r r' : Res Unit} (h1 : unmarshalVT E t b v = (m, r))
    (h2 : unmarshalVT { E with S := unpool E.S } t b (zeroMsg E.S t) = (m', r')) :
    r = r' ∧ sizeVT ⟨E.S, E.R⟩ t m = sizeVT ⟨E.S, E.R⟩ t m' ∧
    (∀ strict c, marshalVT ⟨E.S, E.R⟩ strict t m = .ok (some c) ↔ marshalVT ⟨E.S, E.R⟩ strict t m' = .ok (some c)) ∧
    (NoNaN E.S t m → equalVT ⟨E.S, E.R, fun _ => false⟩ t m m' = .ok true) := by
  have hS := hE.schema
  have hf := hL t ht
  obtain ⟨h3, h4⟩ := decode_from_pool hS hL hE.arch hp hr ht ho ha hF
  rw [h1, h2] at h3 h4
  have hal := alike_of_reuse hR.refl hb hf h4
  have hB := from_pool_blank hS hL hE.arch hp hr ho
  have w1 := (unmarshal_returns_partial hE hf (blank_typed hS _ t v (Nat.le_refl _) hB) hF).2
  rw [h1] at w1
  have hU : DecodeEnv { E with S := unpool E.S } := unpool_env hE
  have w2 := (unmarshal_returns_partial hU (by rw [unpool_msg]; exact hf) (m := zeroMsg E.S t) (by
    have := new_message_typed hU.schema t
    rwa [(samePlan_unpool E.S).zeroMsg t] at this) hF).2
  rw [h2, unpool_typed] at w2
  have w1' : wt E.S t m = true := members_weaken (by simp) (by simp) _ _ _ w1
  have w2' : wt E.S t m' = true := members_weaken (by simp) (by simp) _ _ _ w2
  have w1'' : wtM E.S .typedNil t m = true := members_weaken (by simp) (by simp) _ _ _ w1
  have w2'' : wtM E.S .typedNil t m' = true := members_weaken (by simp) (by simp) _ _ _ w2
  refine ⟨h3, sizeVT_alike (E := ⟨E.S, E.R⟩) hS hal, fun strict c => ?_, fun hn => ?_⟩
  · rw [(marshal_encodes (E := ⟨E.S, E.R⟩) strict hS hE' w1' hf).1, (marshal_encodes (E := ⟨E.S, E.R⟩) strict hS hE' w2' hf).1,
      encode_alike (E := ⟨E.S, E.R⟩) hS strict hal]
  · exact equal_of_same (C := ⟨E.S, E.R, fun _ => false⟩) hS hR hf (.inr w1'') (.inr w2'') (same_of_alike hS hal (same_refl hS hR.refl hf w1'' hn))

theorem nenv_ok : DecodeEnv nenv :=
  ⟨nodes_ok, .inr rfl, fun _ t => zeroMsg_typed nodes_ok t, fun _ _ _ h => (nomatch h), fun _ _ _ h => (nomatch h), .inl rfl⟩

/-- Into the list of the message from the pool, into new memory, and into the singular message. -/
def nodeInput : Bytes := [10, 3, 18, 1, 5, 10, 0, 26, 2, 40, 7, 50, 2, 8, 9, 58, 1, 65]

example : ∃ m m', unmarshalVT nenv 0 nodeInput again = (m, .ok ()) ∧ unmarshalVT { nenv with S := unpool nodes } 0 nodeInput (zeroMsg nodes 0) = (m', .ok ()) ∧
    m ≠ m' ∧ equalVT nodeCmp 0 m m' = .ok true := by
  refine ⟨.msg [.list [.msg [.nil, .str [5], .nil, .nil, .nil, .nil] [] [], .msg [.nil, .str [], .nil, .nil, .nil, .nil] [] []] [], .str [],
      .msg [.nil, .nil, .nil, .wrap 5 (.num 7), .nil, .nil] [] [], .nil, .list [leaf 9] [leaf 0], .list [.str [65]] []] [] [],
    .msg [.list [.msg [.nil, .str [5], .nil, .nil, .nil, .nil] [] [], .msg [.nil, .nil, .nil, .nil, .nil, .nil] [] []] [], .nil,
      .msg [.nil, .nil, .nil, .wrap 5 (.num 7), .nil, .nil] [] [], .nil, .list [leaf 9] [], .list [.str [65]] []] [] [], by decide, by decide, by decide, by decide⟩

example (m m' : Val) (r r' : Res Unit) (h1 : unmarshalVT nenv 0 nodeInput again = (m, r))
    (h2 : unmarshalVT { nenv with S := unpool nodes } 0 nodeInput (zeroMsg nodes 0) = (m', r')) :=
  decode_from_pool_same_partial (E := nenv) (t := 0) (v := again) nenv_ok nodes_local (fun _ _ _ h => (nomatch h)) structural_ok structural_enc nodes_bytes
    nodes_history (by decide) (.inl (by decide)) (fun _ _ => .inr rfl) (by decide) h1 h2

/-- C51 fails for `optional bytes` fields: decoding nothing into a message from the pool leaves the field present. -/
theorem pooled_decode_differs :
    unmarshalVT Demo.uenv 5 [] (.msg [.str [], .nil] [] []) = (.msg [.str [], .nil] [] [], .ok ()) ∧
    resetVT Demo.schema 5 (.msg [.str [1], .nil] [] []) = .ok (.msg [.str [], .nil] [] [], []) ∧
    equalVT cenv 5 (.msg [.str [], .nil] [] []) (zeroMsg Demo.schema 5) = .ok false := by decide

/-! ## C22, pooled schemas -/

/-- C22. With pools that hold empty messages, decoding gives what the wire format says, apart from memory kept for reuse. The conditions on the
input are those of `unmarshal_decodes_partial`. -/
theorem pooled_decodes_partial {E : UEnv} (hE : DecodeEnv E) (hc : E.aliasing = false) (hbool : E.A.bits = 64 ∨ noBools E.S)
    (hp : ∀ t b v, E.R.unmarshalPartial t b = some v → Clean E.S t v) (ha : ∀ off t, (E.S.msg t).pooled = true → Blank E.S t (E.alloc off t)) {t : Nat}
    (hf : (E.S.msg t).foreign = false) {b : Bytes} (hb : E.A.Fits (b.length + 1)) {m m0 m' : Val} (hm : wtM E.S .solid t m0 = true) (hr : Reuse E.S t m m0)
    (h : Decodes (unpool E.S) E.R t b m0 m') : ∃ v, unmarshalVT E t b m = (v, .ok ()) ∧ Reuse E.S t v m' := by
  have hP : PlainEnv { E with S := unpool E.S } := by
    refine ⟨unpool_env hE, hc, fun t => ?_, hbool.imp id fun h t => ?_⟩
    · show ((unpool E.S).msg t).pooled = false
      rw [unpool_msg]
    · have := h t
      simpa only [unpool_msg] using this
  have h1 := unmarshal_decodes_partial hP (by rw [unpool_msg]; exact hf) hb (by rw [unpool_typed]; exact hm) h
  have h2 := pooled_sim hE.schema hE.arch hp ha hf (b := b) (by unfold Arch.Fits at *; omega) hr
  rw [h1] at h2
  exact ⟨_, Prod.ext rfl h2.1, h2.2⟩

example := pooled_decodes_partial (E := nenv) nenv_ok rfl (.inl rfl) (fun _ _ _ h => (nomatch h)) (fun _ t _ => blank_zero nodes_ok t) (t := 0) (by decide) (b := [18, 1, 5])
  (m := again) (m0 := zeroMsg nodes 0) (m' := .msg [.nil, .str [5], .nil, .nil, .nil, .nil] [] []) (by decide) (by decide)
  (from_pool_blank (E := nenv) nodes_ok nodes_local (.inr rfl) (fun _ _ _ h => (nomatch h)) nodes_history (.inl (by decide)))
  ⟨1, [⟨2, .len [5], [18, 1, 5]⟩], .cons (.len 2 [18] [1] [5] (by decide) (one_byte 18 (by decide)) (one_byte 1 (by decide))) .nil,
    .cons (.scalar (f := { num := 2, slot := 1, kind := .bytes }) (by decide) rfl (by decide) rfl) .nil, by
      intro f hf hc
      revert f; decide⟩

end Vtp.Props
