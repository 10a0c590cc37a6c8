import Verif.Lemmas.ResetVolume
import Verif.Props.Clone
import Verif.Props.Volume
/-!
# C102: memory of clones and of messages in pools

A clone takes memory in proportion to the original, and what `ResetVT` keeps and puts into pools takes no more than the message did.
-/

namespace Vtp.Props
open Spec

/-- C102. A clone takes at most `K` times the memory of the original, where `K` is not less than two, what a new message takes and what messages from pools come
with. Memory which the original has kept for reuse counts on its side only. `hC`: the same of `proto.Clone`. -/
theorem clone_memory {E : KEnv} (hS : schemaOK E.S = true) {K : Nat} (hK : ∀ t, (E.S.msg t).nslots + 2 ≤ K) (hp : ∀ p t, (E.S.msg t).pooled = true → volume (E.alloc p t) ≤ K)
    (hC : ∀ t v, volume (E.R.clone t v) ≤ K * volume v) {t : Nat} {v w : Val} (h : cloneVT E t v = .ok w) : volume w ≤ K * volume v := by
  refine cloneN_volume hS (by have := hK 0; omega) hC (fun p t => ?_) _ _ _ _ _ h
  unfold cloneAlloc
  split
  · exact hp p t ‹_›
  · have := zeroMsg_volume E.S t
    have := hK t
    omega

/-- C102. `ResetVT` takes no new memory: what it keeps in the message and what it puts into pools take together no more than the message did. `hF`: foreign types have no
struct fields in the model. -/
theorem reset_memory {S : Schema} (hS : schemaOK S = true) (hF : ∀ t, (S.msg t).foreign = true → (S.msg t).nslots = 0) {t : Nat} {v v' : Val} {ps : Puts}
    (hv : (v.isNil || wtM S .typedNil t v) = true) (h : resetVT S t v = .ok (v', ps)) : volume v' + putsVolume ps ≤ volume v := by
  unfold resetVT at h
  split at h
  · cases h; simp [volume, putsVolume]
  · rename_i hn
    exact resetN_exact hS hF _ _ _ _ _ _ (by simpa [hn, wtM] using hv) h

/-- C102. What `ReturnToVTPool` puts into pools, the message itself included, takes no more than the message did. -/
theorem return_memory {S : Schema} (hS : schemaOK S = true) (hF : ∀ t, (S.msg t).foreign = true → (S.msg t).nslots = 0) {t : Nat} {v : Val} {ps : Puts}
    (hv : (v.isNil || wtM S .typedNil t v) = true) (h : returnToVTPool S t v = .ok ps) : putsVolume ps ≤ volume v :=
  returnWith_exact (resetN_exact hS hF _) hv h

/-- C102. A message taken from a pool, decoded into, and returned: all that goes into pools takes no more than the message did and the input costs. Missing: maps as in
`decode_memory_partial`. -/
theorem cycle_memory_partial {E : UEnv} (hE : DecodeEnv E) (hF : ∀ t, (E.S.msg t).foreign = true → (E.S.msg t).nslots = 0) (hm : SmallMaps E.S) {K : Nat}
    (hK : ∀ t, (E.S.msg t).nslots + 4 ≤ K) (hp : ∀ off t, (E.S.msg t).pooled = true → volume (E.alloc off t) + 3 ≤ K)
    (hR : ∀ t b v, E.R.unmarshal t b = some v → volume v + 2 ≤ K * (1 + b.length)) (hX : ∀ t b v, E.R.unmarshalPartial t b = some v → volume v ≤ K * b.length)
    {t : Nat} (hf : (E.S.msg t).foreign = false) {m0 : Val} (h0 : wtM E.S .solid t m0 = true) {b : Bytes} (hb : E.A.Fits b.length) {ps : Puts}
    (h : returnToVTPool E.S t (unmarshalVT E t b m0).1 = .ok ps) : putsVolume ps ≤ volume m0 + K * b.length := by
  have hv : wtM E.S .typedNil t (unmarshalVT E t b m0).1 = true := members_weaken (by simp) (by simp) _ _ _ (unmarshal_returns_partial hE hf h0 hb).2
  exact Nat.le_trans (return_memory hE.schema hF (by rw [hv, Bool.or_true]) h) (decode_memory_partial hE.schema hE.arch hm hK hp hR hX hb t m0)

/-- A program which decodes one input after the other into the same message and calls `ResetVT` after each, whatever the outcome. For each input the messages taken from
pools may be others; they are empty ones, which take less than `K`. `ps`: all that was put into pools. -/
inductive Recycled (E : UEnv) (K t : Nat) : Val → List Bytes → Val → Puts → Prop
  | done (m : Val) : Recycled E K t m [] m []
  | next {a : Nat → Nat → Val} {m m' v : Val} {b : Bytes} {bs : List Bytes} {ps qs : Puts} (ha : ∀ off t, Blank E.S t (a off t)) (hk : ∀ off t, volume (a off t) + 3 ≤ K)
      (hb : E.A.Fits b.length) (hr : resetVT E.S t (unmarshalVT { E with alloc := a } t b m).1 = .ok (m', ps)) (hn : Recycled E K t m' bs v qs) :
      Recycled E K t m (b :: bs) v (ps ++ qs)

/-- The memory of a message used again and again, from the cost of decoding one input. -/
theorem recycled_costs {E : UEnv} (hE : DecodeEnv E) (hL : poolsLocal E.S) (hc : ∀ t b v, E.R.unmarshalPartial t b = some v → Clean E.S t v)
    (hF : ∀ t, (E.S.msg t).foreign = true → (E.S.msg t).nslots = 0) {K t : Nat} {cost : Bytes → Nat}
    (hD : ∀ (a : Nat → Nat → Val) m b, (∀ off t, volume (a off t) + 3 ≤ K) → E.A.Fits b.length → volume (unmarshalVT { E with alloc := a } t b m).1 ≤ volume m + cost b)
    (ht : (E.S.msg t).pooled = true) {m v : Val} (h0 : Blank E.S t m) {bs : List Bytes} {ps : Puts} (h : Recycled E K t m bs v ps) :
    Blank E.S t v ∧ volume v + putsVolume ps ≤ volume m + (bs.map cost).sum := by
  induction h with
  | done m => exact ⟨h0, by simp [putsVolume]⟩
  | @next a m m' v b bs ps qs ha hk hb hr hn ih =>
    have hf := hL t ht
    have hE' : DecodeEnv { E with alloc := a } := ⟨hE.schema, hE.arch, fun off t => blank_typed hE.schema _ t _ (Nat.le_refl _) (ha off t), hE.unmarshal, hE.unmarshalPartial, hE.bytesMap⟩
    have hs := (unmarshal_returns_partial hE' hf (blank_typed hE.schema _ t m (Nat.le_refl _) h0) hb).2
    have hv : wtM E.S .typedNil t (unmarshalVT { E with alloc := a } t b m).1 = true := members_weaken (by simp) (by simp) _ _ _ hs
    have hn0 : (unmarshalVT { E with alloc := a } t b m).1 ≠ .nil := by
      obtain ⟨s, u, e, h⟩ := wtM_isMsg hv
      rw [h]; simp
    have h1 := (pooled_sim (E := { E with alloc := a }) hE.schema hE.arch hc (fun off t _ => ha off t) hf hb (clean_of_reuse h0)).2
    have h2 := (reset_blank hE.schema hL ht hn0 (clean_of_reuse h1) hr).1
    have h3 := reset_memory hE.schema hF (by rw [hv, Bool.or_true]) hr
    have h4 := hD a m b hk hb
    obtain ⟨h5, h6⟩ := ih h2
    refine ⟨h5, ?_⟩
    rw [putsVolume_append, List.map_cons, List.sum_cons]
    omega

/-- C102. A message that is used again and again, for any number of inputs: what it keeps and all that it has put into pools take no more than the empty message at the
beginning did and the inputs cost. Missing: maps as in `decode_memory_partial`. -/
theorem recycled_memory_partial {E : UEnv} (hE : DecodeEnv E) (hL : poolsLocal E.S) (hc : ∀ t b v, E.R.unmarshalPartial t b = some v → Clean E.S t v)
    (hF : ∀ t, (E.S.msg t).foreign = true → (E.S.msg t).nslots = 0) (hm : SmallMaps E.S) {K : Nat} (hK : ∀ t, (E.S.msg t).nslots + 4 ≤ K)
    (hR : ∀ t b v, E.R.unmarshal t b = some v → volume v + 2 ≤ K * (1 + b.length)) (hX : ∀ t b v, E.R.unmarshalPartial t b = some v → volume v ≤ K * b.length)
    {t : Nat} (ht : (E.S.msg t).pooled = true) {m v : Val} (h0 : Blank E.S t m) {bs : List Bytes} {ps : Puts} (h : Recycled E K t m bs v ps) :
    Blank E.S t v ∧ volume v + putsVolume ps ≤ volume m + K * (bs.map List.length).sum := by
  have hs : ∀ bs : List Bytes, (bs.map fun b => K * b.length).sum = K * (bs.map List.length).sum := by
    intro bs
    induction bs with
    | nil => rfl
    | cons b bs ih => rw [List.map_cons, List.map_cons, List.sum_cons, List.sum_cons, ih, Nat.mul_add]
  rw [← hs]
  exact recycled_costs (cost := fun b => K * b.length) hE hL hc hF
    (fun a m b hk hb => decode_memory_partial (E := { E with alloc := a }) hE.schema hE.arch hm hK (fun off t _ => hk off t) hR hX hb t m) ht h0 h

/-- C102. With strings and bytes in maps each input costs at most the square of its length in addition; inputs do not add to the cost of others. -/
theorem recycled_memory_strings_partial {E : UEnv} (hE : DecodeEnv E) (hL : poolsLocal E.S) (hc : ∀ t b v, E.R.unmarshalPartial t b = some v → Clean E.S t v)
    (hF : ∀ t, (E.S.msg t).foreign = true → (E.S.msg t).nslots = 0) (hm : NoMessageMaps E.S) {K : Nat} (hK : ∀ t, (E.S.msg t).nslots + 4 ≤ K)
    (hR : ∀ t b v, E.R.unmarshal t b = some v → volume v + 2 ≤ K * (1 + b.length)) (hX : ∀ t b v, E.R.unmarshalPartial t b = some v → volume v ≤ K * b.length)
    {t : Nat} (ht : (E.S.msg t).pooled = true) {m v : Val} (h0 : Blank E.S t m) {bs : List Bytes} {ps : Puts} (h : Recycled E K t m bs v ps) :
    Blank E.S t v ∧ volume v + putsVolume ps ≤ volume m + (bs.map fun b => (K + 2 * b.length) * b.length).sum :=
  recycled_costs (cost := fun b => (K + 2 * b.length) * b.length) hE hL hc hF
    (fun a m b hk hb => decode_memory_strings_partial (E := { E with alloc := a }) hE.schema hE.arch hm hK (fun off t _ => hk off t) hR hX hb t m) ht h0 h

/-! ## Cases -/

theorem nodes_foreign (t : Nat) : (nodes.msg t).foreign = true → (nodes.msg t).nslots = 0 := by
  match t with
  | 0 | 1 => intro h; cases h
  | t + 2 => intro h; cases h

example : volume nodeReset + putsVolume nodePuts ≤ volume node := reset_memory nodes_ok nodes_foreign (t := 0) (by decide) node_reset

/-- What is dropped: bytes, strings, unknown fields and extensions, the wrapper of the oneof, and the cells of lists. -/
example : volume node = 35 ∧ volume nodeReset = 11 ∧ putsVolume nodePuts = 5 := by decide

example : ∃ w, cloneVT nodeClones 0 node = .ok w ∧ volume w ≤ 20 * volume node := by
  obtain ⟨w, h, -⟩ := clone_equal_partial (E := nodeClones) (t := 0) (tn := .typedNil) nodes_ok structural_clone structural_ok structural_enc
    nodeClones_blank nodes_bytes rfl node_wt
  refine ⟨w, h, clone_memory (E := nodeClones) nodes_ok (K := 20) (fun t => ?_) (fun _ _ _ => (by decide : volume nodeReset ≤ 20)) (fun t v => ?_) h⟩
  · match t with
    | 0 | 1 => decide
    | t + 2 => show 0 + 2 ≤ 20; decide
  · show volume v ≤ 20 * volume v
    omega

/-- Any input, into the node from the pool, and back into the pool. -/
example (b : Bytes) (hb : b.length < 2 ^ 62) (ps : Puts) (h : returnToVTPool nodeMemory.S 0 (unmarshalVT nodeMemory 0 b nodeReset).1 = .ok ps) : putsVolume ps ≤ volume nodeReset + 30 * b.length :=
  cycle_memory_partial (E := nodeMemory)
    ⟨by decide, .inr rfl, fun _ t => by
      show wtM nodes .solid t (if t = 0 then nodeReset else zeroMsg nodes t) = true
      split
      · rename_i ht; subst ht; decide
      · exact zeroMsg_typed (by decide) t, fun _ _ _ h => (nomatch h), fun _ _ _ h => (nomatch h), .inl rfl⟩
    nodes_foreign
    (fun t f hf md hm => by
      match t with
      | 0 | 1 => fin_cases hf <;> cases hm
      | t + 2 => cases hf)
    (fun t => by match t with | 0 | 1 => decide | t + 2 => show 0 + 4 ≤ 30; decide)
    (fun off t h => by
      match t, h with
      | 0, _ => show volume nodeReset + 3 ≤ 30; decide
      | 1, h => cases h
      | t + 2, h => cases h)
    (fun _ _ _ h => (nomatch h)) (fun _ _ _ h => (nomatch h)) rfl (by decide) (by unfold Arch.Fits; show b.length + 8 < 2 ^ 63; omega) h

/-- The node from the pool, used `n` times for the same input: it comes out as it was, and each time one node goes back to the pool. -/
theorem nodes_recycled : ∀ n, Recycled nodeMemory 30 0 nodeReset (List.replicate n [10, 0, 26, 0, 18, 1, 7]) nodeReset (List.replicate n (0, nodeReset))
  | 0 => .done _
  | n + 1 => by
    refine .next (ps := [(0, nodeReset)]) (m' := nodeReset) (a := nodeMemory.alloc) (fun off t => ?_) (fun off t => ?_) (by decide) (by decide) (nodes_recycled n)
    · show Blank nodes t (if t = 0 then nodeReset else zeroMsg nodes t)
      split
      · rename_i ht; subst ht; exact nodeReset_blank
      · exact blank_zero nodes_ok t
    · show volume (if t = 0 then nodeReset else zeroMsg nodes t) + 3 ≤ 30
      split
      · decide
      · match t with
        | 0 | 1 => decide
        | t + 2 => show volume (zeroMsg [] 0) + 3 ≤ 30; decide

example (n : Nat) : volume nodeReset + putsVolume (List.replicate n (0, nodeReset)) ≤ volume nodeReset + 30 * ((List.replicate n ([10, 0, 26, 0, 18, 1, 7] : Bytes)).map List.length).sum :=
  (recycled_memory_partial (E := nodeMemory)
    ⟨by decide, .inr rfl, fun _ t => by
      show wtM nodes .solid t (if t = 0 then nodeReset else zeroMsg nodes t) = true
      split
      · rename_i ht; subst ht; decide
      · exact zeroMsg_typed (by decide) t, fun _ _ _ h => (nomatch h), fun _ _ _ h => (nomatch h), .inl rfl⟩
    nodes_local (fun _ _ _ h => (nomatch h)) nodes_foreign
    (fun t f hf md hm => by
      match t with
      | 0 | 1 => fin_cases hf <;> cases hm
      | t + 2 => cases hf)
    (fun t => by match t with | 0 | 1 => decide | t + 2 => show 0 + 4 ≤ 30; decide)
    (fun _ _ _ h => (nomatch h)) (fun _ _ _ h => (nomatch h)) rfl nodeReset_blank (nodes_recycled n)).2

/-- `message Tags { map<string, string> m = 1; }`, pooled. -/
def tags : Schema := [{ fields := [{ num := 1, slot := 0, kind := .message, card := .repeated, map := some ⟨.string, .string, 0⟩ }], nslots := 1, pooled := true }]

def tagsMemory : UEnv := { S := tags, R := Runtime.none, A := .b64, alloc := fun _ t => zeroMsg tags t }

theorem tags_ok : schemaOK tags = true := by decide

/-- An entry `{a: b}`, then an entry that is cut off; the map is dropped each time. -/
theorem tags_recycled : Recycled tagsMemory 30 0 (zeroMsg tags 0) [[10, 6, 10, 1, 97, 18, 1, 98], [10, 6, 10, 1]] (zeroMsg tags 0) [] := by
  have ha : ∀ (_ : Nat) t, Blank tags t (zeroMsg tags t) := fun _ t => blank_zero tags_ok t
  have hk : ∀ (_ : Nat) t, volume (zeroMsg tags t) + 3 ≤ 30 := fun _ t => by
    match t with
    | 0 => decide
    | t + 1 => show volume (zeroMsg [] 0) + 3 ≤ 30; decide
  exact .next (ps := []) (m' := zeroMsg tags 0) (a := fun _ t => zeroMsg tags t) ha hk (by decide) (by decide)
    (.next (ps := []) (m' := zeroMsg tags 0) (a := fun _ t => zeroMsg tags t) ha hk (by decide) (by decide) (.done _))

example : volume (zeroMsg tags 0) + putsVolume [] ≤ volume (zeroMsg tags 0) + ((30 + 2 * 8) * 8 + (30 + 2 * 4) * 4) :=
  (recycled_memory_strings_partial (E := tagsMemory) ⟨tags_ok, .inr rfl, fun _ t => zeroMsg_typed tags_ok t, fun _ _ _ h => (nomatch h), fun _ _ _ h => (nomatch h), .inl rfl⟩
    (fun t h => by match t with | 0 => rfl | t + 1 => rfl) (fun _ _ _ h => (nomatch h))
    (fun t h => by match t with | 0 => cases h | t + 1 => rfl)
    (fun t f hf md hm => by
      match t with
      | 0 => fin_cases hf; cases hm; decide
      | t + 1 => cases hf)
    (fun t => by match t with | 0 => decide | t + 1 => show 0 + 4 ≤ 30; decide)
    (fun _ _ _ h => (nomatch h)) (fun _ _ _ h => (nomatch h)) rfl (blank_zero tags_ok 0) tags_recycled).2

end Vtp.Props
