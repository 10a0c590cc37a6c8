import Verif.Lemmas.MarshalMsg
import Verif.Lemmas.Depth
import Verif.Spec.Content
/-! Field order and map iteration order. -/

namespace Vtp
open Spec

/-! ### Strict order permutes the records -/

theorem filter_map_skip {α β : Type} (p : α → Bool) (q : β → Bool) (h : α → β) (l : List α)
    (hz : ∀ a ∈ l, p a = false → q (h a) = false) : (l.map h).filter q = ((l.filter p).map h).filter q := by
  induction l with
  | nil => rfl
  | cons a as ih =>
    have i := ih (fun b hb => hz b (by simp [hb]))
    rw [List.map_cons, List.filter_cons, i, List.filter_cons]
    cases hp : p a
    · simp [hz a (by simp) hp]
    · simp [List.filter_cons]

/-- The records of a message in default order, one item per field or oneof. -/
def chunksDefault (E : Env) (rE : Nat → Val → Option Bytes) (d : MsgDesc) (slots : List Val) : List (Option Bytes) :=
  ((ascending d.fields).filter (fun f => !f.oneof)).map (fun f => field E rE f (slotOf slots f)) ++
    (oneofLast d.fields).map (fun f => oneof E rE d f.slot (slotOf slots f))

theorem chunks_perm (E : Env) (rE : Nat → Val → Option Bytes) {d : MsgDesc} (hd : MsgFacts d) (slots : List Val) :
    (((ascending d.fields).map (chunkStrict E rE slots)).filter (fun c => c != some [])).Perm
      ((chunksDefault E rE d slots).filter (fun c => c != some [])) := by
  have hp := ascending_perm d.fields
  let A := ascending d.fields
  let q : Option Bytes → Bool := fun c => c != some []
  let g : Nat → Option Bytes := fun s => oneof E rE d s (slots.getD s .nil)
  have split : (A.map (chunkStrict E rE slots)).Perm
      ((A.filter (fun f => !f.oneof)).map (chunkStrict E rE slots) ++ (A.filter (fun f => f.oneof)).map (chunkStrict E rE slots)) := by
    rw [← List.map_append]
    apply List.Perm.map
    have := List.filter_append_perm (fun f : FieldDesc => !f.oneof) A
    simpa using this.symm
  refine (split.filter q).trans ?_
  rw [List.filter_append, chunksDefault, List.filter_append]
  have e1 : (A.filter (fun f => !f.oneof)).map (chunkStrict E rE slots) =
      (A.filter (fun f => !f.oneof)).map (fun f => field E rE f (slotOf slots f)) := by
    apply List.map_congr_left
    intro f hf
    have := (List.mem_filter.1 hf).2
    simp at this
    simp [chunkStrict, this]
  rw [e1]
  apply List.Perm.append_left
  -- oneofs
  have e2 : ((A.filter (fun f => f.oneof)).map (chunkStrict E rE slots)).filter q =
      (((A.filter (selected slots)).map (·.slot)).map g).filter q := by
    rw [filter_map_skip (selected slots)]
    · rw [List.filter_filter]
      have e : (A.filter fun f => selected slots f && f.oneof) = A.filter (selected slots) := by
        apply List.filter_congr
        intro f _
        unfold selected
        cases f.oneof <;> simp
      rw [e, List.map_map]
      congr 1
      apply List.map_congr_left
      intro f hf
      obtain ⟨hf1, hf2⟩ := List.mem_filter.1 hf
      obtain ⟨ho, x, hx⟩ := selected_wrap hf2
      have hx' := hx
      unfold slotOf at hx'
      simp only [Function.comp, chunkStrict, ho, if_true, hx, g, Spec.oneof, hx']
      rw [member_of hd (hp.mem_iff.1 hf1) ho]
    · intro f hf hs
      have ho := (List.mem_filter.1 hf).2
      unfold selected at hs
      rw [ho] at hs
      simp only [chunkStrict, ho, if_true, q]
      cases hv : slotOf slots f <;> rw [hv] at hs <;> simp at hs ⊢
      simp [hs]
  rw [e2]
  refine (((selected_slots hd slots hp).map g).filter q).trans ?_
  rw [← filter_map_skip (populated d slots) q g]
  · have e3 : (oneofLast d.fields).map (fun f => oneof E rE d f.slot (slotOf slots f)) = ((oneofLast d.fields).map (·.slot)).map g := by
      rw [List.map_map]; rfl
    rw [e3]
    apply List.Perm.filter
    apply List.Perm.map
    rw [← firsts_oneofLast hd.nodup]
    exact (firsts_perm (List.reverse_perm A).symm).trans ((List.reverse_perm _).symm.map _)
  · intro s _ hs
    unfold populated at hs
    simp only [g, q, Spec.oneof]
    cases hv : slots.getD s .nil <;> rw [hv] at hs <;> simp at hs ⊢
    rw [hs]

theorem concat_filter (l : List (Option Bytes)) : concat (l.filter (fun c => c != some [])) = concat l := by
  induction l with
  | nil => rfl
  | cons a as ih =>
    rw [List.filter_cons]
    by_cases h : a = some []
    · subst h
      simp only [bne_self_eq_false, Bool.false_eq_true, if_false, ih, concat]
      cases concat as <;> rfl
    · have : (a != some []) = true := by simpa using h
      simp only [this, if_true, concat, ih]

/-! ### Map iteration order -/

theorem shuffle_isNil {v w : Val} (h : Shuffle v w) : v.isNil = w.isNil := by
  induction h <;> simp_all [Val.isNil]

theorem shuffle_bits {v w : Val} (h : Shuffle v w) : v.bits = w.bits ∧ v.bytes = w.bytes := by
  induction h <;> simp_all [Val.bits, Val.bytes]

/-- Shuffling a message changes the contents of its struct fields only. -/
theorem shuffle_msg {v w : Val} (h : Shuffle v w) : ∀ s u e, v = .msg s u e →
    ∃ s', w = .msg s' u e ∧ s'.length = s.length ∧ ∀ i, Shuffle (s.getD i .nil) (s'.getD i .nil) := by
  induction h with
  | refl v => intro s u e h; exact ⟨s, h, rfl, fun i => .refl _⟩
  | trans _ _ ih1 ih2 =>
    intro s u e h
    obtain ⟨s1, h1, l1, a1⟩ := ih1 s u e h
    obtain ⟨s2, h2, l2, a2⟩ := ih2 s1 u e h1
    exact ⟨s2, h2, by omega, fun i => .trans (a1 i) (a2 i)⟩
  | @slot a b v w u' e' hs _ =>
    intro s u e h
    simp only [Val.msg.injEq] at h
    obtain ⟨rfl, rfl, rfl⟩ := h
    refine ⟨_, rfl, by simp, fun i => ?_⟩
    rw [List.getD_eq_getElem?_getD, List.getD_eq_getElem?_getD]
    rcases Nat.lt_trichotomy i a.length with h | h | h
    · rw [List.getElem?_append_left h, List.getElem?_append_left h]; exact .refl _
    · subst h; simpa using hs
    · rw [List.getElem?_append_right (by omega), List.getElem?_append_right (by omega)]
      obtain ⟨k, hk⟩ : ∃ k, i - a.length = k + 1 := ⟨i - a.length - 1, by omega⟩
      rw [hk]; exact .refl _
  | _ => intro s u e h; simp at h

theorem shuffle_wrap {v w : Val} (h : Shuffle v w) : ∀ n x, v = .wrap n x → ∃ y, w = .wrap n y ∧ Shuffle x y := by
  induction h with
  | refl v => intro n x h; exact ⟨x, h, .refl _⟩
  | trans _ _ ih1 ih2 =>
    intro n x h
    obtain ⟨y, h1, s1⟩ := ih1 n x h
    obtain ⟨z, h2, s2⟩ := ih2 n y h1
    exact ⟨z, h2, .trans s1 s2⟩
  | wrap hs _ =>
    intro n x h
    simp only [Val.wrap.injEq] at h
    obtain ⟨rfl, rfl⟩ := h
    exact ⟨_, rfl, hs⟩
  | _ => intro n x h; simp at h

/-- A value that is not a wrapper does not become one. -/
theorem shuffle_wrap' {v w : Val} (h : Shuffle v w) (hv : ∀ n x, v ≠ .wrap n x) : ∀ n x, w ≠ .wrap n x := by
  induction h with
  | refl v => exact hv
  | trans _ _ ih1 ih2 => exact ih2 (ih1 hv)
  | wrap _ _ => exact absurd rfl (hv _ _)
  | _ => intro n x h; simp at h

section
variable {E : Env} {r : Nat → Val → Nat} (hR : RuntimeShuffle E.R) (h : ∀ t v w, Shuffle v w → r t v = r t w)
include hR h

theorem messageSize_shuffle (t : Nat) {v w : Val} (hs : Shuffle v w) : messageSize E r t v = messageSize E r t w := by
  simp only [messageSize, h t v w hs, hR t v w hs]

theorem sizeScalar_shuffle (k : Kind) {v w : Val} (hs : Shuffle v w) : sizeScalar k v = sizeScalar k w := by
  obtain ⟨h1, h2⟩ := shuffle_bits hs
  cases k <;> simp only [sizeScalar, h1, h2]

theorem entrySize_shuffle (md : MapDesc) (k : Key) {v w : Val} (hs : Shuffle v w) :
    mapEntrySize E r md (k, v) = mapEntrySize E r md (k, w) := by
  have h1 := shuffle_isNil hs
  have h2 := messageSize_shuffle hR h md.valMsg hs
  have h3 := fun k => sizeScalar_shuffle hR h k hs
  cases hk : md.val <;> simp only [mapEntrySize, hk, h1, h2, h3]

theorem sizeField_shuffle (o : Bool) (f : FieldDesc) {v w : Val} (hs : Shuffle v w) : sizeField E r o f v = sizeField E r o f w := by
  have key : ∀ {v w : Val}, Shuffle v w → f.len v = f.len w ∧ v.elems.length = w.elems.length ∧
      (∀ g : Val → Nat, (∀ a b, Shuffle a b → g a = g b) → (v.elems.map g).sum = (w.elems.map g).sum) ∧
      (∀ g : Key × Val → Nat, (∀ k a b, Shuffle a b → g (k, a) = g (k, b)) → (v.entries.map g).sum = (w.entries.map g).sum) := by
    intro v w hs
    induction hs with
    | refl v => exact ⟨rfl, rfl, fun _ _ => rfl, fun _ _ => rfl⟩
    | trans _ _ i1 i2 =>
      exact ⟨i1.1.trans i2.1, i1.2.1.trans i2.2.1, fun g hg => (i1.2.2.1 g hg).trans (i2.2.2.1 g hg),
        fun g hg => (i1.2.2.2 g hg).trans (i2.2.2.2 g hg)⟩
    | perm hp =>
      refine ⟨?_, rfl, fun _ _ => rfl, fun g _ => ?_⟩
      · simp [FieldDesc.len, Val.entries, Val.elems, hp.length_eq]
      · exact (hp.map g).sum_nat
    | entry hs _ =>
      refine ⟨?_, rfl, fun _ _ => rfl, fun g hg => ?_⟩
      · simp [FieldDesc.len, Val.entries, Val.elems]
      · simp [Val.entries, hg _ _ _ hs]
    | elem hs _ =>
      refine ⟨?_, ?_, fun g hg => ?_, fun _ _ => rfl⟩
      · simp [FieldDesc.len, Val.entries, Val.elems]
      · simp [Val.elems]
      · simp [Val.elems, hg _ _ hs]
    | slot => exact ⟨rfl, rfl, fun _ _ => rfl, fun _ _ => rfl⟩
    | wrap => exact ⟨rfl, rfl, fun _ _ => rfl, fun _ _ => rfl⟩
  obtain ⟨hl, hle, he, hm⟩ := key hs
  obtain ⟨hb, hby⟩ := shuffle_bits hs
  have hz : ∀ k, isZeroVal k v = isZeroVal k w := by intro k; cases k <;> simp only [isZeroVal, hb, hby]
  have body : sizeFieldBody E r o f v = sizeFieldBody E r o f w := by
    have e1 := he (sizeScalar f.kind) (fun a b hs => sizeScalar_shuffle hR h _ hs)
    have e2 := fun c => he (fun e => c + sizeScalar f.kind e) (fun a b hs => by simp only [sizeScalar_shuffle hR h _ hs])
    have e3 := fun c => he (fun e => c + messageSize E r f.msg e + sizeOfVarint (u64 (messageSize E r f.msg e)))
      (fun a b hs => by simp only [messageSize_shuffle hR h _ hs])
    have e4 := messageSize_shuffle hR h f.msg hs
    have e6 := sizeScalar_shuffle hR h f.kind hs
    have e5 := fun md => hm (fun e => mapEntrySize E r md e + keySize f.num (protoWireType f.kind) + sizeOfVarint (u64 (mapEntrySize E r md e)))
      (fun k a b hs => by simp only [entrySize_shuffle hR h md k hs])
    unfold sizeFieldBody
    simp only [hle, e1, e2, e3, e4, e5, e6, hz]
  simp only [sizeField, body, hl, shuffle_isNil hs]

theorem sizeFields_shuffle (d : MsgDesc) {s s' : List Val} (hs : ∀ i, Shuffle (s.getD i .nil) (s'.getD i .nil)) :
    ∀ (fs : List FieldDesc) (seen : List Nat), sizeFields E r d s seen fs = sizeFields E r d s' seen fs := by
  intro fs
  induction fs with
  | nil => intro seen; rfl
  | cons f fs ih =>
    intro seen
    have hf : Shuffle (slotOf s f) (slotOf s' f) := hs f.slot
    rw [sizeFields, sizeFields, ih, ih, sizeField_shuffle hR h false f hf]
    have : sizeOneof E r d f.slot (slotOf s f) = sizeOneof E r d f.slot (slotOf s' f) := by
      by_cases hw : ∃ n x, slotOf s f = .wrap n x
      · obtain ⟨n, x, hw⟩ := hw
        obtain ⟨y, hy, hxy⟩ := shuffle_wrap hf n x hw
        rw [hw, hy]
        simp only [sizeOneof]
        cases d.member f.slot n with
        | none => rfl
        | some g => exact sizeField_shuffle hR h true g hxy
      · have h1 : ∀ n x, slotOf s f ≠ .wrap n x := fun n x e => hw ⟨n, x, e⟩
        have h2 := shuffle_wrap' hf h1
        have z : ∀ v, (∀ n x, v ≠ Val.wrap n x) → sizeOneof E r d f.slot v = 0 := by
          intro v hv
          cases v <;> simp only [sizeOneof]
          exact absurd rfl (hv _ _)
        rw [z _ h1, z _ h2]
    rw [this]
end

theorem shuffle_notMsg {v w : Val} (h : Shuffle v w) (hv : ∀ s u e, v ≠ .msg s u e) : ∀ s u e, w ≠ .msg s u e := by
  induction h with
  | refl v => exact hv
  | trans _ _ ih1 ih2 => exact ih2 (ih1 hv)
  | slot _ _ => exact absurd rfl (hv _ _ _)
  | _ => intro s u e h; simp at h

theorem sizeN_shuffle {E : Env} (hR : RuntimeShuffle E.R) : ∀ (n t : Nat) (v w : Val), Shuffle v w → sizeN E n t v = sizeN E n t w := by
  intro n
  induction n with
  | zero => intro t v w _; rfl
  | succ n ih =>
    intro t v w hs
    by_cases hm : ∃ s u e, v = .msg s u e
    · obtain ⟨s, u, e, rfl⟩ := hm
      obtain ⟨s', rfl, _, ha⟩ := shuffle_msg hs s u e rfl
      simp only [sizeN]
      rw [sizeFields_shuffle hR ih _ ha]
    · have h1 : ∀ s u e, v ≠ .msg s u e := fun s u e he => hm ⟨s, u, e, he⟩
      have h2 := shuffle_notMsg hs h1
      have z : ∀ v, (∀ s u e, v ≠ Val.msg s u e) → sizeN E (n + 1) t v = 0 := by
        intro v hv
        cases v <;> simp only [sizeN]
        exact absurd rfl (hv _ _ _)
      rw [z _ h1, z _ h2]

theorem sizeVT_shuffle {E : Env} (hR : RuntimeShuffle E.R) {t : Nat} {v w : Val} (h : Shuffle v w) : sizeVT E t v = sizeVT E t w := by
  have := sizeN_shuffle hR (max v.depth w.depth) t v w h
  rw [sizeN_eq E (by omega), sizeN_eq E (by omega)] at this
  exact this

end Vtp
