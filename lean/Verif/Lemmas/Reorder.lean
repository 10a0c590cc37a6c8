import Verif.Lemmas.Steps
import Verif.Spec.Reorder
/-!
# Decoding does not depend on the order of records that go to different places
-/

namespace Vtp
open Spec

section
variable {S : Schema} {sub : SubRel} {D : MsgDesc} {m m' : Val}

theorem destination_known (hM : MsgFacts D) {f : FieldDesc} (hf : f ∈ D.fields) {r : Rec} (hn : r.num = f.num) : destination D r = some f.slot := by
  unfold destination
  cases hc : D.fields.find? (fun g => g.num == r.num) with
  | none =>
    rw [List.find?_eq_none] at hc
    have := hc f hf
    simp [hn] at this
  | some g =>
    have h1 := List.mem_of_find?_eq_some hc
    have h2 := List.find?_some hc
    simp only [beq_iff_eq] at h2
    rw [hM.num_inj h1 hf (h2.trans hn)]; rfl

theorem destination_unknown {r : Rec} (h : ∀ f ∈ D.fields, f.num ≠ r.num) : destination D r = none := by
  unfold destination
  rw [List.find?_eq_none.2 fun f hf => by simpa using h f hf]; rfl

/-- A step either changes the struct field of its field, depending only on what that held, or adds to the unknown fields. -/
theorem Spec.Step.form (hM : MsgFacts D) {r : Rec} (h : Step S sub D r m m') :
    (∃ f ∈ D.fields, destination D r = some f.slot ∧ ∃ v, m' = put m f v ∧ ∀ n, get n f = get m f → Step S sub D r n (put n f v)) ∨
    (destination D r = none ∧ m' = (if D.keepUnknown then addUnknown m r.raw else m) ∧
      ∀ n, Step S sub D r n (if D.keepUnknown then addUnknown n r.raw else n)) := by
  cases h with
  | @scalar f _ _ _ v hf h1 h2 h3 => exact .inl ⟨f, hf, destination_known hM hf rfl, _, rfl, fun n _ => .scalar hf h1 h2 h3⟩
  | @member f _ _ _ v hf h1 h2 => exact .inl ⟨f, hf, destination_known hM hf rfl, _, rfl, fun n _ => .member hf h1 h2⟩
  | @element f _ _ _ v hf h1 h2 h3 => exact .inl ⟨f, hf, destination_known hM hf rfl, _, rfl, fun n hn => by rw [← hn]; exact .element hf h1 h2 h3⟩
  | @packed f _ _ _ v hf h1 h2 h3 h4 => exact .inl ⟨f, hf, destination_known hM hf rfl, _, rfl, fun n hn => by rw [← hn]; exact .packed hf h1 h2 h3 h4⟩
  | @message f _ _ _ v hf h1 h2 h3 h4 => exact .inl ⟨f, hf, destination_known hM hf rfl, _, rfl, fun n hn => .message hf h1 h2 h3 (by rw [hn]; exact h4)⟩
  | @memberMessage f _ _ _ v hf h1 h2 h3 => exact .inl ⟨f, hf, destination_known hM hf rfl, _, rfl, fun n hn => .memberMessage hf h1 h2 (by rw [hn]; exact h3)⟩
  | @elementMessage f _ _ _ v hf h1 h2 h3 h4 =>
    exact .inl ⟨f, hf, destination_known hM hf rfl, _, rfl, fun n hn => by rw [← hn]; exact .elementMessage hf h1 h2 h3 h4⟩
  | @entry f md _ _ _ v k hf h1 h2 => exact .inl ⟨f, hf, destination_known hM hf rfl, _, rfl, fun n hn => by rw [← hn]; exact .entry hf h1 h2⟩
  | unknown h1 h2 => exact .inr ⟨destination_unknown h1, rfl, fun n => .unknown h1 h2⟩

theorem put_comm {f g : FieldDesc} (h : f.slot ≠ g.slot) (v w : Val) : put (put m f v) g w = put (put m g w) f v := by
  cases m <;> simp [put, List.set_comm _ _ h]

theorem put_addUnknown (f : FieldDesc) (v : Val) (b : Bytes) : put (addUnknown m b) f v = addUnknown (put m f v) b := by
  cases m <;> simp [put, addUnknown]

/-- Two steps with different destinations can be taken in the other order. -/
theorem Spec.Step.commute (hM : MsgFacts D) {r q : Rec} {m1 : Val} (h1 : Step S sub D r m m1) (h2 : Step S sub D q m1 m')
    (hd : destination D r ≠ destination D q) : ∃ m2, Step S sub D q m m2 ∧ Step S sub D r m2 m' := by
  rcases h1.form hM with ⟨f, hf, hdf, v, rfl, hv⟩ | ⟨hdn, rfl, hv⟩
  · rcases h2.form hM with ⟨g, hg, hdg, w, rfl, hw⟩ | ⟨hdg, rfl, hw⟩
    · have hs : f.slot ≠ g.slot := fun h => hd (by rw [hdf, hdg, h])
      refine ⟨put m g w, hw m (get_put_other hs v).symm, ?_⟩
      rw [put_comm hs]
      exact hv _ (get_put_other (fun h => hs h.symm) w)
    · refine ⟨_, hw m, ?_⟩
      have := hv (if D.keepUnknown then addUnknown m q.raw else m) (by split; exact get_addUnknown _; rfl)
      split at this <;> rename_i hk
      · rw [put_addUnknown] at this; rwa [if_pos hk, if_pos hk]
      · rwa [if_neg hk, if_neg hk]
  · rcases h2.form hM with ⟨g, hg, hdg, w, rfl, hw⟩ | ⟨hdg, _, _⟩
    · refine ⟨put m g w, hw m (by split; exact (get_addUnknown _).symm; rfl), ?_⟩
      have := hv (put m g w)
      split at this <;> rename_i hk
      · rw [← put_addUnknown] at this; rwa [if_pos hk]
      · rwa [if_neg hk]
    · exact absurd (hdn.trans hdg.symm) hd

theorem Spec.Step.move (hM : MsgFacts D) {r : Rec} : ∀ {a : List Rec} {m m1 m' : Val}, Step S sub D r m m1 → Steps S sub D a m1 m' →
    (∀ q ∈ a, destination D r ≠ destination D q) → Steps S sub D (a ++ [r]) m m' := by
  intro a
  induction a with
  | nil => intro m m1 m' h1 h2 _; cases h2; exact .cons h1 .nil
  | cons q a ih =>
    intro m m1 m' h1 h2 hd
    cases h2 with
    | cons h3 h4 =>
      obtain ⟨m2, h5, h6⟩ := h1.commute hM h3 (hd q (by simp))
      exact .cons h5 (ih h6 h4 fun q hq => hd q (by simp [hq]))

theorem Spec.SameOrder.cons {r : Rec} {rs rs' : List Rec} (h : SameOrder D (r :: rs) rs') :
    ∃ a b, rs' = a ++ r :: b ∧ (∀ q ∈ a, destination D r ≠ destination D q) ∧ SameOrder D rs (a ++ b) := by
  have h1 := h (destination D r)
  rw [List.filter_cons_of_pos (by simp)] at h1
  obtain ⟨a, b, rfl, h2, h3, h4⟩ := List.filter_eq_cons_iff.1 h1.symm
  refine ⟨a, b, rfl, fun q hq h => h2 q hq (by simp [h]), fun c => ?_⟩
  by_cases hc : destination D r = c
  · subst hc
    rw [List.filter_append, List.filter_eq_nil_iff.2 h2, h4]; rfl
  · have := h c
    rw [List.filter_cons_of_neg (by simpa using hc), List.filter_append, List.filter_cons_of_neg (by simpa using hc), ← List.filter_append] at this
    exact this

theorem Spec.SameOrder.nil {rs' : List Rec} (h : SameOrder D [] rs') : rs' = [] := by
  cases rs' with
  | nil => rfl
  | cons r rs =>
    have := h (destination D r)
    rw [List.filter_cons_of_pos (by simp)] at this
    cases this

/-- Records in another order have the same effect. -/
theorem Spec.Steps.reorder (hM : MsgFacts D) : ∀ {rs rs' : List Rec} {m m' : Val}, Steps S sub D rs m m' → SameOrder D rs rs' → Steps S sub D rs' m m' := by
  intro rs
  induction rs with
  | nil => intro rs' m m' h1 h2; rw [h2.nil]; exact h1
  | cons r rs ih =>
    intro rs' m m' h1 h2
    obtain ⟨a, b, rfl, h3, h4⟩ := h2.cons
    cases h1 with
    | cons h5 h6 =>
      obtain ⟨m2, h7, h8⟩ := (ih h6 h4).append
      have := (h5.move hM h7 h3).trans h8
      simpa using this

theorem Spec.SameOrder.mem {rs rs' : List Rec} (h : SameOrder D rs rs') (r : Rec) : r ∈ rs ↔ r ∈ rs' := by
  have := congrArg (r ∈ ·) (h (destination D r))
  simpa using this

theorem firstMissing_reorder {rs rs' : List Rec} (h : SameOrder D rs rs') : firstMissing (rs.map (·.num)) D.fields = firstMissing (rs'.map (·.num)) D.fields := by
  have : ∀ n, (rs.map (·.num)).contains n = (rs'.map (·.num)).contains n := by
    intro n
    rw [Bool.eq_iff_iff]
    simp only [List.contains_iff_mem, List.mem_map, h.mem]
  simp only [firstMissing, this]

end

end Vtp
