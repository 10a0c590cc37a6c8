import Verif.Lemmas.EvolveElem
/-!
# Struct fields of an older and a newer version of a message
-/

namespace Vtp
open Spec

/-- A field of the older version in the newer one. -/
def upField (D : MsgDesc) (f0 : FieldDesc) : FieldDesc := { f0 with slot := ((D.fields.find? fun f => f.num == f0.num).map (·.slot)).getD 0 }

/-- The older version has a field with that number. -/
def keeps (D0 : MsgDesc) (n : Nat) : Bool := D0.fields.any fun f => f.num == n

/-- A oneof without the members that the older version does not have. -/
def hide (D0 : MsgDesc) (oneof : Bool) (v : Val) : Val :=
  match v with
  | .wrap n x => if oneof = true ∧ keeps D0 n = false then .nil else .wrap n x
  | v => v

/-- The struct fields of the older version. -/
def downSlots (D0 D : MsgDesc) (s : List Val) : List Val :=
  (List.range D0.nslots).map fun i => match D0.fields.find? (fun f0 => f0.slot == i) with
    | some f0 => hide D0 f0.oneof (slotOf s (upField D f0))
    | none => .nil

/-- The struct fields of the newer version, the fields that the older version does not have being zero. -/
def upSlots (D0 D : MsgDesc) (s0 : List Val) : List Val :=
  (List.range D.nslots).map fun i => match D0.fields.find? (fun f0 => (upField D f0).slot == i) with
    | some f0 => slotOf s0 f0
    | none => zeroSlot D i

section
variable {D0 D : MsgDesc} (hD0 : MsgFacts D0) (hD : MsgFacts D) (ho : OlderMsg D0 D)
include hD ho

theorem upField_mem {f0 : FieldDesc} (h : f0 ∈ D0.fields) : upField D f0 ∈ D.fields := by
  obtain ⟨f, hf, he⟩ := ho.fields f0 h
  have hn : f0.num = f.num := by rw [he]
  have : upField D f0 = f := by
    unfold upField
    cases hc : D.fields.find? (fun f => f.num == f0.num) with
    | none =>
      rw [List.find?_eq_none] at hc
      have := hc f hf
      simp [hn] at this
    | some g =>
      have h1 := List.mem_of_find?_eq_some hc
      have h2 := List.find?_some hc
      simp only [beq_iff_eq] at h2
      have hg := hD.num_inj h1 hf (h2.trans hn)
      subst hg
      simp only [Option.map_some, Option.getD_some]
      rw [he]
  rw [this]; exact hf

theorem upField_share {f0 g0 : FieldDesc} (h : f0 ∈ D0.fields) (h' : g0 ∈ D0.fields) : f0.slot = g0.slot ↔ (upField D f0).slot = (upField D g0).slot :=
  ho.oneofs f0 h g0 h' _ (upField_mem hD ho h) _ (upField_mem hD ho h') rfl rfl

/-- Fields of the newer version that the older one has. -/
theorem keeps_iff {f : FieldDesc} (hf : f ∈ D.fields) : keeps D0 f.num = true ↔ ∃ f0 ∈ D0.fields, upField D f0 = f := by
  unfold keeps
  simp only [List.any_eq_true, beq_iff_eq]
  constructor
  · rintro ⟨f0, h1, h2⟩
    exact ⟨f0, h1, hD.num_inj (upField_mem hD ho h1) hf h2⟩
  · rintro ⟨f0, h1, rfl⟩
    exact ⟨f0, h1, rfl⟩

theorem up_slot {f0 : FieldDesc} (h : f0 ∈ D0.fields) (s0 : List Val) : slotOf (upSlots D0 D s0) (upField D f0) = slotOf s0 f0 := by
  have hlt := (hD.fields _ (upField_mem hD ho h)).slot
  unfold slotOf upSlots
  rw [List.getD_eq_getElem?_getD, List.getElem?_map, List.getElem?_range hlt]
  simp only [Option.map_some, Option.getD_some]
  cases hc : D0.fields.find? (fun g => (upField D g).slot == (upField D f0).slot) with
  | none =>
    rw [List.find?_eq_none] at hc
    have := hc f0 h
    simp at this
  | some g =>
    have h1 := List.mem_of_find?_eq_some hc
    have h2 := List.find?_some hc
    simp only [beq_iff_eq] at h2
    simp only
    rw [slotOf, (upField_share hD ho h1 h).2 h2]

omit ho in
theorem up_slot_new {f : FieldDesc} (hf : f ∈ D.fields) (h : ∀ f0 ∈ D0.fields, (upField D f0).slot ≠ f.slot) (s0 : List Val) :
    slotOf (upSlots D0 D s0) f = zeroField f := by
  have hlt := (hD.fields f hf).slot
  unfold slotOf upSlots
  rw [List.getD_eq_getElem?_getD, List.getElem?_map, List.getElem?_range hlt]
  simp only [Option.map_some, Option.getD_some]
  have hc : D0.fields.find? (fun g => (upField D g).slot == f.slot) = none := by
    rw [List.find?_eq_none]
    intro g hg
    simpa using h g hg
  rw [hc]
  exact zeroSlot_eq hD hf

include hD0 in
theorem down_slot {f0 : FieldDesc} (h : f0 ∈ D0.fields) (s : List Val) : slotOf (downSlots D0 D s) f0 = hide D0 f0.oneof (slotOf s (upField D f0)) := by
  have hlt := (hD0.fields _ h).slot
  unfold slotOf downSlots
  rw [List.getD_eq_getElem?_getD, List.getElem?_map, List.getElem?_range hlt]
  simp only [Option.map_some, Option.getD_some]
  cases hc : D0.fields.find? (fun g => g.slot == f0.slot) with
  | none =>
    rw [List.find?_eq_none] at hc
    have := hc f0 h
    simp at this
  | some g =>
    have h1 := List.mem_of_find?_eq_some hc
    have h2 := List.find?_some hc
    simp only [beq_iff_eq] at h2
    simp only
    have hs := (upField_share hD ho h1 h).1 h2
    have hoo : g.oneof = f0.oneof := by
      by_cases hn : g.num = f0.num
      · rw [hD0.num_inj h1 h hn]
      · have := hD0.share g h1 f0 h hn h2
        rw [this.1, this.2]
    rw [hoo, slotOf, hs]

omit hD ho in
theorem hide_false (v : Val) : hide D0 false v = v := by
  unfold hide; split <;> simp

end

/-! ## Encoders -/

section
variable {S S0 : Schema} {R R0 : Runtime} (hn : Shared S0 S R0 R) (r : Nat → Val → Option Bytes)
include hn

theorem record_env (num : Nat) (k : Kind) (t : Nat) (v : Val) : record ⟨S, R⟩ r num k t v = record ⟨S0, R0⟩ r num k t v := by
  have : ∀ t v, Spec.sub ⟨S, R⟩ r t v = Spec.sub ⟨S0, R0⟩ r t v := by 
    intro t v
    unfold Spec.sub
    simp only [hn.foreign t]
    split
    · rename_i h; exact (hn.marshal t v h).symm
    · rfl
  cases k <;> simp [record, this]

theorem field_env (f : FieldDesc) (v : Val) : field ⟨S, R⟩ r f v = field ⟨S0, R0⟩ r f v := by
  have h1 : ∀ num k t, record ⟨S, R⟩ r num k t = record ⟨S0, R0⟩ r num k t := fun num k t => funext fun v => record_env hn r num k t v
  have h2 : ∀ num md, Spec.entry ⟨S, R⟩ r num md = Spec.entry ⟨S0, R0⟩ r num md := by
    intro num md; funext e
    simp only [Spec.entry, h1]
  simp only [field, h1, h2]

variable {D0 D : MsgDesc} (hD0 : MsgFacts D0) (hD : MsgFacts D) (ho : OlderMsg D0 D)
include hD ho

include hD0 in
theorem down_chunk {f0 : FieldDesc} (h : f0 ∈ D0.fields) (s : List Val) :
    chunkStrict ⟨S0, R0⟩ r (downSlots D0 D s) f0 = chunkStrict ⟨S, R⟩ r s (upField D f0) := by
  unfold chunkStrict
  rw [down_slot hD0 hD ho h]
  cases hoo : f0.oneof with
  | false =>
    rw [hide_false, show (upField D f0).oneof = false from hoo]
    simp only [Bool.false_eq_true, if_false]
    rw [field_env hn (R0 := R0)]
    rfl
  | true =>
    rw [show (upField D f0).oneof = true from hoo]
    simp only [if_true]
    cases hv : slotOf s (upField D f0) <;> simp only [hide]
    rename_i n x
    rw [show (upField D f0).num = f0.num from rfl]
    by_cases hnn : n = f0.num
    · subst hnn
      have : keeps D0 f0.num = true := (keeps_iff hD ho (upField_mem hD ho h)).2 ⟨f0, h, rfl⟩
      rw [if_neg (by simp [this]), if_pos rfl]
      simp only [if_true]
      rw [record_env hn (R0 := R0)]
      rfl
    · rw [if_neg hnn]
      by_cases hk : keeps D0 n = false
      · rw [if_pos ⟨trivial, hk⟩]
      · rw [if_neg (fun h => hk h.2)]
        simp only
        rw [if_neg hnn]

theorem up_chunk {f0 : FieldDesc} (h : f0 ∈ D0.fields) (s0 : List Val) :
    chunkStrict ⟨S, R⟩ r (upSlots D0 D s0) (upField D f0) = chunkStrict ⟨S0, R0⟩ r s0 f0 := by
  unfold chunkStrict
  rw [up_slot hD ho h, show (upField D f0).oneof = f0.oneof from rfl]
  split
  · split
    · rw [show (upField D f0).num = f0.num from rfl]
      split
      · rw [record_env hn (R0 := R0)]; rfl
      · rfl
    · rfl
  · rw [field_env hn (R0 := R0)]; rfl

end

/-! ## Types -/

/-- The struct fields hold values of the right types. -/
def SlotsOK (okv : Nat → Val → Bool) (D : MsgDesc) (s : List Val) : Prop :=
  ∀ f ∈ D.fields, (if f.oneof then oneofOK .plain okv D f.slot (slotOf s f) else fieldOK okv f (slotOf s f)) = true

section
variable {D0 D : MsgDesc} (hD0 : MsgFacts D0) (hD : MsgFacts D) (ho : OlderMsg D0 D) {okv : Nat → Val → Bool} {s s0 : List Val}
include hD ho

include hD0 in
/-- The member a oneof of the older version holds is the one of the newer. -/
theorem member_down {f0 : FieldDesc} (h : f0 ∈ D0.fields) {n : Nat} {g : FieldDesc} (hm : D.member (upField D f0).slot n = some g) (hk : keeps D0 n = true) :
    ∃ g0 ∈ D0.fields, upField D g0 = g ∧ D0.member f0.slot n = some g0 := by
  obtain ⟨m1, m2, m3, rfl⟩ := member_some hm
  obtain ⟨g0, h1, rfl⟩ := (keeps_iff hD ho m1).1 hk
  refine ⟨g0, h1, rfl, ?_⟩
  have hs : f0.slot = g0.slot := (upField_share hD ho h h1).2 m3.symm
  rw [hs]
  exact member_of hD0 h1 m2

theorem member_up {f0 : FieldDesc} (h : f0 ∈ D0.fields) {n : Nat} {g0 : FieldDesc} (hm : D0.member f0.slot n = some g0) :
    D.member (upField D f0).slot n = some (upField D g0) := by
  obtain ⟨m1, m2, m3, rfl⟩ := member_some hm
  rw [← (upField_share hD ho m1 h).1 m3]
  exact member_of hD (upField_mem hD ho m1) m2

include hD0 in
theorem down_ok (hv : SlotsOK okv D s) : SlotsOK okv D0 (downSlots D0 D s) := by
  intro f0 h
  have hv := hv _ (upField_mem hD ho h)
  rw [down_slot hD0 hD ho h]
  rw [show (upField D f0).oneof = f0.oneof from rfl] at hv
  cases hoo : f0.oneof with
  | false =>
    rw [hoo] at hv
    rw [hide_false]
    exact hv
  | true =>
    rw [hoo] at hv
    simp only [if_true] at hv ⊢
    cases hs : slotOf s (upField D f0) <;> rw [hs] at hv <;> simp only [hide] <;> try exact hv
    · rename_i n x
      by_cases hk : keeps D0 n = true
      · rw [if_neg (by simp [hk])]
        simp only [oneofOK] at hv ⊢
        cases hm : D.member (upField D f0).slot n with
        | none => rw [hm] at hv; cases hv
        | some g =>
          obtain ⟨g0, _, rfl, h2⟩ := member_down hD0 hD ho h hm hk
          rw [hm] at hv
          rw [h2]
          exact hv
      · rw [if_pos (by simpa using hk)]
        rfl

omit hD ho in
/-- A zero field has the right type. -/
theorem zeroField_ok {d : MsgDesc} {f : FieldDesc} (ff : FieldFacts d f) (hoo : f.oneof = false) : fieldOK okv f (zeroField f) = true := by
  unfold fieldOK zeroField
  rw [hoo]
  cases hm : f.map with
  | some md => simp [(ff.map md hm).1]
  | none =>
    cases hc : f.card == .repeated <;> simp only [if_true, Bool.true_or, Bool.false_or]
    cases hp : f.presence <;> simp only [if_true, Bool.false_eq_true, if_false]
    · apply scalarOK_zero
      constructor <;> intro hk
      · have := ff.singMsg (by simpa using hc) (by simp [FieldDesc.hasMessage, hk]); simp_all
      · have := ff.singMsg (by simpa using hc) (by simp [FieldDesc.hasMessage, hk]); simp_all
    · rfl

/-- A field either has its struct field in the older version too or is zero. -/
theorem up_cases {f : FieldDesc} (hf : f ∈ D.fields) (s0 : List Val) :
    (∃ f0 ∈ D0.fields, upField D f0 = f ∧ slotOf (upSlots D0 D s0) f = slotOf s0 f0) ∨
    (keeps D0 f.num = false ∧ f.oneof = true ∧ ∃ f0 ∈ D0.fields, f0.oneof = true ∧ (upField D f0).slot = f.slot ∧ slotOf (upSlots D0 D s0) f = slotOf s0 f0) ∨
    (keeps D0 f.num = false ∧ (∀ f0 ∈ D0.fields, (upField D f0).slot ≠ f.slot) ∧ slotOf (upSlots D0 D s0) f = zeroField f) := by
  by_cases hk : keeps D0 f.num = true
  · obtain ⟨f0, h1, rfl⟩ := (keeps_iff hD ho hf).1 hk
    exact .inl ⟨f0, h1, rfl, up_slot hD ho h1 s0⟩
  · right
    simp only [Bool.not_eq_true] at hk
    by_cases hex : ∃ f0 ∈ D0.fields, (upField D f0).slot = f.slot
    · obtain ⟨f0, h1, h2⟩ := hex
      have hne : (upField D f0).num ≠ f.num := fun h => by
        have := (keeps_iff hD ho hf).2 ⟨f0, h1, hD.num_inj (upField_mem hD ho h1) hf h⟩
        rw [hk] at this; cases this
      have := hD.share _ (upField_mem hD ho h1) f hf hne h2
      refine .inl ⟨hk, this.2, f0, h1, this.1, h2, ?_⟩
      rw [← up_slot hD ho h1 s0]
      unfold slotOf
      rw [h2]
    · have hex : ∀ f0 ∈ D0.fields, (upField D f0).slot ≠ f.slot := fun f0 h1 h2 => hex ⟨f0, h1, h2⟩
      exact .inr ⟨hk, hex, up_slot_new hD hf hex s0⟩

theorem up_ok (hv : SlotsOK okv D0 s0) : SlotsOK okv D (upSlots D0 D s0) := by
  intro f hf
  have key : ∀ f0 ∈ D0.fields, f0.oneof = true → (upField D f0).slot = f.slot → oneofOK .plain okv D f.slot (slotOf s0 f0) = true := by
    intro f0 h hoo hs
    have hv := hv f0 h
    rw [hoo, if_pos rfl] at hv
    cases hx : slotOf s0 f0 <;> rw [hx] at hv <;> simp only [oneofOK] at hv ⊢ <;> try exact hv
    · rename_i n x
      cases hm : D0.member f0.slot n with
      | none => rw [hm] at hv; cases hv
      | some g0 =>
        rw [hm] at hv
        rw [← hs, member_up hD ho h hm]
        exact hv
  rcases up_cases hD ho hf s0 with ⟨f0, h1, rfl, h2⟩ | ⟨_, h0, f0, h1, h2, h3, h4⟩ | ⟨_, _, h2⟩
  · rw [h2]
    have hv := hv f0 h1
    rw [show (upField D f0).oneof = f0.oneof from rfl]
    cases hoo : f0.oneof with
    | false => rw [hoo] at hv; exact hv
    | true => exact key f0 h1 hoo rfl
  · rw [h4, h0]
    exact key f0 h1 h2 h3
  · rw [h2]
    cases hoo : f.oneof with
    | false => simpa using zeroField_ok (hD.fields f hf) hoo
    | true => simp [zeroField, hoo, oneofOK]

variable {S S0 : Schema} {R R0 : Runtime} (hn : Shared S0 S R0 R) {P : Nat → Val → Prop}

include hD0 hn in
theorem down_restorable (hS : Older S0 S) (hr : ∀ f ∈ D.fields, RestorableField ⟨S, R⟩ P f (slotOf s f)) :
    ∀ f0 ∈ D0.fields, RestorableField ⟨S0, R0⟩ P f0 (slotOf (downSlots D0 D s) f0) := by
  intro f0 h
  have hr := hr _ (upField_mem hD ho h)
  have he : ∀ k t v, RestorableElem S R P k t v → RestorableElem S0 R0 P k t v := by
    intro k t v hv
    unfold RestorableElem at hv ⊢
    rw [hn.foreign t]
    by_cases hg : k = .group
    · rw [if_pos hg] at hv; exact absurd hv id
    rw [if_neg hg] at hv ⊢
    by_cases hm : k = .message
    · rw [if_pos hm] at hv ⊢
      by_cases hf : (S.msg t).foreign = true
      · rw [if_pos hf] at hv ⊢
        exact hn.restored t v hf hv
      rw [if_neg hf] at hv ⊢
      by_cases hnil : v = .nil
      · rw [if_pos hnil] at hv ⊢
        intro f hf hc
        have hS := hS t
        rw [if_neg ‹_›] at hS
        obtain ⟨f', hf', hfe⟩ := hS.2.fields f hf
        refine hv f' hf' ?_
        rw [← hc, hfe]
      · rw [if_neg hnil] at hv ⊢
        exact hv
    · rw [if_neg hm]; trivial
  rw [down_slot hD0 hD ho h]
  generalize slotOf s (upField D f0) = v at hr
  cases v with
  | wrap n x =>
    simp only [hide]
    split_ifs with hc
    · trivial
    · exact fun hnn => he _ _ _ (hr hnn)
  | list xs sp => exact fun x hx => he _ _ _ (hr x hx)
  | map es => exact fun md hm e hx => he _ _ _ (hr md hm e hx)
  | nil => trivial
  | _ => exact he _ _ _ hr

theorem up_restorable (hv : SlotsOK okv D0 s0) (hr : ∀ f0 ∈ D0.fields, RestorableField ⟨S, R⟩ P f0 (slotOf s0 f0)) :
    ∀ f ∈ D.fields, RestorableField ⟨S, R⟩ P f (slotOf (upSlots D0 D s0) f) := by
  intro f hf
  rcases up_cases hD ho hf s0 with ⟨f0, h1, rfl, h2⟩ | ⟨hk, h0, f0, h1, h2, h3, h4⟩ | ⟨_, _, h2⟩
  · rw [h2]
    exact hr f0 h1
  · rw [h4]
    have hv := hv f0 h1
    rw [h2, if_pos rfl] at hv
    cases hx : slotOf s0 f0 <;> rw [hx] at hv <;> simp [oneofOK] at hv
    · trivial
    · rename_i n x
      intro hnn
      cases hm : D0.member f0.slot n with
      | none => rw [hm] at hv; cases hv
      | some g0 =>
        obtain ⟨m1, m2, m3, m4⟩ := member_some hm
        have : keeps D0 f.num = true := (keeps_iff hD ho hf).2 ⟨g0, m1, hD.num_inj (upField_mem hD ho m1) hf (m4.trans hnn.symm)⟩
        rw [hk] at this; cases this
  · rw [h2]
    unfold zeroField
    split
    · trivial
    · rename_i hc
      simp only [Bool.or_eq_true, not_or, Bool.not_eq_true, beq_eq_false_iff_ne] at hc
      have ff := hD.fields f hf
      have hnm : f.kind ≠ .message ∧ f.kind ≠ .group := by
        constructor <;> intro hk
        · have := ff.singMsg (by simpa using hc.1.2) (by simp [FieldDesc.hasMessage, hk]); simp_all
        · have := ff.singMsg (by simpa using hc.1.2) (by simp [FieldDesc.hasMessage, hk]); simp_all
      have : ∀ v, RestorableElem S R P f.kind f.msg v := by
        intro v
        unfold RestorableElem
        rw [if_neg hnm.2, if_neg hnm.1]; trivial
      cases hk : f.kind <;> simp_all [zeroScalar, RestorableField]

end

end Vtp
