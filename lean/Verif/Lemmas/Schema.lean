import Verif.Spec.Typing
/-! Facts about coherent descriptors, unpacked from the boolean predicates. -/

namespace Vtp
open Spec

/-- The conjuncts of `fieldDescOK`. -/
structure FieldFacts (d : MsgDesc) (f : FieldDesc) : Prop where
  pos : 1 ≤ f.num
  small : f.num < 2 ^ 29
  slot : f.slot < d.nslots
  packed : f.packed = true → f.card = .repeated ∧ f.map = none ∧ numeric f.kind = true
  oneof : f.oneof = true → f.card = .optional ∧ f.presence = true ∧ f.synthetic = false ∧ f.kind ≠ .group
  map : ∀ md, f.map = some md → f.card = .repeated ∧ f.kind = .message ∧ mapKeyKind md.key = true ∧ md.val ≠ .group
  rep : f.card = .repeated → f.presence = false ∧ f.kind ≠ .group ∧ f.synthetic = false
  req : f.card = .required → f.presence = true ∧ d.proto3 = false
  singMsg : f.card ≠ .repeated → f.hasMessage = true → f.presence = true
  synth : f.synthetic = true → d.proto3 = true ∧ f.presence = true
  implicit : f.card ≠ .repeated → d.proto3 = true → f.oneof = false → f.synthetic = false → f.hasMessage = false →
    f.presence = false
  proto2 : f.card ≠ .repeated → d.proto3 = false → f.presence = true

theorem FieldFacts.of {d : MsgDesc} {f : FieldDesc} (h : fieldDescOK d f = true) : FieldFacts d f := by
  simp only [fieldDescOK, Bool.and_eq_true, decide_eq_true_eq] at h
  obtain ⟨⟨⟨⟨⟨⟨⟨⟨⟨⟨⟨h1, h1'⟩, h2⟩, h3⟩, h4⟩, h5⟩, h6⟩, h7⟩, h8⟩, h9⟩, h10⟩, h11⟩ := h
  refine ⟨h1, h1', h2, ?_, ?_, ?_, ?_, ?_, ?_, ?_, ?_, ?_⟩
  · intro hp; simpa [hp, and_assoc] using h3
  · intro hp; simpa [hp, and_assoc] using h4
  · intro md hp; simpa [hp, and_assoc] using h5
  · intro hp; simpa [hp, and_assoc] using h6
  · intro hp; simpa [hp, and_assoc] using h7
  · intro hp hq; simpa [hp, hq, and_assoc] using h8
  · intro hp; simpa [hp, and_assoc] using h9
  · intro a b c e g
    have a' : (f.card != .repeated) = true := by simpa using a
    simpa [a', b, c, e, g] using h10
  · intro a b
    have a' : (f.card != .repeated) = true := by simpa using a
    simpa [a', b] using h11

/-- The conjuncts of `msgDescOK`. -/
structure MsgFacts (d : MsgDesc) : Prop where
  fields : ∀ f ∈ d.fields, FieldFacts d f
  nodup : (d.fields.map (·.num)).Nodup
  share : ∀ f ∈ d.fields, ∀ g ∈ d.fields, f.num ≠ g.num → f.slot = g.slot → f.oneof = true ∧ g.oneof = true
  cover : ∀ s < d.nslots, ∃ f ∈ d.fields, f.slot = s

theorem MsgFacts.of {d : MsgDesc} (h : msgDescOK d = true) : MsgFacts d := by
  simp only [msgDescOK, Bool.and_eq_true, List.all_eq_true, List.any_eq_true, decide_eq_true_eq, List.mem_range] at h
  obtain ⟨⟨⟨h1, h2⟩, h3⟩, h4⟩ := h
  refine ⟨fun f hf => .of (h1 f hf), h2, ?_, ?_⟩
  · intro f hf g hg hn hs
    have := h3 f hf g hg
    simpa [hn, hs] using this
  · intro s hs
    obtain ⟨f, hf, he⟩ := h4 s hs
    exact ⟨f, hf, by simpa using he⟩

theorem schemaOK_msg {S : Schema} (h : schemaOK S = true) (t : Nat) : MsgFacts (S.msg t) := by
  simp only [schemaOK, List.all_eq_true] at h
  unfold Schema.msg
  rw [List.getD_eq_getElem?_getD]
  cases hg : S[t]? with
  | none => exact ⟨by simp, by simp, by simp, by simp⟩
  | some d => exact .of (h d (List.mem_of_getElem? hg))

/-- Field numbers identify fields. -/
theorem MsgFacts.num_inj {d : MsgDesc} (h : MsgFacts d) {f g : FieldDesc} (hf : f ∈ d.fields) (hg : g ∈ d.fields)
    (hn : f.num = g.num) : f = g := by
  have := h.nodup
  exact List.inj_on_of_nodup_map this hf hg hn

theorem member_some {d : MsgDesc} {slot n : Nat} {f : FieldDesc} (h : d.member slot n = some f) :
    f ∈ d.fields ∧ f.oneof = true ∧ f.slot = slot ∧ f.num = n := by
  unfold MsgDesc.member at h
  have h1 := List.mem_of_find?_eq_some h
  have h2 := List.find?_some h
  simp only [Bool.and_eq_true, beq_iff_eq] at h2
  exact ⟨h1, h2.1.1, h2.1.2, h2.2⟩

theorem member_of {d : MsgDesc} (h : MsgFacts d) {f : FieldDesc} (hf : f ∈ d.fields) (ho : f.oneof = true) :
    d.member f.slot f.num = some f := by
  unfold MsgDesc.member
  cases hc : d.fields.find? (fun g => g.oneof && g.slot == f.slot && g.num == f.num) with
  | none =>
    rw [List.find?_eq_none] at hc
    have := hc f hf
    simp [ho] at this
  | some g =>
    have h1 := List.mem_of_find?_eq_some hc
    have h2 := List.find?_some hc
    simp only [Bool.and_eq_true, beq_iff_eq] at h2
    rw [h.num_inj h1 hf h2.2]

end Vtp
