import Verif.Lemmas.Safe
/-! The bit set of required fields. -/

namespace Vtp
open Spec

theorem one_bit {q r : Nat} (hr : r < 64) : ((1 : BitVec 64) <<< q).getLsbD r = decide (r = q) := by
  rw [BitVec.getLsbD_shiftLeft, show (1 : BitVec 64) = 1#64 from rfl, BitVec.getLsbD_one]
  by_cases h : r = q
  · subst h; simp [hr]
  · have : decide (r = q) = false := by simpa using h
    rw [this]
    by_cases h2 : r < q
    · simp [h2]
    · simp [show r - q ≠ 0 by omega]

theorem and_bit (w : BitVec 64) {q : Nat} (hq : q < 64) : w &&& ((1 : BitVec 64) <<< q) = 0 ↔ w.getLsbD q = false := by
  constructor
  · intro h
    have := congrArg (fun x => x.getLsbD q) h
    simp only [BitVec.getLsbD_and, one_bit hq, decide_true, Bool.and_true] at this
    rw [this]; simp
  · intro h
    apply BitVec.eq_of_getLsbD_eq
    intro i hi
    rw [BitVec.getLsbD_and, one_bit hi]
    by_cases hiq : i = q
    · subst hiq; rw [h]; simp
    · simp [hiq]

theorem or_bit (w : BitVec 64) {q r : Nat} (hr : r < 64) : (w ||| ((1 : BitVec 64) <<< q)).getLsbD r = (w.getLsbD r || decide (r = q)) := by
  rw [BitVec.getLsbD_or, one_bit hr]

/-- Bit `i` of the array. -/
def hasBit (has : List (BitVec 64)) (i : Nat) : Bool := ((has[i / 64]?).getD 0).getLsbD (i % 64)

/-- The array says which required fields have been seen. -/
structure Marked (d : MsgDesc) (has : List (BitVec 64)) (seen : List Nat) : Prop where
  len : has.length = (noFields d).length
  bit : ∀ f ∈ d.fields, f.card = .required → (hasBit has (d.required.idxOf f.num) = true ↔ f.num ∈ seen)

theorem marked_noFields (d : MsgDesc) : Marked d (noFields d) [] := by
  refine ⟨rfl, fun f hf hc => ?_⟩
  simp only [hasBit, List.not_mem_nil, iff_false, Bool.not_eq_true]
  unfold noFields
  split
  · rw [List.getElem?_replicate]
    split <;> simp
  · simp

theorem required_nodup {d : MsgDesc} (hd : MsgFacts d) : d.required.Nodup := by
  unfold MsgDesc.required
  have := hd.nodup
  exact this.sublist (List.Sublist.map _ List.filter_sublist)

theorem div_mod_inj {a b : Nat} (h1 : a / 64 = b / 64) (h2 : a % 64 = b % 64) : a = b := by omega

theorem markField_marked {d : MsgDesc} (hd : MsgFacts d) {f : FieldDesc} (hf : f ∈ d.fields) {has : List (BitVec 64)} {seen : List Nat}
    (h : Marked d has seen) : ∃ has', markField d f has = .ok has' ∧ Marked d has' (seen ++ [f.num]) := by
  unfold markField
  by_cases hc : (f.card == .required) = true
  · rw [if_pos hc]
    have hb := bit_lt hf hc
    rw [← h.len] at hb
    simp only [List.getElem?_eq_getElem hb]
    refine ⟨_, rfl, by simpa using h.len, fun g hg hgc => ?_⟩
    have hmf := required_mem hf hc
    have hmg := required_mem hg (by simpa using hgc)
    generalize hi : d.required.idxOf f.num = i at *
    generalize hj : d.required.idxOf g.num = j at *
    have hij : i = j ↔ f.num = g.num := by
      constructor
      · intro e
        have h1 := List.getElem_idxOf (List.idxOf_lt_length_iff.2 hmf)
        have h2 := List.getElem_idxOf (List.idxOf_lt_length_iff.2 hmg)
        rw [← h1, ← h2]
        congr 1
        rw [hi, hj, e]
      · intro e; rw [← hi, ← hj, e]
    have := h.bit g hg hgc
    rw [hj] at this
    simp only [hasBit, List.mem_append, List.mem_singleton] at this ⊢
    rw [← this, List.getElem?_set]
    by_cases hq : i / 64 = j / 64
    · rw [if_pos hq, if_pos hb]
      simp only [Option.getD_some]
      rw [or_bit _ (Nat.mod_lt _ (by omega)), ← hq, List.getElem?_eq_getElem hb]
      simp only [Option.getD_some, Bool.or_eq_true, decide_eq_true_eq]
      constructor
      · rintro (h | h)
        · exact .inl h
        · exact .inr (hij.1 (div_mod_inj hq h.symm)).symm
      · rintro (h | h)
        · exact .inl h
        · exact .inr (by rw [hij.2 h.symm])
    · rw [if_neg hq]
      constructor
      · exact .inl
      · rintro (h | h)
        · exact h
        · exact absurd (by rw [hij.2 h.symm]) hq
  · rw [if_neg hc]
    refine ⟨has, rfl, h.len, fun g hg hgc => ?_⟩
    rw [h.bit g hg hgc]
    simp only [List.mem_append, List.mem_singleton]
    constructor
    · exact .inl
    · rintro (h | h)
      · exact h
      · exfalso
        rw [hd.num_inj hg hf h] at hgc
        simp [hgc] at hc

/-- The first required field that has not been seen. -/
def firstMissing (seen : List Nat) (fs : List FieldDesc) : Option FieldDesc :=
  fs.find? fun f => f.card == .required && !seen.contains f.num

theorem checkRequired_marked {d : MsgDesc} {has : List (BitVec 64)} {seen : List Nat} (h : Marked d has seen) :
    ∀ fs : List FieldDesc, (∀ f ∈ fs, f ∈ d.fields) →
      checkRequired d has fs = match firstMissing seen fs with
        | none => .ok ()
        | some f => .err (.requiredNotSet f.num) := by
  intro fs
  induction fs with
  | nil => intro _; rfl
  | cons f fs ih =>
    intro hs
    have ih := ih fun g hg => hs g (List.mem_cons_of_mem _ hg)
    have hf := hs f (by simp)
    rw [checkRequired, firstMissing, List.find?_cons]
    by_cases hc : (f.card == .required) = true
    · rw [if_pos hc]
      have hb := bit_lt hf hc
      rw [← h.len] at hb
      have hbit := h.bit f hf (by simpa using hc)
      simp only [hasBit, List.getElem?_eq_getElem hb, Option.getD_some] at hbit
      simp only [List.getElem?_eq_getElem hb, hc, Bool.true_and]
      by_cases hm : f.num ∈ seen
      · rw [if_neg]
        · simp only [List.contains_iff_mem.2 hm, Bool.not_true]
          exact ih
        · rw [and_bit _ (Nat.mod_lt _ (by omega)), hbit.2 hm]
          simp
      · rw [if_pos]
        · simp [hm]
        · rw [and_bit _ (Nat.mod_lt _ (by omega))]
          simpa using fun e => hm (hbit.1 e)
    · rw [if_neg hc]
      simp only [hc, Bool.false_and]
      exact ih

end Vtp
