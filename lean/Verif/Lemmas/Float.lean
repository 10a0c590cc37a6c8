import Verif.Model.Equal
import Verif.Spec.Same
import Mathlib.Tactic.Ring
import Mathlib.Tactic.Linarith
/-!
# Comparing floats by their bits
-/

namespace Vtp
open Spec

/-- Magnitude of the number with the given exponent and fraction. -/
def floatMag (f exp frac : Nat) : Nat := if exp = 0 then frac else (2 ^ f + frac) * 2 ^ (exp - 1)

theorem floatMag_lt {f a b x y : Nat} (hx : x < 2 ^ f) (h : a < b) : floatMag f a x < floatMag f b y := by
  have hb : b ≠ 0 := by omega
  unfold floatMag
  rw [if_neg hb]
  have h1 : 2 ^ f * 2 ^ (b - 1) ≤ (2 ^ f + y) * 2 ^ (b - 1) := Nat.mul_le_mul_right _ (by omega)
  have h3 : 1 ≤ 2 ^ (b - 1) := Nat.one_le_two_pow
  split
  · have : 2 ^ f * 1 ≤ 2 ^ f * 2 ^ (b - 1) := Nat.mul_le_mul_left _ h3
    omega
  · rename_i ha
    have h2 : (2 ^ f + x) * 2 ^ (a - 1) < (2 ^ f * 2) * 2 ^ (a - 1) := Nat.mul_lt_mul_of_pos_right (by omega) (by positivity)
    have h4 : (2 ^ f * 2) * 2 ^ (a - 1) = 2 ^ f * 2 ^ a := by
      obtain ⟨c, rfl⟩ : ∃ c, a = c + 1 := ⟨a - 1, by omega⟩
      simp [pow_succ]; ring
    have h5 : 2 ^ f * 2 ^ a ≤ 2 ^ f * 2 ^ (b - 1) := Nat.mul_le_mul_left _ (Nat.pow_le_pow_right (by omega) (by omega))
    omega

theorem floatMag_inj {f a b x y : Nat} (hx : x < 2 ^ f) (hy : y < 2 ^ f) (h : floatMag f a x = floatMag f b y) : a = b ∧ x = y := by
  rcases Nat.lt_trichotomy a b with hab | rfl | hab
  · have := floatMag_lt (y := y) hx hab; omega
  · refine ⟨rfl, ?_⟩
    unfold floatMag at h
    split at h
    · exact h
    · have := Nat.eq_of_mul_eq_mul_right (by positivity) h
      omega
  · have := floatMag_lt (y := x) hy hab; omega

theorem floatMag_zero {f a x : Nat} : floatMag f a x = 0 ↔ a = 0 ∧ x = 0 := by
  unfold floatMag
  split
  · rename_i h; simp [h]
  · rename_i h
    have : 0 < (2 ^ f + x) * 2 ^ (a - 1) := by positivity
    constructor
    · intro h'; omega
    · rintro ⟨h', _⟩; exact absurd h' h

/-- Values of bit patterns: equal and not NaN iff the bits are equal and not NaN, or both are zeros. -/
theorem ieee_eq {e f : Nat} {x y : Nat} (hx : x < 2 ^ (e + f + 1)) (hy : y < 2 ^ (e + f + 1)) :
    (ieee e f x = ieee e f y ∧ ieee e f x ≠ none) ↔
      (¬ ((2 ^ e - 1) * 2 ^ f < x % 2 ^ (e + f)) ∧ ¬ ((2 ^ e - 1) * 2 ^ f < y % 2 ^ (e + f)) ∧
        (x = y ∨ x % 2 ^ (e + f) = 0 ∧ y % 2 ^ (e + f) = 0)) := by
  have key : ∀ z, z < 2 ^ (e + f + 1) → z / 2 ^ f % 2 ^ e = z % 2 ^ (e + f) / 2 ^ f ∧ z % 2 ^ f = z % 2 ^ (e + f) % 2 ^ f ∧
      z / 2 ^ f % 2 ^ e ≤ 2 ^ e - 1 ∧ z % 2 ^ (e + f) = (z / 2 ^ f % 2 ^ e) * 2 ^ f + z % 2 ^ f ∧
      z = (z / 2 ^ (e + f) % 2) * 2 ^ (e + f) + z % 2 ^ (e + f) := by
    intro z hz
    have hpe : 0 < 2 ^ e := by positivity
    have h1 : z / 2 ^ f % 2 ^ e = z % 2 ^ (e + f) / 2 ^ f := by
      rw [Nat.add_comm, pow_add]
      exact (Nat.mod_mul_right_div_self ..).symm
    have h2 : z % 2 ^ f = z % 2 ^ (e + f) % 2 ^ f := by
      rw [Nat.mod_mod_of_dvd]
      exact Nat.pow_dvd_pow _ (by omega)
    refine ⟨h1, h2, by have := Nat.mod_lt (z / 2 ^ f) hpe; omega, ?_, ?_⟩
    · rw [h1, h2, Nat.mul_comm]; exact (Nat.div_add_mod _ _).symm
    · have h3 : z / 2 ^ (e + f) < 2 := by
        rw [Nat.div_lt_iff_lt_mul (by positivity)]
        rw [pow_succ] at hz; omega
      rw [Nat.mod_eq_of_lt h3, Nat.mul_comm]; exact (Nat.div_add_mod _ _).symm
  obtain ⟨_, _, a3, a4, a5⟩ := key x hx
  obtain ⟨_, _, b3, b4, b5⟩ := key y hy
  have hfx : x % 2 ^ f < 2 ^ f := Nat.mod_lt _ (by positivity)
  have hfy : y % 2 ^ f < 2 ^ f := Nat.mod_lt _ (by positivity)
  have hsx : x / 2 ^ (e + f) % 2 < 2 := Nat.mod_lt _ (by omega)
  have hsy : y / 2 ^ (e + f) % 2 < 2 := Nat.mod_lt _ (by omega)
  have hm : ∀ z, (if z / 2 ^ f % 2 ^ e = 0 then z % 2 ^ f else (2 ^ f + z % 2 ^ f) * 2 ^ (z / 2 ^ f % 2 ^ e - 1)) =
    floatMag f (z / 2 ^ f % 2 ^ e) (z % 2 ^ f) := fun z => rfl
  unfold ieee
  simp only [hm]
  rw [a4, b4]
  generalize x / 2 ^ f % 2 ^ e = ex at a3 a4 ⊢
  generalize y / 2 ^ f % 2 ^ e = ey at b3 b4 ⊢
  generalize x % 2 ^ f = fx at hfx a4 ⊢
  generalize y % 2 ^ f = fy at hfy b4 ⊢
  generalize x / 2 ^ (e + f) % 2 = sx at hsx a5 ⊢
  generalize y / 2 ^ (e + f) % 2 = sy at hsy b5 ⊢
  rw [a4] at a5
  rw [b4] at b5
  clear key a4 b4 hx hy
  have nanx : ∀ {ez fz : Nat}, ez ≤ 2 ^ e - 1 → fz < 2 ^ f → ((2 ^ e - 1) * 2 ^ f < ez * 2 ^ f + fz ↔ ez = 2 ^ e - 1 ∧ fz ≠ 0) := by
    intro ez fz h1 h2
    constructor
    · intro h
      rcases Nat.lt_or_eq_of_le h1 with h3 | h3
      · exfalso
        have : (ez + 1) * 2 ^ f ≤ (2 ^ e - 1) * 2 ^ f := Nat.mul_le_mul_right _ h3
        rw [Nat.succ_mul] at this
        omega
      · refine ⟨h3, ?_⟩
        rw [h3] at h
        omega
    · rintro ⟨rfl, h⟩; omega
  rw [nanx a3 hfx, nanx b3 hfy]
  have hzero : ∀ {ez fz : Nat}, ez * 2 ^ f + fz = 0 ↔ ez = 0 ∧ fz = 0 := by
    intro ez fz
    have : 0 < 2 ^ f := by positivity
    constructor
    · intro h
      have h1 : ez * 2 ^ f = 0 := by omega
      refine ⟨(Nat.mul_eq_zero.1 h1).resolve_right (by omega), by omega⟩
    · rintro ⟨rfl, rfl⟩; simp
  by_cases nx : ex = 2 ^ e - 1 ∧ fx ≠ 0
  · simp [nx]
  rw [if_neg nx]
  by_cases ny : ey = 2 ^ e - 1 ∧ fy ≠ 0
  · simp [ny]
  rw [if_neg ny]
  simp only [nx, ny, not_false_eq_true, true_and, Option.some.injEq, ne_eq, reduceCtorEq, and_true]
  rw [hzero, hzero, ← floatMag_zero (f := f), ← floatMag_zero (f := f)]
  constructor
  · intro h
    by_cases h0 : floatMag f ex fx = 0
    · right
      refine ⟨h0, ?_⟩
      rw [h0] at h
      split at h <;> split at h <;> omega
    · left
      have hmag : floatMag f ex fx = floatMag f ey fy ∧ (sx = 1 ↔ sy = 1) := by
        split at h <;> split at h <;> constructor <;> first | omega | (constructor <;> intro <;> omega)
      obtain ⟨h1, h2⟩ := floatMag_inj hfx hfy hmag.1
      have : sx = sy := by omega
      rw [a5, b5, h1, h2, this]
  · rintro (h | ⟨h1, h2⟩)
    · have hlt : ∀ {ez fz : Nat}, ez ≤ 2 ^ e - 1 → fz < 2 ^ f → ez * 2 ^ f + fz < 2 ^ (e + f) := by
        intro ez fz h1 h2
        have hp : 0 < 2 ^ e := by positivity
        have h3 : (ez + 1) * 2 ^ f ≤ 2 ^ e * 2 ^ f := Nat.mul_le_mul_right _ (by omega)
        rw [Nat.succ_mul, ← pow_add] at h3
        omega
      have e1 := hlt a3 hfx
      have e2 := hlt b3 hfy
      have hs : sx = sy ∧ ex * 2 ^ f + fx = ey * 2 ^ f + fy := by
        rw [a5, b5] at h
        rcases (by omega : sx = 0 ∨ sx = 1) with rfl | rfl <;> rcases (by omega : sy = 0 ∨ sy = 1) with rfl | rfl <;> simp at h ⊢ <;> omega
      have hef : ex = ey ∧ fx = fy := by
        have h1 := congrArg (· / 2 ^ f) hs.2
        have h2 := congrArg (· % 2 ^ f) hs.2
        simp only [Nat.mul_add_mod_of_lt hfx, Nat.mul_add_mod_of_lt hfy] at h2
        have hp : 0 < 2 ^ f := by positivity
        simp only [Nat.mul_comm _ (2 ^ f), Nat.mul_add_div hp, Nat.div_eq_of_lt hfx, Nat.div_eq_of_lt hfy] at h1
        exact ⟨by omega, h2⟩
      rw [hs.1, hef.1, hef.2]
    · rw [h1, h2]; simp

theorem float64Eq_iff (a b : BitVec 64) : float64Eq a b = true ↔ ieee 11 52 a.toNat = ieee 11 52 b.toNat ∧ ieee 11 52 a.toNat ≠ none := by
  rw [ieee_eq (e := 11) (f := 52) a.isLt b.isLt]
  unfold float64Eq
  have hn : ∀ x : BitVec 64, decide ((x <<< 1) > 0xffe0000000000000#64) = decide ((2 ^ 11 - 1) * 2 ^ 52 < x.toNat % 2 ^ (11 + 52)) := by
    intro x
    rw [decide_eq_decide, gt_iff_lt, BitVec.lt_def, BitVec.toNat_shiftLeft]
    simp [Nat.shiftLeft_eq]
    omega
  have hz : ∀ x : BitVec 64, ((x <<< 1) == 0) = decide (x.toNat % 2 ^ (11 + 52) = 0) := by
    intro x
    rw [Bool.eq_iff_iff, beq_iff_eq, decide_eq_true_iff, ← BitVec.toNat_inj, BitVec.toNat_shiftLeft]
    simp [Nat.shiftLeft_eq]
    omega
  simp only [hn, hz, Bool.and_eq_true, Bool.or_eq_true, Bool.not_eq_true', decide_eq_false_iff_not, decide_eq_true_iff, beq_iff_eq, ← BitVec.toNat_inj, and_assoc]

theorem float32Eq_iff (a b : BitVec 32) : float32Eq a b = true ↔ ieee 8 23 a.toNat = ieee 8 23 b.toNat ∧ ieee 8 23 a.toNat ≠ none := by
  rw [ieee_eq (e := 8) (f := 23) a.isLt b.isLt]
  unfold float32Eq
  have hn : ∀ x : BitVec 32, decide ((x <<< 1) > 0xff000000#32) = decide ((2 ^ 8 - 1) * 2 ^ 23 < x.toNat % 2 ^ (8 + 23)) := by
    intro x
    rw [decide_eq_decide, gt_iff_lt, BitVec.lt_def, BitVec.toNat_shiftLeft]
    simp [Nat.shiftLeft_eq]
    omega
  have hz : ∀ x : BitVec 32, ((x <<< 1) == 0) = decide (x.toNat % 2 ^ (8 + 23) = 0) := by
    intro x
    rw [Bool.eq_iff_iff, beq_iff_eq, decide_eq_true_iff, ← BitVec.toNat_inj, BitVec.toNat_shiftLeft]
    simp [Nat.shiftLeft_eq]
    omega
  simp only [hn, hz, Bool.and_eq_true, Bool.or_eq_true, Bool.not_eq_true', decide_eq_false_iff_not, decide_eq_true_iff, beq_iff_eq, ← BitVec.toNat_inj, and_assoc]

/-- Go's comparison of scalars compares what they denote. -/
theorem scalarEq_iff {k : Kind} (h : k ≠ .bytes) (v w : Val) : scalarEq k v w = true ↔ SameScalar k v w := by
  have hg : (k ≠ .double → k ≠ .float → k ≠ .string → scalarEq k v w = (v.bits == w.bits)) ∧
      (k ≠ .double → k ≠ .float → k ≠ .string → (SameScalar k v w ↔ v.bits = w.bits)) := by
    constructor
    · intro h1 h2 h3
      cases k <;> simp_all [scalarEq]
    · intro h1 h2 h3
      unfold SameScalar
      rw [if_neg (by simp [h, h3])]
      have : ∀ v, numValue k v = some v.bits.toInt := by intro v; cases k <;> simp_all [numValue]
      rw [this, this]
      simp [BitVec.toInt_inj]
  by_cases h1 : k = .double
  · subst h1
    simp only [scalarEq, SameScalar, numValue]
    rw [float64Eq_iff]
    simp
  by_cases h2 : k = .float
  · subst h2
    simp only [scalarEq, SameScalar, numValue]
    rw [float32Eq_iff]
    simp
  by_cases h3 : k = .string
  · subst h3
    simp [scalarEq, SameScalar]
  rw [hg.1 h1 h2 h3, hg.2 h1 h2 h3, beq_iff_eq]

end Vtp
