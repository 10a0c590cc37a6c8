import Verif.Model.Unmarshal
import Verif.Lemmas.Skip
/-! The decoder monad and the pure readers of the decoder: results stay inside the input. -/

namespace Vtp
open Spec

theorem UM.bind_def {α β : Type} (x : UM α) (f : α → UM β) (m : Val) :
    (x >>= f) m = match x m with
      | (m', .ok a) => f a m'
      | (m', .err e) => (m', .err e)
      | (m', .panic p) => (m', .panic p)
      | (m', .diverge) => (m', .diverge) := rfl

@[simp] theorem UM.pure_def {α : Type} (a : α) (m : Val) : (pure a : UM α) m = (m, .ok a) := rfl
@[simp] theorem UM.lift_def {α : Type} (r : Res α) (m : Val) : UM.lift r m = (m, r) := rfl

theorem UM.pure_bind {α β : Type} (a : α) (f : α → UM β) : (pure a >>= f : UM β) = f a := rfl
theorem UM.lift_ok_bind {α β : Type} (a : α) (f : α → UM β) : (UM.lift (.ok a) >>= f : UM β) = f a := rfl
theorem UM.lift_err_bind {α β : Type} (e : Err) (f : α → UM β) : (UM.lift (.err e) >>= f : UM β) = UM.lift (.err e) := rfl

/-- The outcome is a return, with a value satisfying `Q` or an error. -/
def Res.All {α : Type} (Q : α → Prop) : Res α → Prop
  | .ok a => Q a
  | .err _ => True
  | .panic _ => False
  | .diverge => False

theorem Res.All.mono {α : Type} {Q Q' : α → Prop} {r : Res α} (h : r.All Q) (hq : ∀ a, Q a → Q' a) : r.All Q' := by
  cases r <;> simp_all [Res.All]

theorem Res.All.bind {α β : Type} {Q : α → Prop} {Q' : β → Prop} {r : Res α} {f : α → Res β} (h : r.All Q)
    (hf : ∀ a, Q a → (f a).All Q') : (r >>= f).All Q' := by
  cases r <;> simp_all [Res.All]

/-- `x` keeps `P` of the receiver, does not panic, and returns values satisfying `Q`. -/
def Safe {α : Type} (P : Val → Prop) (x : UM α) (Q : α → Prop) : Prop :=
  ∀ m, P m → P (x m).1 ∧ (x m).2.All Q

namespace Safe
variable {α β : Type} {P : Val → Prop}

theorem mono {x : UM α} {Q Q' : α → Prop} (h : Safe P x Q) (hq : ∀ a, Q a → Q' a) : Safe P x Q' :=
  fun m hm => ⟨(h m hm).1, (h m hm).2.mono hq⟩

theorem pure {a : α} {Q : α → Prop} (h : Q a) : Safe P (pure a : UM α) Q := fun _ hm => ⟨hm, h⟩

theorem lift {r : Res α} {Q : α → Prop} (h : r.All Q) : Safe P (UM.lift r) Q := fun _ hm => ⟨hm, h⟩

theorem bind {x : UM α} {f : α → UM β} {Q : α → Prop} {Q' : β → Prop} (hx : Safe P x Q) (hf : ∀ a, Q a → Safe P (f a) Q') :
    Safe P (x >>= f) Q' := by
  intro m hm
  rw [UM.bind_def]
  have h := hx m hm
  generalize x m = r at h
  obtain ⟨m', r⟩ := r
  cases r with
  | ok a => exact hf a h.2 m' h.1
  | err e => exact ⟨h.1, trivial⟩
  | panic p => exact h.2.elim
  | diverge => exact h.2.elim

end Safe

/-! ## Pure readers -/

variable {A : Arch}

theorem decodeVarint_all (w : Nat) (d : Bytes) (i : Nat) :
    (decodeVarint w d i).All fun r => i < r.2 ∧ r.2 ≤ d.length := by
  by_cases hi : i ≤ d.length
  · rcases decodeVarint_returns w d i hi with ⟨v, j, h, h1⟩ | ⟨e, h⟩ <;> rw [h]
    · exact h1
    · trivial
  · rw [decodeVarint, decodeVarintLoop, if_neg (by decide), if_pos (by omega)]; trivial

theorem decodeVarintLoop_all (w : Nat) (d : Bytes) : ∀ (n k i : Nat) (acc : BitVec w), n + k = 11 → k ≤ 10 →
    (decodeVarintLoop w d n (7 * k) i acc).All fun r => i < r.2 ∧ r.2 ≤ d.length := by
  intro n
  induction n with
  | zero => intro k i acc h hk; exfalso; omega
  | succ n ih =>
    intro k i acc h hk
    rw [decodeVarintLoop]
    split
    · trivial
    · rename_i h1
      split
      · trivial
      · rename_i h2
        have h3 : i < d.length := by omega
        rw [List.getElem?_eq_getElem h3]
        simp only
        split
        · exact ⟨by simp, h3⟩
        · have := ih (k + 1) (i + 1) (acc ||| (BitVec.ofNat w (d[i] &&& 0x7f).toNat <<< (7 * k))) (by omega) (by omega)
          rw [Nat.mul_add, Nat.mul_one] at this
          exact this.mono fun r hr => ⟨by omega, hr.2⟩

theorem slice_all {d : Bytes} {i j : Nat} (h1 : i ≤ j) (h2 : j ≤ d.length) :
    slice d i j = .ok ((d.drop i).take (j - i)) := by rw [slice, if_pos ⟨h1, h2⟩]

theorem readSpan_all (hA : A.Valid) (w : Nat) {d : Bytes} (hf : A.Fits d.length) (i : Nat) :
    (readSpan A w d i).All fun r => i < r.1 ∧ r.1 ≤ r.2 ∧ r.2 ≤ d.length := by
  unfold readSpan
  refine (decodeVarint_all w d i).bind ?_
  rintro ⟨n, j⟩ ⟨h1, h2⟩
  simp only
  split
  · trivial
  · rename_i hl
    split
    · trivial
    · rename_i hp
      split
      · trivial
      · rename_i hq
        simp only [Res.All]
        simp only at h1 h2
        have hw : A.wrap n.toInt < (2 ^ (A.bits - 1) : Nat) := by
          have := hA.pos
          have hp := two_pow_pred (n := A.bits) (by omega)
          have : A.wrap n.toInt < ((2 ^ A.bits : Nat) + 1) / 2 := by
            unfold Arch.wrap; exact Int.bmod_lt (by positivity)
          omega
        unfold Arch.Fits at hf
        have hpos := hA.pos
        have h2p := two_pow_pred (n := A.bits) (by omega)
        rcases Arch.wrap_cases hA (j + A.wrap n.toInt) (by omega) (by omega) with h | h
        · omega
        · omega

theorem decodeFixed_all (hA : A.Valid) {n : Nat} (hn : 0 < n) (hn8 : n ≤ 8) {d : Bytes} (hf : A.Fits d.length) {i : Nat} (hi : i ≤ d.length) :
    (decodeFixed A n d i).All fun r => i < r.2 ∧ r.2 ≤ d.length ∧ r.1 < 256 ^ n := by
  unfold decodeFixed
  unfold Arch.Fits at hf
  rw [Arch.wrap_small hA _ (by omega) (by omega)]
  split
  · trivial
  · rw [if_pos (by omega)]
    refine ⟨by simp; omega, by simp; omega, ?_⟩
    have : ∀ l : Bytes, leValue l < 256 ^ l.length := by
      intro l
      induction l with
      | nil => simp [leValue]
      | cons b l ih =>
        have := b.toNat_lt
        simp only [leValue, List.length_cons, Nat.pow_succ]
        omega
    have h := this ((d.drop i).take n)
    have hl : ((d.drop i).take n).length = n := by simp; omega
    rw [hl] at h
    exact h

/-- The result of `Skip` is a non-negative `int`. -/
theorem skip_lt (hA : A.Valid) (d : Bytes) (hf : A.Fits d.length) :
    (skip A d).All fun n => 0 < n ∧ n < 2 ^ (A.bits - 1) := by
  have key : ∀ (n i depth : Nat), i ≤ d.length ∨ i < 2 ^ (A.bits - 1) → (∀ j, skipLoop A d n i depth = .ok j → j < 2 ^ (A.bits - 1)) := by
    intro n
    unfold Arch.Fits at hf
    have hw : ∀ x : Int, A.wrap x < (2 ^ (A.bits - 1) : Nat) := by
      intro x
      have := hA.pos
      have hp := two_pow_pred (n := A.bits) (by omega)
      have : A.wrap x < ((2 ^ A.bits : Nat) + 1) / 2 := by
        unfold Arch.wrap; exact Int.bmod_lt (by positivity)
      omega
    induction n with
    | zero => intro i depth _ j h; simp [skipLoop] at h
    | succ n ih =>
      intro i depth hi j h
      have next : ∀ (x : Int) (dp : Nat), x < (2 ^ (A.bits - 1) : Nat) →
          (if x < 0 then Res.err .invalidLength else if dp = 0 then .ok x.toNat else skipLoop A d n x.toNat dp) = .ok j →
          j < 2 ^ (A.bits - 1) := by
        intro x dp hx hj
        split at hj
        · simp at hj
        · split at hj
          · simp at hj; omega
          · exact ih _ _ (.inr (by omega)) _ hj
      rw [skipLoop] at h
      split at h
      · obtain ⟨⟨wire, k⟩, h1, h⟩ := Res.bind_eq_ok.1 h
        have hk := decodeVarint_all 64 d i
        rw [h1] at hk
        simp only [Res.All] at hk
        simp only at h
        split at h
        · obtain ⟨q, h2, h⟩ := Res.bind_eq_ok.1 h
          refine next q depth ?_ h
          have : ∀ (n s i q : Nat), i ≤ d.length → skipVarintLoop d n s i = .ok q → q ≤ d.length := by
            intro n
            induction n with
            | zero => intro s i q _ h; simp [skipVarintLoop] at h
            | succ n ih =>
              intro s i q hi h
              rw [skipVarintLoop] at h
              split at h
              · simp at h
              · split at h
                · simp at h
                · split at h
                  · simp at h
                  · split at h
                    · simp at h; omega
                    · exact ih _ _ _ (by omega) h
          have := this _ _ _ _ hk.2 h2
          omega
        · exact next _ _ (hw _) h
        · obtain ⟨⟨l, q⟩, h2, h⟩ := Res.bind_eq_ok.1 h
          simp only at h
          split at h
          · simp at h
          · exact next _ _ (hw _) h
        · exact next _ _ (by omega) h
        · split at h
          · simp at h
          · exact next _ _ (by omega) h
        · exact next _ _ (hw _) h
        · simp at h
      · simp at h
  rcases skipFrom_returns A hA d hf (d.length + 1) 0 0 (by omega) with ⟨j, h, hj⟩ | ⟨e, h⟩
  · rw [skip_eq_skipFrom, h]
    exact ⟨hj, key (d.length + 1) 0 0 (.inl (by omega)) j h⟩
  · rw [skip_eq_skipFrom, h]; trivial

theorem skipAt_all (hA : A.Valid) {d : Bytes} (hf : A.Fits d.length) {i limit : Nat} (hi : i ≤ d.length) :
    (skipAt A d i limit).All fun j => i < j ∧ j ≤ limit := by
  unfold skipAt
  rw [slice_all hi (Nat.le_refl _)]
  simp only [Res.bind_ok]
  have hlen : ((d.drop i).take (d.length - i)).length ≤ d.length := by simp
  refine (skip_lt hA _ (by unfold Arch.Fits at hf ⊢; omega)).bind ?_
  rintro n ⟨h1, h2⟩
  split
  · trivial
  · split
    · trivial
    · unfold Arch.Fits at hf
      have hpos := hA.pos
      have h2p := two_pow_pred (n := A.bits) (by omega)
      simp only [Res.All]
      rcases Arch.wrap_cases hA (i + n) (by omega) (by omega) with h | h <;> omega

end Vtp
