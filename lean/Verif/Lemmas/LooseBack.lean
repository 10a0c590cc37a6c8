import Verif.Lemmas.MadeEncode
import Verif.Lemmas.RoundTripSame
/-! Encodings with unknown fields that are records only in the liberal sense of `Skip`. -/

namespace Vtp
open Spec

/-- Well-formed records, then unknown fields in the liberal sense, with sub-messages of the same kind, nested at most `n - 1` deep. -/
def LDecodesN (w : Nat) (S : Schema) (R : Runtime) : Nat → SubRel
  | 0 => fun _ _ _ _ => False
  | n + 1 => fun t b m m' => ∃ rs c u m1, b = c ++ u ∧ Records rs c ∧ Steps S (subRel S R (LDecodesN w S R n)) (S.msg t) rs m m1 ∧ Complete (S.msg t) rs ∧
      ((S.msg t).keepUnknown = true → LooseUnknown w (S.msg t) u) ∧ ((S.msg t).keepUnknown = false → u = []) ∧ m' = addUnknown m1 u

theorem encode_back_loose {E : Env} (w : Nat) (hS : schemaOK E.S = true) (strict : Bool) (n t : Nat) (v : Val) (b : Bytes) (hd : v.depth ≤ n) (hf : (E.S.msg t).foreign = false)
    (he : encode E strict t v = some b) (hl : b.length < 2 ^ 64) (hw : wtM E.S .plain t v = true) (hr : RestorableG (LooseUnknown w) E.S E.R n t v) :
    LDecodesN w E.S E.R (n + 1) t b (zeroMsg E.S t) (backN E.S E.R n t v) :=
  encode_backG hS strict (Q := LDecodesN w E.S E.R) (fun _ => ⟨[], rfl, by simp⟩)
    (fun _ _ rs c u s h1 h2 h3 h4 h5 => ⟨rs, c, u, _, rfl, h1, h2, h3, h4, h5, rfl⟩) n t v b hd hf he hl hw hr

section
variable {E : UEnv} {t : Nat} {d : Bytes}

theorem skipAt_loose (hA : E.A.Valid) (hF : E.A.Fits d.length) {raw rest : Bytes} (hr : LooseRecord E.A.bits raw) {i limit : Nat}
    (hi : i ≤ d.length) (hd : d.drop i = raw ++ rest) (hl : i + raw.length ≤ limit) : skipAt E.A d i limit = .ok (i + raw.length) := by
  have hle := le_of_drop hd hi
  have hFd : E.A.Fits (raw ++ rest).length := by
    rw [← hd]; unfold Arch.Fits at hF ⊢; simp; omega
  unfold skipAt
  rw [slice_all hi (Nat.le_refl _)]
  simp only [Res.bind_ok]
  rw [List.take_of_length_le (by simp), hd, skip_complete E.A hA raw rest hFd hr]
  simp only [Res.bind_ok]
  unfold Arch.Fits at hF
  rw [Arch.wrap_small hA _ (by omega) (by omega), if_neg (by omega), if_neg (by omega)]
  congr 1

theorem loose_type {w : Nat} {raw : Bytes} (h : LooseRecord w raw) : ∃ tag rest, raw = tag ++ rest ∧ AnyVarint tag ∧ varintValue tag % 8 ≠ 4 := by
  cases h
  all_goals exact ⟨_, _, rfl, by assumption, by omega⟩

/-- A record of an unknown field in the liberal sense is kept. -/
theorem recordStep_loose (hA : E.A.Valid) (hF : E.A.Fits d.length) (hx : (E.S.msg t).extRanges = []) (hk : (E.S.msg t).keepUnknown = true) {rec : SubDec} {p : Chunk}
    (hh : p.Headed) (hl : LooseRecord E.A.bits p.raw) (hn : fieldOf (E.S.msg t) p.num = none) (base : Nat) {i : Nat} (hi : i ≤ d.length) {rest : Bytes}
    (hd : d.drop i = p.raw ++ rest) (has : List (BitVec 64)) (s : List Val) (u e : Bytes) :
    recordStep E rec t d base i has (.msg s u e) = (.msg s (u ++ p.raw) e, .ok (i + p.raw.length, has)) := by
  obtain ⟨tag, r1, h1, h2, h3, h4, h5⟩ := hh
  obtain ⟨tag', r2, h6, h7, h8⟩ := loose_type hl
  have hv : decodeVarint 64 d i = .ok (BitVec.ofNat 64 (varintValue tag), i + tag.length) :=
    decodeVarint_of_leb 64 _ tag (r1 ++ rest) _ h2.1 h2.2 (by rw [hd, h1, List.append_assoc])
  have hv' : decodeVarint 64 d i = .ok (BitVec.ofNat 64 (varintValue tag'), i + tag'.length) :=
    decodeVarint_of_leb 64 _ tag' (r2 ++ rest) _ h7.1 h7.2 (by rw [hd, h6, List.append_assoc])
  rw [hv] at hv'
  simp only [Res.ok.injEq, Prod.mk.injEq] at hv'
  obtain ⟨hnum, hwt⟩ := tag_num (tag := tag) rfl
  have hwt' : ((BitVec.ofNat 64 (varintValue tag) : BitVec 64) &&& 7).toNat ≠ 4 := by
    rw [hv'.1, (tag_num (tag := tag') rfl).2]; exact h8
  have hle := le_of_drop hd hi
  unfold recordStep
  rw [hv, UM.lift_ok_bind]
  simp only
  rw [if_neg hwt', if_neg (by rw [BitVec.toInt_eq_toNat_cond, hnum]; split <;> omega), hnum, ← h3]
  have : (E.S.msg t).fields.find? (fun f => f.num == p.num) = none := hn
  rw [this]
  simp only
  have huc : unknownCase E t p.num d i (.msg s u e) = (.msg s (u ++ p.raw) e, .ok (i + p.raw.length)) := by
    unfold unknownCase
    simp only [hx, List.any_nil]
    rw [skipAt_loose hA hF hl hi hd hle, UM.lift_ok_bind, if_neg (by simp), slice_all (by omega) hle, hd, UM.lift_ok_bind]
    simp only [Nat.add_sub_cancel_left, List.take_left, hk, if_true]
    rfl
  rw [UM.bind_run huc]
  rfl

theorem recordLoop_loose (hA : E.A.Valid) (hF : E.A.Fits d.length) (hx : (E.S.msg t).extRanges = []) (hk : (E.S.msg t).keepUnknown = true) {rec : SubDec} (base : Nat) :
    ∀ (ps : List Chunk), (∀ p ∈ ps, p.Headed ∧ LooseRecord E.A.bits p.raw ∧ fieldOf (E.S.msg t) p.num = none) → ∀ (n i : Nat) (has : List (BitVec 64)) (s : List Val) (u e : Bytes),
      i ≤ d.length → d.length - i < n → d.drop i = (ps.map (·.raw)).flatten →
      recordLoop E rec t d base n i has (.msg s u e) = (.msg s (u ++ (ps.map (·.raw)).flatten) e, .ok (d.length, has))
  | [], _, n, i, has, s, u, e, hi, hn, hd => by
    obtain ⟨n, rfl⟩ : ∃ q, n = q + 1 := ⟨n - 1, by omega⟩
    have hil : i = d.length := by
      have := congrArg List.length hd
      simp at this; omega
    rw [recordLoop, if_neg (by omega), hil]
    simp
  | p :: ps, hps, n, i, has, s, u, e, hi, hn, hd => by
    obtain ⟨n, rfl⟩ : ∃ q, n = q + 1 := ⟨n - 1, by omega⟩
    obtain ⟨h1, h2, h3⟩ := hps p (by simp)
    simp only [List.map_cons, List.flatten_cons] at hd ⊢
    have hle := le_of_drop hd hi
    have hpos : 1 ≤ p.raw.length := by
      obtain ⟨tag, r, h4, h5, -⟩ := h1
      have := h5.1.length_pos
      rw [h4, List.length_append]; omega
    rw [recordLoop, if_pos (by omega), UM.bind_run (recordStep_loose hA hF hx hk h1 h2 h3 base hi hd has s u e)]
    simp only
    rw [recordLoop_loose hA hF hx hk base ps (fun q hq => hps q (by simp [hq])) n _ has s _ e hle (by omega) (drop_add hd), List.append_assoc]

/-- The loop over well-formed records with more after them. -/
theorem recordLoop_first (hE : PlainEnv E) (hf : (E.S.msg t).foreign = false) (hF : E.A.Fits d.length) {rec : SubDec} (hr : RecSafe E rec d.length)
    {sub : SubRel} (hsub : SubOK E rec sub d.length) (base : Nat) {rs : List Rec} {m m' : Val} (hst : Steps E.S sub (E.S.msg t) rs m m') :
    ∀ (bs rest : Bytes) (n i : Nat) (has : List (BitVec 64)) (seen : List Nat), Typed E.S t m → Records rs bs → i ≤ d.length → d.length - i < n → d.drop i = bs ++ rest →
      Marked (E.S.msg t) has seen → ∃ has' n', recordLoop E rec t d base n i has m = recordLoop E rec t d base n' (i + bs.length) has' m' ∧
        Marked (E.S.msg t) has' (seen ++ rs.map (·.num)) ∧ Typed E.S t m' ∧ d.length - (i + bs.length) < n' := by
  induction hst with
  | nil =>
    intro bs rest n i has seen hm hrs hi hn hd hmk
    cases hrs
    exact ⟨has, n, rfl, by simpa using hmk, hm, by simpa using hn⟩
  | @cons r rs m m1 m2 hst _ ih =>
    intro bs rest n i has seen hm hrs hi hn hd hmk
    cases hrs with
    | @cons _ _ bs' hr1 hrs =>
      obtain ⟨n, rfl⟩ : ∃ q, n = q + 1 := ⟨n - 1, by omega⟩
      rw [List.append_assoc] at hd
      have hle := le_of_drop hd hi
      have hpos : 1 ≤ r.raw.length := by
        obtain ⟨_, tag, _, hraw, htag, _⟩ := hr1.split
        rw [hraw, List.length_append]
        have := htag.shape.length_pos
        omega
      obtain ⟨has1, h1, h2⟩ := recordStep_run hE hf hF hsub hm hst base hi hd hr1 hmk
      have hty : Typed E.S t m1 := by
        have := (safe_recordStep hE.env hr hF hf base hi hmk.len m hm).1
        rw [h1] at this
        exact this
      obtain ⟨has', n', h3, h4, h5, h6⟩ := ih bs' rest n (i + r.raw.length) has1 (seen ++ [r.num]) hty hrs hle (by omega) (drop_add hd) h2
      refine ⟨has', n', ?_, by simpa using h4, h5, by simp only [List.length_append]; omega⟩
      rw [recordLoop, if_pos (by omega), UM.bind_run h1]
      simp only
      rw [h3, List.length_append, Nat.add_assoc]

theorem unmarshalN_loose (hE : PlainEnv E) (hx : ∀ t, (E.S.msg t).extRanges = []) : ∀ (n N : Nat), E.A.Fits N →
    SubOK E (unmarshalN E N) (subRel E.S E.R (LDecodesN E.A.bits E.S E.R n)) N := by
  have hfor : ∀ (n N off t : Nat) (b : Bytes) (v v' : Val), Typed E.S t v → (E.S.msg t).foreign = true → subRel E.S E.R (LDecodesN E.A.bits E.S E.R n) t b v v' →
      decodeMessage E (unmarshalN E N) off t b v = (v', .ok ()) := by
    intro n N off t b v v' hv hf hsub
    unfold subRel at hsub
    unfold decodeMessage
    rw [hf] at hsub ⊢
    simp only [if_true] at hsub ⊢
    rw [hv.not_nil, hsub]
    rfl
  intro n
  induction n with
  | zero =>
    intro N hN off t b v v' hb hv hsub
    cases hf : (E.S.msg t).foreign with
    | true => exact hfor _ _ _ _ _ _ _ hv hf hsub
    | false =>
      unfold subRel at hsub
      rw [hf] at hsub
      simp [LDecodesN] at hsub
  | succ n ih =>
    intro N hN off t b v v' hb hv hsub
    cases hf : (E.S.msg t).foreign with
    | true => exact hfor _ _ _ _ _ _ _ hv hf hsub
    | false =>
      unfold subRel at hsub
      unfold decodeMessage
      rw [hf] at hsub
      simp only [hf, Bool.false_eq_true, if_false] at hsub ⊢
      obtain ⟨rs, c, u, m1, rfl, h1, h2, h3, h4, h5, rfl⟩ := hsub
      obtain ⟨N, rfl⟩ : ∃ q, N = q + 1 := ⟨N - 1, by omega⟩
      have hFN : E.A.Fits N := by unfold Arch.Fits at hN ⊢; omega
      have hFb : E.A.Fits (c ++ u).length := by unfold Arch.Fits at hN ⊢; omega
      rw [unmarshalN]
      have hsub' : SubOK E (unmarshalN E N) (subRel E.S E.R (LDecodesN E.A.bits E.S E.R n)) (c ++ u).length := by
        intro off t b' v v' hb' hv hs
        exact ih N hFN off t b' v v' (by omega) hv hs
      have hrec : RecSafe E (unmarshalN E N) (c ++ u).length := fun off t b' hf' hb' =>
        safe_unmarshalN hE.env N hFN N (by omega) off t b' hf' (by omega)
      obtain ⟨has, n', g1, g2, g3, g4⟩ := recordLoop_first hE hf hFb hrec hsub' off h2 c u ((c ++ u).length + 1) 0 (noFields (E.S.msg t)) [] hv h1 (by omega) (by omega) rfl
        (marked_noFields _)
      obtain ⟨s, u1, e, rfl⟩ := g3.nonnil
      have hps : ∃ ps : List Chunk, (ps.map (·.raw)).flatten = u ∧ ((E.S.msg t).keepUnknown = false → ps = []) ∧ ∀ p ∈ ps, p.Headed ∧ LooseRecord E.A.bits p.raw ∧ fieldOf (E.S.msg t) p.num = none := by
        cases hk : (E.S.msg t).keepUnknown with
        | true =>
          obtain ⟨ps, k1, k2⟩ := h4 hk
          exact ⟨ps, k1, by simp, k2⟩
        | false => exact ⟨[], (h5 hk).symm, by simp, by simp⟩
      obtain ⟨ps, k1, k2, k3⟩ := hps
      have hlast : recordLoop E (unmarshalN E N) t (c ++ u) off n' (0 + c.length) has (.msg s u1 e) = (.msg s (u1 ++ u) e, .ok ((c ++ u).length, has)) := by
        have hdrop : (c ++ u).drop (0 + c.length) = u := by simp
        cases hk : (E.S.msg t).keepUnknown with
        | true =>
          have := recordLoop_loose (rec := unmarshalN E N) (d := c ++ u) hE.env.arch hFb (hx t) hk off ps k3 n' (0 + c.length) has s u1 e (by simp) g4 (by rw [hdrop, k1])
          rw [k1] at this
          exact this
        | false =>
          obtain rfl := h5 hk
          obtain ⟨q, rfl⟩ : ∃ q, n' = q + 1 := ⟨n' - 1, by omega⟩
          rw [recordLoop, if_neg (by simp)]
          simp
      unfold unmarshalBody
      rw [UM.bind_run (g1.trans hlast)]
      simp only
      rw [checkRequired_marked g2 _ fun _ h => h]
      simp only [List.nil_append]
      rw [firstMissing_complete.2 h3]
      simp only
      rw [UM.lift_ok_bind, if_neg (by omega)]
      rfl

end

end Vtp
