import Verif.Props.EmitEqual
import Verif.Props.PooledEvolve
import Verif.Props.Reencode
/-! C81 and C97 for the code the generator prints. -/

namespace Vtp.Props
open Spec EmitDemo

/-- The printed `UnmarshalVT`, with bounds on calls and loops that it does not reach. -/
def printedRead (G : GoU.GenCfg) (E : UEnv) (t : Nat) (b : Bytes) (m : Val) : Val × Res Unit := GoU.methodN G E (b.length + 11) (b.length + 1) 0 t b m

/-- The printed `MarshalVT[Strict]`. -/
def printedWrite (G : GoU.GenCfg) (E : UEnv) (strict : Bool) (t : Nat) (v : Val) : Res (Option Bytes) := Go.runMarshal G.toGenCfg ⟨E.S, E.R⟩ strict (2 * v.depth + 1) t v

/-- The printed `EqualVT`; `p` says which pointers of the two messages are the same. -/
def printedEqual (G : GoU.GenCfg) (E : UEnv) (p : List Nat → Bool) (t : Nat) (v w : Val) : Res Bool :=
  GoE.runEqualN G.toGenCfg ⟨E.S, E.R, p⟩ (max v.depth w.depth + 1) t (msgArg t v) (msgArg t w)

theorem printedRead_ok {G : GoU.GenCfg} {E : UEnv} (h : GoU.PrintEnv G E) {t : Nat} (hf : (E.S.msg t).foreign = false) {b : Bytes} (hb : E.A.Fits b.length)
    {m : Val} (hm : wtM E.S .solid t m = true) {w : Val} : printedRead G E t b m = (w, .ok ()) ↔ unmarshalVT E t b m = (w, .ok ()) := by
  obtain ⟨h4, h5⟩ := emitted_unmarshal h hf hb hm (Nat.lt_succ_self _) (Nat.le_refl _)
  unfold printedRead
  constructor <;> intro h1
  · rw [h1] at h4 h5
    rcases h5 with h5 | ⟨x, y, h5, -⟩
    · exact Prod.ext h4.symm h5.symm
    · cases h5
  · rw [h1] at h4 h5
    rcases h5 with h5 | ⟨x, y, -, h5⟩
    · exact Prod.ext h4 h5
    · cases h5

theorem printedWrite_eq {G : GoU.GenCfg} {E : UEnv} (h : GoU.PrintEnv G E) {strict : Bool} {t : Nat} (hf : (E.S.msg t).foreign = false) {v : Val}
    (hv : wt E.S t v = true) : printedWrite G E strict t v = marshalVT ⟨E.S, E.R⟩ strict t v :=
  emitted_marshal (E := ⟨E.S, E.R⟩) h.gen h.env.schema strict hf (by rw [Bool.or_eq_true]; exact .inr (members_weaken (by simp) (by simp) _ _ _ hv)) _ (Nat.le_refl _)

theorem printedEqual_eq {G : GoU.GenCfg} {E : UEnv} (h : GoU.PrintEnv G E) (hR : RuntimeEqual E.R) {t : Nat} (hf : (E.S.msg t).foreign = false) {v w : Val}
    (hv : wt E.S t v = true) (hw : wt E.S t w = true) (p : List Nat → Bool) : printedEqual G E p t v w = equalVT ⟨E.S, E.R, p⟩ t v w :=
  emitted_equal (E := ⟨E.S, E.R, p⟩) h.gen h.env.schema hR hf (.inr (members_weaken (by simp) (by simp) _ _ _ hv)) (.inr (members_weaken (by simp) (by simp) _ _ _ hw))
    (Nat.lt_succ_self _)

/-- C81. The printed methods of both versions: what the newer program writes, the older one reads and writes on, and the newer one reads to a message for which
`EqualVT` returns true unless there is a NaN, with the same unknown fields. Missing as above. -/
theorem emitted_pass_on_partial {G G0 : GoU.GenCfg} {E E0 : UEnv} (h : GoU.PrintEnv G E) (h0 : GoU.PrintEnv G0 E0) (hE : PlainEnv E) (hE0 : PlainEnv E0)
    (hS : Older E0.S E.S) (hRR : E0.R = E.R) (hP : RuntimePerm E.R) (hT : RuntimeStable E.S E.R) (hR : RuntimeEqual E.R) (hQ : RuntimeEqualShuffle E.R)
    (hN : RuntimeEnc E.R) {strict : Bool} {t : Nat} (hf : (E.S.msg t).foreign = false) {v : Val} (hv : wt E.S t v = true) (hr : Restorable E.S E.R t v) {b : Bytes}
    (hm : printedWrite G E strict t v = .ok (some b)) (hb : E.A.Fits (b.length + 1)) (hb0 : E0.A.Fits (b.length + 1)) :
    ∃ w0, printedRead G0 E0 t b (zeroMsg E0.S t) = (w0, .ok ()) ∧ ∀ strict0 x, Shuffle w0 x →
      ∃ c, printedWrite G0 E0 strict0 t x = .ok (some c) ∧ c.Perm b ∧ ∃ w, printedRead G E t c (zeroMsg E.S t) = (w, .ok ()) ∧
        (NoNaN E.S t v → ∀ p, printedEqual G E p t v w = .ok true ∧ printedEqual G E p t w v = .ok true) ∧
        ((E.S.msg t).keepUnknown = true → unknownOf w = unknownOf v) := by
  have hs := hE.env.schema
  have hs0 := hE0.env.schema
  have hf0 : (E0.S.msg t).foreign = false := by rw [(shared_of hE.env hS hRR hP hT).foreign]; exact hf
  have hb' : ∀ {A : Arch} {n : Nat}, A.Fits (n + 1) → A.Fits n := fun h => by unfold Arch.Fits at *; omega
  rw [printedWrite_eq h hf hv] at hm
  obtain ⟨w0, h1, h2⟩ := pass_on_partial hE hE0 hS hRR hP hT hR hQ hN hf hv hr hm hb hb0
  have tw0 := (unmarshal_returns_partial hE0.env hf0 (zeroMsg_typed hs0 t) (b := b) (hb' hb0)).2
  rw [h1] at tw0
  refine ⟨w0, (printedRead_ok h0 hf0 (hb' hb0) (zeroMsg_typed hs0 t)).2 h1, fun strict0 x hx => ?_⟩
  have tx : wt E0.S t x = true := shuffle_wtM hx (members_weaken (by simp) (by simp) _ _ _ tw0)
  obtain ⟨c, h3, h4, w, h5, -, h6, h7⟩ := h2 strict0 x hx
  have hc : E.A.Fits c.length := hb' (by rw [h4.length_eq]; exact hb)
  have tw := (unmarshal_returns_partial hE.env hf (zeroMsg_typed hs t) hc).2
  rw [h5] at tw
  have tw : wt E.S t w = true := members_weaken (by simp) (by simp) _ _ _ tw
  refine ⟨c, by rw [printedWrite_eq h0 hf0 tx]; exact h3, h4, w, (printedRead_ok h hf hc (zeroMsg_typed hs t)).2 h5, fun hn p => ?_, h7⟩
  rw [printedEqual_eq h hR hf hv tw p, printedEqual_eq h hR hf tw hv p]
  exact h6 hn p

/-- C97. The printed methods: whatever input `UnmarshalVT` accepts into a new message, `MarshalVT[Strict]` writes, as bytes `c`. -/
theorem emitted_written {G : GoU.GenCfg} {E : UEnv} (h : GoU.PrintEnv G E) (hE : PlainEnv E) (hx : ∀ t, (E.S.msg t).extRanges = []) (hN : RuntimeEnc E.R)
    (hM : ∀ t b v, E.R.unmarshal t b = some v → E.R.marshal t v ≠ none) {t : Nat} (hf : (E.S.msg t).foreign = false) {b : Bytes} (hb : E.A.Fits b.length) {m : Val}
    (hr : printedRead G E t b (zeroMsg E.S t) = (m, .ok ())) (strict : Bool) : ∃ c, printedWrite G E strict t m = .ok (some c) := by
  have hd : Decoded E t (zeroMsg E.S t) m := .one ((printedRead_ok h hf hb (zeroMsg_typed hE.env.schema t)).1 hr) hb
  have tm : wt E.S t m = true := members_weaken (by simp) (by simp) _ _ _ (decoded_typed hE.env hf (zeroMsg_typed hE.env.schema t) hd)
  rw [printedWrite_eq h hf tm]
  exact accepted_written hE hx hN hM hf hd strict

/-- C97. The printed methods: and `UnmarshalVT` reads these bytes back to a message for which `EqualVT` returns true unless there is a NaN, with the same unknown
fields. Missing as above. -/
theorem emitted_read_back_partial {G : GoU.GenCfg} {E : UEnv} (h : GoU.PrintEnv G E) (hE : PlainEnv E) (hx : ∀ t, (E.S.msg t).extRanges = []) (hR : RuntimeEqual E.R)
    (hN : RuntimeEnc E.R) (hB : RuntimeBack E.S E.R) (hMaps : MapsOK E.S) {t : Nat} (hf : (E.S.msg t).foreign = false) {b : Bytes} (hb : E.A.Fits b.length) {m : Val}
    (hr : printedRead G E t b (zeroMsg E.S t) = (m, .ok ())) {strict : Bool} {c : Bytes} (hc : printedWrite G E strict t m = .ok (some c)) (hl : E.A.Fits (c.length + 1)) :
    ∃ w, printedRead G E t c (zeroMsg E.S t) = (w, .ok ()) ∧
      (NoNaN E.S t m → ∀ p, printedEqual G E p t m w = .ok true ∧ printedEqual G E p t w m = .ok true) ∧
      ((E.S.msg t).keepUnknown = true → unknownOf w = unknownOf m) := by
  have hs := hE.env.schema
  have hd : Decoded E t (zeroMsg E.S t) m := .one ((printedRead_ok h hf hb (zeroMsg_typed hs t)).1 hr) hb
  have tm : wt E.S t m = true := members_weaken (by simp) (by simp) _ _ _ (decoded_typed hE.env hf (zeroMsg_typed hs t) hd)
  rw [printedWrite_eq h hf tm] at hc
  have hl' : E.A.Fits c.length := by unfold Arch.Fits at *; omega
  obtain ⟨w, h1, -, h2, h3⟩ := accepted_read_back_partial hE hx hR hN hB hMaps hf hd hc hl
  have tw := (unmarshal_returns_partial hE.env hf (zeroMsg_typed hs t) hl').2
  rw [h1] at tw
  have tw : wt E.S t w = true := members_weaken (by simp) (by simp) _ _ _ tw
  refine ⟨w, (printedRead_ok h hf hl' (zeroMsg_typed hs t)).2 h1, fun hn p => ?_, h3⟩
  rw [printedEqual_eq h hR hf tm tw p, printedEqual_eq h hR hf tw tm p]
  exact h2 hn p

/-! ## Cases -/

theorem crate_prints : GoU.PrintEnv (genU crate) crateEnv := ⟨crateEnv_ok.env, genU_ok _, rfl⟩
theorem oldCrate_prints : GoU.PrintEnv (genU oldCrate) oldCrateEnv := ⟨oldCrateEnv_ok.env, genU_ok _, rfl⟩
theorem wenv_prints : GoU.PrintEnv (genU schemaW) wenv := ⟨wenv_ok.env, genU_ok _, rfl⟩

example : ∃ b w0 c w, printedWrite (genU crate) crateEnv true 0 goods = .ok (some b) ∧ printedRead (genU oldCrate) oldCrateEnv 0 b (zeroMsg oldCrate 0) = (w0, .ok ()) ∧
    printedWrite (genU oldCrate) oldCrateEnv false 0 w0 = .ok (some c) ∧ printedRead (genU crate) crateEnv 0 c (zeroMsg crate 0) = (w, .ok ()) ∧
    printedEqual (genU crate) crateEnv (fun _ => false) 0 goods w = .ok true := by
  have hm : printedWrite (genU crate) crateEnv true 0 goods = .ok (some [10, 2, 8, 1, 18, 1, 97, 26, 2, 16, 2, 26, 0]) := by decide +kernel
  obtain ⟨w0, h1, h2⟩ := emitted_pass_on_partial crate_prints oldCrate_prints crateEnv_ok oldCrateEnv_ok oldCrate_older rfl (opaque_perm _)
    (opaque_stable crateEnv_ok.env.schema) (opaque_ok _) (opaque_shuffle _) (opaque_enc _) (by decide) (by decide) goods_restorable hm (by decide +kernel) (by decide +kernel)
  obtain ⟨c, h3, -, w, h4, h5, -⟩ := h2 false w0 (.refl _)
  exact ⟨_, w0, c, w, hm, h1, h3, h4, (h5 goods_noNaN _).1⟩

example : ∃ c w, printedWrite (genU schemaW) wenv true 0 wideMsg = .ok (some c) ∧ printedRead (genU schemaW) wenv 0 c (zeroMsg schemaW 0) = (w, .ok ()) ∧
    unknownOf w = [120, 7, 123, 20] := by
  have hr : printedRead (genU schemaW) wenv 0 wideBytes (zeroMsg wenv.S 0) = (wideMsg, .ok ()) :=
    (printedRead_ok wenv_prints (by decide) (by decide) (zeroMsg_typed wenv_ok.env.schema 0)).2 wide_decoded
  obtain ⟨c, hc⟩ := emitted_written wenv_prints wenv_ok wenv_ext (opaque_enc _) (fun _ _ _ _ h => (nomatch h)) (t := 0) (by decide) (by decide) hr true
  have hb : wenv.A.Fits (c.length + 1) := by
    have hc' := hc
    rw [printedWrite_eq wenv_prints (by decide) (by decide)] at hc'
    rw [size_eq_length (E := ⟨wenv.S, wenv.R⟩) true wenv_ok.env.schema (opaque_enc _) (t := 0) (by decide) (by decide) hc']
    decide
  obtain ⟨w, h1, -, h3⟩ := emitted_read_back_partial wenv_prints wenv_ok wenv_ext (opaque_ok _) (opaque_enc _) wenv_back wenv_maps (t := 0) (by decide) (by decide) hr hc hb
  exact ⟨c, w, hc, h1, h3 rfl⟩

end Vtp.Props
