import Verif.Model.Codec
import Verif.Props.RoundTrip
/-!
# C64: the codecs
-/

namespace Vtp.Props
open Spec

/-- C64: both codecs do with a message what its own methods do, nil messages included: the same bytes or error, and the same message afterwards. -/
theorem codec_message (E : Env) (U : UEnv) (t : Nat) (v : Val) (data : Bytes) :
    grpcMarshal E (.message t v) = marshalVT E false t v ∧ drpcMarshal E (.message t v) = marshalVT E false t v ∧
    grpcUnmarshal U data (.message t v) = (.message t (unmarshalVT U t data v).1, (unmarshalVT U t data v).2) ∧
    drpcUnmarshal U data (.message t v) = (.message t (unmarshalVT U t data v).1, (unmarshalVT U t data v).2) := ⟨rfl, rfl, rfl, rfl⟩

/-- C64: the gRPC codec reports an error for anything else and leaves it alone. Missing: the dRPC codec, which panics (`drpc_other_panics`). -/
theorem codec_other_partial (E : Env) (U : UEnv) (data : Bytes) :
    grpcMarshal E .other = .err .noHelpers ∧ grpcUnmarshal U data .other = (.other, .err .noHelpers) := ⟨rfl, rfl⟩

/-- What is missing in `codec_other_partial` is false. -/
theorem drpc_other_panics (E : Env) (U : UEnv) (data : Bytes) : drpcMarshal E .other = .panic .typeAssertion ∧ (drpcUnmarshal U data .other).2 = .panic .typeAssertion := ⟨rfl, rfl⟩

variable {E : UEnv} {t : Nat} {v : Val} {b : Bytes}

/-- C64, from end to end: what one side's codec marshalled the other side's, of either kind, decodes into a new message, and that is the message sent. -/
theorem codec_round_trip_partial (hE : PlainEnv E) (hR : RuntimeEqual E.R) (hN : RuntimeEnc E.R) (hf : (E.S.msg t).foreign = false) (hv : wt E.S t v = true)
    (hr : Restorable E.S E.R t v) (hm : grpcMarshal ⟨E.S, E.R⟩ (.message t v) = .ok (some b)) (hb : E.A.Fits (b.length + 1)) :
    drpcMarshal ⟨E.S, E.R⟩ (.message t v) = .ok (some b) ∧
    ∃ w, grpcUnmarshal E b (.message t (zeroMsg E.S t)) = (.message t w, .ok ()) ∧ drpcUnmarshal E b (.message t (zeroMsg E.S t)) = (.message t w, .ok ()) ∧
      (NoNaN E.S t v → ∀ p, equalVT ⟨E.S, E.R, p⟩ t v w = .ok true) := by
  obtain ⟨w, h1, -, h3, -⟩ := round_trip_partial (strict := false) hE hR hN hf hv hr hm hb
  refine ⟨hm, w, ?_, ?_, fun hn p => (h3 hn p).1⟩
  · simp [grpcUnmarshal, h1]
  · simp [drpcUnmarshal, h1]

/-- The large example message goes through the codecs. -/
example : ∃ b w, grpcMarshal ⟨renv.S, renv.R⟩ (.message 0 Demo.big) = .ok (some b) ∧ drpcUnmarshal renv b (.message 0 (zeroMsg renv.S 0)) = (.message 0 w, .ok ()) ∧
    equalVT ⟨renv.S, renv.R, fun _ => false⟩ 0 Demo.big w = .ok true := by
  have hw : wt renv.S 0 Demo.big = true := by decide
  obtain ⟨b, hb⟩ := (marshal_fails_iff (E := ⟨renv.S, renv.R⟩) false Demo.schema3_ok structural_enc (fun _ _ => rfl) hw (by decide)).2 (by decide)
  have hl : renv.A.Fits (b.length + 1) := by
    rw [size_eq_length (E := ⟨renv.S, renv.R⟩) false Demo.schema3_ok structural_enc hw (by decide) hb]
    decide
  obtain ⟨-, w, -, h2, h3⟩ := codec_round_trip_partial renv_ok structural_ok structural_enc (t := 0) (by decide) hw big_restorable hb hl
  exact ⟨b, w, hb, h2, h3 big3_noNaN _⟩

end Vtp.Props
