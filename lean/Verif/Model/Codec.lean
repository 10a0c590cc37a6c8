import Verif.Model.Marshal
import Verif.Model.Unmarshal
/-!
# The gRPC and dRPC codecs
-/

namespace Vtp

/-- Values handed to a codec as `interface{}`: a pointer, perhaps nil, to a message with the generated methods, or anything else, including the nil
interface. (`codec/grpc/grpc_codec.go:10-29`) -/
inductive Dyn where
  | message (t : Nat) (v : Val)
  | other
  deriving Repr

/-- `(Codec).Marshal`, `codec/grpc/grpc_codec.go:15-21`. -/
def grpcMarshal (E : Env) : Dyn → Res (Option Bytes)
  | .message t v => marshalVT E false t v
  | .other => .err .noHelpers

/-- `(Codec).Unmarshal`, `codec/grpc/grpc_codec.go:23-29`: what becomes of the value, and the outcome. -/
def grpcUnmarshal (E : UEnv) (data : Bytes) : Dyn → Dyn × Res Unit
  | .message t v => let r := unmarshalVT E t data v; (.message t r.1, r.2)
  | .other => (.other, .err .noHelpers)

/-- `Marshal`, `codec/drpc/drpc_codec.go:13-15`. The JSON functions of that file only call protobuf-go and are not modelled. -/
def drpcMarshal (E : Env) : Dyn → Res (Option Bytes)
  | .message t v => marshalVT E false t v
  | .other => .panic .typeAssertion

/-- `Unmarshal`, `codec/drpc/drpc_codec.go:17-19`. -/
def drpcUnmarshal (E : UEnv) (data : Bytes) : Dyn → Dyn × Res Unit
  | .message t v => let r := unmarshalVT E t data v; (.message t r.1, r.2)
  | .other => (.other, .panic .typeAssertion)

end Vtp
