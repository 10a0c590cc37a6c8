import Verif.Spec.Content
import Verif.Spec.Encode
/-!
# Encodings that differ in the order of map entries only
-/

namespace Vtp.Spec

/-- Both encodings exist and consist of the same bytes in some order, or neither exists. -/
inductive EPerm : Option Bytes → Option Bytes → Prop
  | both {a b : Bytes} : a.Perm b → EPerm (some a) (some b)
  | neither : EPerm none none

/-- `proto.Equal` does not depend on iteration order. -/
def RuntimeEqualShuffle (R : Runtime) : Prop := ∀ t v w, Shuffle v w → R.equal t v w = true

/-- The runtime's encoding depends on iteration order in that way. -/
def RuntimePerm (R : Runtime) : Prop := ∀ t v w, Shuffle v w → EPerm (R.marshal t v) (R.marshal t w)

end Vtp.Spec
