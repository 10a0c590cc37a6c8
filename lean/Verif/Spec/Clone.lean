import Verif.Spec.Alike
import Verif.Spec.Reuse
import Verif.Model.Clone
/-!
# What cloning assumes of the runtime and the pools
-/

namespace Vtp.Spec

/-- `proto.Clone` gives a message that the runtime does not tell from the original. -/
structure RuntimeClone (R : Runtime) : Prop where
  equal : ∀ t v, R.equal t v (R.clone t v) = true
  marshal : ∀ t v, R.marshal t v = R.marshal t (R.clone t v)
  size : ∀ t v, R.size t v = R.size t (R.clone t v)
  isNil : ∀ t, R.clone t .nil = .nil
  isMsg : ∀ t s u e, ∃ s' u' e', R.clone t (.msg s u e) = .msg s' u' e'

/-- Pools hold empty messages. -/
def PoolsBlank (E : KEnv) : Prop := ∀ p t, (E.S.msg t).pooled = true → Blank E.S t (E.alloc p t)

end Vtp.Spec
