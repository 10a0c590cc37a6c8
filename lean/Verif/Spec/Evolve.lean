import Verif.Spec.Decode
import Verif.Spec.RoundTrip
/-!
# Schemas that have grown
-/

namespace Vtp.Spec

/-- `d0` is an older version of `d`: it has some of the fields, declared the same way, perhaps at other places of the Go struct; fields are in
the same oneof before and after. Unknown fields are kept. The numbers set aside for extensions still are, and no field has one of them. -/
structure OlderMsg (d0 d : MsgDesc) : Prop where
  fields : ∀ f0 ∈ d0.fields, ∃ f ∈ d.fields, f0 = { f with slot := f0.slot }
  oneofs : ∀ f0 ∈ d0.fields, ∀ g0 ∈ d0.fields, ∀ f ∈ d.fields, ∀ g ∈ d.fields, f0.num = f.num → g0.num = g.num → (f0.slot = g0.slot ↔ f.slot = g.slot)
  keep : d0.keepUnknown = true
  exts : ∀ e ∈ d0.extRanges, e ∈ d.extRanges ∧ ∀ f ∈ d.fields, ¬ (e.1 ≤ f.num ∧ f.num < e.2)

/-- Every message type of the newer schema is there, perhaps with fewer fields. Messages left to the runtime are those of the same types. -/
def Older (S0 S : Schema) : Prop :=
  ∀ t, if (S.msg t).foreign then S0.msg t = S.msg t else (S0.msg t).foreign = false ∧ OlderMsg (S0.msg t) (S.msg t)

/-- What the runtime has read, with maps in any order, survives being written and is read back as it was, up to the order of maps. -/
def RuntimeStable (S : Schema) (R : Runtime) : Prop :=
  ∀ t b w x, (S.msg t).foreign = true → R.unmarshal t b = some w → Shuffle w x →
    Restored S R t x ∧ ∃ c w', R.marshal t x = some c ∧ R.unmarshal t c = some w' ∧ Shuffle w w'

end Vtp.Spec
