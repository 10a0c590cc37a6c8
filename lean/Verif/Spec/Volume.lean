import Verif.Spec.Typing
import Verif.Model.Unmarshal
/-! How much memory a message takes, in units of one struct field, list element, map key or value, pointer, or byte. -/

namespace Vtp.Spec

/-- A key of a map. -/
def keyVolume : Key → Nat
  | .num _ => 1
  | .str b => 1 + b.length

mutual
/-- Everything reachable from a value, memory kept for reuse included; null pointers count as part of what holds them, elements of lists one each in addition. -/
def volume : Val → Nat
  | .nil => 0
  | .num _ => 1
  | .str b => 1 + b.length
  | .msg s u e => 1 + volumes s + u.length + e.length
  | .list xs sp => 1 + xs.length + volumes xs + volumes sp
  | .map es => 1 + entriesVolume es
  | .wrap _ v => 1 + volume v
  | .wrapNil _ => 1
/-- The same, of all elements of a list. -/
def volumes : List Val → Nat
  | [] => 0
  | v :: vs => volume v + volumes vs
/-- The same, of all keys and values of a map. -/
def entriesVolume : List (Key × Val) → Nat
  | [] => 0
  | (k, v) :: es => keyVolume k + volume v + entriesVolume es
end

/-- Maps have keys and values of fixed width. -/
def SmallMaps (S : Schema) : Prop := ∀ t, ∀ f ∈ (S.msg t).fields, ∀ md, f.map = some md → numeric md.key = true ∧ numeric md.val = true

/-- No map has messages as values. -/
def NoMessageMaps (S : Schema) : Prop := ∀ t, ∀ f ∈ (S.msg t).fields, ∀ md, f.map = some md → md.val ≠ .message

end Vtp.Spec
