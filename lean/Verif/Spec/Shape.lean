import Verif.Model.Schema
/-!
# A message up to the contents of its strings and byte slices
-/

namespace Vtp.Spec

mutual
/-- The value with every string and byte slice replaced by zeros of the same length. Map keys and unknown
fields stay. -/
def blank : Val → Val
  | .nil => .nil
  | .num n => .num n
  | .str b => .str (List.replicate b.length 0)
  | .msg s u e => .msg (blanks s) u e
  | .list xs sp => .list (blanks xs) (blanks sp)
  | .map es => .map (blankEntries es)
  | .wrap n v => .wrap n (blank v)
  | .wrapNil n => .wrapNil n
def blanks : List Val → List Val
  | [] => []
  | v :: vs => blank v :: blanks vs
def blankEntries : List (Key × Val) → List (Key × Val)
  | [] => []
  | (k, v) :: es => (k, blank v) :: blankEntries es
end

end Vtp.Spec
