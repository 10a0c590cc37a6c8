/-! The zigzag map of the encoding document: 0, -1, 1, -2, 2, ... to 0, 1, 2, 3, 4, ... -/

namespace Vtp.Spec

/-- Zigzag encoding of a signed integer. -/
def zigzag (n : Int) : Nat := if 0 ≤ n then (2 * n).toNat else (-2 * n - 1).toNat

/-- Its inverse. -/
def unzigzag (k : Nat) : Int := if k % 2 = 0 then k / 2 else -((k + 1) / 2 : Nat)

end Vtp.Spec
