import Verif.Model.HeapUnmarshal
/-!
# `ResetVT` and `ReturnToVTPool` on memory

The same code as in `Verif/Model/Pool.lean`, `features/pool/pool.go`.
-/

namespace Vtp

/-- A recursive call of `ResetVT` on a message. (`features/pool/pool.go:50-95`) -/
abbrev HSubReset := Nat → HV → HM Unit

/-- `vtprotoPool_T.Put(m)`, `features/pool/pool.go:100`. -/
def hput (t : Nat) (p : HV) : HM Unit :=
  match p with
  | .ptr a => poolPut t a
  | _ => HM.lift (.panic .typeConfusion)

/-- `ReturnToVTPool`, `features/pool/pool.go:97-102`. -/
def hreturnWith (rec : HSubReset) (t : Nat) (p : HV) : HM Unit :=
  if p.isNil then pure ()
  else do
    rec t p
    hput t p

/-- One message of a list, `features/pool/pool.go:60-64`. -/
def hresetElem (S : Schema) (rec : HSubReset) (t : Nat) (x : HV) : HM Unit :=
  if (S.msg t).pooled then
    if x.isNil then pure () else rec t x
  else match x with
    | .nil => HM.lift (.panic .nilDeref)
    | .ptr a => hwrite a (hzeroCell S t)
    | _ => HM.lift (.panic .typeConfusion)

/-- The loop over the messages of a list `s`, `features/pool/pool.go:59-65`: so many, from an index on, each read when it is its turn. -/
def hresetElems (S : Schema) (rec : HSubReset) (t : Nat) (s : HV) : Nat → Nat → HM Unit
  | _, 0 => pure ()
  | i, n + 1 => do
    let x ← hindex s i
    hresetElem S rec t x
    hresetElems S rec t s (i + 1) n

/-- `clear(s)`, `features/pool/pool.go:66-67`. -/
def hclear (k : Kind) (s : HV) : HM Unit :=
  match s with
  | .nil => pure ()
  | .slice a len => do
    match ← hread a with
    | .arr xs => hwrite a (.arr (List.replicate (xs.take len).length (hzeroScalar k) ++ xs.drop len))
    | _ => HM.lift (.panic .typeConfusion)
  | _ => HM.lift (.panic .typeConfusion)

/-- `s[:0]` for a slice that is not of bytes. (`features/pool/pool.go:59-70`) -/
def hcutList (s : HV) : HM HV :=
  match s with
  | .nil => pure .nil
  | .slice a _ => pure (.slice a 0)
  | _ => HM.lift (.panic .typeConfusion)

/-- `s[:0]` for a byte slice. (`features/pool/pool.go:83-85`) -/
def hcutBytes (s : HV) : HM HV :=
  match s with
  | .nil => pure .nil
  | .bytes a off _ => pure (.bytes a off 0)
  | _ => HM.lift (.panic .typeConfusion)

/-- `features/pool/pool.go:57-68`: the elements of a list field of the message `p`. -/
def hresetList (S : Schema) (rec : HSubReset) (p : HV) (f : FieldDesc) : HM Unit :=
  if f.hasMessage then do
    let s ← hgetSlot p f.slot
    let n ← hlen s
    hresetElems S rec f.msg s 0 n
  else if f.kind = .bytes ∨ f.kind = .string then do
    let s ← hgetSlot p f.slot
    hclear f.kind s
  else pure ()

/-- The code for one field of the message `p`, `features/pool/pool.go:53-88`: what is saved for the struct field, if anything. -/
def hresetField (S : Schema) (rec : HSubReset) (p : HV) (f : FieldDesc) : HM (Option HV) :=
  if f.isList then do
    hresetList S rec p f
    let s ← hgetSlot p f.slot
    let s ← hcutList s
    pure (some s)
  else if f.oneof then
    if f.hasMessage && (S.msg f.msg).pooled then do
      let s ← hgetSlot p f.slot
      match ← hholds s f.num with
      | some w => do
        let x ← hmember w
        hreturnWith rec f.msg x
        pure none
      | none => pure none
    else pure none
  else if f.hasMessage then
    if f.map.isNone && (S.msg f.msg).pooled then do
      let s ← hgetSlot p f.slot
      hreturnWith rec f.msg s
      pure none
    else pure none
  else if f.kind = .bytes then do
    let s ← hgetSlot p f.slot
    let s ← hcutBytes s
    pure (some s)
  else pure none

/-- The loop over the fields, `features/pool/pool.go:53-88`. -/
def hresetFields (S : Schema) (rec : HSubReset) (p : HV) : List FieldDesc → HM (List (Nat × HV))
  | [] => pure []
  | f :: fs => do
    let o ← hresetField S rec p f
    let saved ← hresetFields S rec p fs
    pure (match o with
      | some v => (f.slot, v) :: saved
      | none => saved)

/-- Assignments to struct fields, `features/pool/pool.go:91-93`. -/
def hrestore (p : HV) : List (Nat × HV) → HM Unit
  | [] => pure ()
  | (i, v) :: saved => do
    hsetSlot p i v
    hrestore p saved

/-- `m.Reset()` of a generated message, protobuf-go's `*m = T{}`. (`features/pool/pool.go:90`) -/
def hzero (S : Schema) (t : Nat) (p : HV) : HM Unit :=
  match p with
  | .ptr a => hwrite a (hzeroCell S t)
  | _ => HM.lift (.panic .typeConfusion)

/-- `ResetVT` on a non-nil message with the recursion limited to a depth, `features/pool/pool.go:50-95`. -/
def hresetN (S : Schema) : Nat → HSubReset
  | 0 => fun _ _ => HM.lift .diverge
  | n + 1 => fun t p => do
    let saved ← hresetFields S (hresetN S n) p (S.msg t).fields
    hzero S t p
    hrestore p saved

/-- `p.ResetVT()`, `features/pool/pool.go:50-95`. -/
def hresetVT (S : Schema) (t : Nat) (p : HV) : HM Unit := fun σ =>
  if p.isNil then (σ, .ok ()) else hresetN S σ.fuel t p σ

/-- `p.ReturnToVTPool()`, `features/pool/pool.go:97-102`. -/
def hreturnToVTPool (S : Schema) (t : Nat) (p : HV) : HM Unit := fun σ => hreturnWith (hresetN S σ.fuel) t p σ

end Vtp
