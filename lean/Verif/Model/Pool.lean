import Verif.Model.Unmarshal
/-!
# `ResetVT` and `ReturnToVTPool`, `features/pool/pool.go`

What the methods do to a message, and which messages they put into pools. That these are the same memory locations is the subject
of the heap layer.
-/

namespace Vtp

/-- Messages put into pools, with their types, in the order of the calls to `Put`.
(`features/pool/pool.go:97-102`) -/
abbrev Puts := List (Nat × Val)

/-- A recursive call of `ResetVT` on a message. (`features/pool/pool.go:50-95`) -/
abbrev SubReset := Nat → Val → Res (Val × Puts)

/-- `ReturnToVTPool`, `features/pool/pool.go:97-102`: resets a non-nil message and puts it into the pool of its type. -/
def returnWith (rec : SubReset) (t : Nat) (v : Val) : Res Puts :=
  if v.isNil then .ok []
  else do
    let (v', ps) ← rec t v
    .ok (ps ++ [(t, v')])

/-- One message of a list, `features/pool/pool.go:60-64`: `mm.ResetVT()` does nothing on nil, `mm.Reset()` panics on nil. -/
def resetElem (S : Schema) (rec : SubReset) (t : Nat) (x : Val) : Res (Val × Puts) :=
  if (S.msg t).pooled then
    if x.isNil then .ok (.nil, []) else rec t x
  else if x.isNil then .panic .nilDeref
  else .ok (zeroMsg S t, [])

/-- The loop over the messages of a list, `features/pool/pool.go:59-65`. The reset messages stay where they are. -/
def resetElems (S : Schema) (rec : SubReset) (t : Nat) : List Val → Res (List Val × Puts)
  | [] => .ok ([], [])
  | x :: xs => do
    let (x', ps) ← resetElem S rec t x
    let (xs', ps') ← resetElems S rec t xs
    .ok (x' :: xs', ps ++ ps')

/-- The code for one field, `features/pool/pool.go:53-88`: what is saved for the struct field, if anything, and the messages put
into pools. For lists of strings and bytes the elements beyond the length are not represented, so `clear` (line 67) has nothing to
do here. -/
def resetField (S : Schema) (rec : SubReset) (f : FieldDesc) (v : Val) : Res (Option Val × Puts) :=
  if f.isList then
    match v with
    | .nil => .ok (some .nil, [])
    | .list xs sp =>
      if f.hasMessage then do
        let (xs', ps) ← resetElems S rec f.msg xs
        .ok (some (.list [] (xs' ++ sp)), ps)
      else .ok (some (.list [] []), [])
    | _ => .panic .typeConfusion
  else if f.oneof then
    if f.hasMessage && (S.msg f.msg).pooled then
      match v with
      | .wrap n x => if n = f.num then do
          let ps ← returnWith rec f.msg x
          .ok (none, ps)
        else .ok (none, [])
      | .wrapNil n => if n = f.num then .panic .nilDeref else .ok (none, [])
      | _ => .ok (none, [])
    else .ok (none, [])
  else if f.hasMessage then
    if f.map.isNone && (S.msg f.msg).pooled then do
      let ps ← returnWith rec f.msg v
      .ok (none, ps)
    else .ok (none, [])
  else if f.kind = .bytes then
    .ok (some (if v.isNil then .nil else .str []), [])
  else .ok (none, [])

/-- The loop over the fields, `features/pool/pool.go:53-88`: the saved struct fields and the messages put into pools. -/
def resetFields (S : Schema) (rec : SubReset) (slots : List Val) : List FieldDesc → Res (List (Nat × Val) × Puts)
  | [] => .ok ([], [])
  | f :: fs => do
    let (o, ps) ← resetField S rec f (slotOf slots f)
    let (saved, ps') ← resetFields S rec slots fs
    .ok ((match o with
      | some v => (f.slot, v) :: saved
      | none => saved), ps ++ ps')

/-- Assignments to struct fields, `features/pool/pool.go:91-93`. -/
def restore (slots : List Val) : List (Nat × Val) → List Val
  | [] => slots
  | (i, v) :: saved => restore (slots.set i v) saved

/-- `ResetVT` on a non-nil message with the recursion limited to a depth, `features/pool/pool.go:50-95`. `m.Reset()` (line 90) is
protobuf-go's `*x = T{}`, which also drops unknown fields and extensions. -/
def resetN (S : Schema) : Nat → SubReset
  | 0 => fun _ _ => .diverge
  | n + 1 => fun t v =>
    match v with
    | .msg slots _ _ => do
      let (saved, ps) ← resetFields S (resetN S n) slots (S.msg t).fields
      .ok (.msg (restore ((List.range (S.msg t).nslots).map (zeroSlot (S.msg t))) saved) [] [], ps)
    | _ => .panic .typeConfusion

/-- `m.ResetVT()` for a message or nil pointer of type `t`, `features/pool/pool.go:50-95`: the message afterwards and the messages
put into pools. -/
def resetVT (S : Schema) (t : Nat) (v : Val) : Res (Val × Puts) :=
  if v.isNil then .ok (.nil, []) else resetN S (v.depth + 1) t v

/-- `m.ReturnToVTPool()` for a message or nil pointer of type `t`, `features/pool/pool.go:97-102`: the messages put into pools, the
message itself last. -/
def returnToVTPool (S : Schema) (t : Nat) (v : Val) : Res Puts := returnWith (resetN S (v.depth + 1)) t v

end Vtp
