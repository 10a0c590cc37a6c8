import Verif.Model.Unmarshal
/-!
# The generated `CloneVT`, `features/clone/clone.go`

Here the method is a function from the content of the message to the content of its clone. That the clone is other memory is the
subject of the heap layer.
-/

namespace Vtp

/-- What the clone depends on. `alloc p t`: the message which the pool hands out for the message at position `p` of the original,
which is of the pooled type `t`. `direct`: the message types whose `CloneVT` the code calls without asking whether there is one, the well-known types and those
of the packages generated together, `features/clone/clone.go:76-80,206-213`. -/
structure KEnv where
  S : Schema
  R : Runtime
  alloc : List Nat → Nat → Val
  direct : Nat → Bool

/-- A recursive call of `CloneVT`: position in the original, type, message.
(`features/clone/clone.go:71-98`) -/
abbrev SubClone := List Nat → Nat → Val → Res Val

/-- `isReference`, `features/clone/clone.go:315-323`. -/
def isReference (proto3 : Bool) (f : FieldDesc) : Bool :=
  !proto3 || f.oneof || f.synthetic || f.hasMessage || f.card == .repeated || f.kind == .bytes

/-- `isScalar`, `features/clone/clone.go:325-338`. -/
def isScalarKind (k : Kind) : Bool := k != .message && k != .group && k != .bytes

/-- `cloneFieldSingular`, `features/clone/clone.go:72-98`. Messages of other packages with a `CloneVT` method are ordinary messages
here. -/
def cloneSingular (E : KEnv) (rec : SubClone) (k : Kind) (t : Nat) (p : List Nat) (v : Val) : Res Val :=
  if k = .message ∨ k = .group then if (E.S.msg t).foreign then .ok (E.R.clone t v) else rec p t v
  else if k = .bytes then .ok (.str v.bytes)
  else .ok v

/-- `for k, v := range rhs { tmpContainer[k] = … }` on a slice, `features/clone/clone.go:140-142`. -/
def cloneElems (E : KEnv) (rec : SubClone) (k : Kind) (t : Nat) (p : List Nat) : Nat → List Val → Res (List Val)
  | _, [] => .ok []
  | i, v :: vs => do
    let w ← cloneSingular E rec k t (p ++ [i]) v
    let ws ← cloneElems E rec k t p (i + 1) vs
    .ok (w :: ws)

/-- The same on a map, `features/clone/clone.go:134-142`: `c` is what `tmpContainer` has so far. The entries are visited in the order of the list; in Go the
order is unspecified. -/
def cloneEntries (E : KEnv) (rec : SubClone) (k : Kind) (t : Nat) (p : List Nat) : Nat → List (Key × Val) → List (Key × Val) → Res (List (Key × Val))
  | _, [], c => .ok c
  | i, (key, v) :: vs, c => do
    let w ← cloneSingular E rec k t (p ++ [i]) v
    cloneEntries E rec k t p (i + 1) vs (mapInsert c key w)

/-- `cloneField` for a field outside of oneofs, `features/clone/clone.go:109-151`: the value assigned to the struct field, if any. -/
def cloneField (E : KEnv) (rec : SubClone) (f : FieldDesc) (p : List Nat) (v : Val) : Res (Option Val) :=
  if v.isNil then .ok none
  else if f.card == .repeated then
    match f.map, v with
    | some md, .map es => do
      let es' ← cloneEntries E rec md.val md.valMsg p 0 es []
      .ok (some (.map es'))
    | none, .list xs _ =>
      if isScalarKind f.kind then .ok (some (.list xs []))
      else do
        let xs' ← cloneElems E rec f.kind f.msg p 0 xs
        .ok (some (.list xs' []))
    | _, _ => .panic .typeConfusion
  else if isScalarKind f.kind then .ok (some v)
  else do
    let w ← cloneSingular E rec f.kind f.msg p v
    .ok (some w)

/-- `CloneVT` of the oneof wrapper type of field `f` on a wrapper holding `v`, `features/clone/clone.go:234-268,276-281`: what the new wrapper
holds. -/
def cloneMember (E : KEnv) (rec : SubClone) (f : FieldDesc) (p : List Nat) (v : Val) : Res Val :=
  if isScalarKind f.kind then .ok v
  else if f.hasMessage && (E.direct f.msg && !(E.S.msg f.msg).foreign) then rec p f.msg v
  else if v.isNil then .ok .nil
  else cloneSingular E rec f.kind f.msg p v

/-- `cloneOneofField`, `features/clone/clone.go:51-69`, with the dynamic dispatch on the wrapper's type. A nil wrapper pointer gives one
of the same type. -/
def cloneOneof (E : KEnv) (rec : SubClone) (d : MsgDesc) (slot : Nat) (p : List Nat) (v : Val) : Res (Option Val) :=
  match v with
  | .nil => .ok none
  | .wrap n x => match d.member slot n with
    | some f => do
      let y ← cloneMember E rec f p x
      .ok (some (.wrap n y))
    | none => .panic .typeConfusion
  | .wrapNil n => if (d.member slot n).isSome then .ok (some (.wrapNil n)) else .panic .typeConfusion
  | _ => .panic .typeConfusion

/-- The first pass over the fields, `features/clone/clone.go:185-216`: fields assigned right away, and the ones left for the second pass.
Of a oneof the first field is left; `seen` are the oneofs met before. -/
def cloneSplit (S : Schema) (direct : Nat → Bool) (d : MsgDesc) : List Nat → List FieldDesc → List FieldDesc × List FieldDesc
  | _, [] => ([], [])
  | seen, f :: fs =>
    if f.oneof then
      if seen.contains f.slot then cloneSplit S direct d seen fs
      else
        let (a, b) := cloneSplit S direct d (f.slot :: seen) fs
        (a, f :: b)
    else
      let (a, b) := cloneSplit S direct d seen fs
      if !isReference d.proto3 f then (f :: a, b)
      else if f.card != .repeated && f.hasMessage && (direct f.msg && !(S.msg f.msg).foreign) then (f :: a, b)
      else (a, f :: b)

/-- Assignments of the first pass, `features/clone/clone.go:199-214`. -/
def cloneFirst (E : KEnv) (rec : SubClone) (d : MsgDesc) (p : List Nat) (m : List Val) : List FieldDesc → List Val → Res (List Val)
  | [], r => .ok r
  | f :: fs, r =>
    if !isReference d.proto3 f then cloneFirst E rec d p m fs (r.set f.slot (slotOf m f))
    else do
      let w ← rec (p ++ [f.slot]) f.msg (slotOf m f)
      cloneFirst E rec d p m fs (r.set f.slot w)

/-- An assignment to a struct field under `if rhs != nil`, `features/clone/clone.go:57-68,119-151`. -/
def assignTo (r : List Val) (slot : Nat) : Option Val → List Val
  | some w => r.set slot w
  | none => r

/-- Assignments of the second pass, `features/clone/clone.go:218-221`. -/
def cloneSecond (E : KEnv) (rec : SubClone) (d : MsgDesc) (p : List Nat) (m : List Val) : List FieldDesc → List Val → Res (List Val)
  | [], r => .ok r
  | f :: fs, r => do
    let o ← if f.oneof then cloneOneof E rec d f.slot (p ++ [f.slot]) (slotOf m f) else cloneField E rec f (p ++ [f.slot]) (slotOf m f)
    cloneSecond E rec d p m fs (assignTo r f.slot o)

/-- `p.Alloc`, `features/clone/clone.go:184`, `generator/generatedfile.go:54-65`. -/
def cloneAlloc (E : KEnv) (p : List Nat) (t : Nat) : Val := if (E.S.msg t).pooled then E.alloc p t else zeroMsg E.S t

/-- `body`, `features/clone/clone.go:169-232`. Extensions are not touched. -/
def cloneBody (E : KEnv) (rec : SubClone) : SubClone := fun p t v =>
  match v with
  | .nil => .ok .nil
  | .msg m u _ =>
    match cloneAlloc E p t with
    | .msg r u' e' => do
      let (a, b) := cloneSplit E.S E.direct (E.S.msg t) [] (E.S.msg t).fields
      let r ← cloneFirst E rec (E.S.msg t) p m a r
      let r ← cloneSecond E rec (E.S.msg t) p m b r
      .ok (.msg r (if (E.S.msg t).keepUnknown && decide (u.length > 0) then u else u') e')
    | _ => .panic .typeConfusion
  | _ => .panic .typeConfusion

/-- The method with its recursion limited to a depth. (`features/clone/clone.go:154-232`) -/
def cloneN (E : KEnv) : Nat → SubClone
  | 0 => fun _ _ _ => .diverge
  | n + 1 => cloneBody E (cloneN E n)

/-- `m.CloneVT()` for a message or nil pointer of type `t`. (`features/clone/clone.go:154-232`) -/
def cloneVT (E : KEnv) (t : Nat) (v : Val) : Res Val := cloneN E (v.depth + 1) [] t v

/-- `m.CloneMessageVT()`, `features/clone/clone.go:161-165`: the same as an interface value. The result is never the nil interface, but may hold
a nil pointer. -/
def cloneMessageVT (E : KEnv) (t : Nat) (v : Val) : Res (Nat × Val) := do
  let w ← cloneVT E t v
  .ok (t, w)

end Vtp
