import Verif.Model.Clone
import Verif.Model.HeapUnmarshal
/-!
# `CloneVT` on memory

The same code as in `Verif/Model/Clone.lean`, `features/clone/clone.go`.
-/

namespace Vtp

/-- What the clone depends on. `pick p`: the message which the pool hands out for the message at position `p` of the original.
(`features/clone/clone.go:154-178` and `features/pool/pool.go:104-106`) -/
structure HKEnv where
  S : Schema
  R : Runtime
  pick : List Nat → Option Addr
  /-- as in `KEnv` -/
  direct : Nat → Bool

/-- A recursive call of `CloneVT`: position in the original, type, message.
(`features/clone/clone.go:154-232`) -/
abbrev HSubClone := List Nat → Nat → HV → HM HV

/-- Contents of a byte slice. (`features/clone/clone.go:89-92,127-144,223-229`) -/
def hreadBytes (s : HV) : HM Bytes :=
  match s with
  | .nil => pure []
  | .bytes a off len => do
    match ← hread a with
    | .bytes c => pure ((c.drop off).take len)
    | _ => HM.lift (.panic .typeConfusion)
  | _ => HM.lift (.panic .typeConfusion)

/-- `proto.Clone(v)`, `features/clone/clone.go:86`: new memory. -/
def hruntimeClone (E : HKEnv) (t : Nat) (v : HV) : HM HV :=
  match v with
  | .nil => pure .nil
  | .ptr a => do
    match ← hread a with
    | .foreign x => do
      let b ← halloc (.foreign (E.R.clone t x))
      pure (.ptr b)
    | _ => HM.lift (.panic .typeConfusion)
  | _ => HM.lift (.panic .typeConfusion)

/-- `cloneFieldSingular`, `features/clone/clone.go:72-98`. -/
def hcloneSingular (E : HKEnv) (rec : HSubClone) (k : Kind) (t : Nat) (p : List Nat) (v : HV) : HM HV :=
  if k = .message ∨ k = .group then if (E.S.msg t).foreign then hruntimeClone E t v else rec p t v
  else if k = .bytes then do
    let b ← hreadBytes v
    hcopyBytes b
  else pure v

/-- `s[i] = x` (`features/clone/clone.go:127-152`) -/
def hsetIndex (s : HV) (i : Nat) (x : HV) : HM Unit :=
  match s with
  | .slice a len => do
    match ← hread a with
    | .arr xs => if i < (xs.take len).length then hwrite a (.arr (xs.set i x)) else HM.lift (.panic .indexOutOfRange)
    | _ => HM.lift (.panic .typeConfusion)
  | _ => HM.lift (.panic .typeConfusion)

/-- `make([]T, n)` for elements of kind `k`. (`features/clone/clone.go:127-144`) -/
def hmakeList (k : Kind) (n : Nat) : HM HV := do
  let a ← halloc (.arr (List.replicate n (hzeroScalar k)))
  pure (.slice a n)

/-- `for k, v := range rhs { tmpContainer[k] = … }` on a slice, `features/clone/clone.go:140-142`, from the index on, for so many elements. -/
def hcloneElems (E : HKEnv) (rec : HSubClone) (k : Kind) (t : Nat) (p : List Nat) (s d : HV) : Nat → Nat → HM Unit
  | _, 0 => pure ()
  | i, n + 1 => do
    let v ← hindex s i
    let w ← hcloneSingular E rec k t (p ++ [i]) v
    hsetIndex d i w
    hcloneElems E rec k t p s d (i + 1) n

/-- The same on a map, `features/clone/clone.go:134-142`. The entries are those at the start; nothing in the loop changes the map that is iterated over. -/
def hcloneEntries (E : HKEnv) (rec : HSubClone) (k : Kind) (t : Nat) (p : List Nat) (d : HV) : Nat → List (Key × HV) → HM Unit
  | _, [] => pure ()
  | i, (key, v) :: vs => do
    let w ← hcloneSingular E rec k t (p ++ [i]) v
    hmapPut d key w
    hcloneEntries E rec k t p d (i + 1) vs

/-- `cloneField` for a map, `features/clone/clone.go:130-144`. -/
def hcloneMap (E : HKEnv) (rec : HSubClone) (md : MapDesc) (p : List Nat) (v : HV) : HM HV :=
  match v with
  | .ptr a => do
    match ← hread a with
    | .map es => do
      let b ← halloc (.map [])
      hcloneEntries E rec md.val md.valMsg p (.ptr b) 0 es
      pure (.ptr b)
    | _ => HM.lift (.panic .typeConfusion)
  | _ => HM.lift (.panic .typeConfusion)

/-- `cloneField` for a list, `features/clone/clone.go:125-144`. -/
def hcloneList (E : HKEnv) (rec : HSubClone) (f : FieldDesc) (p : List Nat) (v : HV) : HM HV :=
  match v with
  | .slice a len => do
    match ← hread a with
    | .arr xs =>
      if isScalarKind f.kind then do
        let b ← halloc (.arr (xs.take len))
        pure (.slice b (xs.take len).length)
      else do
        let d ← hmakeList f.kind (xs.take len).length
        hcloneElems E rec f.kind f.msg p v d 0 (xs.take len).length
        pure d
    | _ => HM.lift (.panic .typeConfusion)
  | _ => HM.lift (.panic .typeConfusion)

/-- `cloneField` for a list or map, `features/clone/clone.go:125-144`. -/
def hcloneContainer (E : HKEnv) (rec : HSubClone) (f : FieldDesc) (p : List Nat) (v : HV) : HM HV :=
  match f.map with
  | some md => hcloneMap E rec md p v
  | none => hcloneList E rec f p v

/-- `tmpVal := *rhs; lhs = &tmpVal`, `features/clone/clone.go:145-147`. -/
def hcloneBox (v : HV) : HM HV :=
  match v with
  | .ptr a => do
    match ← hread a with
    | .box x => do
      let b ← halloc (.box x)
      pure (.ptr b)
    | _ => HM.lift (.panic .typeConfusion)
  | _ => HM.lift (.panic .typeConfusion)

/-- `cloneField` for a field outside of oneofs, `features/clone/clone.go:109-151`: the value assigned to the struct field, if any. -/
def hcloneField (E : HKEnv) (rec : HSubClone) (f : FieldDesc) (p : List Nat) (v : HV) : HM (Option HV) :=
  if v.isNil then pure none
  else if f.card == .repeated then do
    let w ← hcloneContainer E rec f p v
    pure (some w)
  else if isScalarKind f.kind then do
    let w ← hcloneBox v
    pure (some w)
  else do
    let w ← hcloneSingular E rec f.kind f.msg p v
    pure (some w)

/-- `CloneVT` of the oneof wrapper type of field `f` on a wrapper holding `v`, `features/clone/clone.go:234-268,276-281`: what the new wrapper
holds. -/
def hcloneMember (E : HKEnv) (rec : HSubClone) (f : FieldDesc) (p : List Nat) (v : HV) : HM HV :=
  if isScalarKind f.kind then pure v
  else if f.hasMessage && (E.direct f.msg && !(E.S.msg f.msg).foreign) then rec p f.msg v
  else if v.isNil then pure .nil
  else hcloneSingular E rec f.kind f.msg p v

/-- `r.F = x` for a pointer `r` to a wrapper of number `n`. (`features/clone/clone.go:234-268`) -/
def hsetMember (r : HV) (n : Nat) (x : HV) : HM Unit :=
  match r with
  | .ptr a => do
    match ← hread a with
    | .wrap n' _ => if n' = n then hwrite a (.wrap n x) else HM.lift (.panic .typeConfusion)
    | _ => HM.lift (.panic .typeConfusion)
  | _ => HM.lift (.panic .typeConfusion)

/-- `cloneOneofField`, `features/clone/clone.go:51-69`, with the dynamic dispatch on the wrapper's type, and the method of the wrapper, `:169-205`: the new wrapper
is allocated first. -/
def hcloneOneof (E : HKEnv) (rec : HSubClone) (d : MsgDesc) (slot : Nat) (p : List Nat) (v : HV) : HM (Option HV) :=
  match v with
  | .nil => pure none
  | .ptr a => do
    match ← hread a with
    | .wrap n x => match d.member slot n with
      | some f => do
        let b ← halloc (.wrap n (hzeroScalar f.kind))
        let y ← hcloneMember E rec f p x
        hsetMember (.ptr b) n y
        pure (some (.ptr b))
      | none => HM.lift (.panic .typeConfusion)
    | _ => HM.lift (.panic .typeConfusion)
  | .wrapNil n => if (d.member slot n).isSome then pure (some (.wrapNil n)) else HM.lift (.panic .typeConfusion)
  | _ => HM.lift (.panic .typeConfusion)

/-- Assignments of the first pass, `features/clone/clone.go:199-214`, of the message at `m` to the one at `r`. -/
def hcloneFirst (E : HKEnv) (rec : HSubClone) (d : MsgDesc) (p : List Nat) (m r : HV) : List FieldDesc → HM Unit
  | [] => pure ()
  | f :: fs =>
    if !isReference d.proto3 f then do
      let v ← hgetSlot m f.slot
      hsetSlot r f.slot v
      hcloneFirst E rec d p m r fs
    else do
      let v ← hgetSlot m f.slot
      let w ← rec (p ++ [f.slot]) f.msg v
      hsetSlot r f.slot w
      hcloneFirst E rec d p m r fs

/-- An assignment to a struct field under `if rhs != nil`, `features/clone/clone.go:57-68,119-151`. -/
def hassignTo (r : HV) (slot : Nat) : Option HV → HM Unit
  | some w => hsetSlot r slot w
  | none => pure ()

/-- One field of the second pass, `features/clone/clone.go:219-220,51-69,100-151`: what is assigned, if anything. -/
def hcloneOut (E : HKEnv) (rec : HSubClone) (d : MsgDesc) (f : FieldDesc) (p : List Nat) (v : HV) : HM (Option HV) :=
  if f.oneof then hcloneOneof E rec d f.slot p v else hcloneField E rec f p v

/-- Assignments of the second pass, `features/clone/clone.go:218-221`. -/
def hcloneSecond (E : HKEnv) (rec : HSubClone) (d : MsgDesc) (p : List Nat) (m r : HV) : List FieldDesc → HM Unit
  | [] => pure ()
  | f :: fs => do
    let v ← hgetSlot m f.slot
    let o ← hcloneOut E rec d f (p ++ [f.slot]) v
    hassignTo r f.slot o
    hcloneSecond E rec d p m r fs

/-- `p.Alloc`, `features/clone/clone.go:184`, `generator/generatedfile.go:54-65`. -/
def hcloneAlloc (E : HKEnv) (p : List Nat) (t : Nat) : HM HV := if (E.S.msg t).pooled then poolGet E.S (E.pick p) t else hnew E.S t

/-- `r.unknownFields = …`. (`features/clone/clone.go:223-229`) -/
def hsetUnknown (r u : HV) : HM Unit :=
  match r with
  | .ptr a => do
    match ← hread a with
    | .msg s _ e => hwrite a (.msg s u e)
    | _ => HM.lift (.panic .typeConfusion)
  | _ => HM.lift (.panic .typeConfusion)

/-- `m.unknownFields` (`features/clone/clone.go:223-229`) -/
def hgetUnknown (m : HV) : HM HV :=
  match m with
  | .nil => HM.lift (.panic .nilDeref)
  | .ptr a => do
    match ← hread a with
    | .msg _ u _ => pure u
    | _ => HM.lift (.panic .typeConfusion)
  | _ => HM.lift (.panic .typeConfusion)

/-- `make([]byte, n)` (`features/clone/clone.go:89-92,223-229`) -/
def hmakeBytes (n : Nat) : HM HV := do
  let a ← halloc (.bytes (List.replicate n 0))
  pure (.bytes a 0 n)

/-- `copy(d, b)` of bytes already read. (`features/clone/clone.go:89-92,127-144,223-229`) -/
def hcopyInto (d : HV) (b : Bytes) : HM Unit :=
  match d with
  | .nil => pure ()
  | .bytes a off len => do
    match ← hread a with
    | .bytes c => hwrite a (.bytes (c.take off ++ b.take len ++ c.drop (off + min len b.length)))
    | _ => HM.lift (.panic .typeConfusion)
  | _ => HM.lift (.panic .typeConfusion)

/-- Cloning of the unknown fields, `features/clone/clone.go:223-229`: `make`, assignment, `copy`. -/
def hcloneUnknown (E : HKEnv) (t : Nat) (m r : HV) : HM Unit :=
  if (E.S.msg t).keepUnknown then do
    let u ← hgetUnknown m
    let b ← hreadBytes u
    if b.length > 0 then do
      let d ← hmakeBytes b.length
      hsetUnknown r d
      let d ← hgetUnknown r
      let u ← hgetUnknown m
      let b ← hreadBytes u
      hcopyInto d b
    else pure ()
  else pure ()

/-- `body`, `features/clone/clone.go:169-232`. -/
def hcloneBody (E : HKEnv) (rec : HSubClone) : HSubClone := fun p t v =>
  if v.isNil then pure .nil
  else do
    let r ← hcloneAlloc E p t
    hcloneFirst E rec (E.S.msg t) p v r (cloneSplit E.S E.direct (E.S.msg t) [] (E.S.msg t).fields).1
    hcloneSecond E rec (E.S.msg t) p v r (cloneSplit E.S E.direct (E.S.msg t) [] (E.S.msg t).fields).2
    hcloneUnknown E t v r
    pure r

/-- The method with its recursion limited to a depth. (`features/clone/clone.go:154-232`) -/
def hcloneN (E : HKEnv) : Nat → HSubClone
  | 0 => fun _ _ _ => HM.lift .diverge
  | n + 1 => hcloneBody E (hcloneN E n)

/-- `v.CloneVT()`, `features/clone/clone.go:169-232`. -/
def hcloneVT (E : HKEnv) (t : Nat) (v : HV) : HM HV := fun σ => hcloneN E σ.fuel [] t v σ

end Vtp
