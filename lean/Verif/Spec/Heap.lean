import Verif.Spec.Typing
import Verif.Model.Heap
import Mathlib.Data.Multiset.AddSub
/-!
# Messages in memory

`Reach`: which objects a program that has a pointer can change. `OwnL`: typed objects in memory that are not shared.
-/

namespace Vtp.Spec

/-- The object a value refers to and through which the object can be changed. Strings cannot be changed, so views do not count. -/
def HV.target : HV → Option Addr
  | .bytes a _ _ => some a
  | .slice a _ => some a
  | .ptr a => some a
  | _ => none

/-- Values inside of an object. -/
def Cell.values : Cell → List HV
  | .msg slots u _ => u :: slots
  | .foreign _ => []
  | .box v => [v]
  | .wrap _ v => [v]
  | .arr xs => xs
  | .bytes _ => []
  | .map es => es.map (·.2)

/-- Following pointers from `a` one gets to `b`. -/
inductive Reach (h : Heap) : Addr → Addr → Prop
  | here (a : Addr) : Reach h a a
  | there {a b c : Addr} {x : Cell} {v : HV} (hx : h[a]? = some x) (hv : v ∈ Cell.values x) (ht : HV.target v = some b) (hr : Reach h b c) :
      Reach h a c

/-- Go types of struct fields, elements and so on. -/
inductive Ty where
  /-- numbers and strings -/
  | flat
  /-- pointers to numbers and strings -/
  | box
  /-- byte slices -/
  | bytes
  /-- byte slices which are not part of somebody else's buffer -/
  | mem
  /-- pointers to messages -/
  | msg (t : Nat)
  /-- pointers to messages with struct fields of the given types -/
  | obj (tys : List Ty)
  | list (e : Ty)
  /-- lists whose element `i` is `v`, which is accounted for elsewhere -/
  | hole (e : Ty) (i : Nat) (v : HV)
  | map (e : Ty)
  /-- interface fields of oneofs -/
  | oneof (d : MsgDesc) (slot : Nat)
  /-- interface fields of oneofs with the wrapper for the member with the given number, which has the given type -/
  | wrap (num : Nat) (e : Ty)
  /-- the value `v`, which is accounted for elsewhere -/
  | is (v : HV)
  /-- pointers to the object `c`, what is in it being accounted for elsewhere -/
  | raw (c : Cell)

/-- The type of an element, map value or oneof member of the given kind. -/
def elemTy (k : Kind) (t : Nat) : Ty :=
  match k with
  | .message => .msg t
  | .group => .msg t
  | .bytes => .bytes
  | _ => .flat

/-- The type of the struct field of a field of the message `d`. -/
def fieldTy (d : MsgDesc) (f : FieldDesc) : Ty :=
  if f.oneof then .oneof d f.slot
  else if f.card == .repeated then
    match f.map with
    | some md => .map (elemTy md.val md.valMsg)
    | none => .list (elemTy f.kind f.msg)
  else if f.presence && isScalar f.kind then .box
  else elemTy f.kind f.msg
where
  isScalar : Kind → Bool
  | .message => false
  | .group => false
  | .bytes => false
  | _ => true

/-- The type of a struct field. -/
def slotTy (d : MsgDesc) (s : Nat) : Ty :=
  match d.fields.find? (fun f => f.slot == s) with
  | some f => fieldTy d f
  | none => .flat

/-- The types of the struct fields. -/
def slotTys (d : MsgDesc) : List Ty := (List.range d.nslots).map (slotTy d)

/-- Types with a nil value; `flat` has it as what is in arrays beyond the length. -/
def Ty.nilable : Ty → Bool
  | .is _ => false
  | .raw _ => false
  | _ => true

abbrev Item := Ty × HV

/-- Memory that belongs to somebody else but may be referred to: `str` by strings, `byt` by byte slices. -/
structure Lent where
  str : Addr → Prop
  byt : Addr → Prop

/-- Nothing of somebody else's memory is referred to. -/
def Lent.none : Lent := ⟨fun _ => False, fun _ => False⟩

/-- The values `I` have their types in the memory `h`, `F` are the objects they consist of, with repetitions if objects are used more than
once; `B` is the memory of others which they refer to. -/
inductive OwnL (S : Schema) (B : Lent) (h : Heap) : List Item → Multiset Addr → Prop
  | done : OwnL S B h [] 0
  | nil {ty : Ty} {I : List Item} {F : Multiset Addr} (ht : ty.nilable = true) (hI : OwnL S B h I F) : OwnL S B h ((ty, .nil) :: I) F
  | num {n : BitVec 64} {I : List Item} {F : Multiset Addr} (hI : OwnL S B h I F) : OwnL S B h ((.flat, .num n) :: I) F
  | str {b : Bytes} {I : List Item} {F : Multiset Addr} (hI : OwnL S B h I F) : OwnL S B h ((.flat, .str b) :: I) F
  | view {a off len : Nat} {I : List Item} {F : Multiset Addr} (ha : B.str a) (hI : OwnL S B h I F) :
      OwnL S B h ((.flat, .view a off len) :: I) F
  | is {v : HV} {I : List Item} {F : Multiset Addr} (hI : OwnL S B h I F) : OwnL S B h ((.is v, v) :: I) F
  | wrapNil {d : MsgDesc} {slot n : Nat} {I : List Item} {F : Multiset Addr} (hI : OwnL S B h I F) :
      OwnL S B h ((.oneof d slot, .wrapNil n) :: I) F
  | lent {a off len : Nat} {I : List Item} {F : Multiset Addr} (ha : B.byt a) (hI : OwnL S B h I F) :
      OwnL S B h ((.bytes, .bytes a off len) :: I) F
  | bytes {a off len : Nat} {c : Bytes} {I : List Item} {F : Multiset Addr} (hc : h[a]? = some (.bytes c)) (hI : OwnL S B h I F) :
      OwnL S B h ((.bytes, .bytes a off len) :: I) (a ::ₘ F)
  | mem {a off len : Nat} {c : Bytes} {I : List Item} {F : Multiset Addr} (hc : h[a]? = some (.bytes c)) (hI : OwnL S B h I F) :
      OwnL S B h ((.mem, .bytes a off len) :: I) (a ::ₘ F)
  | box {a : Addr} {v : HV} {I : List Item} {F : Multiset Addr} (hc : h[a]? = some (.box v)) (hI : OwnL S B h ((.flat, v) :: I) F) :
      OwnL S B h ((.box, .ptr a) :: I) (a ::ₘ F)
  | foreign {t : Nat} {a : Addr} {v : Val} {I : List Item} {F : Multiset Addr} (hf : (S.msg t).foreign = true)
      (hc : h[a]? = some (.foreign v)) (hI : OwnL S B h I F) : OwnL S B h ((.msg t, .ptr a) :: I) (a ::ₘ F)
  | msg {t : Nat} {a : Addr} {slots : List HV} {u : HV} {e : Bytes} {I : List Item} {F : Multiset Addr} (hf : (S.msg t).foreign = false)
      (hc : h[a]? = some (.msg slots u e)) (hl : slots.length = (S.msg t).nslots)
      (hI : OwnL S B h ((slotTys (S.msg t)).zip slots ++ (.mem, u) :: I) F) : OwnL S B h ((.msg t, .ptr a) :: I) (a ::ₘ F)
  | obj {tys : List Ty} {a : Addr} {slots : List HV} {u : HV} {e : Bytes} {I : List Item} {F : Multiset Addr}
      (hc : h[a]? = some (.msg slots u e)) (hl : slots.length = tys.length)
      (hI : OwnL S B h (tys.zip slots ++ (.mem, u) :: I) F) : OwnL S B h ((.obj tys, .ptr a) :: I) (a ::ₘ F)
  | list {ty : Ty} {a len : Nat} {xs : List HV} {I : List Item} {F : Multiset Addr} (hc : h[a]? = some (.arr xs)) (hl : len ≤ xs.length)
      (hI : OwnL S B h (xs.map (fun x => (ty, x)) ++ I) F) : OwnL S B h ((.list ty, .slice a len) :: I) (a ::ₘ F)
  | hole {ty : Ty} {a len i : Nat} {xs : List HV} {v : HV} {I : List Item} {F : Multiset Addr} (hc : h[a]? = some (.arr xs))
      (hl : len ≤ xs.length) (hi : xs[i]? = some v) (hI : OwnL S B h ((xs.eraseIdx i).map (fun x => (ty, x)) ++ I) F) :
      OwnL S B h ((.hole ty i v, .slice a len) :: I) (a ::ₘ F)
  | map {ty : Ty} {a : Addr} {es : List (Key × HV)} {I : List Item} {F : Multiset Addr} (hc : h[a]? = some (.map es))
      (hI : OwnL S B h (es.map (fun e => (ty, e.2)) ++ I) F) : OwnL S B h ((.map ty, .ptr a) :: I) (a ::ₘ F)
  | oneof {d : MsgDesc} {slot n : Nat} {f : FieldDesc} {a : Addr} {v : HV} {I : List Item} {F : Multiset Addr}
      (hc : h[a]? = some (.wrap n v)) (hm : d.member slot n = some f) (hI : OwnL S B h ((elemTy f.kind f.msg, v) :: I) F) :
      OwnL S B h ((.oneof d slot, .ptr a) :: I) (a ::ₘ F)
  | wrap {ty : Ty} {n : Nat} {a : Addr} {v : HV} {I : List Item} {F : Multiset Addr} (hc : h[a]? = some (.wrap n v))
      (hI : OwnL S B h ((ty, v) :: I) F) : OwnL S B h ((.wrap n ty, .ptr a) :: I) (a ::ₘ F)
  | raw {a : Addr} {c : Cell} {I : List Item} {F : Multiset Addr} (hc : h[a]? = some c) (hI : OwnL S B h I F) :
      OwnL S B h ((.raw c, .ptr a) :: I) (a ::ₘ F)

end Vtp.Spec
