import Verif.Spec.Heap
import Verif.Model.HeapUnmarshal
import Verif.Model.Unmarshal
/-!
# Contents of memory

`RepL`: values in memory together with the values, in the sense of the other parts of the model, which they stand for.
-/

namespace Vtp.Spec

/-- Type, value in memory, and what it stands for. -/
abbrev VItem := Ty × HV × Val

/-- Buffers of others, which are not written to. `now` is what is in them; values that refer to them are given the contents `mem`, which
may be those of another time. `byt` tells whether byte slices may be parts of them (strings may). -/
structure Bufs where
  mem : Addr → Option Bytes
  now : Addr → Bytes
  byt : Prop

/-- No buffers. -/
def Bufs.none : Bufs := ⟨fun _ => .none, fun _ => [], False⟩

/-- One buffer, which is looked at when it has the contents `later`. -/
def Bufs.one (a : Addr) (b later : Bytes) (byt : Prop) : Bufs := ⟨fun x => if x = a then some later else .none, fun _ => b, byt⟩

/-- The part of an array which a byte slice or string is. -/
def cut (c : Bytes) (off len : Nat) : Bytes := (c.drop off).take len

/-- Are the elements beyond the length of a list of this type of interest? Only messages are used again. -/
def Ty.keeps : Ty → Bool
  | .msg _ => true
  | _ => false

/-- What is beyond the length of a list, `rest`, and what is said about it. -/
def SpareRep (e : Ty) (rest sp : List Val) : Prop :=
  if e.keeps then ∃ k, rest = sp ++ List.replicate k .nil else sp = []

/-- The items `I` stand for what they say, in the memory `h`; `F` are the objects they consist of, with repetitions if objects are used more
than once. -/
inductive RepL (S : Schema) (B : Bufs) (h : Heap) : List VItem → Multiset Addr → Prop
  | done : RepL S B h [] 0
  | nil {ty : Ty} {I : List VItem} {F : Multiset Addr} (ht : ty.nilable = true) (hI : RepL S B h I F) : RepL S B h ((ty, .nil, .nil) :: I) F
  | num {n : BitVec 64} {I : List VItem} {F : Multiset Addr} (hI : RepL S B h I F) : RepL S B h ((.flat, .num n, .num n) :: I) F
  | str {b : Bytes} {I : List VItem} {F : Multiset Addr} (hI : RepL S B h I F) : RepL S B h ((.flat, .str b, .str b) :: I) F
  | view {a off len : Nat} {c : Bytes} {I : List VItem} {F : Multiset Addr} (ha : B.mem a = some c) (hI : RepL S B h I F) :
      RepL S B h ((.flat, .view a off len, .str (cut c off len)) :: I) F
  | wrapNil {d : MsgDesc} {slot n : Nat} {I : List VItem} {F : Multiset Addr} (hI : RepL S B h I F) :
      RepL S B h ((.oneof d slot, .wrapNil n, .wrapNil n) :: I) F
  | lent {a off len : Nat} {c : Bytes} {I : List VItem} {F : Multiset Addr} (ha : B.mem a = some c) (hb : B.byt) (hI : RepL S B h I F) :
      RepL S B h ((.bytes, .bytes a off len, .str (cut c off len)) :: I) F
  | bytes {a off len : Nat} {c : Bytes} {I : List VItem} {F : Multiset Addr} (hc : h[a]? = some (.bytes c)) (hl : off + len ≤ c.length)
      (hI : RepL S B h I F) : RepL S B h ((.bytes, .bytes a off len, .str (cut c off len)) :: I) (a ::ₘ F)
  | mem {a off len : Nat} {c : Bytes} {I : List VItem} {F : Multiset Addr} (hc : h[a]? = some (.bytes c)) (hl : off + len ≤ c.length)
      (hI : RepL S B h I F) : RepL S B h ((.mem, .bytes a off len, .str (cut c off len)) :: I) (a ::ₘ F)
  | box {a : Addr} {x : HV} {v : Val} {I : List VItem} {F : Multiset Addr} (hc : h[a]? = some (.box x)) (hx : x ≠ .nil)
      (hI : RepL S B h ((.flat, x, v) :: I) F) : RepL S B h ((.box, .ptr a, v) :: I) (a ::ₘ F)
  | foreign {t : Nat} {a : Addr} {v : Val} {I : List VItem} {F : Multiset Addr} (hf : (S.msg t).foreign = true)
      (hc : h[a]? = some (.foreign v)) (hv : v ≠ .nil) (hI : RepL S B h I F) : RepL S B h ((.msg t, .ptr a, v) :: I) (a ::ₘ F)
  | msg {t : Nat} {a : Addr} {its : List VItem} {u : HV} {uv : Val} {e : Bytes} {I : List VItem} {F : Multiset Addr}
      (hf : (S.msg t).foreign = false) (hc : h[a]? = some (.msg (its.map (·.2.1)) u e)) (ht : its.map (·.1) = slotTys (S.msg t))
      (hI : RepL S B h (its ++ (.mem, u, uv) :: I) F) : RepL S B h ((.msg t, .ptr a, .msg (its.map (·.2.2)) uv.bytes e) :: I) (a ::ₘ F)
  | list {ty : Ty} {a len : Nat} {xs : List (HV × Val)} {sp : List Val} {I : List VItem} {F : Multiset Addr}
      (hc : h[a]? = some (.arr (xs.map (·.1)))) (hl : len ≤ xs.length) (hs : SpareRep ty ((xs.map (·.2)).drop len) sp)
      (hI : RepL S B h (xs.map (fun x => (ty, x)) ++ I) F) :
      RepL S B h ((.list ty, .slice a len, .list ((xs.map (·.2)).take len) sp) :: I) (a ::ₘ F)
  | map {ty : Ty} {a : Addr} {es : List (Key × HV × Val)} {I : List VItem} {F : Multiset Addr}
      (hc : h[a]? = some (.map (es.map fun e => (e.1, e.2.1)))) (hI : RepL S B h (es.map (fun e => (ty, e.2)) ++ I) F) :
      RepL S B h ((.map ty, .ptr a, .map (es.map fun e => (e.1, e.2.2))) :: I) (a ::ₘ F)
  | oneof {d : MsgDesc} {slot n : Nat} {f : FieldDesc} {a : Addr} {x : HV} {v : Val} {I : List VItem} {F : Multiset Addr}
      (hc : h[a]? = some (.wrap n x)) (hm : d.member slot n = some f) (hI : RepL S B h ((elemTy f.kind f.msg, x, v) :: I) F) :
      RepL S B h ((.oneof d slot, .ptr a, .wrap n v) :: I) (a ::ₘ F)
  /-- the object `c`, what is in it being accounted for elsewhere -/
  | raw {a : Addr} {c : Cell} {I : List VItem} {F : Multiset Addr} (hc : h[a]? = some c) (hI : RepL S B h I F) :
      RepL S B h ((.raw c, .ptr a, .nil) :: I) (a ::ₘ F)

/-- The objects are not shared, they are not buffers of others, and these have the contents they should have. The places for new objects are neither. -/
structure VGood (B : Bufs) (σ : HState) (F : Multiset Addr) : Prop where
  nodup : F.Nodup
  apart : ∀ a ∈ F, B.mem a = none
  fixed : ∀ a c, B.mem a = some c → σ.heap[a]? = some (.bytes (B.now a))
  free : σ.free.Nodup ∧ ∀ a ∈ σ.free, σ.heap[a]? = some (.foreign .nil) ∧ a ∉ F ∧ B.mem a = none

/-- The items, in unshared memory, stand for what they say. -/
def Holds (S : Schema) (B : Bufs) (σ : HState) (I : List VItem) : Prop := ∃ F, RepL S B σ.heap I F ∧ VGood B σ F

/-- The value-level surroundings: new sub-messages are new, aliased memory has the given contents. -/
def _root_.Vtp.HEnv.toU (E : HEnv) (later : Bytes) : UEnv := ⟨E.S, E.R, E.A, E.aliasing, later, fun _ t => zeroMsg E.S t⟩

/-- `b` is a record in an extension range of messages with descriptor `d`, as the decoder cuts it out of some input. -/
def ExtRecord (A : Arch) (d : MsgDesc) (b : Bytes) : Prop :=
  ∃ (whole : Bytes) (i j k : Nat) (wire : BitVec 64), decodeVarint 64 whole i = .ok (wire, k) ∧ skipAt A whole i whole.length = .ok j ∧ slice whole i j = .ok b ∧
    (∀ f ∈ d.fields, f.num ≠ ((wire >>> 3).setWidth 32 : BitVec 32).toNat) ∧
    ∃ r ∈ d.extRanges, r.1 ≤ ((wire >>> 3).setWidth 32 : BitVec 32).toNat ∧ ((wire >>> 3).setWidth 32 : BitVec 32).toNat < r.2

/-- The runtime library sets no fields when it decodes the record of an extension: what it makes of it is in the extensions or the unknown fields of the message. -/
def ExtOK (S : Schema) (R : Runtime) (A : Arch) : Prop :=
  ∀ t b v, ExtRecord A (S.msg t) b → R.unmarshalPartial t b = some v → ∃ s u e, zeroMsg S t = .msg s [] [] ∧ v = .msg s u e

/-- No message has a bytes field that is neither repeated nor in a oneof: decoding with copies writes to no array that a message already has. -/
def noOwnBytes (S : Schema) : Prop := ∀ t, ∀ f ∈ (S.msg t).fields, f.kind = .bytes → f.oneof = false → f.card = .repeated

/-- Schema and surroundings for which the two agree. -/
structure HSimEnv (S : Schema) (B : Bufs) (E : HEnv) (later : Bytes) : Prop where
  schema : E.S = S
  ok : schemaOK S = true
  ext : ExtOK S E.R E.A
  pick : ∀ off, E.pick off = none
  run : ∀ t b v, E.R.unmarshal t b = some v → v ≠ .nil
  buf : E.aliasing = true → B.byt ∧ B.mem E.buf = some later
  safe : E.aliasing = false → B.byt → noOwnBytes S

end Vtp.Spec
