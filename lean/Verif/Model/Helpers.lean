import Verif.Model.Base
/-!
# `protohelpers/protohelpers.go`, and the varint / fixed-width code the generator emits
-/

namespace Vtp

/-- `bits.Len64`: number of bits needed to represent `x`; 0 for 0
(used at `protohelpers/protohelpers.go:36`). -/
def len64 (x : BitVec 64) : Nat := if x.toNat = 0 then 0 else x.toNat.log2 + 1

/-- `SizeOfVarint`, `protohelpers/protohelpers.go:35-37`. -/
def sizeOfVarint (x : BitVec 64) : Nat := (len64 (x ||| 1) + 6) / 7

/-- The 64-bit zigzag map `(x << 1) ^ uint64(int64(x) >> 63)`:
`protohelpers/protohelpers.go:41`, `features/marshal/marshalto.go:489,503,508,512,516,109`. -/
def zigzag64 (x : BitVec 64) : BitVec 64 := (x <<< 1) ^^^ (x.sshiftRight 63)

/-- `SizeOfZigzag`, `protohelpers/protohelpers.go:40-42`. -/
def sizeOfZigzag (x : BitVec 64) : Nat := sizeOfVarint (zigzag64 x)

/-- The 32-bit zigzag map `(uint32(x) << 1) ^ uint32(x >> 31)`, result widened by
`uint64(...)`: `features/marshal/marshalto.go:107,445,459,464,468,472`. -/
def zigzag32 (x : BitVec 32) : BitVec 32 := (x <<< 1) ^^^ (x.sshiftRight 31)

/-- `v = (v >> 1) ^ uint64((int64(v&1)<<63)>>63)`:
`features/unmarshal/unmarshal.go:700,270`. -/
def unzigzag64 (v : BitVec 64) : BitVec 64 := (v >>> 1) ^^^ (((v &&& 1) <<< 63).sshiftRight 63)

/-- `v = int32((uint32(v) >> 1) ^ uint32(((v&1)<<31)>>31))`:
`features/unmarshal/unmarshal.go:687,265`. -/
def unzigzag32 (v : BitVec 32) : BitVec 32 := (v >>> 1) ^^^ (((v &&& 1) <<< 31).sshiftRight 31)

/-- The Go assignment `dAtA[i] = b`: panics unless `0 <= i < len(dAtA)`.
(`protohelpers/protohelpers.go:22-32`) -/
def putByte (buf : Bytes) (i : Int) (b : UInt8) : Res Bytes :=
  if 0 ≤ i ∧ i < buf.length then .ok (buf.set i.toNat b) else .panic .indexOutOfRange

/-- The loop of `EncodeVarint`, `protohelpers/protohelpers.go:25-30`. The fuel
bounds the number of bytes; ten suffice for 64 bits. -/
def encodeVarintLoop : Nat → Bytes → Int → BitVec 64 → Res Bytes
  | 0, _, _, _ => .diverge
  | n + 1, buf, off, v =>
    if v.toNat ≥ 2 ^ 7 then do
      let buf ← putByte buf off (UInt8.ofBitVec ((v &&& 0x7f ||| 0x80).setWidth 8))
      encodeVarintLoop n buf (off + 1) (v >>> 7)
    else
      putByte buf off (UInt8.ofBitVec (v.setWidth 8))

/-- `EncodeVarint`, `protohelpers/protohelpers.go:22-32`. Returns the buffer after
the writes and the returned offset. -/
def encodeVarint (buf : Bytes) (offset : Int) (v : BitVec 64) : Res (Bytes × Int) := do
  let base := offset - sizeOfVarint v
  let buf ← encodeVarintLoop 10 buf base v
  .ok (buf, base)

/-- The varint reading loop: `features/unmarshal/unmarshal.go:83-98`, and the same
text at `protohelpers/protohelpers.go:51-64` (`wire`) and `84-97` (`length`).
`w` is the width of the destination type; `v |= T(b&0x7F) << shift` is done in
that type, so bits at or above `w` are lost. Fuel: eleven iterations reach the
`shift >= 64` test. -/
def decodeVarintLoop (w : Nat) (d : Bytes) : Nat → Nat → Nat → BitVec w → Res (BitVec w × Nat)
  | 0, _, _, _ => .diverge
  | n + 1, shift, i, acc =>
    if shift ≥ 64 then .err .intOverflow
    else if i ≥ d.length then .err .unexpectedEOF
    else match d[i]? with
      | none => .panic .indexOutOfRange
      | some b =>
        let acc := acc ||| (BitVec.ofNat w (b &&& 0x7f).toNat <<< shift)
        if b < 0x80 then .ok (acc, i + 1)
        else decodeVarintLoop w d n (shift + 7) (i + 1) acc

/-- `decodeVarint`, `features/unmarshal/unmarshal.go:83-98`: reads a varint at
index `i`, gives the value and the index after it. -/
def decodeVarint (w : Nat) (d : Bytes) (i : Nat) : Res (BitVec w × Nat) :=
  decodeVarintLoop w d 11 0 i 0

/-- The loop of `Skip` that passes over a varint without accumulating it,
`protohelpers/protohelpers.go:68-79`. -/
def skipVarintLoop (d : Bytes) : Nat → Nat → Nat → Res Nat
  | 0, _, _ => .diverge
  | n + 1, shift, i =>
    if shift ≥ 64 then .err .intOverflow
    else if i ≥ d.length then .err .unexpectedEOF
    else match d[i]? with
      | none => .panic .indexOutOfRange
      | some b => if b < 0x80 then .ok (i + 1) else skipVarintLoop d n (shift + 7) (i + 1)

/-- The outer loop of `Skip`, `protohelpers/protohelpers.go:49-121`. Index
arithmetic wraps at the width of `int`. Fuel: each iteration consumes a byte. -/
def skipLoop (A : Arch) (d : Bytes) : Nat → Nat → Nat → Res Nat
  | 0, _, _ => .diverge
  | n + 1, i, depth =>
    if i < d.length then do
      let (wire, i) ← decodeVarint 64 d i
      -- lines 114-119
      let next (i : Int) (depth : Nat) : Res Nat :=
        if i < 0 then .err .invalidLength
        else if depth = 0 then .ok i.toNat
        else skipLoop A d n i.toNat depth
      match (wire &&& 7).toNat with
      | 0 => do
        let i ← skipVarintLoop d 11 0 i
        next i depth
      | 1 => next (A.wrap (i + 8)) depth
      | 2 => do
        let (length, i) ← decodeVarint A.bits d i
        if length.toInt < 0 then .err .invalidLength
        else next (A.wrap (i + length.toInt)) depth
      | 3 => next i (depth + 1)
      | 4 => if depth = 0 then .err .unexpectedEndOfGroup else next i (depth - 1)
      | 5 => next (A.wrap (i + 4)) depth
      | wt => .err (.illegalWireType wt)
    else .err .unexpectedEOF

/-- `Skip`, `protohelpers/protohelpers.go:45-122`. The result may exceed
`len(dAtA)`; callers check. -/
def skip (A : Arch) (d : Bytes) : Res Nat := skipLoop A d (d.length + 1) 0 0

/-- `binary.LittleEndian.Uint64/Uint32` on `n` bytes: value of the bytes, least
significant first.
Go semantics, as used by the code at `features/unmarshal/unmarshal.go:100-114`. -/
def leValue : Bytes → Nat
  | [] => 0
  | b :: bs => b.toNat + 256 * leValue bs

/-- `binary.LittleEndian.PutUint64/PutUint32`: the `n` low bytes of `v`, least
significant first. Go semantics, as used by the code at `features/marshal/marshalto.go:54-62`. -/
def leBytes : Nat → Nat → Bytes
  | 0, _ => []
  | n + 1, v => UInt8.ofNat v :: leBytes n (v / 256)

/-- `decodeFixed32` / `decodeFixed64`, `features/unmarshal/unmarshal.go:100-114`,
with `n = 4` or `8`; the slice expression panics if the bytes are not there. -/
def decodeFixed (A : Arch) (n : Nat) (d : Bytes) (i : Nat) : Res (Nat × Nat) :=
  if A.wrap (i + n) > d.length then .err .unexpectedEOF
  else if i + n ≤ d.length then .ok (leValue ((d.drop i).take n), i + n)
  else .panic .sliceOutOfRange

end Vtp
