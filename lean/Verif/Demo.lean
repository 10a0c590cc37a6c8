import Verif.Spec.Content
/-!
# A schema and messages used to show that hypotheses of theorems can be met
-/

namespace Vtp.Demo
open Spec

/-- ```
message Big {                       // type 0, proto3
  int32 a = 1; string b = 2; repeated sint64 c = 3; Small d = 4; map<int32, Small> e = 5;
  oneof o { bool f = 6; Small g = 7; }
  optional double h = 8; repeated Small i = 9; bytes j = 10; repeated string k = 11; float l = 12;
}
message Small { required int64 x = 1; optional bytes y = 2; extensions 100 to 199; }  // type 1, proto2
message Group { optional group G = 1 { optional int32 v = 2; } }                      // type 2; G is type 3
message Pooled { repeated Pooled p = 1; bytes q = 2; Pooled r = 3; }                 // type 4, proto3
message Opt { optional bytes y = 1; optional string s = 2; }                         // type 5, proto3, pooled
``` -/
def schema : Schema := [
  { fields := [
      { num := 1, slot := 0, kind := .int32 },
      { num := 2, slot := 1, kind := .string },
      { num := 3, slot := 2, kind := .sint64, card := .repeated, packed := true },
      { num := 4, slot := 3, kind := .message, presence := true, msg := 1 },
      { num := 5, slot := 4, kind := .message, card := .repeated, map := some ⟨.int32, .message, 1⟩ },
      { num := 6, slot := 5, kind := .bool, presence := true, oneof := true },
      { num := 7, slot := 5, kind := .message, presence := true, oneof := true, msg := 1 },
      { num := 8, slot := 6, kind := .double, presence := true, synthetic := true },
      { num := 9, slot := 7, kind := .message, card := .repeated, msg := 1 },
      { num := 10, slot := 8, kind := .bytes },
      { num := 11, slot := 9, kind := .string, card := .repeated },
      { num := 12, slot := 10, kind := .float }],
    nslots := 11 },
  { fields := [
      { num := 1, slot := 0, kind := .int64, card := .required, presence := true },
      { num := 2, slot := 1, kind := .bytes, presence := true }],
    nslots := 2, proto3 := false, extRanges := [(100, 200)] },
  { fields := [{ num := 1, slot := 0, kind := .group, presence := true, msg := 3 }], nslots := 1, proto3 := false },
  { fields := [{ num := 2, slot := 0, kind := .int32, presence := true }], nslots := 1, proto3 := false },
  { fields := [
      { num := 1, slot := 0, kind := .message, card := .repeated, msg := 4 },
      { num := 2, slot := 1, kind := .bytes },
      { num := 3, slot := 2, kind := .message, presence := true, msg := 4 }],
    nslots := 3, pooled := true },
  { fields := [
      { num := 1, slot := 0, kind := .bytes, presence := true, synthetic := true },
      { num := 2, slot := 1, kind := .string, presence := true, synthetic := true }],
    nslots := 2, pooled := true }]

/-- No foreign types are used. -/
def env : Env := ⟨schema, Runtime.none⟩

def small (n : Nat) : Val := .msg [.num n, .nil] [] []

/-- A message with every field set. -/
def big : Val := .msg [
  .num 150, .str [104, 105], .list [.num 1, .num (-1)] [], small 7,
  .map [(.num 1, small 2), (.num 3, .msg [.num 4, .str [9]] [] [])],
  .wrap 7 (small 5), .num 0x3ff0000000000000, .list [small 1, small 2] [], .str [1, 2, 3],
  .list [.str [], .str [65]] [], .num 0x3f800000] [0x98, 0x06, 0x01] []

theorem schema_ok : schemaOK schema = true := by decide
theorem big_wt : wt schema 0 big = true := by decide
theorem runtime_ok : RuntimeEnc env.R := ⟨fun _ _ _ h => by cases h; rfl, fun _ => rfl⟩

end Vtp.Demo
