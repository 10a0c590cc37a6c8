import Verif.Model.Pattern
/-!
# The generator's configuration: object sets, pooling, features
-/

namespace Vtp

/-- `protogen.GoIdent`: import path and name of a Go type. (`generator/generator.go:33-34`) -/
structure GoIdent where
  importPath : Bytes
  goName : Bytes
  deriving DecidableEq, Repr

/-- What is used of `*protogen.Message`: its Go identifier and the options `vtproto.mempool` and `vtproto.ignore_unknown_fields`, which
`proto.GetExtension` reports as false where they are not set.
(`generator/generatedfile.go:27-52`) -/
structure MsgInfo where
  ident : GoIdent
  mempool : Bool
  ignoreUnknownFields : Bool
  deriving DecidableEq, Repr

/-- `ObjectSet`, `generator/generator.go:19-21`: the keys of its map, in an order the runtime may choose anew for every iteration. -/
abbrev ObjectSet := List Bytes

/-- `fmt.Sprintf("%s.%s", g.GoImportPath, g.GoName)`, `generator/generator.go:34`. -/
def objectPath (g : GoIdent) : Bytes := g.importPath ++ 46 :: g.goName

/-- `ObjectSet.Contains`, `generator/generator.go:33-44`; an error of `Match` counts as no match. -/
def ObjectSet.contains (o : ObjectSet) (g : GoIdent) : Bool :=
  match o with
  | [] => false
  | w :: o => match matchPattern w (objectPath g) with
    | .ok true => true
    | _ => ObjectSet.contains o g

/-- `ObjectSet.Set`, `generator/generator.go:46-52`. -/
def ObjectSet.set (o : ObjectSet) (s : Bytes) : Res ObjectSet :=
  if validatePattern s then .ok (if s ∈ o then o else s :: o) else .err .badPattern

/-- The flags of one kind on the command line, in order; the first error ends the program, `cmd/protoc-gen-go-vtproto/main.go:28-30`. -/
def ObjectSet.setAll (o : ObjectSet) : List Bytes → Res ObjectSet
  | [] => .ok o
  | s :: ss => do
    let o' ← o.set s
    ObjectSet.setAll o' ss

/-- `Config`, `generator/generator.go:54-65`, as far as it selects messages. -/
structure Config where
  poolable : ObjectSet
  poolableExclude : ObjectSet
  ignoreUnknownFields : ObjectSet
  deriving DecidableEq, Repr

/-- `GeneratedFile.ShouldPool`, `generator/generatedfile.go:27-42`. -/
def shouldPool (c : Config) : Option MsgInfo → Bool
  | none => false
  | some m =>
    if c.poolableExclude.contains m.ident then false
    else if c.poolable.contains m.ident then true
    else m.mempool

/-- `GeneratedFile.ShouldIgnoreUnknownFields`, `generator/generatedfile.go:44-52`. -/
def shouldIgnoreUnknownFields (c : Config) (m : MsgInfo) : Bool :=
  if c.ignoreUnknownFields.contains m.ident then true else m.ignoreUnknownFields

/-- `<` on strings in Go: lexicographic by bytes. (`generator/features.go:39-41`) -/
def strLt : Bytes → Bytes → Bool
  | _, [] => false
  | [], _ :: _ => true
  | a :: s, b :: t => if a < b then true else if a = b then strLt s t else false

/-- `"all"`. (`generator/features.go:19`) -/
def allName : Bytes := [97, 108, 108]

/-- A map from names of features to features of some type, `generator/features.go:14`: entries with distinct names, in the order the runtime
chooses. -/
abbrev FeatureMap (φ : Type) := List (Bytes × φ)

/-- `required[name] = feat`. (`generator/features.go:28`) -/
def FeatureMap.put {φ : Type} (m : FeatureMap φ) (name : Bytes) (f : φ) : FeatureMap φ := (name, f) :: m.filter fun e => e.1 ≠ name

/-- `defaultFeatures` after calls of `RegisterFeature`, `generator/features.go:50-52`, in this order. -/
def registerAll {φ : Type} : FeatureMap φ → List (Bytes × φ) → FeatureMap φ
  | reg, [] => reg
  | reg, e :: es => registerAll (reg.put e.1 e.2) es

/-- `defaultFeatures[name]`. (`generator/features.go:24`) -/
def FeatureMap.get {φ : Type} (m : FeatureMap φ) (name : Bytes) : Option φ := (m.find? fun e => e.1 = name).map (·.2)

/-- The loop of `findFeatures`, `generator/features.go:17-29`. -/
def requiredFeatures {φ : Type} (reg : FeatureMap φ) : FeatureMap φ → List Bytes → Res (FeatureMap φ)
  | req, [] => .ok req
  | req, name :: names =>
    if name = allName then .ok reg
    else match reg.get name with
      | none => .err .unknownFeature
      | some f => requiredFeatures reg (req.put name f) names

/-- Insertion of an entry before the first with a larger name. (`generator/features.go:39-41`) -/
def insertFeature {φ : Type} (e : Bytes × φ) : List (Bytes × φ) → List (Bytes × φ)
  | [] => [e]
  | x :: xs => if strLt x.1 e.1 then x :: insertFeature e xs else e :: x :: xs

/-- `sort.Slice`, `generator/features.go:39-41`, as insertion sort: the names are distinct, so every way to sort gives the same. -/
def sortFeatures {φ : Type} : List (Bytes × φ) → List (Bytes × φ)
  | [] => []
  | e :: es => insertFeature e (sortFeatures es)

/-- `findFeatures`, `generator/features.go:16-48`. `iter` is the order in which `range required` visits the entries. -/
def findFeatures {φ : Type} (reg : FeatureMap φ) (iter : FeatureMap φ → FeatureMap φ) (names : List Bytes) : Res (List φ) := do
  let req ← requiredFeatures reg [] names
  .ok ((sortFeatures (iter req)).map (·.2))

/-- `strings.Split(features, "+")`, `cmd/protoc-gen-go-vtproto/main.go:36`. -/
def splitPlus : Bytes → List Bytes
  | [] => [[]]
  | b :: s =>
    if b = 43 then [] :: splitPlus s
    else match splitPlus s with
      | [] => [[b]]
      | w :: ws => (b :: w) :: ws

end Vtp
