import Verif.Lemmas.GenerateFiles
import Verif.Lemmas.GenerateWrap
/-!
# The generator: C75, C76, C77, C78, C79
-/

namespace Vtp.Props

/-! ## C75: generated code refers to nothing that does not exist -/

/-- C75. Under the conditions of `Plain`, everything a generated file declares belongs to its own package and to types that exist, and every
method and every pool it uses exists: in a file of the run, in code generated before, in `types/known` or by protoc-gen-go. The conditions cannot
be dropped, see below. -/
theorem generated_links_partial {before : Before} {cfg : GenConfig} {features : List Feature} {req : List GFile} (h : Plain before cfg features req)
    {o : GenOut} (ho : o ∈ generate cfg features req) {i : Item} (hi : i ∈ o.items) : Links before req (generate cfg features req) o i :=
  plain_links h ho hi

/-- A message for the examples, in Go package `example.com/pkg`. -/
def exMsg (pkg name : String) (mempool : Bool := false) : MsgRef :=
  { ident := ⟨asc "example.com/" ++ asc pkg, asc name⟩, mempool := mempool, ignoreUnknownFields := false, fullName := asc pkg ++ [46] ++ asc name, pkg := asc pkg }

/-- A well-known type. -/
def exKnown (dir name : String) : MsgRef :=
  { ident := ⟨asc "google.golang.org/protobuf/types/known/" ++ asc dir, asc name⟩, mempool := false, ignoreUnknownFields := false,
    fullName := asc "google.protobuf." ++ asc name, pkg := asc "google.protobuf" }

/-- A field that refers to a message. -/
def exRef (r : MsgRef) (kind : Kind := .message) (card : Card := .optional) (oneof : Option (Bytes × Bool) := none) (name : String := "F") : GField :=
  { goIdent := ⟨r.ident.importPath, asc name⟩, fullName := asc name, kind, card, oneof, message := some r }

/-- No flags. -/
def exCfg : GenConfig := { poolable := [], poolableExclude := [], ignoreUnknownFields := [] }

/-- `features=all`, in the order of `findFeatures`. -/
def allFeatures : List Feature := [.clone, .equal, .grpc, .marshal false, .marshal true, .pool, .size, .unmarshal false, .unmarshal true]

/-- A file in package `a` with a pooled message, one with a oneof, a map, a list of messages of another package, a well-known type and a message
declared inside; a second file in package `a`; a file of package `b` that is only imported; and `timestamp.proto`. -/
def exReq : List GFile :=
  let inner := exMsg "a" "Outer_Inner"
  [{ name := asc "b/b", goImportPath := asc "example.com/b", pkg := asc "b", generate := false,
     messages := [.mk (exMsg "b" "B") false [] false []] },
   { name := asc "google/protobuf/timestamp", goImportPath := asc "google.golang.org/protobuf/types/known/timestamppb", pkg := asc "google.protobuf",
     generate := false, messages := [.mk (exKnown "timestamppb" "Timestamp") false [] false []] },
   { name := asc "a/second", goImportPath := asc "example.com/a", pkg := asc "a", generate := true,
     messages := [.mk (exMsg "a" "Pooled" true) false [] false []] },
   { name := asc "a/first", goImportPath := asc "example.com/a", pkg := asc "a", generate := true,
     messages := [.mk (exMsg "a" "Outer" true) false
       [exRef (exMsg "a" "Pooled" true), exRef (exMsg "b" "B") .message .repeated, exRef (exKnown "timestamppb" "Timestamp"), exRef inner .group,
        { exRef (exMsg "a" "Pooled" true) with oneof := some (asc "o", false), goIdent := ⟨asc "example.com/a", asc "Outer_P"⟩ },
        { goIdent := ⟨asc "example.com/a", asc "Outer_N"⟩, fullName := asc "n", kind := .int32, oneof := some (asc "o", false) },
        { goIdent := ⟨asc "example.com/a", asc "Outer_M"⟩, fullName := asc "m", kind := .message, card := .repeated,
          map := some (.string, .message, some (exMsg "a" "Pooled" true)) }]
       true [.mk inner false [] false [], .mk (exMsg "a" "Outer_MEntry") true [] false []]],
     services := [[⟨exMsg "a" "Outer" true, exMsg "b" "B"⟩]] }]

theorem request_of {req : List GFile}
    (h1 : ∀ f ∈ req, ∀ m ∈ GMsg.allIn f.messages, m.info.ident.importPath = f.goImportPath ∧ m.info.pkg = f.pkg)
    (h2 : ∀ f ∈ req, ∀ m ∈ GMsg.allIn f.messages, ∀ x ∈ m.fields, x.isOneof = true → x.goIdent.importPath = f.goImportPath)
    (h3 : ∀ f ∈ req, ∀ m ∈ GMsg.allIn f.messages, ∀ x ∈ m.fields, ∀ r ∈ x.refs,
      ∃ f' ∈ req, ∃ m' ∈ GMsg.allIn f'.messages, m'.mapEntry = false ∧ m'.info = r)
    (h4 : ∀ f ∈ req, ∀ s ∈ f.services, ∀ c ∈ s, ∀ r ∈ [c.input, c.output],
      ∃ f' ∈ req, ∃ m' ∈ GMsg.allIn f'.messages, m'.mapEntry = false ∧ m'.info = r) : Request req where
  ident f hf m hm := h1 f hf m ((mem_all_iff _ _).2 hm)
  wrapper f hf m hm := h2 f hf m ((mem_all_iff _ _).2 hm)
  refs f hf m hm x hx r hr := by
    obtain ⟨f', hf', m', hm', h⟩ := h3 f hf m ((mem_all_iff _ _).2 hm) x hx r hr
    exact ⟨f', hf', m', (mem_all_iff _ _).1 hm', h⟩
  rpcs f hf s hs c hc r hr := by
    obtain ⟨f', hf', m', hm', h⟩ := h4 f hf s hs c hc r hr
    exact ⟨f', hf', m', (mem_all_iff _ _).1 hm', h⟩

theorem inside_all {l : List GMsg} {P : GMsg → Prop} (h : ∀ m ∈ GMsg.allIn l, P m) : ∀ m, Inside l m → P m :=
  fun m hm => h m ((mem_all_iff _ _).2 hm)

theorem exReq_plain : Plain nothing exCfg allFeatures exReq where
  wrap := rfl
  request := request_of (by decide) (by decide) (by decide) (by decide)
  groups f hf := inside_all ((by decide : ∀ f ∈ exReq, ∀ m ∈ GMsg.allIn f.messages, ∀ x ∈ m.fields, x.kind = .group → x.card ≠ .repeated ∧ x.isOneof = false) f hf)
  complete := by unfold Complete; decide
  closed f hf f' hf' hg hp := .inl ((by decide : ∀ f ∈ exReq, ∀ f' ∈ exReq, f'.generate = true → f.pkg = f'.pkg → f.generate = true) f hf f' hf' hg hp)
  pools _ f hf m hm he hs := .inl ⟨inside_all ((by decide : ∀ f ∈ exReq, ∀ m ∈ GMsg.allIn f.messages, shouldPool exCfg.toConfig (some m.info.toMsgInfo) = true →
    f.generate = true) f hf) m hm hs, by decide⟩
  known f hf hp := inside_all ((by decide : ∀ f ∈ exReq, f.pkg ∈ localPackages exReq → ∀ m ∈ GMsg.allIn f.messages,
    GenFile.lookup GenFile.wellKnownTypes m.info.fullName = none) f hf hp)

/-- Two files are written, and the first file's code for `Outer` uses `PooledFromVTPool`, which is in the other file. -/
example : (generate exCfg allFeatures exReq).map (·.name) = [asc "a/second_vtproto.pb.go", asc "a/first_vtproto.pb.go"]
    ∧ ∀ o ∈ generate exCfg allFeatures exReq, o.name = asc "a/first_vtproto.pb.go" →
      .fromPool (exMsg "a" "Pooled").ident ∈ o.items ∧ .call (.ptr (knownType "timestamppb" "Timestamp")) .sizeVT ∈ o.items
      ∧ .message (.ptr (exMsg "b" "B").ident) ∈ o.items ∧ .expects ⟨asc "example.com/a", asc "Outer_N"⟩ (.marshalToSizedBufferVT false) ∈ o.items := by decide

example {o : GenOut} (ho : o ∈ generate exCfg allFeatures exReq) {i : Item} (hi : i ∈ o.items) :
    Links nothing exReq (generate exCfg allFeatures exReq) o i := generated_links_partial exReq_plain ho hi

/-! ### None of the conditions can be dropped -/

/-- Some file of the run refers to something that does not exist. -/
def Broken (cfg : GenConfig) (features : List Feature) (req : List GFile) : Prop :=
  ∃ o ∈ generate cfg features req, ∃ i ∈ o.items, ¬ Links nothing req (generate cfg features req) o i

theorem broken_call {cfg : GenConfig} {features : List Feature} {req : List GFile} (g : GoIdent) (meth : Meth)
    (h : ∃ o ∈ generate cfg features req, .call (.ptr g) meth ∈ o.items) (h1 : ¬ ∃ o ∈ generate cfg features req, .method g meth ∈ o.items)
    (h2 : ¬ (g ∈ knownMessages ∧ meth ∈ shippedMessage)) (h3 : ¬ (g ∈ knownWrappers ∧ meth ∈ shippedWrapper)) : Broken cfg features req := by
  obtain ⟨o, ho, hi⟩ := h
  refine ⟨o, ho, _, hi, ?_⟩
  rintro (h | h | h | h)
  · exact h1 h
  · exact h
  · exact h2 h
  · exact h3 h

theorem broken_pool {cfg : GenConfig} {features : List Feature} {req : List GFile} (g : GoIdent)
    (h : ∃ o ∈ generate cfg features req, .fromPool g ∈ o.items) (h1 : ¬ ∃ o ∈ generate cfg features req, .pool g ∈ o.items) : Broken cfg features req := by
  obtain ⟨o, ho, hi⟩ := h
  refine ⟨o, ho, _, hi, ?_⟩
  rintro (h | h)
  · exact h1 h
  · exact h

/-- One generated file of package `a` after others. -/
def exFile (messages : List GMsg) (others : List GFile := []) : List GFile :=
  others ++ [{ name := asc "a/a", goImportPath := asc "example.com/a", pkg := asc "a", generate := true, messages }]

/-- `complete` is needed: with `features=marshal` alone the code calls `SizeVT`, which nobody generates. -/
theorem marshal_without_size_broken : Broken exCfg [.marshal false] (exFile [.mk (exMsg "a" "A") false [] false []]) :=
  broken_call (exMsg "a" "A").ident .sizeVT (by decide) (by decide) (by decide) (by decide)

/-- `pools` is needed: messages with `option (vtproto.mempool) = true` are taken from their pool although the feature `pool` is not selected. -/
theorem mempool_without_pool_broken : Broken exCfg [.marshal false, .size, .unmarshal false]
    (exFile [.mk (exMsg "a" "A" true) false [exRef (exMsg "a" "B" true)] false [], .mk (exMsg "a" "B" true) false [] false []]) :=
  broken_pool (exMsg "a" "B").ident (by decide) (by decide)

/-- `pools` is needed also when the feature `pool` is selected: a pooled message of a package generated without it. -/
theorem mempool_of_other_package_broken : Broken exCfg allFeatures
    (exFile [.mk (exMsg "a" "A" true) false [exRef (exMsg "b" "B" true)] false []]
      [{ name := asc "b/b", goImportPath := asc "example.com/b", pkg := asc "b", generate := false, messages := [.mk (exMsg "b" "B" true) false [] false []] }]) :=
  broken_pool (exMsg "b" "B").ident (by decide) (by decide)

/-- `closed` is needed: the message is of the same proto package, hence taken to have the methods, although its file is not generated. -/
theorem same_package_not_generated_broken : Broken exCfg [.size]
    (exFile [.mk (exMsg "a" "A") false [exRef (exMsg "a" "B")] false []]
      [{ name := asc "a/b", goImportPath := asc "example.com/a", pkg := asc "a", generate := false, messages := [.mk (exMsg "a" "B") false [] false []] }]) :=
  broken_call (exMsg "a" "B").ident .sizeVT (by decide) (by decide) (by decide) (by decide)

/-- `groups` is needed: `m.F.SizeVT()` where `m.F` is a slice. -/
theorem repeated_group_broken : Broken exCfg allFeatures
    (exFile [.mk (exMsg "a" "A") false [exRef (exMsg "a" "A_G") .group .repeated] false [.mk (exMsg "a" "A_G") false [] false []]]) := by
  obtain ⟨o, ho, hi⟩ : ∃ o ∈ generate exCfg allFeatures
      (exFile [.mk (exMsg "a" "A") false [exRef (exMsg "a" "A_G") .group .repeated] false [.mk (exMsg "a" "A_G") false [] false []]]),
      .call (.slice (exMsg "a" "A_G").ident) .sizeVT ∈ o.items := by decide
  exact ⟨o, ho, _, hi, id⟩

/-- `groups` is needed: `m.F.UnmarshalVT(...)` where `m.F` is the interface of a oneof. -/
theorem group_in_oneof_broken : Broken exCfg allFeatures
    (exFile [.mk (exMsg "a" "A") false [exRef (exMsg "a" "A_G") .group .optional (some (asc "o", false))] false [.mk (exMsg "a" "A_G") false [] false []]]) := by
  obtain ⟨o, ho, hi⟩ : ∃ o ∈ generate exCfg allFeatures
      (exFile [.mk (exMsg "a" "A") false [exRef (exMsg "a" "A_G") .group .optional (some (asc "o", false))] false [.mk (exMsg "a" "A_G") false [] false []]]),
      .call .iface (.unmarshalVT false) ∈ o.items := by decide
  exact ⟨o, ho, _, hi, id⟩

/-- `known` is needed: without the flag `wrap`, the code for a file of package `google.protobuf` refers to types without a package. -/
theorem known_without_wrap_broken : Broken exCfg [.size]
    [{ name := asc "google/protobuf/struct", goImportPath := asc "google.golang.org/protobuf/types/known/structpb", pkg := asc "google.protobuf", generate := true,
       messages := [.mk (exKnown "structpb" "ListValue") false [exRef (exKnown "structpb" "Value")] false [], .mk (exKnown "structpb" "Value") false [] false []] }] :=
  broken_call ⟨[], asc "Value"⟩ .sizeVT (by decide) (by decide) (by decide) (by decide)

/-! ## C76: every message gets the methods of the selected features, each once, and nothing else does -/

/-- C76. A file declares a method iff one of the selected features promises it for one of the file's messages (at any depth, map entries excepted)
or for a member of one of their oneofs. -/
theorem declared_iff {cfg : GenConfig} {features : List Feature} {req : List GFile} (hw : cfg.wrap = false) (hR : Request req) (hK : NoKnown req)
    (name : Bytes) (g : GoIdent) (meth : Meth) :
    (∃ o ∈ generate cfg features req, o.name = name ++ asc "_vtproto.pb.go" ∧ .method g meth ∈ o.items)
      ↔ ∃ f ∈ req, f.generate = true ∧ f.name = name ∧ Promised cfg features f g meth := by
  have api_takes : ∀ {f : GFile} {m : GMsg} {φ : Feature}, (∃ meth, meth ∈ messageApi φ) → (takes ⟨f, cfg, localPackages req⟩ φ m = true ↔
      (φ = .pool → shouldPool cfg.toConfig (some m.info.toMsgInfo) = true)) := by
    intro f m φ h
    cases φ <;> simp_all [takes, GenFile.pools, messageApi]
  constructor
  · rintro ⟨o, ho, hn, hi⟩
    obtain ⟨f, hf, hg, _, hn', hitems⟩ := mem_generate ho
    refine ⟨f, hf, hg, append_cancel.1 (hn'.symm.trans hn), ?_⟩
    rcases (hitems _).1 hi with hi | ⟨φ, hφ, part, hp, hi⟩
    · rw [plain_types hw] at hi; cases hi
    · have hd := feature_decls (p := ⟨f, cfg, localPackages req⟩) (φ := φ) hw
        (fun m hm => (hR.ident f hf m (mem_msgs.1 hm).1).1) (fun m hm => hR.wrapper f hf m (mem_msgs.1 hm).1)
        (fun m hm => by rw [GenFile.isWellKnownType, hK f hf (mem_local.2 ⟨f, hf, hg, rfl⟩) m (mem_msgs.1 hm).1]; rfl)
      have hin := hd.mem_iff.1 (List.mem_filterMap.2 ⟨_, List.mem_flatten.2 ⟨part, hp, hi⟩, rfl⟩)
      obtain ⟨m, hm, hin⟩ := List.mem_flatMap.1 hin
      obtain ⟨h1, h2⟩ := List.mem_filter.1 hm
      exact ⟨m, (mem_msgs.1 h1).1, (mem_msgs.1 h1).2, φ, hφ, (api_takes ⟨_, declsFor_feature hin⟩).1 h2, mem_declsFor.1 hin⟩
  · rintro ⟨f, hf, hg, rfl, m, h1, h2, φ, hφ, h3, h4⟩
    have hin := mem_declsFor.2 h4
    have ht := (api_takes (f := f) ⟨_, declsFor_feature hin⟩).2 h3
    have hpart : emitOf ⟨f, cfg, localPackages req⟩ φ m ∈ generateFeature ⟨f, cfg, localPackages req⟩ φ := mem_feature.2 (.inl ⟨m, h1, h2, ht, rfl⟩)
    have hd := emit_decls (p := ⟨f, cfg, localPackages req⟩) (φ := φ) (m := m) hw (hR.ident f hf m h1).1 (hR.wrapper f hf m h1)
      (by rw [GenFile.isWellKnownType, hK f hf (mem_local.2 ⟨f, hf, hg, rfl⟩) m h1]; rfl)
    obtain ⟨i, hi, he⟩ := List.mem_filterMap.1 (hd.mem_iff.2 hin)
    cases i <;> simp only [declOf, Option.some.injEq, Prod.mk.injEq, reduceCtorEq] at he
    obtain ⟨rfl, rfl⟩ := he
    have hne : ¬ (features.flatMap (generateFeature ⟨f, cfg, localPackages req⟩) = [] ∧ cfg.allowEmpty = false) := fun h => by
      rw [List.flatMap_eq_nil_iff] at h
      rw [h.1 φ hφ] at hpart; cases hpart
    refine ⟨_, List.mem_filterMap.2 ⟨f, List.mem_filter.2 ⟨hf, hg⟩, if_neg hne⟩, rfl, ?_⟩
    exact List.mem_append_right _ (mem_parts.2 ⟨φ, hφ, _, hpart, hi⟩)

/-- C76. No method is declared twice, in one file or in two. -/
theorem declared_once {cfg : GenConfig} {features : List Feature} {req : List GFile} (hw : cfg.wrap = false) (hR : Request req) (hK : NoKnown req)
    (hf : features.Nodup) (hD : DistinctTypes req) : ((generate cfg features req).flatMap fun o => o.items.filterMap declOf).Nodup :=
  all_once hw hR hK hf hD

/-- The premises hold for the request above, in which 15 methods are declared for `Outer` and 7 for each of the members of its oneof. -/
example : ((generate exCfg allFeatures exReq).flatMap fun o => o.items.filterMap declOf).Nodup :=
  declared_once rfl exReq_plain.request exReq_plain.known (by decide) (by unfold DistinctTypes; decide)

example : (((generate exCfg allFeatures exReq).flatMap fun o => o.items.filterMap declOf).filter fun d => d.1 = (exMsg "a" "Outer").ident).length = 15
    ∧ (((generate exCfg allFeatures exReq).flatMap fun o => o.items.filterMap declOf).filter fun d => d.1 = ⟨asc "example.com/a", asc "Outer_N"⟩).length = 7 := by decide

/-- A message declared inside another gets its methods in the file of the outer one; a map entry gets none. -/
example : (∃ o ∈ generate exCfg allFeatures exReq, o.name = asc "a/first" ++ asc "_vtproto.pb.go" ∧ .method (exMsg "a" "Outer_Inner").ident .equalVT ∈ o.items)
    ∧ ¬ ∃ o ∈ generate exCfg allFeatures exReq, o.name = asc "a/first" ++ asc "_vtproto.pb.go" ∧ .method (exMsg "a" "Outer_MEntry").ident .equalVT ∈ o.items := by
  constructor
  · rw [declared_iff rfl exReq_plain.request exReq_plain.known]
    refine ⟨_, .tail _ (.tail _ (.tail _ (.head _))), rfl, rfl, _, .deep (.head _) (.here (.head _)), rfl, .equal, by decide, by decide, .inl ⟨rfl, by decide⟩⟩
  · decide

/-- A pool is declared iff the feature is selected and the message is to be pooled. -/
theorem pool_declared_iff {cfg : GenConfig} {features : List Feature} {req : List GFile} (hw : cfg.wrap = false) (g : GoIdent) :
    (∃ o ∈ generate cfg features req, .pool g ∈ o.items)
      ↔ .pool ∈ features ∧ ∃ f ∈ req, f.generate = true ∧ ∃ m, Inside f.messages m ∧ m.mapEntry = false
        ∧ shouldPool cfg.toConfig (some m.info.toMsgInfo) = true ∧ m.info.ident = g := by
  have nodecl : ∀ {p : GenFile} {φ : Feature} {m : GMsg}, .pool g ∈ emitOf p φ m → φ = .pool ∧ p.qualified m.info.ident = g := by
    intro p φ m h
    have sw : ∀ {x : Recv} {r : MsgRef} {meth : Meth}, ¬ .pool g ∈ (match p.wellKnownTypeMap r with
      | some g => [Item.call (x.conv (p.qualified g)) meth]
      | none => if p.isLocalMessage r then [.call x meth] else [.message x]) := by
      intro x r meth hi
      split at hi
      · simp at hi
      · split at hi <;> simp at hi
    have sf : ∀ x, ¬ .pool g ∈ genSizeField p x := by
      intro x hi; unfold genSizeField at hi
      split at hi <;> first | exact sw hi | cases hi
    have mf : ∀ s x, ¬ .pool g ∈ genMarshalField p s x := by
      intro s x hi; unfold genMarshalField at hi
      split at hi <;> first | exact sw hi | cases hi
    have ef : ∀ x, ¬ .pool g ∈ genEqualField p x := by
      intro x hi; unfold genEqualField at hi
      split at hi <;> first | exact sw hi | cases hi
    have cf : ∀ x, ¬ .pool g ∈ genCloneField p x := by
      intro x hi; unfold genCloneField at hi
      split at hi <;> first | exact sw hi | cases hi
    have uf : ∀ u x, ¬ .pool g ∈ genUnmarshalField p u m x := by
      intro u x hi; unfold genUnmarshalField at hi
      split at hi
      · exact sw hi
      · exact sw hi
      · rcases List.mem_append.1 hi with hi | hi
        · split at hi <;> simp at hi
        · exact sw hi
      · cases hi
    have pf : ∀ x, ¬ .pool g ∈ genPoolField p x := by
      intro x hi; unfold genPoolField at hi
      repeat' split at hi
      all_goals simp at hi
    have wk : ∀ meth x, wellKnownOneof p m meth x ≠ .pool g := by
      intro meth x; unfold wellKnownOneof; split <;> simp
    have ite1 : ∀ {c : Prop} [Decidable c] {a b : Item}, a ≠ .pool g → b ≠ .pool g → (if c then a else b) ≠ .pool g := by
      intro c _ a b h1 h2; split <;> assumption
    cases φ with
    | clone =>
      simp only [emitOf, genClone, List.mem_append, List.mem_flatMap, List.mem_map, List.mem_cons, reduceCtorEq, false_or] at h
      rcases h with (((((h | h) | h) | h) | h) | h)
      · cases h
      · split at h <;> simp at h
      · obtain ⟨x, _, h⟩ := h; exact absurd h (cf x)
      · obtain ⟨l, _, x, _, h⟩ := h; exact absurd h (ite1 (wk _ _) (by simp))
      · split at h <;> simp at h
      · obtain ⟨x, _, h⟩ := h; exact absurd h (cf x)
    | equal =>
      simp only [emitOf, genEqual, List.mem_append, List.mem_flatMap, List.mem_map, List.mem_cons, reduceCtorEq, false_or] at h
      rcases h with ((((h | h) | h) | h) | h)
      · cases h
      · obtain ⟨l, _, x, _, h⟩ := h; exact absurd h (ite1 (wk _ _) (by simp))
      · obtain ⟨x, _, h⟩ := h; exact absurd h (ef x)
      · split at h <;> simp at h
      · obtain ⟨x, _, h⟩ := h; exact absurd h (ef x)
    | grpc => cases h
    | marshal s =>
      simp only [emitOf, genMarshal, List.mem_append, List.mem_flatMap, List.mem_map, List.mem_cons, reduceCtorEq, false_or] at h
      rcases h with (((h | h) | h) | h)
      · cases h
      · obtain ⟨x, _, h⟩ := h; exact absurd h (mf s x)
      · obtain ⟨l, _, x, _, h⟩ := h
        unfold genMarshalOneof at h
        exact absurd h (ite1 (wk _ _) (ite1 (by simp) (by simp)))
      · obtain ⟨x, _, h | h⟩ := h
        · cases h
        · exact absurd h (mf s x)
    | pool =>
      simp only [emitOf, genPool, List.mem_append, List.mem_flatMap, List.mem_cons, reduceCtorEq, false_or, Item.pool.injEq] at h
      rcases h with (h | h) | h
      · rcases h with h | h
        · exact ⟨rfl, h.symm⟩
        · cases h
      · obtain ⟨x, _, h⟩ := h; exact absurd h (pf x)
      · cases h
    | size =>
      simp only [emitOf, genSize, List.mem_append, List.mem_flatMap, List.mem_map, List.mem_cons, List.cons_append, reduceCtorEq, false_or] at h
      rcases h with (h | h) | h
      · obtain ⟨x, _, h⟩ := h; exact absurd h (sf x)
      · obtain ⟨l, _, x, _, h⟩ := h; exact absurd h (ite1 (wk _ _) (by simp))
      · obtain ⟨x, _, h⟩ := h; exact absurd h (sf x)
    | unmarshal u =>
      simp only [emitOf, genUnmarshal, List.mem_append, List.mem_flatMap, List.mem_cons, reduceCtorEq, false_or] at h
      rcases h with (h | h) | h
      · cases h
      · obtain ⟨x, _, h⟩ := h; exact absurd h (uf u x)
      · split at h <;> simp at h
  constructor
  · rintro ⟨o, ho, hi⟩
    obtain ⟨f, hf, hg, _, _, hitems⟩ := mem_generate ho
    rcases (hitems _).1 hi with hi | ⟨φ, hφ, part, hp, hi⟩
    · rw [plain_types hw] at hi; cases hi
    · rcases mem_feature.1 hp with ⟨m, h1, h2, h3, rfl⟩ | ⟨_, _, rfl⟩
      · obtain ⟨rfl, he⟩ := nodecl hi
        rw [plain_qualified hw] at he
        exact ⟨hφ, f, hf, hg, m, h1, h2, h3, he⟩
      · obtain ⟨c, _, hi⟩ := List.mem_flatMap.1 hi
        unfold genRpc genAlloc at hi
        rcases List.mem_append.1 hi with hi | hi <;> (split at hi <;> simp at hi)
  · rintro ⟨hφ, f, hf, hg, m, h1, h2, h3, rfl⟩
    obtain ⟨o, ho, hs, _⟩ := generate_mem (cfg := cfg) hf hg hφ
      (mem_feature.2 (.inl ⟨m, h1, h2, (show takes ⟨f, cfg, localPackages req⟩ .pool m = true from h3), rfl⟩))
    refine ⟨o, ho, hs _ ?_⟩
    simp only [emitOf, genPool]
    rw [plain_qualified hw]
    exact .head _

example : ∃ o ∈ generate exCfg allFeatures exReq, .pool (exMsg "a" "Pooled").ident ∈ o.items :=
  (pool_declared_iff rfl _).2 ⟨by decide, _, .tail _ (.tail _ (.head _)), rfl, _, .here (.head _), rfl, by decide, rfl⟩

/-! ## C77: which files are written -/

/-- C77. The file for `f` is written iff protoc asked for it and empty files are allowed or one of the features applies. -/
theorem file_written_iff {cfg : GenConfig} {features : List Feature} {req : List GFile} (hN : (req.map (·.name)).Nodup) {f : GFile} (hf : f ∈ req) :
    (∃ o ∈ generate cfg features req, o.name = f.name ++ asc "_vtproto.pb.go")
      ↔ f.generate = true ∧ (cfg.allowEmpty = true ∨ ∃ φ ∈ features, Applies cfg f φ) := by
  constructor
  · rintro ⟨o, ho, hn⟩
    obtain ⟨f', hf', he⟩ := List.mem_filterMap.1 ho
    obtain ⟨h1, h2⟩ := List.mem_filter.1 hf'
    have hname := generateFile_some he
    have : f' = f := by
      have e : f'.name = f.name := append_cancel.1 (hname.symm.trans hn)
      exact List.inj_on_of_nodup_map hN h1 hf e
    subst this
    exact ⟨h2, written_iff.1 (by rw [he]; rfl)⟩
  · rintro ⟨hg, h⟩
    have := (written_iff (features := features) (p := ⟨f, cfg, localPackages req⟩)).2 h
    obtain ⟨o, ho⟩ := Option.isSome_iff_exists.1 this
    exact ⟨o, List.mem_filterMap.2 ⟨f, List.mem_filter.2 ⟨hf, hg⟩, ho⟩, generateFile_some ho⟩

/-- C77. Files are written in the order of the request, at most one for each. -/
theorem files_in_order (cfg : GenConfig) (features : List Feature) (req : List GFile) :
    ((generate cfg features req).map (·.name)).Sublist ((req.filter (·.generate)).map fun f => f.name ++ asc "_vtproto.pb.go") :=
  names_sublist cfg features req

/-- C77. No file is written twice. -/
theorem files_once (cfg : GenConfig) (features : List Feature) {req : List GFile} (hN : (req.map (·.name)).Nodup) :
    ((generate cfg features req).map (·.name)).Nodup := by
  refine (names_sublist cfg features req).nodup ?_
  have h1 : ((req.filter (·.generate)).map (·.name)).Nodup := hN.sublist (List.filter_sublist.map _)
  rw [show ((req.filter (·.generate)).map fun f => f.name ++ asc "_vtproto.pb.go")
    = ((req.filter (·.generate)).map (·.name)).map (· ++ asc "_vtproto.pb.go") by rw [List.map_map]; rfl]
  exact h1.map fun a b h => append_cancel.1 h

/-- With `features=pool` only the files with a pooled message are written, with `allow-empty` all. -/
example : (generate exCfg [.pool] exReq).map (·.name) = [asc "a/second_vtproto.pb.go", asc "a/first_vtproto.pb.go"]
    ∧ (generate exCfg [.grpc] exReq).map (·.name) = [asc "a/first_vtproto.pb.go"]
    ∧ (generate { exCfg with allowEmpty := true } [.grpc] exReq).map (·.name) = [asc "a/second_vtproto.pb.go", asc "a/first_vtproto.pb.go"] := by decide

example : ∃ o ∈ generate exCfg [.grpc] exReq, o.name = asc "a/first" ++ asc "_vtproto.pb.go" :=
  (file_written_iff (by decide) (.tail _ (.tail _ (.tail _ (.head _))))).2 ⟨rfl, .inr ⟨.grpc, by decide, by simp [Applies]⟩⟩

/-! ## C78: what the content of a file depends on -/

/-- C78. What is generated for a file depends only on the file, the flags, the features and on which of the packages it refers to are among those
generated in the same run: all other files of the request may be added, left out or reordered. -/
theorem file_content_local {cfg : GenConfig} {features : List Feature} {req req' : List GFile} {f : GFile}
    (hN : (req.map (·.name)).Nodup) (hN' : (req'.map (·.name)).Nodup) (hf : f ∈ req) (hf' : f ∈ req') (hg : f.generate = true)
    (h : ∀ pkg, RefersTo f pkg → (pkg ∈ localPackages req ↔ pkg ∈ localPackages req')) :
    (generate cfg features req).filter (fun o => o.name = f.name ++ asc "_vtproto.pb.go")
      = (generate cfg features req').filter (fun o => o.name = f.name ++ asc "_vtproto.pb.go") := by
  rw [generate_filter hN hf hg, generate_filter hN' hf' hg, generateFile_congr features h]

/-- The file alone, with what it imports in another order. -/
example : (generate exCfg allFeatures exReq).filter (fun o => o.name = asc "a/first" ++ asc "_vtproto.pb.go")
    = (generate exCfg allFeatures (exReq.drop 3 ++ exReq.take 2)).filter (fun o => o.name = asc "a/first" ++ asc "_vtproto.pb.go") :=
  file_content_local (f := exReq[3]) (by decide) (by decide) (.tail _ (.tail _ (.tail _ (.head _)))) (.head _) rfl (fun pkg _ => by
    rw [show localPackages exReq = [asc "a", asc "a"] by decide, show localPackages (exReq.drop 3 ++ exReq.take 2) = [asc "a"] by decide]
    simp)

/-- It does depend on whether the packages referred to are generated in the same run: `proto.Size` is used for messages of others. -/
theorem file_content_depends : ¬ ∀ (cfg : GenConfig) (features : List Feature) (req req' : List GFile) (f : GFile),
    (req.map (·.name)).Nodup → (req'.map (·.name)).Nodup → f ∈ req → f ∈ req' → f.generate = true →
    (generate cfg features req).filter (fun o => o.name = f.name ++ asc "_vtproto.pb.go")
      = (generate cfg features req').filter (fun o => o.name = f.name ++ asc "_vtproto.pb.go") := by
  intro h
  let b : Bool → GFile := fun gen => { name := asc "b/b", goImportPath := asc "example.com/b", pkg := asc "b", generate := gen, messages := [.mk (exMsg "b" "B") false [] false []] }
  let a : GFile := { name := asc "a/a", goImportPath := asc "example.com/a", pkg := asc "a", generate := true, messages := [.mk (exMsg "a" "A") false [exRef (exMsg "b" "B")] false []] }
  have := congrArg (fun l => l.map (·.items)) (h exCfg [.size] [a, b true] [a, b false] a (by decide) (by decide) (.head _) (.head _) rfl)
  revert this
  decide

/-! ## C79: package `types/known` -/

/-- C79. Under the conditions of `Wrapped`, the files written with the flag `wrap` link. -/
theorem wrapped_links {cfg : GenConfig} {features : List Feature} {req : List GFile} (h : Wrapped cfg features req)
    {o : GenOut} (ho : o ∈ generate cfg features req) {i : Item} (hi : i ∈ o.items) : Links nothing req (generate cfg features req) o i :=
  wrap_links h ho hi

/-- A file of package `google.protobuf`. -/
def exKnownFile (file dir : String) (messages : List GMsg) : GFile :=
  { name := asc "google/protobuf/" ++ asc file, goImportPath := asc "google.golang.org/protobuf/types/known/" ++ asc dir, pkg := asc "google.protobuf",
    generate := true, messages, wrapPath := asc "github.com/planetscale/vtprotobuf/types/known/" ++ asc dir }

/-- A scalar field of a well-known type. -/
def exKnownField (dir msg name goName : String) (kind : Kind) (card : Card := .optional) (oneof : Option (Bytes × Bool) := none) (message : Option MsgRef := none) : GField :=
  { goIdent := ⟨asc "google.golang.org/protobuf/types/known/" ++ asc dir, asc msg ++ [95] ++ asc goName⟩,
    fullName := asc "google.protobuf." ++ asc msg ++ [46] ++ asc name, kind, card, oneof, message }

/-- A message of `wrappers.proto`. -/
def exWrapper (msg : String) (kind : Kind) : GMsg := .mk (exKnown "wrapperspb" msg) false [exKnownField "wrapperspb" msg "value" "Value" kind] false []

/-- The request of `make gen-wkt`, `Makefile:37-49`: the seven files as shipped with protobuf. -/
def knownReq : List GFile :=
  let value := fun name goName kind message => exKnownField "structpb" "Value" name goName kind .optional (some (asc "kind", false)) message
  [exKnownFile "any" "anypb" [.mk (exKnown "anypb" "Any") false [exKnownField "anypb" "Any" "type_url" "TypeUrl" .string, exKnownField "anypb" "Any" "value" "Value" .bytes] false []],
   exKnownFile "duration" "durationpb" [.mk (exKnown "durationpb" "Duration") false
     [exKnownField "durationpb" "Duration" "seconds" "Seconds" .int64, exKnownField "durationpb" "Duration" "nanos" "Nanos" .int32] false []],
   exKnownFile "empty" "emptypb" [.mk (exKnown "emptypb" "Empty") false [] false []],
   exKnownFile "field_mask" "fieldmaskpb" [.mk (exKnown "fieldmaskpb" "FieldMask") false [exKnownField "fieldmaskpb" "FieldMask" "paths" "Paths" .string .repeated] false []],
   exKnownFile "timestamp" "timestamppb" [.mk (exKnown "timestamppb" "Timestamp") false
     [exKnownField "timestamppb" "Timestamp" "seconds" "Seconds" .int64, exKnownField "timestamppb" "Timestamp" "nanos" "Nanos" .int32] false []],
   exKnownFile "wrappers" "wrapperspb" [exWrapper "DoubleValue" .double, exWrapper "FloatValue" .float, exWrapper "Int64Value" .int64,
     exWrapper "UInt64Value" .uint64, exWrapper "Int32Value" .int32, exWrapper "UInt32Value" .uint32, exWrapper "BoolValue" .bool,
     exWrapper "StringValue" .string, exWrapper "BytesValue" .bytes],
   exKnownFile "struct" "structpb" [
     .mk (exKnown "structpb" "Struct") false [{ exKnownField "structpb" "Struct" "fields" "Fields" .message .repeated with
       map := some (.string, .message, some (exKnown "structpb" "Value")) }] false [.mk (exKnown "structpb" "Struct_FieldsEntry") true [] false []],
     .mk (exKnown "structpb" "Value") false [value "null_value" "NullValue" .enum none, value "number_value" "NumberValue" .double none,
       value "string_value" "StringValue" .string none, value "bool_value" "BoolValue" .bool none,
       value "struct_value" "StructValue" .message (some (exKnown "structpb" "Struct")), value "list_value" "ListValue" .message (some (exKnown "structpb" "ListValue"))] false [],
     .mk (exKnown "structpb" "ListValue") false [exKnownField "structpb" "ListValue" "values" "Values" .message .repeated none (some (exKnown "structpb" "Value"))] false []]]

/-- `wrap=true`. -/
def wrapCfg : GenConfig := { exCfg with wrap := true }

theorem knownReq_flat : ∀ f ∈ knownReq, f.msgs = f.messages := by
  intro f hf
  simp only [knownReq, List.mem_cons, List.not_mem_nil, or_false] at hf
  rcases hf with rfl | rfl | rfl | rfl | rfl | rfl | rfl <;> rfl

theorem knownReq_wrapped : Wrapped wrapCfg allFeatures knownReq where
  wrap := rfl
  request := request_of (by decide) (by decide) (by decide) (by decide)
  groups f hf := inside_all ((by decide : ∀ f ∈ knownReq, ∀ m ∈ GMsg.allIn f.messages, ∀ x ∈ m.fields, x.kind = .group → x.card ≠ .repeated ∧ x.isOneof = false) f hf)
  complete := by unfold Complete; decide
  path := by decide
  flat f hf _ m hm := by
    have e := knownReq_flat f hf
    constructor
    · intro h; rw [← e] at h; exact (mem_msgs.1 h).2
    · intro h; rw [← e]; exact mem_msgs.2 ⟨hm, h⟩
  known f hf _ m hm := Option.map_eq_some_iff.1 ((by decide : ∀ f ∈ knownReq, ∀ m ∈ f.messages,
    (GenFile.lookup GenFile.wellKnownTypes m.info.fullName).map (·.goName) = some m.info.ident.goName) f hf m hm)
  members f hf _ m hm x hx ho :=
    let h := (by decide : ∀ f ∈ knownReq, ∀ m ∈ f.messages, ∀ x ∈ m.fields, x.oneof.isSome = true →
      x.isOneof = true ∧ (GenFile.lookup GenFile.wellKnownFields x.fullName).map (·.goName) = some x.goIdent.goName) f hf m hm x hx ho
    ⟨h.1, Option.map_eq_some_iff.1 h.2⟩
  extensions := by decide
  own := by decide
  pools f hf := inside_all ((by decide : ∀ f ∈ knownReq, ∀ m ∈ GMsg.allIn f.messages, shouldPool wrapCfg.toConfig (some m.info.toMsgInfo) = false) f hf)

example {o : GenOut} (ho : o ∈ generate wrapCfg allFeatures knownReq) {i : Item} (hi : i ∈ o.items) :
    Links nothing knownReq (generate wrapCfg allFeatures knownReq) o i := wrapped_links knownReq_wrapped ho hi

/-- The methods of the types of package `types/known`. -/
def shipped : List (GoIdent × Meth) :=
  knownMessages.flatMap (fun g => shippedMessage.map fun meth => (g, meth)) ++ knownWrappers.flatMap fun g => shippedWrapper.map fun meth => (g, meth)

theorem shipped_generated : (∀ d ∈ (generate wrapCfg allFeatures knownReq).flatMap fun o => o.items.filterMap declOf, d ∈ shipped)
    ∧ (∀ d ∈ shipped, d ∈ (generate wrapCfg allFeatures knownReq).flatMap fun o => o.items.filterMap declOf)
    ∧ ((generate wrapCfg allFeatures knownReq).flatMap fun o => o.items.filterMap declOf).length = shipped.length := by decide +kernel

/-- C79. `make gen-wkt` gives the types of `types/known` the methods the code generated for other packages relies on, and no others. -/
theorem known_api (g : GoIdent) (meth : Meth) : (∃ o ∈ generate wrapCfg allFeatures knownReq, .method g meth ∈ o.items)
    ↔ (g ∈ knownMessages ∧ meth ∈ shippedMessage) ∨ (g ∈ knownWrappers ∧ meth ∈ shippedWrapper) := by
  have h1 : (∃ o ∈ generate wrapCfg allFeatures knownReq, .method g meth ∈ o.items)
      ↔ (g, meth) ∈ (generate wrapCfg allFeatures knownReq).flatMap fun o => o.items.filterMap declOf := by
    rw [List.mem_flatMap]
    constructor
    · rintro ⟨o, ho, h⟩; exact ⟨o, ho, List.mem_filterMap.2 ⟨_, h, rfl⟩⟩
    · rintro ⟨o, ho, h⟩
      obtain ⟨i, hi, he⟩ := List.mem_filterMap.1 h
      cases i <;> simp only [declOf, Option.some.injEq, Prod.mk.injEq, reduceCtorEq] at he
      obtain ⟨rfl, rfl⟩ := he
      exact ⟨o, ho, hi⟩
  have h2 : (g, meth) ∈ shipped ↔ (g ∈ knownMessages ∧ meth ∈ shippedMessage) ∨ (g ∈ knownWrappers ∧ meth ∈ shippedWrapper) := by
    simp only [shipped, List.mem_append, List.mem_flatMap, List.mem_map, Prod.mk.injEq]
    constructor
    · rintro (⟨_, h, _, h', rfl, rfl⟩ | ⟨_, h, _, h', rfl, rfl⟩)
      · exact .inl ⟨h, h'⟩
      · exact .inr ⟨h, h'⟩
    · rintro (⟨h, h'⟩ | ⟨h, h'⟩)
      · exact .inl ⟨_, h, _, h', rfl, rfl⟩
      · exact .inr ⟨_, h, _, h', rfl, rfl⟩
  rw [h1, ← h2]
  exact ⟨shipped_generated.1 _, shipped_generated.2.1 _⟩

/-- The wrapper types: one for each message type and each member of the oneof of `Value`. -/
theorem known_types (g : GoIdent) : (∃ o ∈ generate wrapCfg allFeatures knownReq, ∃ i ∈ o.items, ∃ orig, i = .type g orig)
    ↔ g ∈ knownMessages ∨ g ∈ knownWrappers := by
  have h1 : (∃ o ∈ generate wrapCfg allFeatures knownReq, ∃ i ∈ o.items, ∃ orig, i = .type g orig)
      ↔ g ∈ (generate wrapCfg allFeatures knownReq).flatMap fun o => o.items.filterMap fun i => match i with | .type g _ => some g | _ => none := by
    rw [List.mem_flatMap]
    constructor
    · rintro ⟨o, ho, i, h, orig, rfl⟩; exact ⟨o, ho, List.mem_filterMap.2 ⟨_, h, rfl⟩⟩
    · rintro ⟨o, ho, h⟩
      obtain ⟨i, hi, he⟩ := List.mem_filterMap.1 h
      cases i <;> simp only [Option.some.injEq, reduceCtorEq] at he
      subst he
      exact ⟨o, ho, _, hi, _, rfl⟩
  have h2 : (generate wrapCfg allFeatures knownReq).flatMap (fun o => o.items.filterMap fun i => match i with | .type g _ => some g | _ => none)
      ⊆ knownMessages ++ knownWrappers := by decide +kernel
  have h3 : knownMessages ++ knownWrappers ⊆
    (generate wrapCfg allFeatures knownReq).flatMap (fun o => o.items.filterMap fun i => match i with | .type g _ => some g | _ => none) := by decide +kernel
  rw [h1, ← List.mem_append]
  exact ⟨fun h => h2 h, fun h => h3 h⟩

/-- `flat` is needed: there is no wrapper type for a message declared inside another. -/
theorem nested_wrapper_broken : Broken wrapCfg [.size] [exKnownFile "any" "anypb" [.mk (exKnown "anypb" "Any") false [] false
    [.mk (exKnown "anypb" "Any_Inner") false [] false []]]] := by
  let req := [exKnownFile "any" "anypb" [.mk (exKnown "anypb" "Any") false [] false [.mk (exKnown "anypb" "Any_Inner") false [] false []]]]
  have h : ∃ o ∈ generate wrapCfg [.size] req, .method (knownType "anypb" "Any_Inner") .sizeVT ∈ o.items := by decide
  obtain ⟨o, ho, hi⟩ := h
  refine ⟨o, ho, _, hi, ?_⟩
  rintro ⟨_, h | h | h⟩
  · obtain ⟨f, hf, m, hm, _, he⟩ := h
    exact (by decide : ∀ f ∈ req, ∀ m ∈ GMsg.allIn f.messages, m.info.ident ≠ knownType "anypb" "Any_Inner") f hf m ((mem_all_iff _ _).2 hm) he
  · obtain ⟨f, hf, m, hm, _, x, hx, _, he⟩ := h
    exact (by decide : ∀ f ∈ req, ∀ m ∈ GMsg.allIn f.messages, ∀ x ∈ m.fields, x.goIdent ≠ knownType "anypb" "Any_Inner") f hf m ((mem_all_iff _ _).2 hm) x hx he
  · obtain ⟨o, ho, g', h⟩ := h
    exact (by decide : ∀ o ∈ generate wrapCfg [.size] req, ∀ i ∈ o.items, (match i with | .type g _ => some g | _ => none) ≠ some (knownType "anypb" "Any_Inner")) o ho _ h rfl

/-- `members` is needed: the generator panics on a oneof of a well-known type that is not in its table. -/
theorem unknown_member_crashes : Broken wrapCfg [.size] [exKnownFile "any" "anypb" [.mk (exKnown "anypb" "Any") false
    [exKnownField "anypb" "Any" "value" "Value" .bytes .optional (some (asc "o", false))] false []]] := by
  have h : ∃ o ∈ generate wrapCfg [.size] [exKnownFile "any" "anypb" [.mk (exKnown "anypb" "Any") false
    [exKnownField "anypb" "Any" "value" "Value" .bytes .optional (some (asc "o", false))] false []]], Item.crash ∈ o.items := by decide
  obtain ⟨o, ho, hi⟩ := h
  exact ⟨o, ho, _, hi, id⟩

/-- `known` is needed: the code for another package's message calls the methods on the original type, which has none. -/
theorem foreign_wrapper_broken : Broken wrapCfg [.size] (exFile [.mk (exMsg "a" "A") false [exRef (exMsg "a" "B")] false [], .mk (exMsg "a" "B") false [] false []]) :=
  broken_call (exMsg "a" "B").ident .sizeVT (by decide) (by decide) (by decide) (by decide)

end Vtp.Props
