import Verif.Spec.Generate
/-! # Lemmas on the generator -/

namespace Vtp

mutual
theorem mem_walk (take : GMsg → Bool) (emit : GMsg → List Item) (part : List Item) : (m : GMsg) →
    (part ∈ walk take emit m ↔ ∃ n, (n = m ∨ Inside m.nested n) ∧ n.mapEntry = false ∧ take n = true ∧ emit n = part)
  | .mk i e f x ns => by
    rw [walk, List.mem_append, mem_walkAll take emit part ns]
    constructor
    · rintro (⟨n, h1, h2⟩ | h)
      · exact ⟨n, .inr h1, h2⟩
      · split at h
        · next hc =>
          simp only [Bool.and_eq_true, Bool.not_eq_true'] at hc
          exact ⟨_, .inl rfl, hc.1, hc.2, (List.mem_singleton.1 h).symm⟩
        · cases h
    · rintro ⟨n, rfl | h1, h2, h3, h4⟩
      · right
        rw [if_pos (by simp only [GMsg.mapEntry] at h2; rw [h3, h2]; rfl)]
        exact List.mem_singleton.2 h4.symm
      · exact .inl ⟨n, h1, h2, h3, h4⟩
theorem mem_walkAll (take : GMsg → Bool) (emit : GMsg → List Item) (part : List Item) : (l : List GMsg) →
    (part ∈ walkAll take emit l ↔ ∃ n, Inside l n ∧ n.mapEntry = false ∧ take n = true ∧ emit n = part)
  | [] => by
    rw [walkAll]
    constructor
    · intro h; cases h
    · rintro ⟨n, h, _⟩; cases h <;> simp_all
  | m :: ms => by
    rw [walkAll, List.mem_append, mem_walk take emit part m, mem_walkAll take emit part ms]
    constructor
    · rintro (⟨n, rfl | h, h2⟩ | ⟨n, h, h2⟩)
      · exact ⟨_, .here (.head _), h2⟩
      · exact ⟨n, .deep (.head _) h, h2⟩
      · exact ⟨n, by cases h with
          | here h => exact .here (.tail _ h)
          | deep h h' => exact .deep (.tail _ h) h', h2⟩
    · rintro ⟨n, h, h2⟩
      cases h with
      | here h =>
        cases h with
        | head => exact .inl ⟨_, .inl rfl, h2⟩
        | tail _ h => exact .inr ⟨n, .here h, h2⟩
      | deep h h' =>
        cases h with
        | head => exact .inl ⟨_, .inr h', h2⟩
        | tail _ h => exact .inr ⟨n, .deep h h', h2⟩
end

/-- What a feature emits for one message. -/
def emitOf (p : GenFile) : Feature → GMsg → List Item
  | .clone => genClone p
  | .equal => genEqual p
  | .grpc => fun _ => []
  | .marshal s => genMarshal p s
  | .pool => genPool p
  | .size => genSize p
  | .unmarshal u => genUnmarshal p u

/-- The messages for which a feature emits something. -/
def takes (p : GenFile) : Feature → GMsg → Bool
  | .pool => fun m => p.pools (some m.info)
  | .grpc => fun _ => false
  | _ => fun _ => true

theorem mem_feature {p : GenFile} {φ : Feature} {part : List Item} : part ∈ generateFeature p φ ↔
    (∃ m, Inside p.file.messages m ∧ m.mapEntry = false ∧ takes p φ m = true ∧ emitOf p φ m = part)
    ∨ (φ = .grpc ∧ p.file.services ≠ [] ∧ part = p.file.services.flatten.flatMap (genRpc p)) := by
  cases φ <;> simp only [generateFeature, mem_walkAll, takes, emitOf, reduceCtorEq, false_and, or_false, true_and]
  simp only [Bool.false_eq_true, false_and, and_false, exists_false, false_or, List.length_eq_zero_iff]
  split
  · next h => simp [h]
  · next h => simp [h]

theorem mem_parts {features : List Feature} {p : GenFile} {x : Item} : x ∈ (features.flatMap (generateFeature p)).flatten ↔
    ∃ φ ∈ features, ∃ part ∈ generateFeature p φ, x ∈ part := by
  simp only [List.mem_flatten, List.mem_flatMap]
  constructor
  · rintro ⟨l, ⟨φ, h1, h2⟩, h3⟩; exact ⟨φ, h1, l, h2, h3⟩
  · rintro ⟨φ, h1, l, h2, h3⟩; exact ⟨l, ⟨φ, h1, h2⟩, h3⟩

/-- What is in a file that is written. -/
theorem mem_generate {cfg : GenConfig} {features : List Feature} {req : List GFile} {o : GenOut} (h : o ∈ generate cfg features req) :
    ∃ f ∈ req, f.generate = true ∧ o.pkg = (⟨f, cfg, localPackages req⟩ : GenFile).outPkg ∧ o.name = f.name ++ asc "_vtproto.pb.go"
      ∧ ∀ x, x ∈ o.items ↔ x ∈ genTypes ⟨f, cfg, localPackages req⟩
        ∨ ∃ φ ∈ features, ∃ part ∈ generateFeature ⟨f, cfg, localPackages req⟩ φ, x ∈ part := by
  rw [generate, List.mem_filterMap] at h
  obtain ⟨f, hf, h⟩ := h
  rw [List.mem_filter] at hf
  refine ⟨f, hf.1, hf.2, ?_⟩
  unfold generateFile at h
  simp only at h
  split at h
  · cases h
  · cases h
    exact ⟨rfl, rfl, fun x => by simp only [List.mem_append, mem_parts]⟩

/-- What a feature emits for a file of the request is in a file that is written. -/
theorem generate_mem {cfg : GenConfig} {features : List Feature} {req : List GFile} {f : GFile} (hf : f ∈ req) (hg : f.generate = true)
    {φ : Feature} (hφ : φ ∈ features) {part : List Item} (hp : part ∈ generateFeature ⟨f, cfg, localPackages req⟩ φ) :
    ∃ o ∈ generate cfg features req, (∀ x ∈ part, x ∈ o.items) ∧ ∀ x ∈ genTypes ⟨f, cfg, localPackages req⟩, x ∈ o.items := by
  have hne : features.flatMap (generateFeature ⟨f, cfg, localPackages req⟩) ≠ [] := by
    intro h
    have := List.mem_flatMap.2 ⟨φ, hφ, hp⟩
    rw [h] at this; cases this
  refine ⟨⟨f.name ++ asc "_vtproto.pb.go", (⟨f, cfg, localPackages req⟩ : GenFile).outPkg, genTypes ⟨f, cfg, localPackages req⟩ ++ (features.flatMap (generateFeature ⟨f, cfg, localPackages req⟩)).flatten⟩, ?_, ?_⟩
  · rw [generate, List.mem_filterMap]
    refine ⟨f, List.mem_filter.2 ⟨hf, hg⟩, ?_⟩
    unfold generateFile
    simp only
    rw [if_neg (fun h => hne h.1)]
  · exact ⟨fun x hx => List.mem_append_right _ (mem_parts.2 ⟨φ, hφ, part, hp, hx⟩), fun x hx => List.mem_append_left _ hx⟩

theorem mem_oneofs {m : GMsg} {l : List GField} {f : GField} (hl : l ∈ m.oneofs) (hf : f ∈ l) : f ∈ m.fields ∧ f.isOneof = true := by
  rw [GMsg.oneofs, List.mem_map] at hl
  obtain ⟨o, ho, rfl⟩ := hl
  rw [List.mem_eraseDups, List.mem_map] at ho
  obtain ⟨f', hf', rfl⟩ := ho
  rw [List.mem_filter] at hf hf'
  refine ⟨hf.1, ?_⟩
  have := hf'.2
  have he : f.oneof = f'.oneof := by simpa using hf.2
  unfold GField.isOneof at this ⊢
  rw [he]; exact this

/-! ## No wrappers -/

section plain
variable {f : GFile} {cfg : GenConfig} {loc : List Bytes} (hw : cfg.wrap = false)
include hw

theorem plain_outPkg : (⟨f, cfg, loc⟩ : GenFile).outPkg = f.goImportPath := by simp [GenFile.outPkg, hw]

theorem plain_bare (n : Bytes) : (⟨f, cfg, loc⟩ : GenFile).bare n = ⟨f.goImportPath, n⟩ := by simp [GenFile.bare, GenFile.outPkg, hw]

theorem plain_qualified (g : GoIdent) : (⟨f, cfg, loc⟩ : GenFile).qualified g = g := by
  rw [GenFile.qualified, plain_bare hw, hw]
  simp only [Bool.false_eq_true, if_false]
  split
  · next h => rw [← h]
  · rfl

theorem plain_types : genTypes ⟨f, cfg, loc⟩ = [] := by simp [genTypes, hw]
end plain

theorem lookup_known {n : Bytes} {g : GoIdent} (h : GenFile.lookup GenFile.wellKnownTypes n = some g) : g ∈ knownMessages := by
  rw [GenFile.lookup, Option.map_eq_some_iff] at h
  obtain ⟨e, he, rfl⟩ := h
  have := List.mem_of_find?_eq_some he
  have key : ∀ e ∈ GenFile.wellKnownTypes, e.2 ∈ knownMessages := by decide
  exact key e this

/-- For the selected features the methods of the messages of generated files are declared. -/
theorem emits_api {p : GenFile} {φ : Feature} {m : GMsg} (hw : p.cfg.wrap = false) (hi : m.info.ident.importPath = p.file.goImportPath)
    {meth : Meth} (h : meth ∈ messageApi φ) : .method m.info.ident meth ∈ emitOf p φ m := by
  obtain ⟨f, cfg, loc⟩ := p
  have hb : (⟨f, cfg, loc⟩ : GenFile).bare m.info.ident.goName = m.info.ident := by
    rw [plain_bare hw]; simp only at hi; rw [← hi]
  have hq := plain_qualified (f := f) (loc := loc) hw m.info.ident
  simp only at hw
  cases φ <;> simp only [messageApi, List.mem_cons, List.not_mem_nil, or_false] at h <;>
    simp only [emitOf, genClone, genEqual, genMarshal, genPool, genSize, genUnmarshal, hb, hq, hw, Bool.false_eq_true, if_false]
  all_goals first
    | (rcases h with rfl | rfl | rfl <;> simp)
    | (rcases h with rfl | rfl <;> simp)
    | (rcases h with rfl; simp)

/-- For the selected features the methods of the wrapper types are declared. -/
theorem emits_wrapper {p : GenFile} {φ : Feature} {m : GMsg} {x : GField} (hw : p.cfg.wrap = false) (hx : x ∈ m.fields) (ho : x.isOneof = true)
    (hi : x.goIdent.importPath = p.file.goImportPath) (hk : p.isWellKnownType m.info = false)
    {meth : Meth} (h : meth ∈ wrapperApi φ) : .method x.goIdent meth ∈ emitOf p φ m := by
  obtain ⟨f, cfg, loc⟩ := p
  have hb : (⟨f, cfg, loc⟩ : GenFile).bare x.goIdent.goName = x.goIdent := by
    rw [plain_bare hw]; simp only at hi; rw [← hi]
  have hq := plain_qualified (f := f) (loc := loc) hw x.goIdent
  have hxo : x ∈ m.fields.filter (·.isOneof) := List.mem_filter.2 ⟨hx, ho⟩
  cases φ <;> simp only [wrapperApi, List.mem_cons, List.not_mem_nil, or_false] at h
  · subst h
    refine List.mem_append_right _ (List.mem_flatMap.2 ⟨x, hxo, ?_⟩)
    rw [hb]; exact .head _
  · subst h
    refine List.mem_append_right _ (List.mem_flatMap.2 ⟨x, hxo, ?_⟩)
    rw [hb]; exact .head _
  · refine List.mem_append_right _ (List.mem_flatMap.2 ⟨x, hxo, ?_⟩)
    simp only [hb]
    rcases h with rfl | rfl <;> simp
  · subst h
    refine List.mem_append_right _ (List.mem_flatMap.2 ⟨x, hxo, ?_⟩)
    rw [genSizeOneofType, hk, Bool.false_and, if_neg (by decide), hq]; exact .head _

/-- A message of the request, referred to by a field or a service. -/
def Referred (req : List GFile) (r : MsgRef) : Prop := ∃ f ∈ req, ∃ m, Inside f.messages m ∧ m.mapEntry = false ∧ m.info = r

section links
variable {before : Before} {cfg : GenConfig} {features : List Feature} {req : List GFile}

theorem mem_local {pkg : Bytes} : pkg ∈ localPackages req ↔ ∃ f ∈ req, f.generate = true ∧ f.pkg = pkg := by
  simp [localPackages, and_assoc]

theorem referred_isMessage {r : MsgRef} (h : Referred req r) : IsMessage req r.ident := by
  obtain ⟨f, hf, m, h1, h2, rfl⟩ := h
  exact ⟨f, hf, m, h1, h2, rfl⟩

/-- Messages of local packages have the methods of the selected features. -/
theorem local_has (hP : Plain before cfg features req) {r : MsgRef} (hr : Referred req r) (hl : r.pkg ∈ localPackages req) {φ : Feature}
    (hφ : φ ∈ features) (hne : φ ≠ .pool) {meth : Meth} (hm : meth ∈ messageApi φ) : HasMethod before (generate cfg features req) r.ident meth := by
  obtain ⟨f, hf, m, h1, h2, rfl⟩ := hr
  obtain ⟨f', hf', hg', hp'⟩ := mem_local.1 hl
  have hpk := (hP.request.ident f hf m h1).2
  rcases hP.closed f hf f' hf' hg' (by rw [← hpk, hp']) with hg | hb
  · have ht : takes ⟨f, cfg, localPackages req⟩ φ m = true := by
      cases φ <;> first | rfl | exact absurd rfl hne | cases hm
    obtain ⟨o, ho, hs, _⟩ := generate_mem (cfg := cfg) hf hg hφ (mem_feature.2 (.inl ⟨m, h1, h2, ht, rfl⟩))
    exact .inl ⟨o, ho, hs _ (emits_api hP.wrap (hP.request.ident f hf m h1).1 hm)⟩
  · exact .inr (.inl (hb m h1 h2 φ hφ meth hm))

/-- The switch on the type of a message: well-known, local, or neither. -/
theorem switch_links (hP : Plain before cfg features req) {f : GFile} {r : MsgRef} (hr : Referred req r) {φ : Feature}
    (hφ : φ ∈ features) (hne : φ ≠ .pool) {meth : Meth} (hm : meth ∈ messageApi φ) (hs : meth ∈ shippedMessage) {o : GenOut} {x : Item}
    (hx : x ∈ (match (⟨f, cfg, localPackages req⟩ : GenFile).wellKnownTypeMap r with
      | some g => [Item.call ((Recv.ptr r.ident).conv ((⟨f, cfg, localPackages req⟩ : GenFile).qualified g)) meth]
      | none => if (⟨f, cfg, localPackages req⟩ : GenFile).isLocalMessage r then [.call (.ptr r.ident) meth] else [.message (.ptr r.ident)])) :
    Links before req (generate cfg features req) o x := by
  split at hx
  · next g hg =>
    rw [List.mem_singleton] at hx; subst hx
    rw [GenFile.wellKnownTypeMap, Option.map_eq_some_iff] at hg
    obtain ⟨g', hg', he⟩ := hg
    have hloc : (⟨f, cfg, localPackages req⟩ : GenFile).isLocalMessage r = false := by
      rw [Bool.eq_false_iff]
      intro h
      have hl : r.pkg ∈ localPackages req := by simpa [GenFile.isLocalMessage] using h
      obtain ⟨f', hf', m', h1, h2, rfl⟩ := hr
      have := hP.known f' hf' (by rw [← (hP.request.ident f' hf' m' h1).2]; exact hl) m' h1
      rw [this] at hg'; cases hg'
    rw [hloc] at he
    simp only [Bool.false_eq_true, if_false] at he
    subst he
    rw [plain_qualified hP.wrap]
    exact .inr (.inr (.inl ⟨lookup_known hg', hs⟩))
  · split at hx
    · next h =>
      rw [List.mem_singleton] at hx; subst hx
      exact local_has hP hr (by simpa [GenFile.isLocalMessage] using h) hφ hne hm
    · rw [List.mem_singleton] at hx; subst hx
      exact referred_isMessage hr

theorem recv_ptr {x : GField} {r : MsgRef} (h : x.card ≠ .repeated) : x.recv r = .ptr r.ident := by rw [GField.recv, if_neg h]

/-- The fields of a message of the request. -/
structure FieldOf (req : List GFile) (x : GField) : Prop where
  refs : ∀ r ∈ x.refs, Referred req r
  group : x.kind = .group → x.card ≠ .repeated ∧ x.isOneof = false

theorem fieldOf (hP : Plain before cfg features req) {f : GFile} (hf : f ∈ req) {m : GMsg} (hm : Inside f.messages m) {x : GField} (hx : x ∈ m.fields) :
    FieldOf req x := ⟨fun r hr => hP.request.refs f hf m hm x hx r hr, hP.groups f hf m hm x hx⟩

theorem sizeField_links (hP : Plain before cfg features req) (hφ : .size ∈ features) {f : GFile} {x : GField} (hx : FieldOf req x) {o : GenOut} {i : Item}
    (hi : i ∈ genSizeField ⟨f, cfg, localPackages req⟩ x) : Links before req (generate cfg features req) o i := by
  unfold genSizeField at hi
  split at hi
  · next r h1 h2 h3 =>
    rw [recv_ptr (hx.group h1).1] at hi
    exact switch_links hP (hx.refs r (by simp [GField.refs, h2, h3])) hφ (by decide) (by simp [messageApi]) (by decide) hi
  · next r h1 h2 => exact switch_links hP (hx.refs r (by simp [GField.refs, h2])) hφ (by decide) (by simp [messageApi]) (by decide) hi
  · next r h1 h2 h3 => exact switch_links hP (hx.refs r (by simp [GField.refs, h2, h3])) hφ (by decide) (by simp [messageApi]) (by decide) hi
  · cases hi

theorem marshalField_links (hP : Plain before cfg features req) {s : Bool} (hφ : .marshal s ∈ features) {f : GFile} {x : GField} (hx : FieldOf req x)
    {o : GenOut} {i : Item} (hi : i ∈ genMarshalField ⟨f, cfg, localPackages req⟩ s x) : Links before req (generate cfg features req) o i := by
  have hs : Meth.marshalToSizedBufferVT s ∈ shippedMessage := by cases s <;> decide
  unfold genMarshalField at hi
  split at hi
  · next r h1 h2 h3 =>
    rw [recv_ptr (hx.group h1).1] at hi
    exact switch_links hP (hx.refs r (by simp [GField.refs, h2, h3])) hφ (by simp) (by simp [messageApi]) hs hi
  · next r h1 h2 => exact switch_links hP (hx.refs r (by simp [GField.refs, h2])) hφ (by simp) (by simp [messageApi]) hs hi
  · next r h1 h2 h3 => exact switch_links hP (hx.refs r (by simp [GField.refs, h2, h3])) hφ (by simp) (by simp [messageApi]) hs hi
  · cases hi

theorem equalField_links (hP : Plain before cfg features req) (hφ : .equal ∈ features) {f : GFile} {x : GField} (hx : FieldOf req x) {o : GenOut} {i : Item}
    (hi : i ∈ genEqualField ⟨f, cfg, localPackages req⟩ x) : Links before req (generate cfg features req) o i := by
  unfold genEqualField at hi
  split at hi
  · next r h1 h2 h3 => exact switch_links hP (hx.refs r (by simp [GField.refs, h2, h3])) hφ (by decide) (by simp [messageApi]) (by decide) hi
  · next r h1 h2 => exact switch_links hP (hx.refs r (by simp [GField.refs, h2])) hφ (by decide) (by simp [messageApi]) (by decide) hi
  · next r h1 h2 h3 => exact switch_links hP (hx.refs r (by simp [GField.refs, h2, h3])) hφ (by decide) (by simp [messageApi]) (by decide) hi
  · cases hi

theorem cloneField_links (hP : Plain before cfg features req) (hφ : .clone ∈ features) {f : GFile} {x : GField} (hx : FieldOf req x) {o : GenOut} {i : Item}
    (hi : i ∈ genCloneField ⟨f, cfg, localPackages req⟩ x) : Links before req (generate cfg features req) o i := by
  unfold genCloneField at hi
  split at hi
  · next r h1 h2 h3 => exact switch_links hP (hx.refs r (by simp [GField.refs, h2, h3])) hφ (by decide) (by simp [messageApi]) (by decide) hi
  · next r h1 h2 => exact switch_links hP (hx.refs r (by simp [GField.refs, h2])) hφ (by decide) (by simp [messageApi]) (by decide) hi
  · next r h1 h2 h3 => exact switch_links hP (hx.refs r (by simp [GField.refs, h2, h3])) hφ (by decide) (by simp [messageApi]) (by decide) hi
  · cases hi

/-- The pool and the methods of a message that is pooled. -/
theorem pooled_has (hP : Plain before cfg features req) {φ : Feature} (hφ : φ ∈ features) (hu : usesPools φ) {f : GFile} {r : MsgRef} (hr : Referred req r)
    (hp : (⟨f, cfg, localPackages req⟩ : GenFile).pools (some r) = true) :
    HasPool before (generate cfg features req) r.ident ∧ ∀ meth ∈ messageApi .pool, HasMethod before (generate cfg features req) r.ident meth := by
  obtain ⟨f', hf', m, h1, h2, rfl⟩ := hr
  rcases hP.pools ⟨φ, hφ, hu⟩ f' hf' m h1 h2 hp with ⟨hg, hpf⟩ | ⟨h3, h4, h5⟩
  · obtain ⟨o, ho, hs, _⟩ := generate_mem (cfg := cfg) hf' hg hpf (mem_feature.2 (.inl ⟨m, h1, h2, hp, rfl⟩))
    refine ⟨.inl ⟨o, ho, hs _ ?_⟩, fun meth hm => .inl ⟨o, ho, hs _ (emits_api hP.wrap (hP.request.ident f' hf' m h1).1 hm)⟩⟩
    simp only [emitOf, genPool]
    rw [plain_qualified hP.wrap]
    exact .head _
  · refine ⟨.inr h3, fun meth hm => .inr (.inl ?_)⟩
    simp only [messageApi, List.mem_cons, List.not_mem_nil, or_false] at hm
    rcases hm with rfl | rfl <;> assumption

theorem unmarshalField_links (hP : Plain before cfg features req) {u : Bool} (hφ : .unmarshal u ∈ features) {f : GFile} {m : GMsg} {x : GField}
    (hx : FieldOf req x) {o : GenOut} {i : Item} (hi : i ∈ genUnmarshalField ⟨f, cfg, localPackages req⟩ u m x) :
    Links before req (generate cfg features req) o i := by
  have hs : Meth.unmarshalVT u ∈ shippedMessage := by cases u <;> decide
  unfold genUnmarshalField at hi
  split at hi
  · next r h1 h2 h3 =>
    rw [(hx.group h1).2, if_neg (by decide), recv_ptr (hx.group h1).1] at hi
    exact switch_links hP (hx.refs r (by simp [GField.refs, h2, h3])) hφ (by simp) (by simp [messageApi]) hs hi
  · next r h1 h2 => exact switch_links hP (hx.refs r (by simp [GField.refs, h2])) hφ (by simp) (by simp [messageApi]) hs hi
  · next r h1 h2 h3 =>
    have hr := hx.refs r (by simp [GField.refs, h2, h3])
    rcases List.mem_append.1 hi with hi | hi
    · split at hi
      · next hc =>
        simp only [Bool.and_eq_true] at hc
        rw [List.mem_singleton] at hi; subst hi
        rw [plain_qualified hP.wrap]
        exact (pooled_has hP hφ (by trivial) hr hc.2).1
      · cases hi
    · exact switch_links hP hr hφ (by simp) (by simp [messageApi]) hs hi
  · cases hi

theorem poolField_links (hP : Plain before cfg features req) (hφ : .pool ∈ features) {f : GFile} {x : GField}
    (hx : FieldOf req x) {o : GenOut} {i : Item} (hi : i ∈ genPoolField ⟨f, cfg, localPackages req⟩ x) :
    Links before req (generate cfg features req) o i := by
  unfold genPoolField at hi
  split at hi
  · cases hi
  next hm =>
  have hmap : x.map = none := by cases h : x.map <;> simp_all
  have go : ∀ r, x.message = some r → Referred req r := fun r hr => hx.refs r (by simp [GField.refs, hmap, hr])
  split at hi
  · split at hi
    · next r h1 h2 =>
      split at hi <;> (rw [List.mem_singleton] at hi; subst hi)
      · next hp => exact (pooled_has hP hφ (by trivial) (go r h2) hp).2 _ (by simp [messageApi])
      · exact referred_isMessage (go r h2)
    · next r h1 h2 =>
      split at hi <;> (rw [List.mem_singleton] at hi; subst hi)
      · next hp => exact (pooled_has hP hφ (by trivial) (go r h2) hp).2 _ (by simp [messageApi])
      · exact referred_isMessage (go r h2)
    · cases hi
  · split at hi
    · next r h2 =>
      split at hi
      · next hp =>
        rw [List.mem_singleton] at hi; subst hi
        exact (pooled_has hP hφ (by trivial) (go r h2) hp).2 _ (by simp [messageApi])
      · cases hi
    · cases hi

/-! ### Messages -/

/-- A message of a file to be generated. -/
structure MsgOf (req : List GFile) (f : GFile) (m : GMsg) : Prop where
  file : f ∈ req
  gen : f.generate = true
  inside : Inside f.messages m
  entry : m.mapEntry = false

theorem MsgOf.referred {f : GFile} {m : GMsg} (h : MsgOf req f m) : Referred req m.info := ⟨f, h.file, m, h.inside, h.entry, rfl⟩

theorem MsgOf.local (hP : Plain before cfg features req) {f : GFile} {m : GMsg} (h : MsgOf req f m) : m.info.pkg ∈ localPackages req :=
  mem_local.2 ⟨f, h.file, h.gen, ((hP.request.ident f h.file m h.inside).2).symm⟩

theorem MsgOf.bare (hP : Plain before cfg features req) {f : GFile} {m : GMsg} (h : MsgOf req f m) :
    (⟨f, cfg, localPackages req⟩ : GenFile).bare m.info.ident.goName = m.info.ident := by
  rw [plain_bare hP.wrap, ← (hP.request.ident f h.file m h.inside).1]

theorem MsgOf.bareField (hP : Plain before cfg features req) {f : GFile} {m : GMsg} (h : MsgOf req f m) {x : GField} (hx : x ∈ m.fields)
    (ho : x.isOneof = true) : (⟨f, cfg, localPackages req⟩ : GenFile).bare x.goIdent.goName = x.goIdent := by
  rw [plain_bare hP.wrap, ← hP.request.wrapper f h.file m h.inside x hx ho]

theorem MsgOf.notKnown (hP : Plain before cfg features req) {f : GFile} {m : GMsg} (h : MsgOf req f m) :
    (⟨f, cfg, localPackages req⟩ : GenFile).isWellKnownType m.info = false := by
  rw [GenFile.isWellKnownType, hP.known f h.file (mem_local.2 ⟨f, h.file, h.gen, rfl⟩) m h.inside]; rfl

/-- The methods of the message itself. -/
theorem MsgOf.has (hP : Plain before cfg features req) {f : GFile} {m : GMsg} (h : MsgOf req f m) {φ : Feature} (hφ : φ ∈ features) (hne : φ ≠ .pool)
    {meth : Meth} (hm : meth ∈ messageApi φ) : HasMethod before (generate cfg features req) m.info.ident meth :=
  local_has hP h.referred (h.local hP) hφ hne hm

/-- The methods of the wrapper types. -/
theorem MsgOf.hasWrapper (hP : Plain before cfg features req) {f : GFile} {m : GMsg} (h : MsgOf req f m) {x : GField} (hx : x ∈ m.fields)
    (ho : x.isOneof = true) {φ : Feature} (hφ : φ ∈ features) {meth : Meth} (hm : meth ∈ wrapperApi φ) :
    HasMethod before (generate cfg features req) x.goIdent meth := by
  have ht : takes ⟨f, cfg, localPackages req⟩ φ m = true := by cases φ <;> first | rfl | cases hm
  obtain ⟨o, ho', hs, _⟩ := generate_mem (cfg := cfg) h.file h.gen hφ (mem_feature.2 (.inl ⟨m, h.inside, h.entry, ht, rfl⟩))
  exact .inl ⟨o, ho', hs _ (emits_wrapper hP.wrap hx ho (hP.request.wrapper f h.file m h.inside x hx ho) (h.notKnown hP) hm)⟩

theorem MsgOf.method (hP : Plain before cfg features req) {f : GFile} {m : GMsg} (h : MsgOf req f m) {out : List GenOut} {o : GenOut}
    (hpk : o.pkg = f.goImportPath) (meth : Meth) : Links before req out o (.method m.info.ident meth) :=
  ⟨by rw [hpk, (hP.request.ident f h.file m h.inside).1], .inl (referred_isMessage h.referred)⟩

theorem MsgOf.methodField (hP : Plain before cfg features req) {f : GFile} {m : GMsg} (h : MsgOf req f m) {x : GField} (hx : x ∈ m.fields)
    (ho : x.isOneof = true) {out : List GenOut} {o : GenOut} (hpk : o.pkg = f.goImportPath) (meth : Meth) :
    Links before req out o (.method x.goIdent meth) :=
  ⟨by rw [hpk, hP.request.wrapper f h.file m h.inside x hx ho], .inr (.inl ⟨f, h.file, m, h.inside, h.entry, x, hx, ho, rfl⟩)⟩

variable {f : GFile} {m : GMsg} {o : GenOut} {i : Item}

theorem size_links (hP : Plain before cfg features req) (h : MsgOf req f m) (hpk : o.pkg = f.goImportPath) (hφ : .size ∈ features)
    (hi : i ∈ genSize ⟨f, cfg, localPackages req⟩ m) : Links before req (generate cfg features req) o i := by
  simp only [genSize, h.notKnown hP, h.bare hP, List.mem_cons, List.mem_append, List.cons_append, Bool.false_eq_true, if_false] at hi
  rcases hi with rfl | (hi | hi) | hi
  · exact h.method hP hpk _
  · obtain ⟨x, hx, hi⟩ := List.mem_flatMap.1 hi
    exact sizeField_links hP hφ (fieldOf hP h.file h.inside (List.mem_filter.1 hx).1) hi
  · obtain ⟨l, hl, hi⟩ := List.mem_flatMap.1 hi
    obtain ⟨x, hx, rfl⟩ := List.mem_map.1 hi
    obtain ⟨h1, h2⟩ := mem_oneofs hl hx
    show HasMethod _ _ _ _
    exact h.hasWrapper hP h1 h2 hφ (by simp [wrapperApi])
  · obtain ⟨x, hx, hi⟩ := List.mem_flatMap.1 hi
    obtain ⟨h1, h2⟩ := List.mem_filter.1 hx
    rw [genSizeOneofType, h.notKnown hP, Bool.false_and, if_neg (by decide), plain_qualified hP.wrap] at hi
    rcases List.mem_cons.1 hi with rfl | hi
    · exact h.methodField hP h1 h2 hpk _
    · exact sizeField_links hP hφ (fieldOf hP h.file h.inside h1) hi

theorem marshal_links (hP : Plain before cfg features req) (h : MsgOf req f m) (hpk : o.pkg = f.goImportPath) {s : Bool} (hφ : .marshal s ∈ features)
    (hi : i ∈ genMarshal ⟨f, cfg, localPackages req⟩ s m) : Links before req (generate cfg features req) o i := by
  have hsz := hP.complete s hφ
  simp only [genMarshal, h.bare hP, List.mem_append, List.mem_cons, List.not_mem_nil, or_false] at hi
  rcases hi with ((hi | hi) | hi) | hi
  · rcases hi with rfl | rfl | rfl | rfl | rfl
    · exact h.method hP hpk _
    · show HasMethod _ _ _ _
      exact h.has hP hsz (by decide) (by simp [messageApi])
    · show HasMethod _ _ _ _
      exact h.has hP hφ (by simp) (by simp [messageApi])
    · exact h.method hP hpk _
    · exact h.method hP hpk _
  · obtain ⟨x, hx, hi⟩ := List.mem_flatMap.1 hi
    exact marshalField_links hP hφ (fieldOf hP h.file h.inside (List.mem_filter.1 hx).1) hi
  · obtain ⟨l, hl, hi⟩ := List.mem_flatMap.1 hi
    obtain ⟨x, hx, rfl⟩ := List.mem_map.1 hi
    obtain ⟨h1, h2⟩ := mem_oneofs hl hx
    rw [genMarshalOneof, h.notKnown hP, if_neg (by decide), h.bareField hP h1 h2]
    split
    · show HasMethod _ _ _ _
      exact h.hasWrapper hP h1 h2 hφ (by simp [wrapperApi])
    · show HasMethod _ _ _ _
      exact h.hasWrapper hP h1 h2 hφ (by simp [wrapperApi])
  · obtain ⟨x, hx, hi⟩ := List.mem_flatMap.1 hi
    obtain ⟨h1, h2⟩ := List.mem_filter.1 hx
    simp only [h.bareField hP h1 h2, List.mem_append, List.mem_cons, List.not_mem_nil, or_false] at hi
    rcases hi with (rfl | rfl | rfl | rfl) | hi
    · exact h.methodField hP h1 h2 hpk _
    · show HasMethod _ _ _ _
      exact h.hasWrapper hP h1 h2 hsz (by simp [wrapperApi])
    · show HasMethod _ _ _ _
      exact h.hasWrapper hP h1 h2 hφ (by simp [wrapperApi])
    · exact h.methodField hP h1 h2 hpk _
    · exact marshalField_links hP hφ (fieldOf hP h.file h.inside h1) hi

theorem unmarshal_links (hP : Plain before cfg features req) (h : MsgOf req f m) (hpk : o.pkg = f.goImportPath) {u : Bool} (hφ : .unmarshal u ∈ features)
    (hi : i ∈ genUnmarshal ⟨f, cfg, localPackages req⟩ u m) : Links before req (generate cfg features req) o i := by
  simp only [genUnmarshal, h.bare hP, List.mem_append, List.mem_cons, List.not_mem_nil, or_false] at hi
  rcases hi with (rfl | hi) | hi
  · exact h.method hP hpk _
  · obtain ⟨x, hx, hi⟩ := List.mem_flatMap.1 hi
    exact unmarshalField_links hP hφ (fieldOf hP h.file h.inside hx) hi
  · split at hi
    · rw [List.mem_singleton] at hi; subst hi
      exact referred_isMessage h.referred
    · cases hi

theorem equal_links (hP : Plain before cfg features req) (h : MsgOf req f m) (hpk : o.pkg = f.goImportPath) (hφ : .equal ∈ features)
    (hi : i ∈ genEqual ⟨f, cfg, localPackages req⟩ m) : Links before req (generate cfg features req) o i := by
  simp only [genEqual, h.notKnown hP, h.bare hP, hP.wrap, List.mem_append, List.mem_cons, List.not_mem_nil, or_false, Bool.false_eq_true, if_false] at hi
  rcases hi with (((rfl | hi) | hi) | (rfl | rfl | rfl)) | hi
  · exact h.method hP hpk _
  · obtain ⟨l, hl, hi⟩ := List.mem_flatMap.1 hi
    obtain ⟨x, hx, rfl⟩ := List.mem_map.1 hi
    obtain ⟨h1, h2⟩ := mem_oneofs hl hx
    show HasMethod _ _ _ _
    exact h.hasWrapper hP h1 h2 hφ (by simp [wrapperApi])
  · obtain ⟨x, hx, hi⟩ := List.mem_flatMap.1 hi
    exact equalField_links hP hφ (fieldOf hP h.file h.inside (List.mem_filter.1 hx).1) hi
  · exact h.method hP hpk _
  · exact referred_isMessage h.referred
  · show HasMethod _ _ _ _
    exact h.has hP hφ (by decide) (by simp [messageApi])
  · obtain ⟨x, hx, hi⟩ := List.mem_flatMap.1 hi
    obtain ⟨h1, h2⟩ := List.mem_filter.1 hx
    rw [h.bareField hP h1 h2] at hi
    rcases List.mem_cons.1 hi with rfl | hi
    · exact h.methodField hP h1 h2 hpk _
    · exact equalField_links hP hφ (fieldOf hP h.file h.inside h1) hi

theorem clone_links (hP : Plain before cfg features req) (h : MsgOf req f m) (hpk : o.pkg = f.goImportPath) (hφ : .clone ∈ features)
    (hi : i ∈ genClone ⟨f, cfg, localPackages req⟩ m) : Links before req (generate cfg features req) o i := by
  simp only [genClone, h.notKnown hP, h.bare hP, hP.wrap, List.mem_append, List.mem_cons, List.not_mem_nil, or_false, Bool.false_eq_true, if_false] at hi
  rcases hi with ((((rfl | hi) | hi) | hi) | (rfl | rfl | rfl)) | hi
  · exact h.method hP hpk _
  · split at hi
    · next hp =>
      rw [List.mem_singleton] at hi; subst hi
      exact (pooled_has hP hφ (by trivial) h.referred hp).1
    · cases hi
  · obtain ⟨x, hx, hi⟩ := List.mem_flatMap.1 hi
    exact cloneField_links hP hφ (fieldOf hP h.file h.inside (List.mem_filter.1 hx).1) hi
  · obtain ⟨l, hl, hi⟩ := List.mem_flatMap.1 hi
    obtain ⟨x, hx, rfl⟩ := List.mem_map.1 hi
    obtain ⟨h1, h2⟩ := mem_oneofs hl hx
    show HasMethod _ _ _ _
    exact h.hasWrapper hP h1 h2 hφ (by simp [wrapperApi])
  · exact h.method hP hpk _
  · exact referred_isMessage h.referred
  · show HasMethod _ _ _ _
    exact h.has hP hφ (by decide) (by simp [messageApi])
  · obtain ⟨x, hx, hi⟩ := List.mem_flatMap.1 hi
    obtain ⟨h1, h2⟩ := List.mem_filter.1 hx
    rw [h.bareField hP h1 h2] at hi
    rcases List.mem_cons.1 hi with rfl | hi
    · exact h.methodField hP h1 h2 hpk _
    · exact cloneField_links hP hφ (fieldOf hP h.file h.inside h1) hi

theorem pool_links (hP : Plain before cfg features req) (h : MsgOf req f m) (hpk : o.pkg = f.goImportPath) (hφ : .pool ∈ features)
    (hp : (⟨f, cfg, localPackages req⟩ : GenFile).pools (some m.info) = true) (hi : i ∈ genPool ⟨f, cfg, localPackages req⟩ m) :
    Links before req (generate cfg features req) o i := by
  simp only [genPool, plain_qualified hP.wrap, List.mem_append, List.mem_cons, List.not_mem_nil, or_false] at hi
  rcases hi with ((rfl | rfl) | hi) | (rfl | rfl | rfl)
  · exact h.method hP hpk .resetVT
  · exact h.method hP hpk _
  · obtain ⟨x, hx, hi⟩ := List.mem_flatMap.1 hi
    exact poolField_links hP hφ (fieldOf hP h.file h.inside hx) hi
  · exact referred_isMessage h.referred
  · exact h.method hP hpk _
  · exact (pooled_has hP hφ (by trivial) h.referred hp).2 _ (by simp [messageApi])

theorem grpc_links (hP : Plain before cfg features req) (hf : f ∈ req) (hφ : .grpc ∈ features)
    (hi : i ∈ f.services.flatten.flatMap (genRpc ⟨f, cfg, localPackages req⟩)) : Links before req (generate cfg features req) o i := by
  obtain ⟨c, hc, hi⟩ := List.mem_flatMap.1 hi
  obtain ⟨s, hs, hc⟩ := List.mem_flatten.1 hc
  have go : ∀ r ∈ [c.input, c.output], i ∈ genAlloc ⟨f, cfg, localPackages req⟩ r → Links before req (generate cfg features req) o i := by
    intro r hr hi
    unfold genAlloc at hi
    split at hi
    · next hp =>
      rw [List.mem_singleton] at hi; subst hi
      rw [plain_qualified hP.wrap]
      exact (pooled_has hP hφ (by trivial) (hP.request.rpcs f hf s hs c hc r hr) hp).1
    · cases hi
  rcases List.mem_append.1 hi with hi | hi
  · exact go _ (by simp) hi
  · exact go _ (by simp) hi

/-- Every item of every file links. -/
theorem plain_links (hP : Plain before cfg features req) (ho : o ∈ generate cfg features req) (hi : i ∈ o.items) :
    Links before req (generate cfg features req) o i := by
  obtain ⟨f, hf, hg, hpk, _, hitems⟩ := mem_generate ho
  rw [plain_outPkg hP.wrap] at hpk
  rcases (hitems i).1 hi with hi | ⟨φ, hφ, part, hp, hi⟩
  · rw [plain_types hP.wrap] at hi; cases hi
  · rcases mem_feature.1 hp with ⟨m, h1, h2, h3, rfl⟩ | ⟨rfl, _, rfl⟩
    · have h : MsgOf req f m := ⟨hf, hg, h1, h2⟩
      cases φ with
      | clone => exact clone_links hP h hpk hφ hi
      | equal => exact equal_links hP h hpk hφ hi
      | grpc => cases h3
      | marshal s => exact marshal_links hP h hpk hφ hi
      | pool => exact pool_links hP h hpk hφ h3 hi
      | size => exact size_links hP h hpk hφ hi
      | unmarshal u => exact unmarshal_links hP h hpk hφ hi
    · exact grpc_links hP hf hφ hi

end links

end Vtp
