import Verif.Lemmas.Generate
/-! # Lemmas on the generator: files of wrappers link -/

namespace Vtp

section
variable {f : GFile} {cfg : GenConfig} {loc : List Bytes} (hw : cfg.wrap = true)
include hw

theorem wrap_bare (n : Bytes) : (⟨f, cfg, loc⟩ : GenFile).bare n = ⟨f.wrapPath, n⟩ := by
  rw [GenFile.bare, GenFile.outPkg]; simp only [hw, if_true]

theorem wrap_outPkg : (⟨f, cfg, loc⟩ : GenFile).outPkg = f.wrapPath := by
  rw [GenFile.outPkg]; simp only [hw, if_true]

theorem wrap_qualified_nil (n : Bytes) : (⟨f, cfg, loc⟩ : GenFile).qualified ⟨[], n⟩ = ⟨f.wrapPath, n⟩ := by
  rw [GenFile.qualified]; simp only [hw, if_true]; exact wrap_bare hw n

theorem wrap_qualified {g : GoIdent} (h : g.importPath ≠ []) : (⟨f, cfg, loc⟩ : GenFile).qualified g = g := by
  rw [GenFile.qualified]; simp only [hw, if_true]; exact if_neg h
end

theorem known_path : ∀ g ∈ knownMessages, g.importPath ≠ [] := by decide

variable {before : Before} {cfg : GenConfig} {features : List Feature} {req : List GFile} {f : GFile} {m : GMsg} {o : GenOut} {i : Item}

/-- A message of a file of wrappers. -/
structure WMsg (req : List GFile) (f : GFile) (m : GMsg) : Prop where
  file : f ∈ req
  gen : f.generate = true
  top : m ∈ f.messages
  entry : m.mapEntry = false

namespace WMsg

theorem of (hP : Wrapped cfg features req) (hf : f ∈ req) (hg : f.generate = true) (hm : m ∈ f.messages) : WMsg req f m :=
  ⟨hf, hg, hm, (hP.flat f hf hg m (.here hm)).1 hm⟩

theorem inside (h : WMsg req f m) : Inside f.messages m := .here h.top

theorem isLocal (hP : Wrapped cfg features req) (h : WMsg req f m) : (⟨f, cfg, localPackages req⟩ : GenFile).isLocalMessage m.info = true := by
  have : m.info.pkg ∈ localPackages req := mem_local.2 ⟨f, h.file, h.gen, ((hP.request.ident f h.file m h.inside).2).symm⟩
  simpa [GenFile.isLocalMessage] using this

theorem isKnown (hP : Wrapped cfg features req) (h : WMsg req f m) : (⟨f, cfg, localPackages req⟩ : GenFile).isWellKnownType m.info = true := by
  obtain ⟨g, hg, _⟩ := hP.known f h.file h.gen m h.top
  rw [GenFile.isWellKnownType, hg]; rfl

theorem notPooled (hP : Wrapped cfg features req) (h : WMsg req f m) : (⟨f, cfg, localPackages req⟩ : GenFile).pools (some m.info) = false :=
  hP.pools f h.file m h.inside

/-- The wrapper type is declared. -/
theorem declared (h : WMsg req f m) {φ : Feature} (hφ : φ ∈ features) (ht : takes ⟨f, cfg, localPackages req⟩ φ m = true) :
    ∃ o ∈ generate cfg features req, (∀ x ∈ emitOf ⟨f, cfg, localPackages req⟩ φ m, x ∈ o.items)
      ∧ ∀ x ∈ genTypes ⟨f, cfg, localPackages req⟩, x ∈ o.items :=
  generate_mem (cfg := cfg) h.file h.gen hφ (mem_feature.2 (.inl ⟨m, h.inside, h.entry, ht, rfl⟩))

theorem types (hP : Wrapped cfg features req) (h : WMsg req f m) :
    Item.type ⟨f.wrapPath, m.info.ident.goName⟩ m.info.ident ∈ genTypes ⟨f, cfg, localPackages req⟩ := by
  unfold genTypes
  rw [if_pos hP.wrap, List.mem_flatMap]
  refine ⟨m, h.top, ?_⟩
  rw [wrap_bare hP.wrap, wrap_qualified hP.wrap (by rw [(hP.request.ident f h.file m h.inside).1]; exact hP.path f h.file)]
  exact .head _

theorem typesField (hP : Wrapped cfg features req) (h : WMsg req f m) {x : GField} (hx : x ∈ m.fields) (ho : x.isOneof = true) :
    Item.type ⟨f.wrapPath, x.goIdent.goName⟩ x.goIdent ∈ genTypes ⟨f, cfg, localPackages req⟩ := by
  unfold genTypes
  rw [if_pos hP.wrap, List.mem_flatMap]
  refine ⟨m, h.top, List.mem_cons_of_mem _ (List.mem_map.2 ⟨x, List.mem_filter.2 ⟨hx, ?_⟩, ?_⟩)⟩
  · unfold GField.isOneof at ho; cases h : x.oneof <;> simp_all
  · rw [wrap_bare hP.wrap, wrap_qualified hP.wrap (by rw [hP.request.wrapper f h.file m h.inside x hx ho]; exact hP.path f h.file)]

/-- The methods of the wrapper of the message. -/
theorem has (hP : Wrapped cfg features req) (h : WMsg req f m) {φ : Feature} (hφ : φ ∈ features) {meth : Meth} (hm : meth ∈ messageApi φ)
    (hs : meth ∈ shippedMessage) : HasMethod before (generate cfg features req) ⟨f.wrapPath, m.info.ident.goName⟩ meth := by
  have ht : takes ⟨f, cfg, localPackages req⟩ φ m = true := by
    cases φ <;> first | rfl | (simp only [messageApi, List.mem_cons, List.not_mem_nil, or_false] at hm; rcases hm with rfl | rfl <;> exact absurd hs (by decide)) | cases hm
  obtain ⟨o, ho, hi, _⟩ := h.declared hφ ht
  refine .inl ⟨o, ho, hi _ ?_⟩
  have hb := wrap_bare (f := f) (loc := localPackages req) hP.wrap m.info.ident.goName
  cases φ <;> simp only [messageApi, List.mem_cons, List.not_mem_nil, or_false] at hm
  · rcases hm with rfl | rfl
    · simp [emitOf, genClone, hb]
    · exact absurd hs (by decide)
  · rcases hm with rfl | rfl
    · simp [emitOf, genEqual, hb]
    · exact absurd hs (by decide)
  · rcases hm with rfl | rfl | rfl <;> simp [emitOf, genMarshal, hb]
  · rcases hm with rfl | rfl <;> exact absurd hs (by decide)
  · subst hm; simp [emitOf, genSize, hb]
  · subst hm; simp [emitOf, genUnmarshal, hb]

theorem sizeType (hP : Wrapped cfg features req) (h : WMsg req f m) (x : GField) :
    genSizeOneofType ⟨f, cfg, localPackages req⟩ m x = ⟨f.wrapPath, x.goIdent.goName⟩ := by
  unfold genSizeOneofType
  rw [h.isKnown hP, h.isLocal hP, Bool.true_and, if_pos rfl, wrap_qualified_nil hP.wrap]

/-- The methods of the wrappers of members of oneofs. -/
theorem hasWrapper (hP : Wrapped cfg features req) (h : WMsg req f m) {x : GField} (hx : x ∈ m.fields)
    (ho : x.isOneof = true) {φ : Feature} (hφ : φ ∈ features) {meth : Meth} (hm : meth ∈ wrapperApi φ) :
    HasMethod before (generate cfg features req) ⟨f.wrapPath, x.goIdent.goName⟩ meth := by
  have ht : takes ⟨f, cfg, localPackages req⟩ φ m = true := by cases φ <;> first | rfl | cases hm
  obtain ⟨o, ho', hi, _⟩ := h.declared hφ ht
  refine .inl ⟨o, ho', hi _ ?_⟩
  have hb := wrap_bare (f := f) (loc := localPackages req) hP.wrap x.goIdent.goName
  have hxo : x ∈ m.fields.filter (·.isOneof) := List.mem_filter.2 ⟨hx, ho⟩
  have hz := h.sizeType hP x
  cases φ <;> simp only [wrapperApi, List.mem_cons, List.not_mem_nil, or_false] at hm <;> simp only [emitOf, genClone, genEqual, genMarshal, genSize]
  · subst hm
    refine List.mem_append_right _ (List.mem_flatMap.2 ⟨x, hxo, ?_⟩)
    rw [hb]; exact .head _
  · subst hm
    refine List.mem_append_right _ (List.mem_flatMap.2 ⟨x, hxo, ?_⟩)
    rw [hb]; exact .head _
  · refine List.mem_append_right _ (List.mem_flatMap.2 ⟨x, hxo, ?_⟩)
    simp only [hb]
    rcases hm with rfl | rfl <;> simp
  · subst hm
    refine List.mem_append_right _ (List.mem_flatMap.2 ⟨x, hxo, ?_⟩)
    rw [hz]; exact .head _

theorem method (hP : Wrapped cfg features req) (h : WMsg req f m) (hpk : o.pkg = f.wrapPath)
    (ho : o ∈ generate cfg features req) (ht : ∀ x ∈ genTypes ⟨f, cfg, localPackages req⟩, x ∈ o.items) (meth : Meth) :
    Links before req (generate cfg features req) o (.method ⟨f.wrapPath, m.info.ident.goName⟩ meth) :=
  ⟨hpk.symm, .inr (.inr ⟨o, ho, _, ht _ (h.types hP)⟩)⟩

theorem methodField (hP : Wrapped cfg features req) (h : WMsg req f m) {x : GField} (hx : x ∈ m.fields)
    (hox : x.isOneof = true) (hpk : o.pkg = f.wrapPath)
    (ho : o ∈ generate cfg features req) (ht : ∀ x ∈ genTypes ⟨f, cfg, localPackages req⟩, x ∈ o.items) (meth : Meth) :
    Links before req (generate cfg features req) o (.method ⟨f.wrapPath, x.goIdent.goName⟩ meth) :=
  ⟨hpk.symm, .inr (.inr ⟨o, ho, _, ht _ (h.typesField hP hx hox)⟩)⟩

/-- The switch on the type of a message. -/
theorem switch (hP : Wrapped cfg features req) (h : WMsg req f m) {x : GField} (hx : x ∈ m.fields) {r : MsgRef} (hr : r ∈ x.refs)
    {φ : Feature} (hφ : φ ∈ features) {meth : Meth} (hm : meth ∈ messageApi φ) (hs : meth ∈ shippedMessage)
    (hi : i ∈ (match (⟨f, cfg, localPackages req⟩ : GenFile).wellKnownTypeMap r with
      | some g => [Item.call ((Recv.ptr r.ident).conv ((⟨f, cfg, localPackages req⟩ : GenFile).qualified g)) meth]
      | none => if (⟨f, cfg, localPackages req⟩ : GenFile).isLocalMessage r then [.call (.ptr r.ident) meth] else [.message (.ptr r.ident)])) :
    Links before req (generate cfg features req) o i := by
  have hown : (⟨f, cfg, localPackages req⟩ : GenFile).isLocalMessage r = true → ∃ m' ∈ f.messages, m'.info = r := fun hl =>
    hP.own f h.file h.gen m h.top x hx r hr (by simpa [GenFile.isLocalMessage] using hl)
  split at hi
  · next g hg =>
    rw [List.mem_singleton] at hi; subst hi
    rw [GenFile.wellKnownTypeMap, Option.map_eq_some_iff] at hg
    obtain ⟨g', hg', he⟩ := hg
    split at he
    · next hl =>
      obtain ⟨m', hm', rfl⟩ := hown hl
      obtain ⟨g2, h2, h3⟩ := hP.known f h.file h.gen m' hm'
      rw [h2] at hg'; cases hg'
      subst he
      rw [wrap_qualified_nil hP.wrap, h3]
      show HasMethod _ _ _ _
      exact (WMsg.of hP h.file h.gen hm').has hP hφ hm hs
    · subst he
      rw [wrap_qualified hP.wrap (known_path _ (lookup_known hg'))]
      exact .inr (.inr (.inl ⟨lookup_known hg', hs⟩))
  · next hn =>
    split at hi
    · next hl =>
      obtain ⟨m', hm', rfl⟩ := hown hl
      obtain ⟨g2, h2, h3⟩ := hP.known f h.file h.gen m' hm'
      rw [GenFile.wellKnownTypeMap, h2] at hn; cases hn
    · rw [List.mem_singleton] at hi; subst hi
      obtain ⟨f', hf', m', h1, h2, rfl⟩ := hP.request.refs f h.file m h.inside x hx r hr
      exact ⟨f', hf', m', h1, h2, rfl⟩

theorem oneofCall (hP : Wrapped cfg features req) (h : WMsg req f m) {x : GField} (hx : x ∈ m.fields) (hox : x.isOneof = true)
    {φ : Feature} (hφ : φ ∈ features) {meth : Meth} (hm : meth ∈ wrapperApi φ) :
    Links before req (generate cfg features req) o (wellKnownOneof ⟨f, cfg, localPackages req⟩ m meth x) := by
  have hsome : x.oneof.isSome = true := by unfold GField.isOneof at hox; cases h : x.oneof <;> simp_all
  obtain ⟨_, g, hg, hn⟩ := hP.members f h.file h.gen m h.top x hx hsome
  unfold wellKnownOneof GenFile.wellKnownFieldMap
  rw [hg, h.isLocal hP]
  simp only [Option.map_some, if_true]
  rw [wrap_qualified_nil hP.wrap, hn]
  show HasMethod _ _ _ _
  exact h.hasWrapper hP hx hox hφ hm

theorem sizeField (hP : Wrapped cfg features req) (h : WMsg req f m) {x : GField} (hx : x ∈ m.fields) (hφ : .size ∈ features)
    (hi : i ∈ genSizeField ⟨f, cfg, localPackages req⟩ x) : Links before req (generate cfg features req) o i := by
  have hgr := hP.groups f h.file m h.inside x hx
  unfold genSizeField at hi
  split at hi
  · next r h1 h2 h3 =>
    rw [recv_ptr (hgr h1).1] at hi
    exact h.switch hP hx (r := r) (by simp [GField.refs, h2, h3]) hφ (by simp [messageApi]) (by decide) hi
  · next r h1 h2 => exact h.switch hP hx (r := r) (by simp [GField.refs, h2]) hφ (by simp [messageApi]) (by decide) hi
  · next r h1 h2 h3 => exact h.switch hP hx (r := r) (by simp [GField.refs, h2, h3]) hφ (by simp [messageApi]) (by decide) hi
  · cases hi

theorem marshalField (hP : Wrapped cfg features req) (h : WMsg req f m) {x : GField} (hx : x ∈ m.fields) {s : Bool} (hφ : .marshal s ∈ features)
    (hi : i ∈ genMarshalField ⟨f, cfg, localPackages req⟩ s x) : Links before req (generate cfg features req) o i := by
  have hgr := hP.groups f h.file m h.inside x hx
  have hs : Meth.marshalToSizedBufferVT s ∈ shippedMessage := by cases s <;> decide
  unfold genMarshalField at hi
  split at hi
  · next r h1 h2 h3 =>
    rw [recv_ptr (hgr h1).1] at hi
    exact h.switch hP hx (r := r) (by simp [GField.refs, h2, h3]) hφ (by simp [messageApi]) hs hi
  · next r h1 h2 => exact h.switch hP hx (r := r) (by simp [GField.refs, h2]) hφ (by simp [messageApi]) hs hi
  · next r h1 h2 h3 => exact h.switch hP hx (r := r) (by simp [GField.refs, h2, h3]) hφ (by simp [messageApi]) hs hi
  · cases hi

theorem equalField (hP : Wrapped cfg features req) (h : WMsg req f m) {x : GField} (hx : x ∈ m.fields) (hφ : .equal ∈ features)
    (hi : i ∈ genEqualField ⟨f, cfg, localPackages req⟩ x) : Links before req (generate cfg features req) o i := by
  unfold genEqualField at hi
  split at hi
  · next r h1 h2 h3 => exact h.switch hP hx (r := r) (by simp [GField.refs, h2, h3]) hφ (by simp [messageApi]) (by decide) hi
  · next r h1 h2 => exact h.switch hP hx (r := r) (by simp [GField.refs, h2]) hφ (by simp [messageApi]) (by decide) hi
  · next r h1 h2 h3 => exact h.switch hP hx (r := r) (by simp [GField.refs, h2, h3]) hφ (by simp [messageApi]) (by decide) hi
  · cases hi

theorem cloneField (hP : Wrapped cfg features req) (h : WMsg req f m) {x : GField} (hx : x ∈ m.fields) (hφ : .clone ∈ features)
    (hi : i ∈ genCloneField ⟨f, cfg, localPackages req⟩ x) : Links before req (generate cfg features req) o i := by
  unfold genCloneField at hi
  split at hi
  · next r h1 h2 h3 => exact h.switch hP hx (r := r) (by simp [GField.refs, h2, h3]) hφ (by simp [messageApi]) (by decide) hi
  · next r h1 h2 => exact h.switch hP hx (r := r) (by simp [GField.refs, h2]) hφ (by simp [messageApi]) (by decide) hi
  · next r h1 h2 h3 => exact h.switch hP hx (r := r) (by simp [GField.refs, h2, h3]) hφ (by simp [messageApi]) (by decide) hi
  · cases hi

theorem unmarshalField (hP : Wrapped cfg features req) (h : WMsg req f m) {x : GField} (hx : x ∈ m.fields) {u : Bool} (hφ : .unmarshal u ∈ features)
    (hi : i ∈ genUnmarshalField ⟨f, cfg, localPackages req⟩ u m x) : Links before req (generate cfg features req) o i := by
  have hgr := hP.groups f h.file m h.inside x hx
  have hs : Meth.unmarshalVT u ∈ shippedMessage := by cases u <;> decide
  unfold genUnmarshalField at hi
  split at hi
  · next r h1 h2 h3 =>
    rw [(hgr h1).2, if_neg (by decide), recv_ptr (hgr h1).1] at hi
    exact h.switch hP hx (r := r) (by simp [GField.refs, h2, h3]) hφ (by simp [messageApi]) hs hi
  · next r h1 h2 => exact h.switch hP hx (r := r) (by simp [GField.refs, h2]) hφ (by simp [messageApi]) hs hi
  · next r h1 h2 h3 =>
    rw [h.notPooled hP, Bool.and_false, Bool.false_and, if_neg (by decide), List.nil_append] at hi
    exact h.switch hP hx (r := r) (by simp [GField.refs, h2, h3]) hφ (by simp [messageApi]) hs hi
  · cases hi

theorem links (hP : Wrapped cfg features req) (h : WMsg req f m) (hpk : o.pkg = f.wrapPath) (ho : o ∈ generate cfg features req)
    (ht : ∀ x ∈ genTypes ⟨f, cfg, localPackages req⟩, x ∈ o.items) {φ : Feature} (hφ : φ ∈ features)
    (htk : takes ⟨f, cfg, localPackages req⟩ φ m = true) (hi : i ∈ emitOf ⟨f, cfg, localPackages req⟩ φ m) :
    Links before req (generate cfg features req) o i := by
  have hb := fun n => wrap_bare (f := f) (loc := localPackages req) hP.wrap n
  have hw := hP.wrap
  have mth := fun meth => h.method (before := before) hP hpk ho ht meth
  cases φ with
  | grpc => cases hi
  | pool => have := h.notPooled hP; simp only [takes] at htk; rw [this] at htk; cases htk
  | size =>
    simp only [emitOf, genSize, h.isKnown hP, hb, if_true, List.mem_cons, List.mem_append, List.cons_append] at hi
    rcases hi with rfl | (hi | hi) | hi
    · exact mth _
    · obtain ⟨x, hx, hi⟩ := List.mem_flatMap.1 hi
      exact h.sizeField hP (List.mem_filter.1 hx).1 hφ hi
    · obtain ⟨l, hl, hi⟩ := List.mem_flatMap.1 hi
      obtain ⟨x, hx, rfl⟩ := List.mem_map.1 hi
      obtain ⟨h1, h2⟩ := mem_oneofs hl hx
      exact h.oneofCall hP h1 h2 hφ (by simp [wrapperApi])
    · obtain ⟨x, hx, hi⟩ := List.mem_flatMap.1 hi
      obtain ⟨h1, h2⟩ := List.mem_filter.1 hx
      rw [h.sizeType hP] at hi
      rcases List.mem_cons.1 hi with rfl | hi
      · exact h.methodField hP h1 h2 hpk ho ht _
      · exact h.sizeField hP h1 hφ hi
  | marshal s =>
    have hsz := hP.complete s hφ
    have hs1 : Meth.marshalToSizedBufferVT s ∈ shippedMessage := by cases s <;> decide
    simp only [emitOf, genMarshal, hb, List.mem_append, List.mem_cons, List.not_mem_nil, or_false] at hi
    rcases hi with ((hi | hi) | hi) | hi
    · rcases hi with rfl | rfl | rfl | rfl | rfl
      · exact mth _
      · show HasMethod _ _ _ _
        exact h.has hP hsz (by simp [messageApi]) (by decide)
      · show HasMethod _ _ _ _
        exact h.has hP hφ (by simp [messageApi]) hs1
      · exact mth _
      · exact mth _
    · obtain ⟨x, hx, hi⟩ := List.mem_flatMap.1 hi
      exact h.marshalField hP (List.mem_filter.1 hx).1 hφ hi
    · obtain ⟨l, hl, hi⟩ := List.mem_flatMap.1 hi
      obtain ⟨x, hx, rfl⟩ := List.mem_map.1 hi
      obtain ⟨h1, h2⟩ := mem_oneofs hl hx
      rw [genMarshalOneof, h.isKnown hP, if_pos rfl]
      exact h.oneofCall hP h1 h2 hφ (by simp [wrapperApi])
    · obtain ⟨x, hx, hi⟩ := List.mem_flatMap.1 hi
      obtain ⟨h1, h2⟩ := List.mem_filter.1 hx
      rcases List.mem_append.1 hi with hi | hi
      · simp only [List.mem_cons, List.not_mem_nil, or_false] at hi
        rcases hi with rfl | rfl | rfl | rfl
        · exact h.methodField hP h1 h2 hpk ho ht _
        · show HasMethod _ _ _ _
          exact h.hasWrapper hP h1 h2 hsz (by simp [wrapperApi])
        · show HasMethod _ _ _ _
          exact h.hasWrapper hP h1 h2 hφ (by simp [wrapperApi])
        · exact h.methodField hP h1 h2 hpk ho ht _
      · exact h.marshalField hP h1 hφ hi
  | unmarshal u =>
    simp only [emitOf, genUnmarshal, hb, hP.extensions f h.file h.gen m h.top, List.mem_append, List.mem_cons, List.not_mem_nil, or_false,
      Bool.false_eq_true, if_false] at hi
    rcases hi with rfl | hi
    · exact mth _
    · obtain ⟨x, hx, hi⟩ := List.mem_flatMap.1 hi
      exact h.unmarshalField hP hx hφ hi
  | equal =>
    simp only [emitOf, genEqual, hb, hw, h.isKnown hP, if_true, List.mem_append, List.mem_cons, List.not_mem_nil, or_false] at hi
    rcases hi with ((rfl | hi) | hi) | hi
    · exact mth _
    · obtain ⟨l, hl, hi⟩ := List.mem_flatMap.1 hi
      obtain ⟨x, hx, rfl⟩ := List.mem_map.1 hi
      obtain ⟨h1, h2⟩ := mem_oneofs hl hx
      exact h.oneofCall hP h1 h2 hφ (by simp [wrapperApi])
    · obtain ⟨x, hx, hi⟩ := List.mem_flatMap.1 hi
      exact h.equalField hP (List.mem_filter.1 hx).1 hφ hi
    · obtain ⟨x, hx, hi⟩ := List.mem_flatMap.1 hi
      obtain ⟨h1, h2⟩ := List.mem_filter.1 hx
      rcases List.mem_cons.1 hi with rfl | hi
      · exact h.methodField hP h1 h2 hpk ho ht _
      · exact h.equalField hP h1 hφ hi
  | clone =>
    simp only [emitOf, genClone, hb, hw, h.isKnown hP, h.notPooled hP, Bool.false_eq_true, if_false, if_true, List.mem_append, List.mem_cons,
      List.not_mem_nil, or_false] at hi
    rcases hi with ((rfl | hi) | hi) | hi
    · exact mth _
    · obtain ⟨x, hx, hi⟩ := List.mem_flatMap.1 hi
      exact h.cloneField hP (List.mem_filter.1 hx).1 hφ hi
    · obtain ⟨l, hl, hi⟩ := List.mem_flatMap.1 hi
      obtain ⟨x, hx, rfl⟩ := List.mem_map.1 hi
      obtain ⟨h1, h2⟩ := mem_oneofs hl hx
      exact h.oneofCall hP h1 h2 hφ (by simp [wrapperApi])
    · obtain ⟨x, hx, hi⟩ := List.mem_flatMap.1 hi
      obtain ⟨h1, h2⟩ := List.mem_filter.1 hx
      rcases List.mem_cons.1 hi with rfl | hi
      · exact h.methodField hP h1 h2 hpk ho ht _
      · exact h.cloneField hP h1 hφ hi

end WMsg

theorem wrap_links (hP : Wrapped cfg features req) (ho : o ∈ generate cfg features req) (hi : i ∈ o.items) :
    Links before req (generate cfg features req) o i := by
  obtain ⟨f, hf, hg, hpk, _, hitems⟩ := mem_generate ho
  rw [wrap_outPkg hP.wrap] at hpk
  have ht : ∀ x ∈ genTypes ⟨f, cfg, localPackages req⟩, x ∈ o.items := fun x hx => (hitems x).2 (.inl hx)
  rcases (hitems i).1 hi with hi | ⟨φ, hφ, part, hp, hi⟩
  · unfold genTypes at hi
    rw [if_pos hP.wrap] at hi
    obtain ⟨m, hm, hi⟩ := List.mem_flatMap.1 hi
    have h := WMsg.of hP hf hg hm
    rcases List.mem_cons.1 hi with rfl | hi
    · rw [wrap_bare hP.wrap, wrap_qualified hP.wrap (by rw [(hP.request.ident f hf m h.inside).1]; exact hP.path f hf)]
      exact ⟨hpk.symm, .inl ⟨f, hf, m, h.inside, h.entry, rfl⟩⟩
    · obtain ⟨x, hx, rfl⟩ := List.mem_map.1 hi
      obtain ⟨h1, h2⟩ := List.mem_filter.1 hx
      have hox := (hP.members f hf hg m hm x h1 h2).1
      rw [wrap_bare hP.wrap, wrap_qualified hP.wrap (by rw [hP.request.wrapper f hf m h.inside x h1 hox]; exact hP.path f hf)]
      exact ⟨hpk.symm, .inr ⟨f, hf, m, h.inside, h.entry, x, h1, hox, rfl⟩⟩
  · rcases mem_feature.1 hp with ⟨m, h1, h2, h3, rfl⟩ | ⟨rfl, _, rfl⟩
    · exact (WMsg.of hP hf hg ((hP.flat f hf hg m h1).2 h2)).links hP hpk ho ht hφ h3 hi
    · obtain ⟨c, hc, hi⟩ := List.mem_flatMap.1 hi
      obtain ⟨s, hs, hc⟩ := List.mem_flatten.1 hc
      have np : ∀ r ∈ [c.input, c.output], genAlloc ⟨f, cfg, localPackages req⟩ r = [] := by
        intro r hr
        obtain ⟨f', hf', m', h1, _, rfl⟩ := hP.request.rpcs f hf s hs c hc r hr
        unfold genAlloc
        rw [show (⟨f, cfg, localPackages req⟩ : GenFile).pools (some m'.info) = false from hP.pools f' hf' m' h1]
        rfl
      rw [genRpc, np _ (.head _), np _ (.tail _ (.head _))] at hi
      cases hi

end Vtp
