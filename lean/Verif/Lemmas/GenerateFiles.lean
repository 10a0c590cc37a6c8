import Verif.Lemmas.GenerateDecls
/-! # Lemmas on the generator: which files are written, and what their content depends on -/

namespace Vtp

theorem generateFile_some {features : List Feature} {p : GenFile} {o : GenOut} (h : generateFile features p = some o) :
    o.name = p.file.name ++ asc "_vtproto.pb.go" := by
  unfold generateFile at h
  simp only at h
  split at h
  · cases h
  · cases h; rfl

theorem append_cancel {a b s : Bytes} : a ++ s = b ++ s ↔ a = b := List.append_left_inj s

theorem names_sublist (cfg : GenConfig) (features : List Feature) (req : List GFile) :
    ((generate cfg features req).map (·.name)).Sublist ((req.filter (·.generate)).map fun f => f.name ++ asc "_vtproto.pb.go") := by
  rw [generate]
  generalize req.filter (·.generate) = l
  generalize localPackages req = loc
  induction l with
  | nil => exact List.Sublist.refl _
  | cons f l ih =>
    rw [List.filterMap_cons]
    cases h : generateFile features ⟨f, cfg, loc⟩ with
    | none => exact ih.cons _
    | some o =>
      show List.Sublist (o.name :: _) _
      rw [generateFile_some h]
      exact ih.cons_cons _

theorem applies_iff {p : GenFile} {φ : Feature} : Applies p.cfg p.file φ ↔ generateFeature p φ ≠ [] := by
  rw [show ∀ l : List (List Item), l ≠ [] ↔ ∃ part, part ∈ l from fun l => by cases l <;> simp]
  have h : (∃ part, part ∈ generateFeature p φ) ↔
      (∃ m, Inside p.file.messages m ∧ m.mapEntry = false ∧ takes p φ m = true) ∨ (φ = .grpc ∧ p.file.services ≠ []) := by
    constructor
    · rintro ⟨part, h⟩
      rcases mem_feature.1 h with ⟨m, h1, h2, h3, _⟩ | ⟨h1, h2, _⟩
      · exact .inl ⟨m, h1, h2, h3⟩
      · exact .inr ⟨h1, h2⟩
    · rintro (⟨m, h1, h2, h3⟩ | ⟨h1, h2⟩)
      · exact ⟨_, mem_feature.2 (.inl ⟨m, h1, h2, h3, rfl⟩)⟩
      · exact ⟨_, mem_feature.2 (.inr ⟨h1, h2, rfl⟩)⟩
  rw [h]
  cases φ <;> simp [Applies, takes, GenFile.pools]

theorem written_iff {features : List Feature} {p : GenFile} : (generateFile features p).isSome = true ↔
    p.cfg.allowEmpty = true ∨ ∃ φ ∈ features, Applies p.cfg p.file φ := by
  unfold generateFile
  simp only
  constructor
  · intro h
    split at h
    · cases h
    · next hn =>
      cases ha : p.cfg.allowEmpty with
      | true => exact .inl rfl
      | false =>
        right
        have : features.flatMap (generateFeature p) ≠ [] := fun e => hn ⟨e, ha⟩
        rw [Ne, List.flatMap_eq_nil_iff] at this
        simp only [not_forall] at this
        obtain ⟨φ, hφ, h⟩ := this
        exact ⟨φ, hφ, applies_iff.2 h⟩
  · intro h
    rw [if_neg]
    · rfl
    · rintro ⟨h1, h2⟩
      rcases h with h | ⟨φ, hφ, h⟩
      · rw [h] at h2; cases h2
      · exact applies_iff.1 h (List.flatMap_eq_nil_iff.1 h1 φ hφ)

/-! ## locality -/

section
variable {f : GFile} {cfg : GenConfig} {loc loc' : List Bytes}

/-- The two runs agree on whether a message is local. -/
def SameAt (loc loc' : List Bytes) (r : MsgRef) : Prop := loc.contains r.pkg = loc'.contains r.pkg

theorem isLocal_congr {r : MsgRef} (h : SameAt loc loc' r) : (⟨f, cfg, loc⟩ : GenFile).isLocalMessage r = (⟨f, cfg, loc'⟩ : GenFile).isLocalMessage r := h

theorem typeMap_congr {r : MsgRef} (h : SameAt loc loc' r) :
    (⟨f, cfg, loc⟩ : GenFile).wellKnownTypeMap r = (⟨f, cfg, loc'⟩ : GenFile).wellKnownTypeMap r := by
  unfold GenFile.wellKnownTypeMap; rw [isLocal_congr h]

theorem switch_congr {r : MsgRef} (h : SameAt loc loc' r) (x : Recv) (meth : Meth) :
    (match (⟨f, cfg, loc⟩ : GenFile).wellKnownTypeMap r with
      | some g => [Item.call (x.conv ((⟨f, cfg, loc⟩ : GenFile).qualified g)) meth]
      | none => if (⟨f, cfg, loc⟩ : GenFile).isLocalMessage r then [.call x meth] else [.message x])
    = (match (⟨f, cfg, loc'⟩ : GenFile).wellKnownTypeMap r with
      | some g => [Item.call (x.conv ((⟨f, cfg, loc'⟩ : GenFile).qualified g)) meth]
      | none => if (⟨f, cfg, loc'⟩ : GenFile).isLocalMessage r then [.call x meth] else [.message x]) := by
  rw [typeMap_congr h, isLocal_congr h]; rfl

variable {x : GField} (hx : ∀ r ∈ x.refs, SameAt loc loc' r)
include hx

theorem sizeField_congr : genSizeField ⟨f, cfg, loc⟩ x = genSizeField ⟨f, cfg, loc'⟩ x := by
  obtain ⟨gi, fn, kind, card, oneof, message, map⟩ := x
  rcases map with _ | ⟨k, v, _ | r⟩ <;> rcases message with _ | r' <;> cases kind <;> first
    | rfl
    | exact switch_congr (hx _ (.head _)) _ _
    | (cases v <;> first | rfl | exact switch_congr (hx _ (.head _)) _ _)

theorem marshalField_congr (s : Bool) : genMarshalField ⟨f, cfg, loc⟩ s x = genMarshalField ⟨f, cfg, loc'⟩ s x := by
  obtain ⟨gi, fn, kind, card, oneof, message, map⟩ := x
  rcases map with _ | ⟨k, v, _ | r⟩ <;> rcases message with _ | r' <;> cases kind <;> first
    | rfl
    | exact switch_congr (hx _ (.head _)) _ _
    | (cases v <;> first | rfl | exact switch_congr (hx _ (.head _)) _ _)

theorem unmarshalField_congr (u : Bool) (m : GMsg) : genUnmarshalField ⟨f, cfg, loc⟩ u m x = genUnmarshalField ⟨f, cfg, loc'⟩ u m x := by
  obtain ⟨gi, fn, kind, card, oneof, message, map⟩ := x
  rcases map with _ | ⟨k, v, _ | r⟩ <;> rcases message with _ | r' <;> cases kind <;> first
    | rfl
    | exact switch_congr (hx _ (.head _)) _ _
    | exact congrArg _ (switch_congr (hx _ (.head _)) _ _)
    | (cases v <;> first | rfl | exact switch_congr (hx _ (.head _)) _ _)

theorem equalField_congr : genEqualField ⟨f, cfg, loc⟩ x = genEqualField ⟨f, cfg, loc'⟩ x := by
  obtain ⟨gi, fn, kind, card, oneof, message, map⟩ := x
  rcases map with _ | ⟨k, v, _ | r⟩ <;> rcases message with _ | r' <;> cases kind <;> first
    | rfl
    | exact switch_congr (hx _ (.head _)) _ _
    | (cases v <;> first | rfl | exact switch_congr (hx _ (.head _)) _ _)

theorem cloneField_congr : genCloneField ⟨f, cfg, loc⟩ x = genCloneField ⟨f, cfg, loc'⟩ x := by
  obtain ⟨gi, fn, kind, card, oneof, message, map⟩ := x
  rcases map with _ | ⟨k, v, _ | r⟩ <;> rcases message with _ | r' <;> cases kind <;> first
    | rfl
    | exact switch_congr (hx _ (.head _)) _ _
    | (cases v <;> first | rfl | exact switch_congr (hx _ (.head _)) _ _)
end

section
variable {f : GFile} {cfg : GenConfig} {loc loc' : List Bytes} {m : GMsg}

theorem fieldMap_congr (hm : SameAt loc loc' m.info) (x : GField) :
    (⟨f, cfg, loc⟩ : GenFile).wellKnownFieldMap m x = (⟨f, cfg, loc'⟩ : GenFile).wellKnownFieldMap m x := by
  unfold GenFile.wellKnownFieldMap; rw [isLocal_congr hm]

theorem wellKnownOneof_congr (hm : SameAt loc loc' m.info) (meth : Meth) (x : GField) :
    wellKnownOneof ⟨f, cfg, loc⟩ m meth x = wellKnownOneof ⟨f, cfg, loc'⟩ m meth x := by
  unfold wellKnownOneof; rw [fieldMap_congr hm]; rfl

theorem oneofs_congr {e e' : GField → Item} (h : ∀ x, e x = e' x) : m.oneofs.flatMap (·.map e) = m.oneofs.flatMap (·.map e') := by
  rw [show e = e' from funext h]

variable (hm : SameAt loc loc' m.info) (hr : ∀ x ∈ m.fields, ∀ r ∈ x.refs, SameAt loc loc' r)
include hm hr

theorem emit_congr (φ : Feature) : emitOf ⟨f, cfg, loc⟩ φ m = emitOf ⟨f, cfg, loc'⟩ φ m := by
  have hf : ∀ {p : GField → Bool} {x : GField}, x ∈ m.fields.filter p → ∀ r ∈ x.refs, SameAt loc loc' r :=
    fun hx => hr _ (List.mem_filter.1 hx).1
  cases φ with
  | clone =>
    simp only [emitOf, genClone]
    rw [List.flatMap_congr fun x hx => cloneField_congr (hf hx), List.flatMap_congr (f := fun (x : GField) => Item.method _ Meth.cloneVT :: _)
      fun x hx => congrArg _ (cloneField_congr (hf hx)),
      oneofs_congr (e' := fun x => if (⟨f, cfg, loc'⟩ : GenFile).isWellKnownType m.info then wellKnownOneof ⟨f, cfg, loc'⟩ m .cloneVT x else .expects x.goIdent .cloneVT)
        fun x => by rw [wellKnownOneof_congr hm]; rfl]
    rfl
  | equal =>
    simp only [emitOf, genEqual]
    rw [List.flatMap_congr fun x hx => equalField_congr (hf hx), List.flatMap_congr (f := fun (x : GField) => Item.method _ Meth.equalVT :: _)
      fun x hx => congrArg _ (equalField_congr (hf hx)),
      oneofs_congr (e' := fun x => if (⟨f, cfg, loc'⟩ : GenFile).isWellKnownType m.info then wellKnownOneof ⟨f, cfg, loc'⟩ m .equalVT x else .expects x.goIdent .equalVT)
        fun x => by rw [wellKnownOneof_congr hm]; rfl]
    rfl
  | grpc => rfl
  | marshal s =>
    simp only [emitOf, genMarshal]
    rw [List.flatMap_congr fun x hx => marshalField_congr (hf hx) s, List.flatMap_congr (f := fun (x : GField) => _ ++ _)
      fun x hx => congrArg _ (marshalField_congr (hf hx) s),
      oneofs_congr (e' := genMarshalOneof ⟨f, cfg, loc'⟩ s m) fun x => by unfold genMarshalOneof; rw [wellKnownOneof_congr hm]; rfl]
    rfl
  | pool => rfl
  | size =>
    simp only [emitOf, genSize]
    rw [List.flatMap_congr fun x hx => sizeField_congr (hf hx),
      List.flatMap_congr (f := fun (x : GField) => Item.method _ Meth.sizeVT :: _)
        (g := fun x => .method (genSizeOneofType ⟨f, cfg, loc'⟩ m x) .sizeVT :: genSizeField ⟨f, cfg, loc'⟩ x)
      fun x hx => by rw [sizeField_congr (hf hx)]; unfold genSizeOneofType; rw [isLocal_congr hm]; rfl,
      oneofs_congr (e' := fun x => if (⟨f, cfg, loc'⟩ : GenFile).isWellKnownType m.info then wellKnownOneof ⟨f, cfg, loc'⟩ m .sizeVT x else .expects x.goIdent .sizeVT)
        fun x => by rw [wellKnownOneof_congr hm]; rfl]
    rfl
  | unmarshal u =>
    simp only [emitOf, genUnmarshal]
    rw [List.flatMap_congr fun x hx => unmarshalField_congr (hr x hx) u m]
    rfl
end

theorem feature_congr {f : GFile} {cfg : GenConfig} {loc loc' : List Bytes} (h : ∀ pkg, RefersTo f pkg → (pkg ∈ loc ↔ pkg ∈ loc')) (φ : Feature) :
    generateFeature ⟨f, cfg, loc⟩ φ = generateFeature ⟨f, cfg, loc'⟩ φ := by
  have hs : ∀ {pkg}, RefersTo f pkg → loc.contains pkg = loc'.contains pkg := by
    intro pkg hp
    rw [Bool.eq_iff_iff, List.contains_iff_mem, List.contains_iff_mem]
    exact h pkg hp
  by_cases hg : φ = .grpc
  · subst hg; rfl
  · rw [feature_eq hg, feature_eq hg]
    have ht : takes ⟨f, cfg, loc⟩ φ = takes ⟨f, cfg, loc'⟩ φ := by cases φ <;> rfl
    rw [ht]
    refine List.map_congr_left fun m hm => ?_
    have hm := (mem_msgs.1 (List.mem_filter.1 hm).1).1
    exact emit_congr (hs ⟨m, hm, .inl rfl⟩) (fun x hx r hr => hs ⟨m, hm, .inr ⟨x, hx, r, hr, rfl⟩⟩) φ

theorem generateFile_congr {f : GFile} {cfg : GenConfig} {loc loc' : List Bytes} (features : List Feature)
    (h : ∀ pkg, RefersTo f pkg → (pkg ∈ loc ↔ pkg ∈ loc')) :
    generateFile features ⟨f, cfg, loc⟩ = generateFile features ⟨f, cfg, loc'⟩ := by
  have hc : features.flatMap (generateFeature ⟨f, cfg, loc⟩) = features.flatMap (generateFeature ⟨f, cfg, loc'⟩) :=
    List.flatMap_congr fun φ _ => feature_congr h φ
  unfold generateFile
  rw [hc]
  rfl

/-- The output for a file whose name is unlike that of all others. -/
theorem generate_filter {cfg : GenConfig} {features : List Feature} {req : List GFile} (hN : (req.map (·.name)).Nodup) {f : GFile} (hf : f ∈ req)
    (hg : f.generate = true) : (generate cfg features req).filter (fun o => o.name = f.name ++ asc "_vtproto.pb.go")
      = (generateFile features ⟨f, cfg, localPackages req⟩).toList := by
  rw [generate]
  generalize localPackages req = loc
  have none_of : ∀ l : List GFile, (∀ f' ∈ l, f'.name ≠ f.name) →
      ((l.filterMap fun f' => generateFile features ⟨f', cfg, loc⟩).filter fun o => o.name = f.name ++ asc "_vtproto.pb.go") = [] := by
    intro l hl
    rw [List.filter_eq_nil_iff]
    intro o ho
    obtain ⟨f', hf', h⟩ := List.mem_filterMap.1 ho
    rw [generateFile_some h]
    simp only [decide_eq_true_eq, append_cancel]
    exact hl f' hf'
  induction req with
  | nil => cases hf
  | cons a req ih =>
    rw [List.map_cons, List.nodup_cons] at hN
    rcases List.mem_cons.1 hf with rfl | hf
    · rw [List.filter_cons_of_pos (by simpa using hg), List.filterMap_cons]
      have h0 := none_of (req.filter (·.generate)) fun f' hf' e => hN.1 (List.mem_map.2 ⟨f', (List.mem_filter.1 hf').1, e⟩)
      cases h : generateFile features ⟨f, cfg, loc⟩ with
      | none => exact h0
      | some o =>
        show List.filter _ (o :: _) = _
        rw [List.filter_cons_of_pos (by simpa using generateFile_some h), h0]
        rfl
    · have hne : a.name ≠ f.name := fun e => hN.1 (List.mem_map.2 ⟨f, hf, e.symm⟩)
      rw [List.filter_cons]
      split
      · rw [List.filterMap_cons]
        cases h : generateFile features ⟨a, cfg, loc⟩ with
        | none => exact ih hN.2 hf
        | some o =>
          show List.filter _ (o :: _) = _
          rw [List.filter_cons_of_neg]
          · exact ih hN.2 hf
          · rw [generateFile_some h]
            simp only [decide_eq_true_eq, append_cancel]
            exact hne
      · exact ih hN.2 hf

end Vtp
