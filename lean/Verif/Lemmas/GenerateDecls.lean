import Verif.Lemmas.Generate
import Mathlib.Data.List.Nodup
/-! # Lemmas on the generator: what is declared, how often, and where -/

namespace Vtp

mutual
theorem walk_eq (take : GMsg → Bool) (emit : GMsg → List Item) : (m : GMsg) →
    walk take emit m = ((GMsg.all m).filter fun n => !n.mapEntry && take n).map emit
  | .mk i e f x ns => by
    rw [walk, GMsg.all, List.filter_append, List.map_append, walkAll_eq take emit ns]
    congr 1
    rw [List.filter_cons]
    show _ = List.map emit (if (!e && take (.mk i e f x ns)) = true then _ else _)
    split <;> rfl
theorem walkAll_eq (take : GMsg → Bool) (emit : GMsg → List Item) : (l : List GMsg) →
    walkAll take emit l = ((GMsg.allIn l).filter fun n => !n.mapEntry && take n).map emit
  | [] => rfl
  | m :: ms => by rw [walkAll, GMsg.allIn, List.filter_append, List.map_append, walk_eq take emit m, walkAll_eq take emit ms]
end

theorem mem_all_iff (n : GMsg) (l : List GMsg) : n ∈ GMsg.allIn l ↔ Inside l n := by
  have key : (∀ m : GMsg, n ∈ GMsg.all m ↔ n = m ∨ Inside m.nested n) ∧ (∀ l : List GMsg, n ∈ GMsg.allIn l ↔ Inside l n) := by
    refine ⟨fun m => ?_, fun l => ?_⟩
    · exact GMsg.rec (motive_1 := fun m => n ∈ GMsg.all m ↔ n = m ∨ Inside m.nested n) (motive_2 := fun l => n ∈ GMsg.allIn l ↔ Inside l n)
        (fun i e f x ns ih => by rw [GMsg.all, List.mem_append, ih, List.mem_singleton]; simp only [GMsg.nested]; tauto)
        (by rw [GMsg.allIn]; constructor
            · intro h; cases h
            · intro h; cases h <;> simp_all)
        (fun m ms h1 h2 => by
          rw [GMsg.allIn, List.mem_append, h1, h2]
          constructor
          · rintro ((rfl | h) | h)
            · exact .here (.head _)
            · exact .deep (.head _) h
            · cases h with
              | here h => exact .here (.tail _ h)
              | deep h h' => exact .deep (.tail _ h) h'
          · intro h
            cases h with
            | here h =>
              cases h with
              | head => exact .inl (.inl rfl)
              | tail _ h => exact .inr (.here h)
            | deep h h' =>
              cases h with
              | head => exact .inl (.inr h')
              | tail _ h => exact .inr (.deep h h')) m
    · exact GMsg.rec_1 (motive_1 := fun m => n ∈ GMsg.all m ↔ n = m ∨ Inside m.nested n) (motive_2 := fun l => n ∈ GMsg.allIn l ↔ Inside l n)
        (fun i e f x ns ih => by rw [GMsg.all, List.mem_append, ih, List.mem_singleton]; simp only [GMsg.nested]; tauto)
        (by rw [GMsg.allIn]; constructor
            · intro h; cases h
            · intro h; cases h <;> simp_all)
        (fun m ms h1 h2 => by
          rw [GMsg.allIn, List.mem_append, h1, h2]
          constructor
          · rintro ((rfl | h) | h)
            · exact .here (.head _)
            · exact .deep (.head _) h
            · cases h with
              | here h => exact .here (.tail _ h)
              | deep h h' => exact .deep (.tail _ h) h'
          · intro h
            cases h with
            | here h =>
              cases h with
              | head => exact .inl (.inl rfl)
              | tail _ h => exact .inr (.here h)
            | deep h h' =>
              cases h with
              | head => exact .inl (.inr h')
              | tail _ h => exact .inr (.deep h h')) l
  exact key.2 l

theorem filterMap_flatMap_none {α β : Type} {l : List α} {e : α → List Item} (h : ∀ a ∈ l, ∀ i ∈ e a, declOf i = none) :
    (l.flatMap e).filterMap declOf = ([] : List (GoIdent × Meth)) := by
  rw [List.filterMap_eq_nil_iff]
  intro i hi
  obtain ⟨a, ha, hi⟩ := List.mem_flatMap.1 hi
  exact h a ha i hi

theorem switch_decl (p : GenFile) (x : Recv) (r : MsgRef) (meth : Meth) : ∀ i ∈ (match p.wellKnownTypeMap r with
      | some g => [Item.call (x.conv (p.qualified g)) meth]
      | none => if p.isLocalMessage r then [.call x meth] else [.message x]), declOf i = none := by
  intro i hi
  split at hi
  · rw [List.mem_singleton] at hi; subst hi; rfl
  · split at hi <;> (rw [List.mem_singleton] at hi; subst hi; rfl)

theorem sizeField_decl (p : GenFile) (x : GField) : ∀ i ∈ genSizeField p x, declOf i = none := by
  intro i hi; unfold genSizeField at hi
  split at hi <;> first | exact switch_decl _ _ _ _ i hi | cases hi

theorem marshalField_decl (p : GenFile) (s : Bool) (x : GField) : ∀ i ∈ genMarshalField p s x, declOf i = none := by
  intro i hi; unfold genMarshalField at hi
  split at hi <;> first | exact switch_decl _ _ _ _ i hi | cases hi

theorem equalField_decl (p : GenFile) (x : GField) : ∀ i ∈ genEqualField p x, declOf i = none := by
  intro i hi; unfold genEqualField at hi
  split at hi <;> first | exact switch_decl _ _ _ _ i hi | cases hi

theorem cloneField_decl (p : GenFile) (x : GField) : ∀ i ∈ genCloneField p x, declOf i = none := by
  intro i hi; unfold genCloneField at hi
  split at hi <;> first | exact switch_decl _ _ _ _ i hi | cases hi

theorem unmarshalField_decl (p : GenFile) (u : Bool) (m : GMsg) (x : GField) : ∀ i ∈ genUnmarshalField p u m x, declOf i = none := by
  intro i hi; unfold genUnmarshalField at hi
  split at hi
  · exact switch_decl _ _ _ _ i hi
  · exact switch_decl _ _ _ _ i hi
  · rcases List.mem_append.1 hi with hi | hi
    · split at hi
      · rw [List.mem_singleton] at hi; subst hi; rfl
      · cases hi
    · exact switch_decl _ _ _ _ i hi
  · cases hi

theorem poolField_decl (p : GenFile) (x : GField) : ∀ i ∈ genPoolField p x, declOf i = none := by
  intro i hi; unfold genPoolField at hi
  repeat' split at hi
  all_goals first | (rw [List.mem_singleton] at hi; subst hi; rfl) | (simp at hi; done) | (simp only [List.mem_cons, List.not_mem_nil, or_false] at hi; rcases hi with rfl | rfl <;> rfl) | cases hi

theorem oneofs_decl (m : GMsg) (e : GField → Item) (h : ∀ x, declOf (e x) = none) :
    (m.oneofs.flatMap (·.map e)).filterMap declOf = ([] : List (GoIdent × Meth)) :=
  filterMap_flatMap_none (β := Unit) fun l _ i hi => by obtain ⟨x, _, rfl⟩ := List.mem_map.1 hi; exact h x

theorem wellKnownOneof_decl (p : GenFile) (m : GMsg) (meth : Meth) (x : GField) : declOf (wellKnownOneof p m meth x) = none := by
  unfold wellKnownOneof; split <;> rfl

theorem filterMap_none {l : List Item} (h : ∀ i ∈ l, declOf i = none) : l.filterMap declOf = [] := by
  rw [List.filterMap_eq_nil_iff]; exact h

theorem filterMap_flatMap' {α : Type} (l : List α) (e : α → List Item) : (l.flatMap e).filterMap declOf = l.flatMap fun a => (e a).filterMap declOf := by
  rw [List.filterMap_flatMap]

theorem decl_method (g : GoIdent) (meth : Meth) (l : List Item) : (Item.method g meth :: l).filterMap declOf = (g, meth) :: l.filterMap declOf := by
  rw [List.filterMap_cons]; rfl

theorem decl_ite (b : Bool) (i : Item) (h : declOf i = none) : (if b = true then [i] else []).filterMap declOf = [] := by
  cases b
  · rfl
  · simp [h]

/-- Without wrappers a feature declares for a message exactly the methods listed for it, in the order of the list up to permutation. -/
theorem emit_decls {p : GenFile} {φ : Feature} {m : GMsg} (hw : p.cfg.wrap = false) (hi : m.info.ident.importPath = p.file.goImportPath)
    (ho : ∀ x ∈ m.fields, x.isOneof = true → x.goIdent.importPath = p.file.goImportPath) (hk : p.isWellKnownType m.info = false) :
    ((emitOf p φ m).filterMap declOf).Perm (declsFor φ m) := by
  obtain ⟨f, cfg, loc⟩ := p
  have hb : (⟨f, cfg, loc⟩ : GenFile).bare m.info.ident.goName = m.info.ident := by
    rw [plain_bare hw]; simp only at hi; rw [← hi]
  have hbx : ∀ x ∈ m.fields.filter (·.isOneof), (⟨f, cfg, loc⟩ : GenFile).bare x.goIdent.goName = x.goIdent := by
    intro x hx
    obtain ⟨h1, h2⟩ := List.mem_filter.1 hx
    rw [plain_bare hw]; have := ho x h1 h2; simp only at this; rw [← this]
  have hq := plain_qualified (f := f) (loc := loc) hw
  simp only at hw
  cases φ with
  | clone =>
    simp only [emitOf, genClone, hb, hw, Bool.false_eq_true, if_false, List.filterMap_append, hk]
    rw [filterMap_flatMap_none (β := Unit) (fun a _ => cloneField_decl _ a), oneofs_decl m _ (fun _ => rfl),
      decl_ite _ _ rfl, filterMap_flatMap',
      List.flatMap_congr (g := fun x => [(x.goIdent, Meth.cloneVT)]) (fun x hx => by
        rw [hbx x hx, decl_method, filterMap_none (cloneField_decl _ x)])]
    exact List.Perm.refl _
  | equal =>
    simp only [emitOf, genEqual, hb, hw, Bool.false_eq_true, if_false, List.filterMap_append, hk]
    rw [filterMap_flatMap_none (β := Unit) (fun a _ => equalField_decl _ a), oneofs_decl m _ (fun _ => rfl), filterMap_flatMap',
      List.flatMap_congr (g := fun x => [(x.goIdent, Meth.equalVT)]) (fun x hx => by
        rw [hbx x hx, decl_method, filterMap_none (equalField_decl _ x)])]
    exact List.Perm.refl _
  | grpc => simp [emitOf, declsFor, messageApi, wrapperApi]
  | marshal s =>
    simp only [emitOf, genMarshal, hb, List.filterMap_append]
    rw [filterMap_flatMap_none (β := Unit) (fun a _ => marshalField_decl _ s a), oneofs_decl m _ (fun x => by
        unfold genMarshalOneof; split
        · exact wellKnownOneof_decl _ _ _ _
        · split <;> rfl), filterMap_flatMap',
      List.flatMap_congr (g := fun x => [(x.goIdent, Meth.marshalToVT s), (x.goIdent, Meth.marshalToSizedBufferVT s)]) (fun x hx => by
        rw [List.filterMap_append, filterMap_none (marshalField_decl _ s x), hbx x hx]; rfl)]
    exact List.Perm.refl _
  | pool =>
    simp only [emitOf, genPool, hq, List.filterMap_append]
    rw [filterMap_flatMap_none (β := Unit) (fun a _ => poolField_decl _ a), declsFor, show wrapperApi .pool = [] from rfl]
    simp only [List.map_nil, List.flatMap_eq_nil_iff.2 (fun _ _ => rfl), List.append_nil]
    exact List.Perm.refl _
  | size =>
    simp only [emitOf, genSize, hb, hk, Bool.false_eq_true, if_false, List.cons_append]
    rw [decl_method, List.filterMap_append, List.filterMap_append,
      filterMap_flatMap_none (β := Unit) (fun a _ => sizeField_decl _ a), oneofs_decl m _ (fun _ => rfl), filterMap_flatMap',
      List.flatMap_congr (g := fun x => [(x.goIdent, Meth.sizeVT)]) (fun x hx => by
        rw [genSizeOneofType, hk, Bool.false_and, if_neg (by decide), hq, decl_method,
          filterMap_none (sizeField_decl _ x)])]
    exact List.Perm.refl _
  | unmarshal u =>
    simp only [emitOf, genUnmarshal, hb, List.filterMap_append]
    rw [filterMap_flatMap_none (β := Unit) (fun a _ => unmarshalField_decl _ u m a),
      decl_ite _ _ rfl]
    simp [declOf, declsFor, messageApi, wrapperApi]

theorem mem_msgs {f : GFile} {m : GMsg} : m ∈ f.msgs ↔ Inside f.messages m ∧ m.mapEntry = false := by
  rw [GFile.msgs, List.mem_filter, mem_all_iff]
  simp

theorem perm_flatMap {α β : Type} {l : List α} {f g : α → List β} (h : ∀ a ∈ l, (f a).Perm (g a)) : (l.flatMap f).Perm (l.flatMap g) := by
  induction l with
  | nil => exact List.Perm.refl _
  | cons a l ih =>
    rw [List.flatMap_cons, List.flatMap_cons]
    exact (h a (.head _)).append (ih fun a ha => h a (.tail _ ha))

/-- The messages for which a feature generates code. -/
theorem feature_eq {p : GenFile} {φ : Feature} (h : φ ≠ .grpc) : generateFeature p φ = (p.file.msgs.filter (takes p φ)).map (emitOf p φ) := by
  rw [GFile.msgs, List.filter_filter]
  cases φ <;> first
    | exact absurd rfl h
    | (rw [generateFeature, walkAll_eq]; simp only [takes, emitOf, Bool.and_comm])

theorem feature_decls {p : GenFile} {φ : Feature} (hw : p.cfg.wrap = false)
    (hi : ∀ m ∈ p.file.msgs, m.info.ident.importPath = p.file.goImportPath)
    (ho : ∀ m ∈ p.file.msgs, ∀ x ∈ m.fields, x.isOneof = true → x.goIdent.importPath = p.file.goImportPath)
    (hk : ∀ m ∈ p.file.msgs, p.isWellKnownType m.info = false) :
    ((generateFeature p φ).flatten.filterMap declOf).Perm ((p.file.msgs.filter (takes p φ)).flatMap (declsFor φ)) := by
  by_cases hg : φ = .grpc
  · subst hg
    have h1 : (p.file.msgs.filter (takes p .grpc)).flatMap (declsFor .grpc) = [] := by
      rw [List.flatMap_eq_nil_iff]
      intro m hm
      exact absurd (List.mem_filter.1 hm).2 (by simp [takes])
    rw [h1, filterMap_none]
    intro i hi
    obtain ⟨part, hp, hi⟩ := List.mem_flatten.1 hi
    rw [generateFeature] at hp
    split at hp
    · cases hp
    · rw [List.mem_singleton] at hp
      subst hp
      obtain ⟨c, _, hi⟩ := List.mem_flatMap.1 hi
      unfold genRpc genAlloc at hi
      rcases List.mem_append.1 hi with hi | hi <;> (split at hi <;> first | (rw [List.mem_singleton] at hi; subst hi; rfl) | cases hi)
  · rw [feature_eq hg, ← List.flatMap_def, List.filterMap_flatMap]
    refine perm_flatMap fun m hm => ?_
    have hm := (List.mem_filter.1 hm).1
    exact emit_decls hw (hi m hm) (ho m hm) (hk m hm)

/-- What a file to generate is to declare. -/
def fileDecls (cfg : GenConfig) (features : List Feature) (loc : List Bytes) (f : GFile) : List (GoIdent × Meth) :=
  features.flatMap fun φ => (f.msgs.filter (takes ⟨f, cfg, loc⟩ φ)).flatMap (declsFor φ)

theorem parts_decls {features : List Feature} {p : GenFile} (hw : p.cfg.wrap = false)
    (hi : ∀ m ∈ p.file.msgs, m.info.ident.importPath = p.file.goImportPath)
    (ho : ∀ m ∈ p.file.msgs, ∀ x ∈ m.fields, x.isOneof = true → x.goIdent.importPath = p.file.goImportPath)
    (hk : ∀ m ∈ p.file.msgs, p.isWellKnownType m.info = false) :
    (((features.flatMap (generateFeature p)).flatten).filterMap declOf).Perm (fileDecls p.cfg features p.localPackages p.file) := by
  rw [show (features.flatMap (generateFeature p)).flatten = features.flatMap fun φ => (generateFeature p φ).flatten by
    rw [List.flatMap_def, List.flatten_flatten, List.map_map]; rfl, List.filterMap_flatMap]
  exact perm_flatMap fun φ _ => feature_decls hw hi ho hk

/-- All methods declared in a run, file by file. -/
theorem generate_decls {cfg : GenConfig} {features : List Feature} {req : List GFile} (hw : cfg.wrap = false) (hR : Request req) (hK : NoKnown req) :
    ((generate cfg features req).flatMap fun o => o.items.filterMap declOf).Perm
      ((req.filter (·.generate)).flatMap (fileDecls cfg features (localPackages req))) := by
  rw [generate]
  have key : ∀ l : List GFile, (∀ f ∈ l, f ∈ req ∧ f.generate = true) →
      ((l.filterMap fun f => generateFile features ⟨f, cfg, localPackages req⟩).flatMap fun o => o.items.filterMap declOf).Perm
        (l.flatMap (fileDecls cfg features (localPackages req))) := by
    intro l
    induction l with
    | nil => intro _; exact List.Perm.refl _
    | cons f l ih =>
      intro hl
      obtain ⟨hf, hg⟩ := hl f (.head _)
      have ih := ih fun f hf => hl f (.tail _ hf)
      have hd := parts_decls (features := features) (p := ⟨f, cfg, localPackages req⟩) hw
        (fun m hm => (hR.ident f hf m (mem_msgs.1 hm).1).1) (fun m hm => hR.wrapper f hf m (mem_msgs.1 hm).1)
        (fun m hm => by
          rw [GenFile.isWellKnownType, hK f hf (mem_local.2 ⟨f, hf, hg, rfl⟩) m (mem_msgs.1 hm).1]; rfl)
      rw [List.filterMap_cons, List.flatMap_cons]
      by_cases h : features.flatMap (generateFeature ⟨f, cfg, localPackages req⟩) = [] ∧ cfg.allowEmpty = false
      · rw [show generateFile features ⟨f, cfg, localPackages req⟩ = none from if_pos h]
        rw [h.1] at hd
        rw [show fileDecls cfg features (localPackages req) f = [] from List.Perm.nil_eq hd |>.symm]
        exact ih
      · rw [show generateFile features ⟨f, cfg, localPackages req⟩ = some _ from if_neg h]
        show (List.flatMap _ (_ :: _)).Perm _
        rw [List.flatMap_cons]
        refine List.Perm.append ?_ ih
        rw [plain_types hw, List.nil_append]
        exact hd
  exact key _ fun f hf => by
    have := List.mem_filter.1 hf
    exact ⟨this.1, this.2⟩

theorem api_once (φ : Feature) : (messageApi φ).Nodup ∧ (wrapperApi φ).Nodup := by
  cases φ <;> (constructor <;> first | decide | (simp [messageApi, wrapperApi]))

theorem mem_declsFor {φ : Feature} {m : GMsg} {g : GoIdent} {meth : Meth} : (g, meth) ∈ declsFor φ m ↔
    (g = m.info.ident ∧ meth ∈ messageApi φ) ∨ ∃ x ∈ m.fields, x.isOneof = true ∧ g = x.goIdent ∧ meth ∈ wrapperApi φ := by
  rw [declsFor, List.mem_append, List.mem_map, List.mem_flatMap]
  constructor
  · rintro (⟨a, h, e⟩ | ⟨x, hx, h⟩)
    · cases e; exact .inl ⟨rfl, h⟩
    · obtain ⟨a, h, e⟩ := List.mem_map.1 h
      cases e
      obtain ⟨h1, h2⟩ := List.mem_filter.1 hx
      exact .inr ⟨x, h1, h2, rfl, h⟩
  · rintro (⟨rfl, h⟩ | ⟨x, h1, h2, rfl, h⟩)
    · exact .inl ⟨_, h, rfl⟩
    · exact .inr ⟨x, List.mem_filter.2 ⟨h1, h2⟩, List.mem_map.2 ⟨_, h, rfl⟩⟩

theorem declsFor_types {φ : Feature} {m : GMsg} {g : GoIdent} {meth : Meth} (h : (g, meth) ∈ declsFor φ m) : g ∈ m.types := by
  rw [GMsg.types]
  rcases mem_declsFor.1 h with ⟨rfl, _⟩ | ⟨x, h1, h2, rfl, _⟩
  · exact .head _
  · exact .tail _ (List.mem_map.2 ⟨x, List.mem_filter.2 ⟨h1, h2⟩, rfl⟩)

theorem declsFor_feature {φ : Feature} {m : GMsg} {g : GoIdent} {meth : Meth} (h : (g, meth) ∈ declsFor φ m) : meth ∈ messageApi φ := by
  rcases mem_declsFor.1 h with ⟨_, h⟩ | ⟨x, _, _, _, h⟩
  · exact h
  · cases φ <;> simp_all [messageApi, wrapperApi]

theorem api_feature {φ ψ : Feature} {meth : Meth} (h : meth ∈ messageApi φ) (h' : meth ∈ messageApi ψ) : φ = ψ := by
  cases φ <;> cases ψ <;> simp_all [messageApi] <;> (rcases h with rfl | rfl | rfl <;> simp_all)

theorem declsFor_once {φ : Feature} {m : GMsg} (h : m.types.Nodup) : (declsFor φ m).Nodup := by
  rw [GMsg.types, List.nodup_cons] at h
  rw [declsFor, List.nodup_append]
  refine ⟨(api_once φ).1.map fun a b e => (Prod.mk.injEq _ _ _ _ ▸ e).2, ?_, ?_⟩
  · rw [List.nodup_flatMap]
    refine ⟨fun x _ => (api_once φ).2.map fun a b e => (Prod.mk.injEq _ _ _ _ ▸ e).2, ?_⟩
    have := List.pairwise_map.1 h.2
    refine this.imp fun {a b} hab => ?_
    intro x ha hb
    obtain ⟨_, _, rfl⟩ := List.mem_map.1 ha
    obtain ⟨_, _, e⟩ := List.mem_map.1 hb
    simp only [Prod.mk.injEq] at e
    exact hab e.1.symm
  · intro a ha b hb e
    subst e
    obtain ⟨_, _, rfl⟩ := List.mem_map.1 ha
    obtain ⟨x, hx, hb⟩ := List.mem_flatMap.1 hb
    obtain ⟨_, _, e⟩ := List.mem_map.1 hb
    simp only [Prod.mk.injEq] at e
    exact h.1 (List.mem_map.2 ⟨x, hx, e.1⟩)

theorem fileDecls_types {cfg : GenConfig} {features : List Feature} {loc : List Bytes} {f : GFile} {g : GoIdent} {meth : Meth}
    (h : (g, meth) ∈ fileDecls cfg features loc f) : g ∈ f.types := by
  obtain ⟨φ, _, h⟩ := List.mem_flatMap.1 h
  obtain ⟨m, hm, h⟩ := List.mem_flatMap.1 h
  exact List.mem_flatMap.2 ⟨m, (List.mem_filter.1 hm).1, declsFor_types h⟩

theorem fileDecls_once {cfg : GenConfig} {features : List Feature} {loc : List Bytes} {f : GFile} (hf : features.Nodup) (h : f.types.Nodup) :
    (fileDecls cfg features loc f).Nodup := by
  rw [GFile.types, List.nodup_flatMap] at h
  rw [fileDecls, List.nodup_flatMap]
  refine ⟨fun φ _ => ?_, hf.imp fun {φ ψ} hne => ?_⟩
  · rw [List.nodup_flatMap]
    refine ⟨fun m hm => declsFor_once (h.1 m (List.mem_filter.1 hm).1), (h.2.filter _).imp fun {m n} hmn => ?_⟩
    rintro ⟨g, meth⟩ h1 h2
    exact hmn (declsFor_types h1) (declsFor_types h2)
  · rintro ⟨g, meth⟩ h1 h2
    obtain ⟨m, _, h1⟩ := List.mem_flatMap.1 h1
    obtain ⟨n, _, h2⟩ := List.mem_flatMap.1 h2
    exact hne (api_feature (declsFor_feature h1) (declsFor_feature h2))

theorem all_once {cfg : GenConfig} {features : List Feature} {req : List GFile} (hw : cfg.wrap = false) (hR : Request req) (hK : NoKnown req)
    (hf : features.Nodup) (hD : DistinctTypes req) : ((generate cfg features req).flatMap fun o => o.items.filterMap declOf).Nodup := by
  rw [(generate_decls hw hR hK).nodup_iff]
  rw [DistinctTypes, List.nodup_flatMap] at hD
  rw [List.nodup_flatMap]
  refine ⟨fun f h => fileDecls_once hf (hD.1 f h), hD.2.imp fun {f f'} h => ?_⟩
  rintro ⟨g, meth⟩ h1 h2
  exact h (fileDecls_types h1) (fileDecls_types h2)

end Vtp
