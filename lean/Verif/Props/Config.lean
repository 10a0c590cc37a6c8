import Verif.Lemmas.Config
import Verif.Props.Pattern
/-!
# C62, C63: which messages are pooled, which features are generated
-/

namespace Vtp.Props
open Spec

/-- One of the flags matches the message's name, `import/path.GoName`. -/
def Selects (flags : List Bytes) (m : MsgInfo) : Prop := ∃ w ∈ flags, matchPattern w (m.ident.importPath ++ [46] ++ m.ident.goName) = .ok true

theorem contains_selects {flags : List Bytes} {o : ObjectSet} (h : ObjectSet.setAll [] flags = .ok o) (m : MsgInfo) :
    o.contains m.ident = true ↔ Selects flags m := by
  have hv : ∀ s ∈ flags, validatePattern s = true := by
    by_contra hc
    push Not at hc
    obtain ⟨s, h1, h2⟩ := hc
    rw [setAll_bad ⟨s, h1, by simpa using h2⟩] at h
    cases h
  obtain ⟨o', h1, h2⟩ := setAll_ok (o := []) hv
  rw [h] at h1
  cases h1
  rw [contains_iff]
  simp only [h2, List.not_mem_nil, false_or, Selects, objectPath, List.append_assoc, List.singleton_append]

/-- C62: for all flags the program accepts, whatever their order, a message is pooled if and only if no `pool-exclude` flag matches it and a `pool` flag
matches it or it has the option. -/
theorem pool_iff {pools excl ignore : List Bytes} {c : Config} (h1 : ObjectSet.setAll [] pools = .ok c.poolable) (h2 : ObjectSet.setAll [] excl = .ok c.poolableExclude)
    (h3 : ObjectSet.setAll [] ignore = .ok c.ignoreUnknownFields) (m : MsgInfo) :
    (shouldPool c (some m) = true ↔ ¬ Selects excl m ∧ (Selects pools m ∨ m.mempool = true)) ∧
    (shouldIgnoreUnknownFields c m = true ↔ Selects ignore m ∨ m.ignoreUnknownFields = true) := by
  have e1 := contains_selects h1 m
  have e2 := contains_selects h2 m
  have e3 := contains_selects h3 m
  constructor
  · rw [← e1, ← e2]
    simp only [shouldPool]
    split_ifs with h h'
    · simp [h]
    · simp [h, h']
    · simp [h, h']
  · rw [← e3]
    unfold shouldIgnoreUnknownFields
    split_ifs with h
    · simp [h]
    · simp [h]

/-- No message: not pooled. -/
theorem pool_none (c : Config) : shouldPool c none = false := rfl

/-- The flags are accepted exactly when each is a valid pattern. -/
theorem flags_iff (flags : List Bytes) : (∃ o, ObjectSet.setAll [] flags = .ok o) ↔ ∀ w ∈ flags, WellFormed (fun _ => True) w := by
  constructor
  · rintro ⟨o, h⟩ w hw
    by_contra hc
    rw [← validatePattern_iff] at hc
    rw [setAll_bad ⟨w, hw, by simpa using hc⟩] at h
    cases h
  · intro h
    obtain ⟨o, h1, -⟩ := setAll_ok (o := []) fun s hs => (validatePattern_iff s).2 (h s hs)
    exact ⟨o, h1⟩

/-- The rejection of a flag is an error, not a crash. -/
theorem flags_bad {flags : List Bytes} (h : ¬ ∀ w ∈ flags, WellFormed (fun _ => True) w) : ObjectSet.setAll [] flags = .err .badPattern := by
  push Not at h
  obtain ⟨w, h1, h2⟩ := h
  rw [← validatePattern_iff] at h2
  exact setAll_bad ⟨w, h1, by simpa using h2⟩

/-- The byte has no special meaning in patterns. -/
def Literal (w : Bytes) : Prop := ∀ b ∈ w, b < 128 ∧ b ≠ 42 ∧ b ≠ 63 ∧ b ≠ 91 ∧ b ≠ 92 ∧ b ≠ 123

/-- A flag without special characters selects exactly the message of that name. -/
theorem select_name {w : Bytes} (hw : Literal w) (m : MsgInfo) : Selects [w] m ↔ m.ident.importPath ++ [46] ++ m.ident.goName = w := by
  rw [← match_plain (w := w) fun b hb => by obtain ⟨a1, a2, a3, a4, a5, a6⟩ := hw b hb; exact ⟨a1, a2, a3, a4, a6, a5⟩]
  simp [Selects]

/-- A flag `import/path.*`, or another with one star at its end, selects exactly the messages whose names go on from there without a separator. -/
theorem select_package {w : Bytes} (hw : Literal w) (m : MsgInfo) :
    Selects [w ++ [42]] m ↔ ∃ t, m.ident.importPath ++ [46] ++ m.ident.goName = w ++ t ∧ 47 ∉ t := by
  rw [← match_plain_star (w := w) fun b hb => by obtain ⟨a1, a2, a3, a4, a5, a6⟩ := hw b hb; exact ⟨a1, a2, a3, a4, a6, a5⟩]
  simp [Selects]

/-- A configuration: everything of package `a/b` but `Big`. -/
def someConfig : Config where
  poolable := [txt ['a', '/', 'b', '.', '*']]
  poolableExclude := [txt ['*', '*', '/', 'b', '.', 'B', 'i', 'g']]
  ignoreUnknownFields := []

example : ObjectSet.setAll [] [txt ['a', '/', 'b', '.', '*']] = .ok someConfig.poolable ∧
    ObjectSet.setAll [] [txt ['*', '*', '/', 'b', '.', 'B', 'i', 'g']] = .ok someConfig.poolableExclude ∧ ObjectSet.setAll [] [] = .ok someConfig.ignoreUnknownFields ∧
    shouldPool someConfig (some ⟨⟨txt ['a', '/', 'b'], txt ['C', 'a', 't']⟩, false, false⟩) = true ∧
    shouldPool someConfig (some ⟨⟨txt ['a', '/', 'b'], txt ['B', 'i', 'g']⟩, true, false⟩) = false ∧
    shouldPool someConfig (some ⟨⟨txt ['c'], txt ['C', 'a', 't']⟩, true, false⟩) = true ∧
    shouldPool someConfig (some ⟨⟨txt ['c'], txt ['C', 'a', 't']⟩, false, false⟩) = false := by decide

example : Literal (txt ['a', '/', 'b', '.']) := by unfold Literal; decide

/-! ## C63 -/

variable {φ : Type}

/-- The features registered by the calls of `RegisterFeature`: for every name the last one. -/
def Registered : List (Bytes × φ) → Bytes → φ → Prop
  | [], _, _ => False
  | e :: es, n, f => Registered es n f ∨ (e = (n, f) ∧ ∀ e' ∈ es, e'.1 ≠ n)

theorem registered_mem (es : List (Bytes × φ)) : ∀ (reg : FeatureMap φ) (n : Bytes) (f : φ),
    (n, f) ∈ registerAll reg es ↔ Registered es n f ∨ ((n, f) ∈ reg ∧ ∀ e' ∈ es, e'.1 ≠ n) := by
  induction es with
  | nil => intro reg n f; simp [registerAll, Registered]
  | cons e es ih =>
    intro reg n f
    rw [registerAll, ih, put_mem]
    obtain ⟨k, q⟩ := e
    simp only [Registered, List.mem_cons, forall_eq_or_imp]
    constructor
    · rintro (h | ⟨h1 | ⟨h1, h2⟩, h3⟩)
      · exact .inl (.inl h)
      · cases h1; exact .inl (.inr ⟨rfl, h3⟩)
      · exact .inr ⟨h1, fun h => h2 h.symm, h3⟩
    · rintro ((h | ⟨h1, h2⟩) | ⟨h1, h2, h3⟩)
      · exact .inl h
      · cases h1; exact .inr ⟨.inl rfl, h2⟩
      · exact .inr ⟨.inr ⟨h1, fun h => h2 h.symm⟩, h3⟩

/-- C63: whatever was registered, in whatever order the runtime iterates over maps: if every name asked for is registered, or follows `all`, then the features
are those of the registered names which are asked for, all of them after `all`, each once, in increasing order of their names. -/
theorem features_exact {regs : List (Bytes × φ)} {iter : FeatureMap φ → FeatureMap φ} (hi : ∀ m, (iter m).Perm m) {before after : List Bytes}
    (hk : ∀ n ∈ before, ∃ f, Registered regs n f) (ha : after = [] ∨ after.head? = some allName) :
    ∃ es : List (Bytes × φ), findFeatures (registerAll [] regs) iter (before ++ after) = .ok (es.map (·.2)) ∧ (es.Pairwise fun a b => a.1 < b.1) ∧
      ∀ n f, (n, f) ∈ es ↔ Registered regs n f ∧ (allName ∈ before ++ after ∨ n ∈ before ++ after) := by
  have hreg : ∀ n f, (n, f) ∈ registerAll [] regs ↔ Registered regs n f := fun n f => by rw [registered_mem]; simp
  have hnd := registerAll_nodup regs (reg := []) (by simp)
  have hu : ¬ UnknownFirst (registerAll [] regs) (before ++ after) := by
    clear hi
    induction before with
    | nil =>
      rcases ha with rfl | ha
      · exact id
      · cases after with
        | nil => exact id
        | cons a after => simp at ha; exact fun h => h.1 ha
    | cons n before ih =>
      rintro ⟨_, h | h⟩
      · obtain ⟨f, hf⟩ := hk n (by simp)
        exact h f ((hreg n f).2 hf)
      · exact ih (fun q hq => hk q (by simp [hq])) h
  rcases requiredFeatures_spec hnd (before ++ after) [] (by simp) (by simp) with ⟨h, _⟩ | ⟨_, r, h1, h2, h3⟩
  · exact absurd h hu
  · have hp := sortFeatures_perm (iter r)
    refine ⟨sortFeatures (iter r), by simp [findFeatures, h1], sortFeatures_sorted ?_, fun n f => ?_⟩
    · exact (((hi r).map (·.1)).nodup_iff).2 h2
    · rw [hp.mem_iff, (hi r).mem_iff, h3, hreg]
      simp

/-- C63: an unregistered name makes the program fail, unless `all` comes before it (`features_after_all`). -/
theorem features_unknown_partial {regs : List (Bytes × φ)} {iter : FeatureMap φ → FeatureMap φ} {before after : List Bytes} {n : Bytes} (h : ∀ f, ¬ Registered regs n f)
    (hn : n ≠ allName) (ha : allName ∉ before) : findFeatures (registerAll [] regs) iter (before ++ n :: after) = .err .unknownFeature := by
  have hreg : ∀ n f, (n, f) ∈ registerAll [] regs ↔ Registered regs n f := fun n f => by rw [registered_mem]; simp
  have hnd := registerAll_nodup regs (reg := []) (by simp)
  have hu : UnknownFirst (registerAll [] regs) (before ++ n :: after) := by
    induction before with
    | nil => exact ⟨hn, .inl fun f hf => h f ((hreg _ _).1 hf)⟩
    | cons q before ih =>
      simp only [List.mem_cons, not_or] at ha
      exact ⟨fun e => ha.1 e.symm, .inr (ih ha.2)⟩
  rcases requiredFeatures_spec hnd (before ++ n :: after) [] (by simp) (by simp) with ⟨_, h⟩ | ⟨h, _⟩
  · simp [findFeatures, h]
  · exact absurd hu h

/-- C63: the order and repetition of the names asked for do not matter, nor does the order in which features register themselves under different names, nor the order in
which the runtime iterates. -/
theorem features_order {regs regs' : List (Bytes × φ)} {iter iter' : FeatureMap φ → FeatureMap φ} (hi : ∀ m, (iter m).Perm m) (hi' : ∀ m, (iter' m).Perm m)
    (hr : ∀ n f, Registered regs n f ↔ Registered regs' n f) {names names' : List Bytes} (hm : ∀ n, n ∈ names ↔ n ∈ names') {fs fs' : List φ}
    (h : findFeatures (registerAll [] regs) iter names = .ok fs) (h' : findFeatures (registerAll [] regs') iter' names' = .ok fs') : fs = fs' := by
  have key : ∀ {regs : List (Bytes × φ)} {iter : FeatureMap φ → FeatureMap φ} {names : List Bytes} {fs : List φ}, (∀ m, (iter m).Perm m) →
      findFeatures (registerAll [] regs) iter names = .ok fs → ∃ es : List (Bytes × φ), fs = es.map (·.2) ∧ (es.Pairwise fun a b => a.1 < b.1) ∧
      ∀ n f, (n, f) ∈ es ↔ Registered regs n f ∧ (allName ∈ names ∨ n ∈ names) := by
    intro regs iter names fs hi h
    have hreg : ∀ n f, (n, f) ∈ registerAll [] regs ↔ Registered regs n f := fun n f => by rw [registered_mem]; simp
    have hnd := registerAll_nodup regs (reg := []) (by simp)
    rcases requiredFeatures_spec hnd names [] (by simp) (by simp) with ⟨_, h1⟩ | ⟨_, r, h1, h2, h3⟩
    · simp [findFeatures, h1] at h
    · simp [findFeatures, h1] at h
      refine ⟨sortFeatures (iter r), h.symm, sortFeatures_sorted ((((hi r).map (·.1)).nodup_iff).2 h2), fun n f => ?_⟩
      rw [(sortFeatures_perm (iter r)).mem_iff, (hi r).mem_iff, h3, hreg]
      simp
  obtain ⟨es, rfl, h1, h2⟩ := key hi h
  obtain ⟨es', rfl, h3, h4⟩ := key hi' h'
  rw [sorted_unique h1 h3]
  rintro ⟨n, f⟩
  rw [h2, h4, hr, hm, hm]

/-- The names of three features and of one that does not exist. -/
def fSize : Bytes := txt ['s', 'i', 'z', 'e']
def fPool : Bytes := txt ['p', 'o', 'o', 'l']
def fEqual : Bytes := txt ['e', 'q', 'u', 'a', 'l']
def fNone : Bytes := txt ['n', 'o', 'n', 'e']

example : let regs := [(fSize, 1), (fPool, 2), (fEqual, 3)]
    (∀ n ∈ [fSize, fEqual, fSize], ∃ f, Registered regs n f) ∧ (∀ f, ¬ Registered regs fNone f) ∧
    findFeatures (registerAll [] regs) List.reverse [fSize, fEqual, fSize] = .ok [3, 1] ∧
    findFeatures (registerAll [] regs) id [fEqual, fSize] = .ok [3, 1] ∧
    findFeatures (registerAll [] regs) id [fEqual, fNone] = .err .unknownFeature ∧
    findFeatures (registerAll [] regs) id (splitPlus (txt ['p', 'o', 'o', 'l', '+', 'a', 'l', 'l'])) = .ok [3, 2, 1] := by
  refine ⟨?_, ?_, by decide, by decide, by decide, by decide⟩
  · intro n hn
    simp only [List.mem_cons, List.not_mem_nil, or_false] at hn
    rcases hn with rfl | rfl | rfl
    · exact ⟨1, .inr ⟨rfl, by decide⟩⟩
    · exact ⟨3, .inl (.inl (.inr ⟨rfl, by decide⟩))⟩
    · exact ⟨1, .inr ⟨rfl, by decide⟩⟩
  · rintro f (((h | ⟨h, _⟩) | ⟨h, _⟩) | ⟨h, _⟩)
    · exact h
    · exact absurd (congrArg Prod.fst h) (show ¬ fEqual = fNone by decide)
    · exact absurd (congrArg Prod.fst h) (show ¬ fPool = fNone by decide)
    · exact absurd (congrArg Prod.fst h) (show ¬ fSize = fNone by decide)

/-- What is missing in `features_unknown_partial` is false: a name after `all` is not looked at, so that the outcome depends on the order of the list. -/
theorem features_after_all : let regs := [(fSize, 1), (fPool, 2), (fEqual, 3)]
    findFeatures (registerAll [] regs) id [allName, fNone] = .ok [3, 2, 1] ∧ findFeatures (registerAll [] regs) id [fNone, allName] = .err .unknownFeature := by decide

/-- The names of the list are what lies between the plus signs of the flag. -/
theorem split_plus (s : Bytes) : List.intercalate [43] (splitPlus s) = s ∧ ∀ w ∈ splitPlus s, 43 ∉ w := by
  induction s with
  | nil => exact ⟨rfl, by simp [splitPlus]⟩
  | cons b s ih =>
    have hne : splitPlus s ≠ [] := by
      cases s with
      | nil => simp [splitPlus]
      | cons c s => unfold splitPlus; split_ifs; · simp
                    split <;> simp
    unfold splitPlus
    cases h : splitPlus s with
    | nil => exact absurd h hne
    | cons w ws =>
      rw [h] at ih
      split_ifs with hb
      · subst hb
        refine ⟨?_, ?_⟩
        · simpa [List.intercalate, List.intersperse] using ih.1
        · intro q hq
          rcases List.mem_cons.1 hq with rfl | hq
          · simp
          · exact ih.2 q hq
      · refine ⟨?_, ?_⟩
        · have := ih.1
          cases ws with
          | nil => simpa [List.intercalate, List.intersperse] using this
          | cons x xs => simpa [List.intercalate, List.intersperse] using this
        · intro q hq
          rcases List.mem_cons.1 hq with rfl | hq
          · simp only [List.mem_cons, not_or]
            exact ⟨fun e => hb e.symm, ih.2 w (by simp)⟩
          · exact ih.2 q (by simp [hq])

end Vtp.Props
