import Verif.Model.Config
import Verif.Lemmas.PatternValid
/-!
# Lemmas about the configuration of the generator
-/

namespace Vtp
open Spec

/-! ## Patterns without special characters -/

/-- The byte stands for itself in patterns. -/
def plainByte (b : UInt8) : Prop := b < 0x80 ∧ b ≠ cStar ∧ b ≠ cQuest ∧ b ≠ cOpen ∧ b ≠ cLeft ∧ b ≠ cEsc

theorem parses_plain {w s : Bytes} {g : List Glob} (hw : ∀ b ∈ w, plainByte b) (h : ∀ sos, Parses sos s g) :
    ∀ sos, Parses sos (w ++ s) (w.map (fun b => Glob.chr false b.toNat) ++ g) := by
  induction w with
  | nil => exact h
  | cons b w ih =>
    intro sos
    obtain ⟨h0, h1, h2, h3, h4, h5⟩ := hw b (by simp)
    have hd := decodeRune_ascii h0 (w ++ s)
    have hp := Parses.chr (sos := sos) (b := b) (s := w ++ s) (g := w.map (fun b => Glob.chr false b.toNat) ++ g) h1 h2 h3 h4 h5
      (by rw [hd]; exact ih (fun c hc => hw c (by simp [hc])) _)
    rw [hd] at hp
    exact hp

theorem runes_plain {w : Bytes} (hw : ∀ b ∈ w, b < 0x80) : ∀ {n : Bytes} {m : List Nat}, Runes n (w.map (·.toNat) ++ m) ↔ ∃ t, n = w ++ t ∧ Runes t m := by
  induction w with
  | nil => intro n m; simp
  | cons b w ih =>
    intro n m
    have hb := hw b (by simp)
    have ih := @ih (fun c hc => hw c (by simp [hc]))
    constructor
    · intro h
      have hne : n ≠ [] := by rintro rfl; have := runes_nil h; simp at this
      obtain ⟨m', e, h'⟩ := runes_cons hne h
      rw [List.map_cons, List.cons_append] at e
      obtain ⟨e1, e2⟩ := List.cons.inj e
      obtain ⟨s', rfl⟩ := (decodeRune_eq_ascii hb).1 e1.symm
      rw [decodeRune_ascii hb] at h'
      obtain ⟨t, rfl, ht⟩ := ih.1 (e2 ▸ h')
      exact ⟨t, rfl, ht⟩
    · rintro ⟨t, rfl, ht⟩
      have h1 := ih.2 ⟨t, rfl, ht⟩
      have := Runes.cons (s := b :: (w ++ t)) (rs := w.map (·.toNat) ++ m) (by simp) (by rw [decodeRune_ascii hb]; exact h1)
      rw [decodeRune_ascii hb] at this
      exact this

theorem runes_sep {n : Bytes} {m : List Nat} (h : Runes n m) : sepRune ∈ m ↔ cSlash ∈ n := by
  induction h with
  | nil => simp
  | @cons s rs h1 h2 ih =>
    cases s with
    | nil => exact absurd rfl h1
    | cons b s =>
      obtain ⟨t, e, ht⟩ := decodeRune_tail b s
      have e1 : sepRune = (decodeRune (b :: s)).1 ↔ cSlash = b := by
        rw [show (sepRune = (decodeRune (b :: s)).1) ↔ ((decodeRune (b :: s)).1 = cSlash.toNat) from eq_comm, decodeRune_eq_ascii (by decide)]
        constructor
        · rintro ⟨s', e⟩; exact (List.cons.inj e).1.symm
        · rintro rfl; exact ⟨s, rfl⟩
      have e2 : cSlash ∈ s ↔ cSlash ∈ (b :: s).drop (decodeRune (b :: s)).2 := by
        conv_lhs => rw [e]
        rw [List.mem_append]
        constructor
        · rintro (h | h)
          · exact absurd (by decide) (ht _ h)
          · exact h
        · exact .inr
      rw [List.mem_cons, List.mem_cons, e1, e2, ih]

theorem matches_plain {w : Bytes} {g : List Glob} (hg : g = [] ∨ g = [.star]) : ∀ {m : List Nat},
    Matches (w.map (fun b => Glob.chr false b.toNat) ++ g) m ↔ ∃ m', m = w.map (·.toNat) ++ m' ∧ Matches g m' := by
  induction w with
  | nil => intro m; simp
  | cons b w ih =>
    intro m
    constructor
    · intro h
      cases h with
      | used h =>
        exfalso
        rcases h with h | h | h | h | h | h | h <;> simp at h
        · rcases hg with rfl | rfl
          · cases w with
            | nil => simp at h
            | cons a w => simp at h
          · cases w with
            | nil => simp at h
            | cons a w => simp at h
        · rcases hg with rfl | rfl
          · cases w with
            | nil => simp at h
            | cons a w => simp at h
          · cases w with
            | nil => simp at h
            | cons a w => simp at h
      | rune h1 h2 =>
        obtain ⟨m', rfl, h'⟩ := ih.1 h2
        have := h1
        simp only [Glob.Fits] at this
        subst this
        exact ⟨m', rfl, h'⟩
      | star h1 => rcases h1 with h1 | h1 <;> cases h1
    · rintro ⟨m', rfl, h'⟩
      exact .rune rfl (ih.2 ⟨m', rfl, h'⟩)

theorem matches_star_all {m : List Nat} : Matches [.star] m ↔ NoSep m := by
  constructor
  · intro h
    cases h with
    | used _ => intro r h; cases h
    | rune h1 _ => cases h1
    | @star i g d n h1 h2 h3 h4 =>
      cases h4 with
      | used _ => simpa using h2
  · intro h
    by_cases hm : m = []
    · subst hm; exact .used (.inr (.inl rfl))
    · have := Matches.star (i := .star) (g := []) (d := m) (n := []) (.inl rfl) h (by simpa using hm) (.used (.inl rfl))
      simpa using this

theorem plain_decent {w : Bytes} {g : List Glob} (hg : g = [] ∨ g = [.star]) : Decent (w.map (fun b => Glob.chr false b.toNat) ++ g) := by
  constructor
  · intro neg rs h
    exfalso
    rcases List.mem_append.1 h with h | h
    · simp at h
    · rcases hg with rfl | rfl <;> simp at h
  · intro h
    have := List.mem_of_mem_getLast? h
    rcases List.mem_append.1 this with h | h
    · simp at h
    · rcases hg with rfl | rfl <;> simp at h

theorem plain_noMidDirs {w : Bytes} {g : List Glob} (hg : g = [] ∨ g = [.star]) : NoMidDirs (w.map (fun b => Glob.chr false b.toNat) ++ g) := by
  intro h
  have := h.subset (show Glob.star2 ∈ _ by simp)
  rcases List.mem_append.1 this with h | h
  · simp at h
  · rcases hg with rfl | rfl <;> simp at h

/-- A pattern without special characters matches itself only. -/
theorem match_plain {w : Bytes} (hw : ∀ b ∈ w, plainByte b) (n : Bytes) : matchPattern w n = .ok true ↔ n = w := by
  have hp := parses_plain hw (s := []) (g := []) (fun _ => .nil) true
  rw [List.append_nil] at hp
  obtain ⟨m, hm⟩ := runes_exists _ n (Nat.le_refl _)
  obtain ⟨h1, h2⟩ := matchPattern_matches hp hm
  constructor
  · intro h
    obtain ⟨m', rfl, h'⟩ := (matches_plain (.inl rfl)).1 (h1 (plain_noMidDirs (.inl rfl)) h)
    obtain ⟨t, rfl, ht⟩ := (runes_plain fun b hb => (hw b hb).1).1 hm
    rw [matches_empty] at h'
    subst h'
    cases ht
    simp
  · rintro rfl
    refine h2 (plain_decent (.inl rfl)) ((matches_plain (.inl rfl)).2 ⟨[], ?_, .used (.inl rfl)⟩)
    refine runes_unique hm ?_
    exact (runes_plain fun b hb => (hw b hb).1).2 ⟨[], by simp, .nil⟩

/-- A pattern without special characters but a star at the end matches what begins with it and has no further separator. -/
theorem match_plain_star {w : Bytes} (hw : ∀ b ∈ w, plainByte b) (n : Bytes) : matchPattern (w ++ [cStar]) n = .ok true ↔ ∃ t, n = w ++ t ∧ cSlash ∉ t := by
  have hp := parses_plain hw (s := [cStar]) (g := [.star]) (fun _ => .star (by simp) .nil) true
  obtain ⟨m, hm⟩ := runes_exists _ n (Nat.le_refl _)
  obtain ⟨h1, h2⟩ := matchPattern_matches hp hm
  constructor
  · intro h
    obtain ⟨m', rfl, h'⟩ := (matches_plain (.inr rfl)).1 (h1 (plain_noMidDirs (.inr rfl)) h)
    obtain ⟨t, rfl, ht⟩ := (runes_plain fun b hb => (hw b hb).1).1 hm
    rw [matches_star_all] at h'
    exact ⟨t, rfl, fun hc => h' _ ((runes_sep ht).2 hc) rfl⟩
  · rintro ⟨t, rfl, ht⟩
    obtain ⟨m', hm'⟩ := runes_exists _ t (Nat.le_refl _)
    refine h2 (plain_decent (.inr rfl)) ((matches_plain (.inr rfl)).2 ⟨m', ?_, matches_star_all.2 fun r hr e => ht ((runes_sep hm').1 (e ▸ hr))⟩)
    exact runes_unique hm ((runes_plain fun b hb => (hw b hb).1).2 ⟨t, rfl, hm'⟩)

/-! ## Object sets -/

theorem contains_iff (o : ObjectSet) (g : GoIdent) : o.contains g = true ↔ ∃ w ∈ o, matchPattern w (objectPath g) = .ok true := by
  induction o with
  | nil => simp [ObjectSet.contains]
  | cons w o ih =>
    unfold ObjectSet.contains
    split
    · rename_i h; simp [h]
    · rename_i h
      rw [ih]
      constructor
      · rintro ⟨w', h1, h2⟩; exact ⟨w', by simp [h1], h2⟩
      · rintro ⟨w', h1, h2⟩
        rcases List.mem_cons.1 h1 with rfl | h1
        · exact absurd h2 h
        · exact ⟨w', h1, h2⟩

theorem setAll_ok {ss : List Bytes} : ∀ {o : ObjectSet}, (∀ s ∈ ss, validatePattern s = true) →
    ∃ o', o.setAll ss = .ok o' ∧ ∀ w, w ∈ o' ↔ w ∈ o ∨ w ∈ ss := by
  induction ss with
  | nil => intro o _; exact ⟨o, rfl, by simp⟩
  | cons s ss ih =>
    intro o h
    obtain ⟨o', h1, h2⟩ := ih (o := if s ∈ o then o else s :: o) (fun q hq => h q (by simp [hq]))
    refine ⟨o', by simp [ObjectSet.setAll, ObjectSet.set, h s (by simp), h1], fun w => ?_⟩
    rw [h2]
    split_ifs with hs
    · constructor
      · rintro (h | h)
        · exact .inl h
        · exact .inr (by simp [h])
      · rintro (h | h)
        · exact .inl h
        · rcases List.mem_cons.1 h with rfl | h
          · exact .inl hs
          · exact .inr h
    · simp only [List.mem_cons]; tauto

theorem setAll_bad {ss : List Bytes} : ∀ {o : ObjectSet}, (∃ s ∈ ss, validatePattern s = false) → o.setAll ss = .err .badPattern := by
  induction ss with
  | nil => intro o h; simp at h
  | cons s ss ih =>
    intro o h
    by_cases hs : validatePattern s = true
    · simp only [ObjectSet.setAll, ObjectSet.set, hs, if_true, Res.bind_ok]
      refine ih ?_
      obtain ⟨q, h1, h2⟩ := h
      rcases List.mem_cons.1 h1 with rfl | h1
      · simp [hs] at h2
      · exact ⟨q, h1, h2⟩
    · simp [ObjectSet.setAll, ObjectSet.set, hs]

/-! ## Features -/

theorem strLt_iff (a b : Bytes) : strLt a b = true ↔ a < b := by
  induction a generalizing b with
  | nil => cases b <;> simp [strLt]
  | cons x a ih =>
    cases b with
    | nil => simp [strLt]
    | cons y b =>
      rw [List.cons_lt_cons_iff, ← ih]
      rw [strLt]
      split_ifs with h1 h2
      · simp [h1]
      · simp [h1, h2]
      · simp [h1, h2]

theorem bytes_irrefl (a : Bytes) : ¬ a < a := by
  induction a with
  | nil => simp
  | cons x a ih => rw [List.cons_lt_cons_iff]; rintro (h | ⟨_, h⟩); exacts [UInt8.lt_irrefl _ h, ih h]

theorem bytes_trans {a b c : Bytes} (h1 : a < b) (h2 : b < c) : a < c := by
  induction a generalizing b c with
  | nil =>
    cases c with
    | nil => simp at h2
    | cons => simp
  | cons x a ih =>
    cases b with
    | nil => simp at h1
    | cons y b =>
      cases c with
      | nil => simp at h2
      | cons z c =>
        rw [List.cons_lt_cons_iff] at h1 h2 ⊢
        rcases h1 with h1 | ⟨rfl, h1⟩ <;> rcases h2 with h2 | ⟨rfl, h2⟩
        · exact .inl (UInt8.lt_trans h1 h2)
        · exact .inl h1
        · exact .inl h2
        · exact .inr ⟨rfl, ih h1 h2⟩

theorem bytes_total {a b : Bytes} (h : ¬ a < b) (hne : a ≠ b) : b < a := by
  induction a generalizing b with
  | nil =>
    cases b with
    | nil => exact absurd rfl hne
    | cons => simp at h
  | cons x a ih =>
    cases b with
    | nil => simp
    | cons y b =>
      rw [List.cons_lt_cons_iff] at h ⊢
      rw [not_or, not_and] at h
      by_cases e : x = y
      · subst e
        exact .inr ⟨rfl, ih (h.2 rfl) (fun e => hne (by rw [e]))⟩
      · exact .inl (UInt8.lt_of_le_of_ne (UInt8.not_lt.1 h.1) (Ne.symm e))

variable {φ : Type}

theorem insertFeature_perm (e : Bytes × φ) (l : List (Bytes × φ)) : (insertFeature e l).Perm (e :: l) := by
  induction l with
  | nil => exact .refl _
  | cons x l ih =>
    unfold insertFeature
    split_ifs
    · exact (ih.cons x).trans (.swap e x l)
    · exact .refl _

theorem sortFeatures_perm (l : List (Bytes × φ)) : (sortFeatures l).Perm l := by
  induction l with
  | nil => exact .refl _
  | cons x l ih => exact (insertFeature_perm x _).trans (ih.cons x)

theorem insertFeature_sorted {e : Bytes × φ} {l : List (Bytes × φ)} (h : l.Pairwise fun a b => a.1 < b.1) (hn : e.1 ∉ l.map (·.1)) :
    (insertFeature e l).Pairwise fun a b => a.1 < b.1 := by
  induction l with
  | nil => simp [insertFeature]
  | cons x l ih =>
    rw [List.pairwise_cons] at h
    simp only [List.map_cons, List.mem_cons, not_or] at hn
    unfold insertFeature
    split_ifs with hc
    · rw [strLt_iff] at hc
      refine List.pairwise_cons.2 ⟨fun y hy => ?_, ih h.2 hn.2⟩
      rcases List.mem_cons.1 ((insertFeature_perm e l).mem_iff.1 hy) with rfl | hy
      · exact hc
      · exact h.1 y hy
    · have hlt := bytes_total (fun hq => hc ((strLt_iff _ _).2 hq)) (Ne.symm hn.1)
      refine List.pairwise_cons.2 ⟨fun y hy => ?_, List.pairwise_cons.2 h⟩
      rcases List.mem_cons.1 hy with rfl | hy
      · exact hlt
      · exact bytes_trans hlt (h.1 y hy)

theorem sortFeatures_sorted {l : List (Bytes × φ)} (hn : (l.map (·.1)).Nodup) : (sortFeatures l).Pairwise fun a b => a.1 < b.1 := by
  induction l with
  | nil => exact .nil
  | cons x l ih =>
    simp only [List.map_cons, List.nodup_cons] at hn
    refine insertFeature_sorted (ih hn.2) ?_
    intro h
    exact hn.1 (((sortFeatures_perm l).map (·.1)).mem_iff.1 h)

/-- Lists in strictly increasing order of names are determined by their entries. -/
theorem sorted_unique {l l' : List (Bytes × φ)} (h : l.Pairwise fun a b => a.1 < b.1) (h' : l'.Pairwise fun a b => a.1 < b.1) (hm : ∀ e, e ∈ l ↔ e ∈ l') : l = l' := by
  have nd : ∀ {l : List (Bytes × φ)}, (l.Pairwise fun a b => a.1 < b.1) → l.Nodup := by
    intro l h
    refine h.imp ?_
    rintro a b hab rfl
    exact bytes_irrefl _ hab
  refine ((List.perm_ext_iff_of_nodup (nd h) (nd h')).2 hm).eq_of_pairwise ?_ h h'
  intro a b _ _ h1 h2
  exact absurd (bytes_trans h1 h2) (bytes_irrefl _)

theorem put_mem (m : FeatureMap φ) (name : Bytes) (f : φ) (e : Bytes × φ) : e ∈ m.put name f ↔ e = (name, f) ∨ (e ∈ m ∧ e.1 ≠ name) := by
  simp [FeatureMap.put]

theorem put_nodup {m : FeatureMap φ} (h : (m.map (·.1)).Nodup) (name : Bytes) (f : φ) : ((m.put name f).map (·.1)).Nodup := by
  rw [FeatureMap.put, List.map_cons, List.nodup_cons]
  refine ⟨by simp, ?_⟩
  exact List.Nodup.sublist (List.filter_sublist.map _) h

theorem registerAll_nodup (es : List (Bytes × φ)) : ∀ {reg : FeatureMap φ}, (reg.map (·.1)).Nodup → ((registerAll reg es).map (·.1)).Nodup := by
  induction es with
  | nil => exact id
  | cons e es ih => intro reg h; exact ih (put_nodup h _ _)

theorem get_mem {reg : FeatureMap φ} (hn : (reg.map (·.1)).Nodup) {name : Bytes} {f : φ} : reg.get name = some f ↔ (name, f) ∈ reg := by
  induction reg with
  | nil => simp [FeatureMap.get]
  | cons e reg ih =>
    simp only [List.map_cons, List.nodup_cons] at hn
    have ih := ih hn.2
    unfold FeatureMap.get at ih ⊢
    rw [List.find?_cons]
    by_cases he : e.1 = name
    · simp only [he, decide_true, Option.map_some, Option.some.injEq, List.mem_cons]
      constructor
      · rintro rfl; exact .inl (by rw [← he])
      · rintro (h | h)
        · rw [← h]
        · exact absurd (List.mem_map_of_mem (f := (·.1)) h) (he ▸ hn.1)
    · simp only [he, decide_false, List.mem_cons]
      rw [ih]
      constructor
      · exact .inr
      · rintro (h | h)
        · exact absurd (by rw [← h]) he
        · exact h

/-- Some name before the first `"all"` is not registered. -/
def UnknownFirst (reg : FeatureMap φ) : List Bytes → Prop
  | [] => False
  | n :: ns => n ≠ allName ∧ ((∀ f, (n, f) ∉ reg) ∨ UnknownFirst reg ns)

theorem requiredFeatures_spec {reg : FeatureMap φ} (hn : (reg.map (·.1)).Nodup) : ∀ (names : List Bytes) (req : FeatureMap φ),
    (req.map (·.1)).Nodup → (∀ e ∈ req, e ∈ reg) →
    (UnknownFirst reg names ∧ requiredFeatures reg req names = .err .unknownFeature) ∨
    (¬ UnknownFirst reg names ∧ ∃ r, requiredFeatures reg req names = .ok r ∧ (r.map (·.1)).Nodup ∧
      ∀ e, e ∈ r ↔ e ∈ reg ∧ (e ∈ req ∨ allName ∈ names ∨ e.1 ∈ names)) := by
  intro names
  induction names with
  | nil =>
    intro req h1 h2
    refine .inr ⟨id, req, rfl, h1, fun e => ?_⟩
    simp only [List.not_mem_nil, or_false]
    exact ⟨fun h => ⟨h2 e h, h⟩, fun h => h.2⟩
  | cons n names ih =>
    intro req h1 h2
    by_cases hall : n = allName
    · refine .inr ⟨fun h => h.1 hall, reg, by simp [requiredFeatures, hall], hn, fun e => ?_⟩
      simp [hall]
    · cases hg : reg.get n with
      | none =>
        refine .inl ⟨⟨hall, .inl fun f hf => ?_⟩, by simp [requiredFeatures, hall, hg]⟩
        rw [(get_mem hn).2 hf] at hg
        cases hg
      | some f =>
        have hf := (get_mem hn).1 hg
        have hr : requiredFeatures reg req (n :: names) = requiredFeatures reg (req.put n f) names := by simp [requiredFeatures, hall, hg]
        rw [hr]
        have hu : UnknownFirst reg (n :: names) ↔ UnknownFirst reg names := by
          constructor
          · rintro ⟨_, h | h⟩
            · exact absurd hf (h f)
            · exact h
          · exact fun h => ⟨hall, .inr h⟩
        have h2' : ∀ e ∈ req.put n f, e ∈ reg := by
          intro e he
          rcases (put_mem _ _ _ _).1 he with rfl | ⟨he, _⟩
          · exact hf
          · exact h2 e he
        rw [hu]
        rcases ih (req.put n f) (put_nodup h1 _ _) h2' with h | ⟨h3, r, h4, h5, h6⟩
        · exact .inl h
        · refine .inr ⟨h3, r, h4, h5, fun e => ?_⟩
          rw [h6, put_mem]
          have uniq : e ∈ reg → e.1 = n → e = (n, f) := by
            intro he hq
            have h7 := (get_mem hn (name := n) (f := e.2)).2 (by rw [← hq]; exact he)
            rw [hg] at h7
            cases h7
            rw [← hq]
          simp only [List.mem_cons]
          have hne : ¬ allName = n := fun h => hall h.symm
          constructor
          · rintro ⟨h7, h8⟩
            refine ⟨h7, ?_⟩
            rcases h8 with (rfl | ⟨h8, _⟩) | h8 | h8
            · exact .inr (.inr (.inl rfl))
            · exact .inl h8
            · exact .inr (.inl (.inr h8))
            · exact .inr (.inr (.inr h8))
          · rintro ⟨h7, h8⟩
            refine ⟨h7, ?_⟩
            by_cases hq : e.1 = n
            · exact .inl (.inl (uniq h7 hq))
            · rcases h8 with h8 | (h8 | h8) | h8 | h8
              · exact .inl (.inr ⟨h8, hq⟩)
              · exact absurd h8 hne
              · exact .inr (.inl h8)
              · exact absurd h8 hq
              · exact .inr (.inr h8)

end Vtp
