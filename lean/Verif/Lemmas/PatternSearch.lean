import Verif.Spec.Pattern
import Mathlib.Tactic.Linarith
/-!
# The search for a match, on items and runes
-/

namespace Vtp
open Spec

/-- Rests of patterns that the code takes to match the end of the name. -/
def Vanishes (g : List Glob) : Prop :=
  g = [] ∨ g = [.star] ∨ g = [.star2] ∨ g = [.rest] ∨ g = [.dirs] ∨ g = [.chr false sepRune, .rest] ∨ g = [.chr false sepRune, .dirs]

/-- `Lang`, except that a name that is used up matches only what `Vanishes`. -/
inductive Matches : List Glob → List Nat → Prop where
  | used {g : List Glob} : Vanishes g → Matches g []
  | rune {i : Glob} {r : Nat} {g : List Glob} {n : List Nat} : i.Fits r → Matches g n → Matches (i :: g) (r :: n)
  | star {i : Glob} {g : List Glob} {d n : List Nat} : i = .star ∨ i = .star2 → NoSep d → d ++ n ≠ [] → Matches g n → Matches (i :: g) (d ++ n)
  | dirs {g : List Glob} {d n : List Nat} : Segments d → d ++ n ≠ [] → Matches g n → Matches (.dirs :: g) (d ++ n)
  | rest {n : List Nat} : n ≠ [] → Matches [.rest] n

/-- Items for one rune. -/
def Spec.Glob.one : Glob → Bool
  | .chr _ _ => true
  | .any => true
  | .cls _ _ => true
  | _ => false

/-- Items that stay within a segment, apart from separators in the pattern. -/
def Spec.Glob.soft (i : Glob) : Bool := i.one || i == .star || i == .star2

/-- The item is the separator. -/
def Spec.Glob.isSep (i : Glob) : Bool := match i with
  | .chr _ r => r == sepRune
  | _ => false

theorem fits_one {i : Glob} {r : Nat} (h : i.Fits r) : Glob.one i = true := by
  cases i <;> simp_all [Glob.Fits, Glob.one]

theorem matches_nil {g : List Glob} : Matches g [] ↔ Vanishes g := by
  constructor
  · intro h
    generalize hn : ([] : List Nat) = n at h
    cases h with
    | used h => exact h
    | rune => cases hn
    | star _ _ h => exact absurd hn.symm h
    | dirs _ h => exact absurd hn.symm h
    | rest h => exact absurd hn.symm h
  · exact .used

theorem matches_empty {n : List Nat} : Matches [] n ↔ n = [] := by
  constructor
  · intro h; cases h; rfl
  · rintro rfl; exact .used (.inl rfl)

theorem matches_one {i : Glob} (hi : Glob.one i = true) {g : List Glob} {r : Nat} {n : List Nat} : Matches (i :: g) (r :: n) ↔ i.Fits r ∧ Matches g n := by
  constructor
  · intro h
    generalize hn : r :: n = n' at h
    cases h with
    | used => cases hn
    | rune h1 h2 => cases hn; exact ⟨h1, h2⟩
    | star h => rcases h with rfl | rfl <;> cases hi
    | dirs => cases hi
    | rest => cases hi
  · rintro ⟨h1, h2⟩; exact .rune h1 h2

theorem matches_star {i : Glob} (hi : i = .star ∨ i = .star2) {g : List Glob} {n : List Nat} (hn : n ≠ []) :
    Matches (i :: g) n ↔ ∃ d n', n = d ++ n' ∧ NoSep d ∧ Matches g n' := by
  constructor
  · intro h
    cases h with
    | used => exact absurd rfl hn
    | rune h => rcases hi with rfl | rfl <;> cases h
    | star _ h1 _ h2 => exact ⟨_, _, rfl, h1, h2⟩
    | dirs => rcases hi with h | h <;> cases h
    | rest => rcases hi with h | h <;> cases h
  · rintro ⟨d, n', rfl, h1, h2⟩; exact .star hi h1 hn h2

theorem matches_dirs {g : List Glob} {n : List Nat} (hn : n ≠ []) : Matches (.dirs :: g) n ↔ ∃ d n', n = d ++ n' ∧ Segments d ∧ Matches g n' := by
  constructor
  · intro h
    cases h with
    | used => exact absurd rfl hn
    | rune h => cases h
    | star h => rcases h with h | h <;> cases h
    | dirs h1 _ h2 => exact ⟨_, _, rfl, h1, h2⟩
  · rintro ⟨d, n', rfl, h1, h2⟩; exact .dirs h1 hn h2

/-! ## Separators -/

def seps (n : List Nat) : Nat := n.count sepRune
def gseps (g : List Glob) : Nat := g.countP Glob.isSep

@[simp] theorem seps_append (a b : List Nat) : seps (a ++ b) = seps a + seps b := List.count_append
@[simp] theorem seps_nil : seps [] = 0 := rfl
@[simp] theorem gseps_append (a b : List Glob) : gseps (a ++ b) = gseps a + gseps b := List.countP_append
@[simp] theorem gseps_nil : gseps [] = 0 := rfl
@[simp] theorem gseps_cons (i : Glob) (g : List Glob) : gseps (i :: g) = gseps g + if i.isSep then 1 else 0 := List.countP_cons
theorem seps_cons (r : Nat) (n : List Nat) : seps (r :: n) = seps n + if r = sepRune then 1 else 0 := by
  unfold seps
  rw [List.count_cons]
  simp

theorem noSep_iff {n : List Nat} : NoSep n ↔ seps n = 0 := by
  unfold NoSep seps
  rw [List.count_eq_zero]
  constructor
  · intro h hm; exact h _ hm rfl
  · intro h r hr he; exact h (he ▸ hr)

/-- Items fitting runes one by one. -/
inductive FitsAll : List Glob → List Nat → Prop where
  | nil : FitsAll [] []
  | cons {i : Glob} {r : Nat} {f : List Glob} {n : List Nat} : i.Fits r → FitsAll f n → FitsAll (i :: f) (r :: n)

theorem fitsAll_length {f : List Glob} {n : List Nat} (h : FitsAll f n) : f.length = n.length := by
  induction h with
  | nil => rfl
  | cons _ _ ih => simp [ih]

theorem fitsAll_append {f f' : List Glob} {n n' : List Nat} (h : FitsAll f n) (h' : FitsAll f' n') : FitsAll (f ++ f') (n ++ n') := by
  induction h with
  | nil => exact h'
  | cons h1 _ ih => exact .cons h1 ih

theorem fitsAll_one {f : List Glob} {n : List Nat} (h : FitsAll f n) : ∀ i ∈ f, Glob.one i = true := by
  induction h with
  | nil => simp
  | cons h1 _ ih => simpa using ⟨fits_one h1, ih⟩

theorem fits_sep {i : Glob} {r : Nat} (hc : NoSepClass [i]) (h : i.Fits r) : i.isSep = decide (r = sepRune) := by
  cases i with
  | chr e c => simp only [Glob.Fits] at h; subst h; simp only [Glob.isSep]; rfl
  | any => simp only [Glob.Fits] at h; simp [Glob.isSep, h]
  | cls neg rs =>
    have : r ≠ sepRune := by
      rintro rfl
      exact hc neg rs (by simp) h
    simp [Glob.isSep, this]
  | _ => cases h

theorem noSepClass_cons {i : Glob} {g : List Glob} (h : NoSepClass (i :: g)) : NoSepClass [i] ∧ NoSepClass g :=
  ⟨fun neg rs hm => h neg rs (by simp at hm; simp [hm]), fun neg rs hm => h neg rs (by simp [hm])⟩

theorem noSepClass_append {f g : List Glob} (h : NoSepClass (f ++ g)) : NoSepClass f ∧ NoSepClass g :=
  ⟨fun neg rs hm => h neg rs (by simp [hm]), fun neg rs hm => h neg rs (by simp [hm])⟩

theorem fitsAll_seps {f : List Glob} {n : List Nat} (hc : NoSepClass f) (h : FitsAll f n) : gseps f = seps n := by
  induction h with
  | nil => rfl
  | cons h1 _ ih =>
    obtain ⟨c1, c2⟩ := noSepClass_cons hc
    rw [gseps_cons, seps_cons, ih c2, fits_sep c1 h1]
    simp

/-- A match of a pattern beginning with items for one rune each. -/
theorem matches_fits {f g : List Glob} (hf : ∀ i ∈ f, Glob.one i = true) {n : List Nat} (h : Matches (f ++ g) n) :
    (∃ y n', n = y ++ n' ∧ FitsAll f y ∧ Matches g n') ∨ ∃ f1 f2, f = f1 ++ f2 ∧ f2 ≠ [] ∧ FitsAll f1 n ∧ Vanishes (f2 ++ g) := by
  induction f generalizing n with
  | nil => exact .inl ⟨[], n, rfl, .nil, h⟩
  | cons i f ih =>
    cases n with
    | nil => exact .inr ⟨[], i :: f, rfl, by simp, .nil, matches_nil.1 h⟩
    | cons r n =>
      rw [List.cons_append, matches_one (hf i (by simp))] at h
      rcases ih (fun j hj => hf j (by simp [hj])) h.2 with ⟨y, n', rfl, h1, h2⟩ | ⟨f1, f2, rfl, h1, h2, h3⟩
      · exact .inl ⟨r :: y, n', rfl, .cons h.1 h1, h2⟩
      · exact .inr ⟨i :: f1, f2, rfl, h1, .cons h.1 h2, h3⟩

/-- A match of a pattern beginning with items that stay within segments. -/
theorem matches_soft {f g : List Glob} (hf : ∀ i ∈ f, Glob.soft i = true) (hc : NoSepClass f) {n : List Nat} (h : Matches (f ++ g) n) :
    (∃ y n', n = y ++ n' ∧ seps y = gseps f ∧ (f = [] → y = []) ∧ (∀ f' i, f = f' ++ [i] → i.isSep = true → ∃ y', y = y' ++ [sepRune]) ∧ Matches g n') ∨
    ∃ f1 f2, f = f1 ++ f2 ∧ f2 ≠ [] ∧ seps n = gseps f1 ∧ Vanishes (f2 ++ g) := by
  induction f generalizing n with
  | nil => exact .inl ⟨[], n, rfl, rfl, fun _ => rfl, fun f' i h => by simp at h, h⟩
  | cons i f ih =>
    obtain ⟨c1, c2⟩ := noSepClass_cons hc
    have hf' : ∀ j ∈ f, Glob.soft j = true := fun j hj => hf j (by simp [hj])
    by_cases hn : n = []
    · subst hn
      exact .inr ⟨[], i :: f, rfl, by simp, rfl, matches_nil.1 h⟩
    · have hs := hf i (by simp)
      simp only [Glob.soft, Bool.or_eq_true, beq_iff_eq] at hs
      by_cases ho : Glob.one i = true
      · cases n with
        | nil => exact absurd rfl hn
        | cons r n =>
          rw [List.cons_append, matches_one ho] at h
          have hr := fits_sep c1 h.1
          rcases ih hf' c2 h.2 with ⟨y, n', rfl, h1, h2, h3, h4⟩ | ⟨f1, f2, rfl, h1, h2, h3⟩
          · refine .inl ⟨r :: y, n', rfl, ?_, by simp, ?_, h4⟩
            · rw [seps_cons, gseps_cons, h1, hr]; simp
            · intro f' j he hj
              cases f with
              | nil =>
                rcases f' with _ | ⟨a, f'⟩
                · simp at he
                  subst he
                  rw [h2 rfl]
                  rw [hj] at hr
                  exact ⟨[], by simpa using hr.symm⟩
                · simp at he
              | cons a f =>
                rcases f' with _ | ⟨b, f'⟩
                · simp at he
                · simp only [List.cons_append, List.cons.injEq] at he
                  obtain ⟨y', hy⟩ := h3 f' j he.2 hj
                  exact ⟨r :: y', by rw [hy]; rfl⟩
          · refine .inr ⟨i :: f1, f2, rfl, h1, ?_, h3⟩
            rw [seps_cons, gseps_cons, h2, hr]; simp
      · have hst : i = .star ∨ i = .star2 := by
          rcases hs with (hs | hs) | hs
          · exact absurd hs ho
          · exact .inl hs
          · exact .inr hs
        have hni : i.isSep = false := by rcases hst with rfl | rfl <;> rfl
        rw [List.cons_append, matches_star hst hn] at h
        obtain ⟨d, n', rfl, hd, h⟩ := h
        rw [noSep_iff] at hd
        rcases ih hf' c2 h with ⟨y, n'', rfl, h1, h2, h3, h4⟩ | ⟨f1, f2, rfl, h1, h2, h3⟩
        · refine .inl ⟨d ++ y, n'', by simp, by simp [hd, h1, hni], by simp, ?_, h4⟩
          intro f' j he hj
          cases f with
          | nil =>
            rcases f' with _ | ⟨a, f'⟩
            · simp at he
              subst he
              rw [hj] at hni
              cases hni
            · simp at he
          | cons a f =>
            rcases f' with _ | ⟨b, f'⟩
            · simp at he
            · simp only [List.cons_append, List.cons.injEq] at he
              obtain ⟨y', hy⟩ := h3 f' j he.2 hj
              exact ⟨d ++ y', by rw [hy]; simp⟩
        · exact .inr ⟨i :: f1, f2, rfl, h1, by simp [hd, h2, hni], h3⟩

/-! ## The state of the search -/

/-- Items and runes left, the same at the last `*` and at the last `**/`, and whether a segment begins. -/
structure Search where
  g : List Glob
  m : List Nat
  star : Option (List Glob × List Nat)
  ds : Option (List Glob × List Nat)
  sos : Bool

def Search.starAlt (A : Search) : Prop := ∃ gs ms, A.star = some (gs, ms) ∧ ∃ d n, ms = d ++ n ∧ d ≠ [] ∧ NoSep d ∧ Matches gs n
def Search.dsAlt (A : Search) : Prop := ∃ gd md, A.ds = some (gd, md) ∧ ∃ d n, md = d ++ n ∧ d ≠ [] ∧ Segments d ∧ Matches gd n

/-- There is a match from here, or after extending the last `*`, or after extending the last `**/`. -/
def Search.Finds (A : Search) : Prop := Matches A.g A.m ∨ A.starAlt ∨ A.dsAlt

/-- How the search came from a star to where it is. -/
def StarRel (sos : Bool) (gs : List Glob) (ms : List Nat) (g : List Glob) (m : List Nat) : Prop :=
  ∃ f x, gs = f ++ g ∧ ms = x ++ m ∧ FitsAll f x ∧ (sos = true → ∃ f' i, f = f' ++ [i] ∧ i.isSep = true)

/-- How the search came from a `**/` to where it is. -/
def DsRel (sos : Bool) (gd : List Glob) (md : List Nat) (g : List Glob) (m : List Nat) : Prop :=
  ∃ f x, gd = f ++ g ∧ md = x ++ m ∧ (∀ i ∈ f, Glob.soft i = true) ∧ seps x = gseps f ∧
    (sos = true → (f = [] ∧ x = []) ∨ ∃ f' i x', f = f' ++ [i] ∧ i.isSep = true ∧ x = x' ++ [sepRune])

/-- No class has the separator in it, and the last item is not `**/`. -/
def Decent (g : List Glob) : Prop := NoSepClass g ∧ g.getLast? ≠ some .dirs

theorem decent_append {f g : List Glob} (h : Decent (f ++ g)) : Decent g := by
  refine ⟨(noSepClass_append h.1).2, fun hl => h.2 ?_⟩
  rw [List.getLast?_append, hl]; rfl

/-- What holds of the search. -/
structure SearchInv (A : Search) : Prop where
  decent : Decent A.g
  star : ∀ gs ms, A.star = some (gs, ms) → StarRel A.sos gs ms A.g A.m ∧ Decent gs ∧ ∀ gd md, A.ds = some (gd, md) → DsRel false gd md gs ms
  ds : ∀ gd md, A.ds = some (gd, md) → DsRel A.sos gd md A.g A.m ∧ Decent gd

theorem vanishes_decent {f g : List Glob} (hd : Decent (f ++ g)) (hf : f ≠ []) (hs : ∀ i ∈ f, Glob.soft i = true) (h : Vanishes (f ++ g)) :
    (∃ i, f = [i] ∧ (i = .star ∨ i = .star2) ∧ g = []) ∨ (f = [.chr false sepRune] ∧ g = [.rest]) := by
  rcases f with _ | ⟨a, f⟩
  · exact absurd rfl hf
  · rcases h with h | h | h | h | h | h | h
    · simp at h
    · simp at h; exact .inl ⟨a, by simp [h], .inl h.1, h.2.2⟩
    · simp at h; exact .inl ⟨a, by simp [h], .inr h.1, h.2.2⟩
    · simp at h; have := hs a (by simp); rw [h.1] at this; cases this
    · simp at h; have := hs a (by simp); rw [h.1] at this; cases this
    · rcases f with _ | ⟨b, f⟩
      · simp at h; exact .inr ⟨by simp [h], h.2⟩
      · simp at h; have := hs b (by simp); rw [h.2.1] at this; cases this
    · exfalso
      apply hd.2
      rw [h]
      rfl

theorem soft_of_one {f : List Glob} (h : ∀ i ∈ f, Glob.one i = true) : ∀ i ∈ f, Glob.soft i = true := fun i hi => by simp [Glob.soft, h i hi]

theorem segments_append {d e : List Nat} (hd : Segments d) (he : Segments e) : Segments (d ++ e) := by
  rcases he with rfl | he
  · simpa using hd
  · right
    rw [List.getLast?_append, he]
    rfl

theorem segments_snoc (d : List Nat) : Segments (d ++ [sepRune]) := .inr (by simp)

/-- Two ways to split a list. -/
theorem split_le {a b c d : List Nat} (h : a ++ b = c ++ d) (hl : a.length ≤ c.length) : ∃ z, c = a ++ z ∧ b = z ++ d := by
  rcases List.append_eq_append_iff.1 h with ⟨z, h1, h2⟩ | ⟨z, h1, h2⟩
  · exact ⟨z, h1, h2⟩
  · have : z = [] := by
      rw [h1] at hl
      simp at hl
      exact hl
    subst this
    exact ⟨[], by simpa using h1.symm, by simpa using h2.symm⟩

/-- After one more rune. -/
theorem finds_rune {A : Search} {i : Glob} {g : List Glob} {r : Nat} {m : List Nat} (hg : A.g = i :: g) (hm : A.m = r :: m) (hf : i.Fits r) (sos : Bool) :
    Search.Finds { A with g := g, m := m, sos := sos } ↔ A.Finds := by
  unfold Search.Finds
  rw [hg, hm, matches_one (fits_one hf)]
  simp only [hf, true_and]
  rfl

theorem inv_rune {A : Search} (hi : SearchInv A) {i : Glob} {g : List Glob} {r : Nat} {m : List Nat} (hg : A.g = i :: g) (hm : A.m = r :: m) (hf : i.Fits r)
    {sos : Bool} (hs : sos = true → i.isSep = true) : SearchInv { A with g := g, m := m, sos := sos } := by
  obtain ⟨h1, h2, h3⟩ := hi
  rw [hg] at h1 h2 h3
  rw [hm] at h2 h3
  have hc := fits_sep (noSepClass_cons h1.1).1 hf
  refine ⟨decent_append (f := [i]) h1, fun gs ms hq => ?_, fun gd md hq => ?_⟩
  · obtain ⟨⟨f, x, e1, e2, e3, -⟩, h5, h6⟩ := h2 gs ms hq
    refine ⟨⟨f ++ [i], x ++ [r], by simp [e1], by simp [e2], fitsAll_append e3 (.cons hf .nil), fun h => ⟨f, i, rfl, hs h⟩⟩, h5, h6⟩
  · obtain ⟨⟨f, x, e1, e2, e3, e4, -⟩, h5⟩ := h3 gd md hq
    refine ⟨⟨f ++ [i], x ++ [r], by simp [e1], by simp [e2], ?_, ?_, fun h => .inr ⟨f, i, x, rfl, hs h, ?_⟩⟩, h5⟩
    · intro j hj
      rcases List.mem_append.1 hj with hj | hj
      · exact e3 j hj
      · simp at hj; subst hj; simp [Glob.soft, fits_one hf]
    · rw [seps_append, gseps_append, e4, seps_cons, gseps_cons, hc]
      simp
    · rw [hs h] at hc
      have : r = sepRune := by simpa using hc.symm
      rw [this]

/-- After a star: what an earlier star would find is found from here. -/
theorem finds_star {A : Search} {i : Glob} {g : List Glob} (hg : A.g = i :: g) (hs : i = .star ∨ i = .star2) (hm : A.m ≠ []) :
    (Search.Finds { A with g := g, star := some (g, A.m), sos := false } → A.Finds) ∧
    (SearchInv A → A.Finds → Search.Finds { A with g := g, star := some (g, A.m), sos := false }) := by
  have key : (Matches g A.m ∨ ∃ d n, A.m = d ++ n ∧ d ≠ [] ∧ NoSep d ∧ Matches g n) ↔ Matches A.g A.m := by
    rw [hg, matches_star hs hm]
    constructor
    · rintro (h | ⟨d, n, h1, h2, h3, h4⟩)
      · exact ⟨[], A.m, rfl, by simp [NoSep], h⟩
      · exact ⟨d, n, h1, h3, h4⟩
    · rintro ⟨d, n, h1, h2, h3⟩
      by_cases hd : d = []
      · subst hd; rw [h1]; exact .inl h3
      · exact .inr ⟨d, n, h1, hd, h2, h3⟩
  constructor
  · rintro (h | ⟨gs, ms, he, h⟩ | h)
    · exact .inl (key.1 (.inl h))
    · cases he
      exact .inl (key.1 (.inr h))
    · exact .inr (.inr h)
  · rintro hi (h | ⟨gs, ms, he, d, n, h1, h2, h3, h4⟩ | h)
    · rcases key.2 h with h | h
      · exact .inl h
      · exact .inr (.inl ⟨_, _, rfl, h⟩)
    · obtain ⟨⟨f, x, e1, e2, e3, -⟩, h5, -⟩ := hi.star gs ms he
      have ho := fitsAll_one e3
      rw [hg] at e1
      subst e1
      have hcf := (noSepClass_append h5.1).1
      rcases matches_fits ho h4 with ⟨y, n', rfl, g1, g2⟩ | ⟨f1, f2, rfl, g1, g2, g3⟩
      · have hsx := fitsAll_seps hcf e3
        have hsy := fitsAll_seps hcf g1
        have hlx := fitsAll_length e3
        have hly := fitsAll_length g1
        have hx : x ++ A.m = (d ++ y) ++ n' := by rw [← e2, h1]; simp
        obtain ⟨z, z1, z2⟩ := split_le hx (by simp; omega)
        have hz : NoSep z := by
          rw [noSep_iff] at h3 ⊢
          have := congrArg seps z1
          simp at this
          omega
        have : ∃ d3 n3, n' = d3 ++ n3 ∧ NoSep d3 ∧ Matches g n3 := by
          by_cases hn : n' = []
          · subst hn
            rw [matches_nil] at g2
            have hg0 : g = [] := by
              rcases hs with rfl | rfl <;> simpa [Vanishes] using g2
            exact ⟨[], [], rfl, by simp [NoSep], by rw [hg0, matches_empty]⟩
          · exact (matches_star hs hn).1 g2
        obtain ⟨d3, n3, r1, r2, r3⟩ := this
        by_cases hzd : z ++ d3 = []
        · simp at hzd
          refine .inl ?_
          rw [z2, r1, hzd.1, hzd.2]
          exact r3
        · refine .inr (.inl ⟨_, _, rfl, z ++ d3, n3, by rw [z2, r1]; simp, hzd, ?_, r3⟩)
          rw [noSep_iff] at *
          simp [hz, r2]
      · exfalso
        rw [List.append_assoc] at h5
        rcases vanishes_decent (decent_append h5) g1 (fun j hj => soft_of_one ho j (by simp [hj])) g3 with ⟨j, -, -, hj⟩ | ⟨-, hj⟩
        · cases hj
        · simp at hj
          rcases hs with rfl | rfl <;> cases hj.1
    · exact .inr (.inr h)

theorem inv_star {A : Search} (hi : SearchInv A) {i : Glob} {g : List Glob} (hg : A.g = i :: g) (hs : i = .star ∨ i = .star2) :
    SearchInv { A with g := g, star := some (g, A.m), sos := false } := by
  obtain ⟨h1, h2, h3⟩ := hi
  rw [hg] at h1 h2 h3
  have hd : Decent g := decent_append (f := [i]) h1
  have hds : ∀ gd md, A.ds = some (gd, md) → DsRel false gd md g A.m ∧ Decent gd := by
    intro gd md hq
    obtain ⟨⟨f, x, e1, e2, e3, e4, -⟩, h5⟩ := h3 gd md hq
    refine ⟨⟨f ++ [i], x, by simp [e1], e2, ?_, ?_, fun h => nomatch h⟩, h5⟩
    · intro j hj
      rcases List.mem_append.1 hj with hj | hj
      · exact e3 j hj
      · simp at hj; subst hj; rcases hs with rfl | rfl <;> rfl
    · rw [gseps_append, e4, gseps_cons]
      rcases hs with rfl | rfl <;> simp [Glob.isSep]
  refine ⟨hd, fun gs ms hq => ?_, hds⟩
  cases hq
  exact ⟨⟨[], [], rfl, rfl, .nil, fun h => nomatch h⟩, hd, fun gd md hq => (hds gd md hq).1⟩

/-- After `**/`. -/
theorem finds_dirs {A : Search} {g : List Glob} (hg : A.g = .dirs :: g) (hm : A.m ≠ []) (hsos : A.sos = true) :
    (Search.Finds { A with g := g, star := none, ds := some (g, A.m), sos := true } → A.Finds) ∧
    (SearchInv A → A.Finds → Search.Finds { A with g := g, star := none, ds := some (g, A.m), sos := true }) := by
  have key : (Matches g A.m ∨ ∃ d n, A.m = d ++ n ∧ d ≠ [] ∧ Segments d ∧ Matches g n) ↔ Matches A.g A.m := by
    rw [hg, matches_dirs hm]
    constructor
    · rintro (h | ⟨d, n, h1, h2, h3, h4⟩)
      · exact ⟨[], A.m, rfl, .inl rfl, h⟩
      · exact ⟨d, n, h1, h3, h4⟩
    · rintro ⟨d, n, h1, h2, h3⟩
      by_cases hd : d = []
      · subst hd; rw [h1]; exact .inl h3
      · exact .inr ⟨d, n, h1, hd, h2, h3⟩
  constructor
  · rintro (h | ⟨gs, ms, he, h⟩ | ⟨gd, md, he, h⟩)
    · exact .inl (key.1 (.inl h))
    · cases he
    · cases he
      exact .inl (key.1 (.inr h))
  · rintro hi (h | ⟨gs, ms, he, d, n, h1, h2, h3, h4⟩ | ⟨gd, md, he, d, n, h1, h2, h3, h4⟩)
    · rcases key.2 h with h | h
      · exact .inl h
      · exact .inr (.inr ⟨_, _, rfl, h⟩)
    · exfalso
      obtain ⟨⟨f, x, e1, e2, e3, e4⟩, h5, -⟩ := hi.star gs ms he
      obtain ⟨f', i, e4, e5⟩ := e4 hsos
      have ho := fitsAll_one e3
      rw [hg] at e1
      subst e1
      have hcf := (noSepClass_append h5.1).1
      rcases matches_fits ho h4 with ⟨y, n', rfl, g1, g2⟩ | ⟨f1, f2, rfl, g1, g2, g3⟩
      · have hsx := fitsAll_seps hcf e3
        have hsy := fitsAll_seps hcf g1
        have hlx := fitsAll_length e3
        have hly := fitsAll_length g1
        have hx : x ++ A.m = (d ++ y) ++ n' := by rw [← e2, h1]; simp
        obtain ⟨z, z1, z2⟩ := split_le hx (by simp; omega)
        have hz : seps z = 0 := by
          rw [noSep_iff] at h3
          have := congrArg seps z1
          simp at this
          omega
        have hly' : ∃ y', y = y' ++ [sepRune] := by
          rw [e4] at g1
          have : ∀ {f' : List Glob} {y : List Nat}, FitsAll (f' ++ [i]) y → NoSepClass (f' ++ [i]) → ∃ y', y = y' ++ [sepRune] := by
            intro f'
            induction f' with
            | nil =>
              intro y h hc
              cases h with
              | cons h1 h2 =>
                cases h2
                have := fits_sep hc h1
                rw [e5] at this
                exact ⟨[], by simpa using this.symm⟩
            | cons a f' ih =>
              intro y h hc
              cases h with
              | cons h1 h2 =>
                obtain ⟨y', hy⟩ := ih h2 (noSepClass_cons hc).2
                exact ⟨_ :: y', by rw [hy]; rfl⟩
          exact this g1 (e4 ▸ hcf)
        obtain ⟨y', rfl⟩ := hly'
        have hzl : z ≠ [] := by
          rintro rfl
          have := congrArg List.length z1
          simp at this hly
          have : d.length ≠ 0 := by simpa using h2
          omega
        obtain ⟨z', w, rfl⟩ : ∃ z' w, z = z' ++ [w] := ⟨z.dropLast, z.getLast hzl, (List.dropLast_concat_getLast hzl).symm⟩
        have : w = sepRune := by
          have := congrArg List.getLast? z1
          rw [← List.append_assoc, ← List.append_assoc, List.getLast?_concat, List.getLast?_concat] at this
          simpa using this.symm
        subst this
        simp [seps_cons] at hz
      · rw [List.append_assoc] at h5
        rcases vanishes_decent (decent_append h5) g1 (fun j hj => soft_of_one ho j (by simp [hj])) g3 with ⟨j, -, -, hj⟩ | ⟨-, hj⟩ <;> cases hj
    · obtain ⟨⟨f, x, e1, e2, e3, e4, e5⟩, h5⟩ := hi.ds gd md he
      rw [hg] at e1
      subst e1
      have hcf := (noSepClass_append h5.1).1
      rcases matches_soft e3 hcf h4 with ⟨y, n', rfl, g1, g2, g3, g4⟩ | ⟨f1, f2, rfl, g1, g2, g3⟩
      · have hx : x ++ A.m = (d ++ y) ++ n' := by rw [← e2, h1]; simp
        have hz : ∃ z, z ≠ [] ∧ Segments z ∧ A.m = z ++ n' := by
          rcases e5 hsos with ⟨rfl, rfl⟩ | ⟨f', i, x', rfl, e6, rfl⟩
          · rw [g2 rfl] at hx
            exact ⟨d, h2, h3, by simpa using hx⟩
          · obtain ⟨y', rfl⟩ := g3 f' i rfl e6
            have hd1 : 1 ≤ seps d := by
              rcases h3 with h3 | h3
              · exact absurd h3 h2
              · have : sepRune ∈ d := List.mem_of_getLast? h3
                exact List.count_pos_iff.2 this
            have hlen : (x' ++ [sepRune]).length ≤ (d ++ (y' ++ [sepRune])).length := by
              by_contra hlt
              obtain ⟨z, z1, -⟩ := split_le hx.symm (by omega)
              have hq := congrArg seps z1
              simp only [seps_append] at hq e4 g1
              omega
            obtain ⟨z, z1, z2⟩ := split_le hx hlen
            have hzl : z ≠ [] := by
              rintro rfl
              have hq := congrArg seps z1
              simp only [seps_append, List.append_nil] at hq e4 g1
              omega
            refine ⟨z, hzl, .inr ?_, z2⟩
            obtain ⟨z', w, rfl⟩ : ∃ z' w, z = z' ++ [w] := ⟨z.dropLast, z.getLast hzl, (List.dropLast_concat_getLast hzl).symm⟩
            have := congrArg List.getLast? z1
            rw [← List.append_assoc, ← List.append_assoc, List.getLast?_concat, List.getLast?_concat] at this
            rw [List.getLast?_concat]
            exact this.symm
        obtain ⟨z, z0, z1, z2⟩ := hz
        have : ∃ d3 n3, n' = d3 ++ n3 ∧ Segments d3 ∧ Matches g n3 := by
          by_cases hn : n' = []
          · subst hn
            rw [matches_nil] at g4
            have hg0 : g = [] := by simpa [Vanishes] using g4
            exact ⟨[], [], rfl, .inl rfl, by rw [hg0, matches_empty]⟩
          · exact (matches_dirs hn).1 g4
        obtain ⟨d3, n3, r1, r2, r3⟩ := this
        exact .inr (.inr ⟨_, _, rfl, z ++ d3, n3, by rw [z2, r1]; simp, by simp [z0], segments_append z1 r2, r3⟩)
      · exfalso
        rw [List.append_assoc] at h5
        rcases vanishes_decent (decent_append h5) g1 (fun j hj => e3 j (by simp [hj])) g3 with ⟨j, -, -, hj⟩ | ⟨-, hj⟩ <;> cases hj

theorem inv_dirs {A : Search} (hi : SearchInv A) {g : List Glob} (hg : A.g = .dirs :: g) :
    SearchInv { A with g := g, star := none, ds := some (g, A.m), sos := true } := by
  have h1 := hi.decent
  rw [hg] at h1
  have hd : Decent g := decent_append (f := [.dirs]) h1
  refine ⟨hd, fun gs ms hq => (by cases hq), fun gd md hq => ?_⟩
  cases hq
  exact ⟨⟨[], [], rfl, rfl, by simp, rfl, fun _ => .inl ⟨rfl, rfl⟩⟩, hd⟩

/-- Extending the last star by a rune. -/
theorem finds_back_star {A : Search} {gs : List Glob} {r : Nat} {ms : List Nat} (hs : A.star = some (gs, r :: ms)) (hr : r ≠ sepRune) (hf : ¬ Matches A.g A.m) :
    Search.Finds { A with g := gs, m := ms, star := some (gs, ms), sos := false } ↔ A.Finds := by
  have key : (Matches gs ms ∨ ∃ d n, ms = d ++ n ∧ d ≠ [] ∧ NoSep d ∧ Matches gs n) ↔ ∃ d n, r :: ms = d ++ n ∧ d ≠ [] ∧ NoSep d ∧ Matches gs n := by
    constructor
    · rintro (h | ⟨d, n, rfl, h2, h3, h4⟩)
      · exact ⟨[r], ms, rfl, by simp, by simpa [NoSep] using hr, h⟩
      · exact ⟨r :: d, n, rfl, by simp, by simpa [NoSep] using ⟨hr, h3⟩, h4⟩
    · rintro ⟨d, n, h1, h2, h3, h4⟩
      rcases d with _ | ⟨a, d⟩
      · exact absurd rfl h2
      · simp at h1
        obtain ⟨rfl, rfl⟩ := h1
        by_cases hd : d = []
        · subst hd; exact .inl h4
        · exact .inr ⟨d, n, rfl, hd, fun q hq => h3 q (by simp [hq]), h4⟩
  unfold Search.Finds Search.starAlt
  simp only [hs, hf, false_or]
  constructor
  · rintro (h | ⟨_, _, he, h⟩ | h)
    · exact .inl ⟨_, _, rfl, key.1 (.inl h)⟩
    · cases he
      exact .inl ⟨_, _, rfl, key.1 (.inr h)⟩
    · exact .inr h
  · rintro (⟨_, _, he, h⟩ | h)
    · cases he
      rcases key.2 h with h | h
      · exact .inl h
      · exact .inr (.inl ⟨_, _, rfl, h⟩)
    · exact .inr (.inr h)

theorem inv_back_star {A : Search} (hi : SearchInv A) {gs : List Glob} {r : Nat} {ms : List Nat} (hs : A.star = some (gs, r :: ms)) (hr : r ≠ sepRune) :
    SearchInv { A with g := gs, m := ms, star := some (gs, ms), sos := false } := by
  obtain ⟨-, h2, h3⟩ := hi.star _ _ hs
  have key : ∀ gd md, A.ds = some (gd, md) → DsRel false gd md gs ms ∧ Decent gd := by
    intro gd md hq
    obtain ⟨f, x, e1, e2, e3, e4, -⟩ := h3 gd md hq
    exact ⟨⟨f, x ++ [r], e1, by simp [e2], e3, by simp [e4, seps_cons, hr], fun h => nomatch h⟩, (hi.ds gd md hq).2⟩
  refine ⟨h2, fun gs' ms' hq => ?_, key⟩
  cases hq
  exact ⟨⟨[], [], rfl, rfl, .nil, fun h => nomatch h⟩, h2, fun gd md hq => (key gd md hq).1⟩

/-- A star that cannot be extended. -/
theorem starAlt_dead {A : Search} (h : A.star = none ∨ ∃ gs ms, A.star = some (gs, ms) ∧ (ms = [] ∨ ms.head? = some sepRune)) : ¬ A.starAlt := by
  rintro ⟨gs, ms, h1, d, n, rfl, h3, h4, -⟩
  rcases h with h | ⟨gs', ms', h, h5⟩
  · rw [h1] at h; cases h
  · rw [h1] at h
    cases h
    rcases d with _ | ⟨a, d⟩
    · exact absurd rfl h3
    · have := h4 a (by simp)
      simp at h5
      exact this h5

/-- Extending the last `**/` by a segment. -/
theorem finds_back_ds {A : Search} {gd : List Glob} {e md : List Nat} (hs : A.ds = some (gd, e ++ sepRune :: md)) (he : NoSep e) (hf : ¬ Matches A.g A.m)
    (hst : ¬ A.starAlt) : Search.Finds { A with g := gd, m := md, star := none, ds := some (gd, md), sos := true } ↔ A.Finds := by
  have key : (Matches gd md ∨ ∃ d n, md = d ++ n ∧ d ≠ [] ∧ Segments d ∧ Matches gd n) ↔ ∃ d n, e ++ sepRune :: md = d ++ n ∧ d ≠ [] ∧ Segments d ∧ Matches gd n := by
    constructor
    · rintro (h | ⟨d, n, rfl, h2, h3, h4⟩)
      · exact ⟨e ++ [sepRune], md, by simp, by simp, segments_snoc e, h⟩
      · exact ⟨e ++ [sepRune] ++ d, n, by simp, by simp, segments_append (segments_snoc e) h3, h4⟩
    · rintro ⟨d, n, h1, h2, h3, h4⟩
      rcases h3 with h3 | h3
      · exact absurd h3 h2
      · have hlen : (e ++ [sepRune]).length ≤ d.length := by
          by_contra hlt
          have hle : d.length ≤ e.length := by simp at hlt; omega
          obtain ⟨z, z1, -⟩ := split_le h1.symm hle
          have := List.mem_of_getLast? h3
          exact he sepRune (by rw [z1]; simp [this]) rfl
        obtain ⟨z, z1, z2⟩ := split_le (a := e ++ [sepRune]) (b := md) (by simpa using h1) hlen
        by_cases hz : z = []
        · subst hz
          left
          simp at z2
          rw [z2]; exact h4
        · refine .inr ⟨z, n, z2, hz, .inr ?_, h4⟩
          rw [z1, List.getLast?_append] at h3
          cases hq : z.getLast? with
          | none => simp at hq; exact absurd hq hz
          | some a => rw [hq] at h3; simpa using h3
  unfold Search.Finds
  simp only [hf, hst, false_or]
  unfold Search.starAlt Search.dsAlt
  simp only [hs]
  constructor
  · rintro (h | ⟨_, _, h, _⟩ | ⟨_, _, h, h'⟩)
    · exact ⟨_, _, rfl, key.1 (.inl h)⟩
    · cases h
    · cases h
      exact ⟨_, _, rfl, key.1 (.inr h')⟩
  · rintro ⟨_, _, h, h'⟩
    cases h
    rcases key.2 h' with h | h
    · exact .inl h
    · exact .inr (.inr ⟨_, _, rfl, h⟩)

theorem inv_back_ds {A : Search} (hi : SearchInv A) {gd : List Glob} {md md' : List Nat} (hs : A.ds = some (gd, md')) :
    SearchInv { A with g := gd, m := md, star := none, ds := some (gd, md), sos := true } := by
  have h := (hi.ds _ _ hs).2
  refine ⟨h, fun gs ms hq => (by cases hq), fun gd' md' hq => ?_⟩
  cases hq
  exact ⟨⟨[], [], rfl, rfl, by simp, rfl, fun _ => .inl ⟨rfl, rfl⟩⟩, h⟩

/-- No separator is left for `**/`. -/
theorem dsAlt_dead {A : Search} (h : A.ds = none ∨ ∃ gd md, A.ds = some (gd, md) ∧ NoSep md) : ¬ A.dsAlt := by
  rintro ⟨gd, md, h1, d, n, rfl, h3, h4, -⟩
  rcases h with h | ⟨gd', md', h, h5⟩
  · rw [h1] at h; cases h
  · rw [h1] at h
    cases h
    rcases h4 with h4 | h4
    · exact h3 h4
    · exact h5 sepRune (by simp [List.mem_of_getLast? h4]) rfl

/-- At the end of the name nothing else can be found. -/
theorem finds_end {A : Search} (hm : A.m = []) : (Vanishes A.g → A.Finds) ∧ (SearchInv A → A.Finds → Vanishes A.g) := by
  constructor
  · intro h
    exact .inl (by rw [hm]; exact .used h)
  · rintro hi (h | ⟨gs, ms, he, d, n, h1, h2, h3, h4⟩ | ⟨gd, md, he, d, n, h1, h2, h3, h4⟩)
    · rw [hm] at h
      exact matches_nil.1 h
    · obtain ⟨⟨f, x, e1, e2, e3, -⟩, h5, -⟩ := hi.star gs ms he
      have ho := fitsAll_one e3
      subst e1
      rw [hm] at e2
      rcases matches_fits ho h4 with ⟨y, n', rfl, g1, g2⟩ | ⟨f1, f2, rfl, g1, g2, g3⟩
      · exfalso
        have hlx := fitsAll_length e3
        have hly := fitsAll_length g1
        have : d.length ≠ 0 := by simpa using h2
        have := congrArg List.length (e2.symm.trans h1)
        simp at this
        omega
      · rw [List.append_assoc] at h5
        rcases vanishes_decent (decent_append h5) g1 (fun j hj => soft_of_one ho j (by simp [hj])) g3 with ⟨j, -, -, hj⟩ | ⟨-, hj⟩
        · rw [hj]; exact .inl rfl
        · rw [hj]; exact .inr (.inr (.inr (.inl rfl)))
    · obtain ⟨⟨f, x, e1, e2, e3, e4, e5⟩, h5⟩ := hi.ds gd md he
      subst e1
      rw [hm] at e2
      have hcf := (noSepClass_append h5.1).1
      rcases matches_soft e3 hcf h4 with ⟨y, n', rfl, g1, g2, g3, g4⟩ | ⟨f1, f2, rfl, g1, g2, g3⟩
      · exfalso
        have hd1 : 1 ≤ seps d := by
          rcases h3 with h3 | h3
          · exact absurd h3 h2
          · exact List.count_pos_iff.2 (List.mem_of_getLast? h3)
        have := congrArg seps (e2.symm.trans h1)
        simp at this
        omega
      · rw [List.append_assoc] at h5
        rcases vanishes_decent (decent_append h5) g1 (fun j hj => e3 j (by simp [hj])) g3 with ⟨j, -, -, hj⟩ | ⟨-, hj⟩
        · rw [hj]; exact .inl rfl
        · rw [hj]; exact .inr (.inr (.inr (.inl rfl)))

end Vtp
