import Verif.Lemmas.Same
import Verif.Lemmas.MarshalMsg
/-!
# `EqualVT` decides sameness of content
-/

namespace Vtp
open Spec

/-- The comparison returns; true if `P`; and if true then `P`, given `Q`. -/
def Dec (P Q : Prop) (r : Res Bool) : Prop := ∃ b, r = .ok b ∧ (P → b = true) ∧ (b = true → Q → P)

theorem Dec.mono {P Q P' Q' : Prop} {r : Res Bool} (h : Dec P Q r) (h1 : P' → P) (h2 : Q' → P → P') (h3 : Q' → Q) : Dec P' Q' r := by
  obtain ⟨b, e, a, c⟩ := h
  exact ⟨b, e, fun hp => a (h1 hp), fun hb hq => h2 hq (c hb (h3 hq))⟩

theorem Dec.ok {P Q : Prop} {b : Bool} (h : b = true ↔ P) : Dec P Q (.ok b) := ⟨b, rfl, h.2, fun hb _ => h.1 hb⟩

theorem Dec.and {P P' Q : Prop} {r r' : Res Bool} (h : Dec P Q r) (h' : Dec P' Q r') :
    Dec (P ∧ P') Q (r >>= fun b => if b then r' else .ok false) := by
  obtain ⟨b, rfl, a, c⟩ := h
  obtain ⟨b', rfl, a', c'⟩ := h'
  cases b
  · exact ⟨false, rfl, fun hp => a hp.1, fun hb => by cases hb⟩
  · exact ⟨b', rfl, fun hp => a' hp.2, fun hb hq => ⟨c rfl hq, c' hb hq⟩⟩

theorem dec_allRes {α : Type} {P : α → Prop} {Q : Prop} {f : α → Res Bool} : ∀ {l : List α}, (∀ a ∈ l, Dec (P a) Q (f a)) →
    Dec (∀ a ∈ l, P a) Q (allRes f l)
  | [], _ => .ok (by simp)
  | a :: l, h => by
    have := (h a (by simp)).and (dec_allRes (l := l) fun b hb => h b (by simp [hb]))
    rw [List.forall_mem_cons]
    exact this

theorem dec_allIdx {α : Type} {P : Nat → α → Prop} {Q : Prop} {f : Nat → α → Res Bool} : ∀ {l : List α} {i : Nat},
    (∀ j a, l[j]? = some a → Dec (P (i + j) a) Q (f (i + j) a)) → Dec (∀ j a, l[j]? = some a → P (i + j) a) Q (allIdx f i l)
  | [], _, _ => .ok (by simp)
  | a :: l, i, h => by
    have h1 := h 0 a (by simp)
    have h2 := (dec_allIdx (l := l) (i := i + 1) (P := P) (Q := Q) (f := f)) fun j b hb => by
      have := h (j + 1) b (by simpa using hb)
      rwa [show i + (j + 1) = i + 1 + j by omega] at this
    refine (h1.and h2).mono ?_ ?_ id
    · intro hp
      refine ⟨hp 0 a (by simp), fun j b hb => ?_⟩
      have := hp (j + 1) b (by simpa using hb)
      rwa [show i + (j + 1) = i + 1 + j by omega] at this
    · rintro _ ⟨hp, hp'⟩ j b hb
      cases j with
      | zero => simp at hb; rw [← hb]; exact hp
      | succ j =>
        have := hp' j b (by simpa using hb)
        rwa [show i + (j + 1) = i + 1 + j by omega]

theorem forall₂_getElem? {α : Type} {r : α → α → Prop} : ∀ {l m : List α}, l.length = m.length →
    (List.Forall₂ r l m ↔ ∀ (j : Nat) (a : α), l[j]? = some a → ∃ b, m[j]? = some b ∧ r a b)
  | [], [], _ => by simp
  | [], _ :: _, h => by simp at h
  | _ :: _, [], h => by simp at h
  | a :: l, b :: m, h => by
    rw [List.forall₂_cons, forall₂_getElem? (by simpa using h)]
    constructor
    · rintro ⟨h1, h2⟩ j c hc
      cases j with
      | zero => simp at hc; exact ⟨b, by simp, hc ▸ h1⟩
      | succ j => simpa using h2 j c (by simpa using hc)
    · intro h'
      refine ⟨by simpa using h' 0 a (by simp), fun j c hc => by simpa using h' (j + 1) c (by simpa using hc)⟩

theorem lookup_iff {es : List (Key × Val)} (h : (es.map (·.1)).Nodup) {k : Key} {x : Val} : lookup es k = some x ↔ (k, x) ∈ es := by
  refine ⟨lookup_mem, fun hm => ?_⟩
  cases hl : lookup es k with
  | none =>
    unfold lookup at hl
    simp only [Option.map_eq_none_iff, List.find?_eq_none] at hl
    exact absurd (hl _ hm) (by simp)
  | some y =>
    have := List.inj_on_of_nodup_map h (lookup_mem hl) hm rfl
    cases this
    rfl

theorem lookup_none {es : List (Key × Val)} {k : Key} : lookup es k = none ↔ k ∉ es.map (·.1) := by
  unfold lookup
  simp only [Option.map_eq_none_iff, List.find?_eq_none, List.mem_map, not_exists, not_and]
  constructor
  · intro h e he hk; exact absurd (h e he) (by simp [hk])
  · intro h e he hk; exact h e he (by simpa using hk)

theorem mapGet_eq (v : Val) (k : Key) : mapGet v k = lookup v.entries k := by
  unfold mapGet lookup
  rfl

theorem sameSet_length {l m : List Key} (hl : l.Nodup) (hm : m.Nodup) (h : ∀ k, k ∈ l ↔ k ∈ m) : l.length = m.length :=
  ((List.perm_ext_iff_of_nodup hl hm).2 h).length_eq

theorem subset_of_length {l m : List Key} (hl : l.Nodup) (h : l ⊆ m) (hn : l.length = m.length) : m ⊆ l :=
  ((List.subperm_of_subset hl h).perm_of_length_le (by omega)).symm.subset

/-- Maps are the same entry by entry. -/
theorem sameMap_iff {P : Val → Val → Prop} {es fs : List (Key × Val)} (he : (es.map (·.1)).Nodup) (hf : (fs.map (·.1)).Nodup) :
    SameMap P es fs ↔
    es.length = fs.length ∧ ∀ e ∈ es, ∃ y, lookup fs e.1 = some y ∧ P e.2 y := by
  unfold SameMap
  constructor
  · intro h
    refine ⟨?_, fun e hm => ?_⟩
    · have := sameSet_length he hf fun k => by
        have hk := h k
        constructor
        · intro h1
          by_contra h2
          rw [← lookup_none] at h2
          obtain ⟨e, h3, h4⟩ := List.mem_map.1 h1
          have : lookup es k = some e.2 := (lookup_iff he).2 (h4 ▸ h3)
          simp [this, h2] at hk
        · intro h1
          by_contra h2
          rw [← lookup_none] at h2
          obtain ⟨e, h3, h4⟩ := List.mem_map.1 h1
          have : lookup fs k = some e.2 := (lookup_iff hf).2 (h4 ▸ h3)
          simp [this, h2] at hk
      simpa using this
    · have hk := h e.1
      have : lookup es e.1 = some e.2 := (lookup_iff he).2 hm
      rw [this] at hk
      cases hl : lookup fs e.1 with
      | none => simp [hl] at hk
      | some y => exact ⟨y, rfl, by simpa [hl] using hk⟩
  · rintro ⟨hn, h⟩ k
    have hsub : es.map (·.1) ⊆ fs.map (·.1) := by
      intro k hk
      obtain ⟨e, h3, h4⟩ := List.mem_map.1 hk
      obtain ⟨y, h5, _⟩ := h e h3
      by_contra h6
      rw [← h4, ← lookup_none] at h6
      simp [h6] at h5
    have hsub' := subset_of_length he hsub (by simpa using hn)
    cases h1 : lookup es k with
    | none =>
      have h2 : lookup fs k = none := by rw [lookup_none] at h1 ⊢; exact fun h => h1 (hsub' h)
      rw [h2]; trivial
    | some x =>
      obtain ⟨y, h5, h6⟩ := h _ (lookup_mem h1)
      simp only at h5
      rw [h5]; exact h6

section
variable {C : CEnv} (hS : schemaOK C.S = true) (hR : RuntimeEqual C.R)

/-- A pointer to a message of type `t`. -/
def PtrOK (S : Schema) (t : Nat) (v : Val) : Prop := v = .nil ∨ wtM S .typedNil t v = true

/-- No two pointers of the two messages are the same. -/
def CEnv.apart (C : CEnv) : Prop := ∀ p, C.same p = false

/-- What the recursive calls do on messages of depth at most `n`. -/
def RecDec (C : CEnv) (rec : SubEq) (n : Nat) : Prop :=
  ∀ path t v w, (C.S.msg t).foreign = false → PtrOK C.S t v → PtrOK C.S t w → v.depth ≤ n → w.depth ≤ n →
    Dec (Same C.S C.R t v w) (C.apart ∨ Same C.S C.R t v v) (rec path t v w)

theorem ptrOK_of {tn : Members} {k : Kind} {t : Nat} {v : Val} (hk : k = .message ∨ k = .group) (h : elemOK (wtM S tn) k t v = true) : v = .nil ∨ wtM S tn t v = true := by
  have h : v.isNil = true ∨ wtM S tn t v = true := by rcases hk with rfl | rfl <;> simpa [elemOK] using h
  rcases h with h | h
  · cases v <;> simp_all [Val.isNil]
  · exact .inr h

theorem zeroMsg_depth (S : Schema) (t : Nat) : (zeroMsg S t).depth = 1 := by
  unfold zeroMsg
  rw [Val.depth]
  have : ∀ l : List Nat, Val.depthList (l.map (zeroSlot (S.msg t))) = 0 := by
    intro l
    induction l with
    | nil => rfl
    | cons a l ih =>
      rw [List.map_cons, Val.depthList, ih]
      have : (zeroSlot (S.msg t) a).depth = 0 := by
        unfold zeroSlot
        cases (S.msg t).fields.find? (fun f => f.slot == a) with
        | none => rfl
        | some f =>
          simp only [zeroField]
          split
          · rfl
          · cases f.kind <;> rfl
      omega
  rw [this]

/-- What fewer oneofs allow, more allow. -/
theorem members_weaken {S : Schema} {tn tn' : Members} (hs : tn' = .solid → tn = .solid) (ht : tn = .typedNil → tn' = .typedNil) :
    ∀ (n t : Nat) (v : Val), wtN S tn n t v = true → wtN S tn' n t v = true := by
  intro n
  induction n with
  | zero => intro t v h; simp [wtN] at h
  | succ n ih =>
    intro t v h
    cases v <;> simp only [wtN] at h ⊢ <;> try exact h
    simp only [Bool.or_eq_true, Bool.and_eq_true, decide_eq_true_iff, List.all_eq_true] at h ⊢
    rcases h with h | ⟨h1, h2⟩
    · exact .inl h
    · refine .inr ⟨h1, fun f hf => ?_⟩
      have := h2 f hf
      have hel : ∀ k t v, elemOK (wtN S tn n) k t v = true → elemOK (wtN S tn' n) k t v = true := by
        intro k t v h
        cases k <;> simp only [elemOK, Bool.or_eq_true] at h ⊢ <;> first | exact h | exact h.imp id (ih _ _)
      split at this
      · rw [if_pos (by assumption)]
        unfold oneofOK at this ⊢
        split at this
        · rfl
        · split at this
          · rw [Bool.and_eq_true] at this ⊢
            refine ⟨hel _ _ _ this.1, ?_⟩
            have h4 := this.2
            simp only [Bool.not_eq_true', Bool.and_eq_false_imp, Bool.and_eq_true, beq_iff_eq] at h4 ⊢
            exact fun h => h4 ⟨hs h.1, h.2⟩
          · exact this
        · simp only [Bool.and_eq_true, beq_iff_eq] at this ⊢
          exact ⟨ht this.1, this.2⟩
        · exact this
      · rw [if_neg (by assumption)]
        unfold fieldOK at this ⊢
        split at this
        · split at this
          · rfl
          · simp only [Bool.and_eq_true, List.all_eq_true] at this ⊢
            exact ⟨this.1, fun e he => ⟨(this.2 e he).1, hel _ _ _ (this.2 e he).2⟩⟩
          · exact this
        · split at this
          · rw [if_pos (by assumption)]
            split at this
            · rfl
            · simp only [Bool.and_eq_true, List.all_eq_true] at this ⊢
              refine ⟨fun x hx => hel _ _ _ (this.1 x hx), ?_⟩
              have h3 := this.2
              split at h3
              · rw [if_pos (by assumption)]
                rw [List.all_eq_true] at h3 ⊢
                exact fun x hx => hel _ _ _ (h3 x hx)
              · rw [if_neg (by assumption)]; exact h3
            · exact this
          · rw [if_neg (by assumption)]
            split at this
            · rw [if_pos (by assumption)]
              simp only [Bool.or_eq_true] at this ⊢
              exact this.imp id (hel _ _ _)
            · rw [if_neg (by assumption)]; exact this

include hS in
theorem zeroMsg_ptrOK (t : Nat) : PtrOK C.S t (zeroMsg C.S t) := .inr (members_weaken (by simp) (by simp) _ _ _ (zeroMsg_typed hS t))

theorem dec_callEqual {rec : SubEq} {n : Nat} (H : RecDec C rec n) (path : List Nat) (t : Nat) {v w : Val}
    (hv : PtrOK C.S t v) (hw : PtrOK C.S t w) (dv : v.depth ≤ n) (dw : w.depth ≤ n) :
    Dec (subSame C.S C.R (Same C.S C.R) t v w) (C.apart ∨ subSame C.S C.R (Same C.S C.R) t v v) (callEqual C rec path t v w) := by
  unfold callEqual subSame
  cases hf : (C.S.msg t).foreign with
  | true => exact .ok Iff.rfl
  | false => exact H path t v w hf hv hw dv dw

include hS hR in
theorem dec_elem {rec : SubEq} {n : Nat} (H : RecDec C rec n) (path : List Nat) {k : Kind} {t : Nat} {v w : Val}
    (hv : elemOK (wtM C.S .typedNil) k t v = true) (hw : elemOK (wtM C.S .typedNil) k t w = true) (dv : v.depth ≤ n) (dw : w.depth ≤ n) :
    Dec (SameElem C.S (subSame C.S C.R (Same C.S C.R)) k t v w) (C.apart ∨ SameElem C.S (subSame C.S C.R (Same C.S C.R)) k t v v)
      (compareKind C rec false path k t v w) := by
  by_cases hk : k = .message ∨ k = .group
  · have e : compareKind C rec false path k t v w = compareCall C rec false path t v w := by rcases hk with rfl | rfl <;> rfl
    rw [e]
    unfold SameElem
    simp only [hk, if_true]
    unfold compareCall
    simp only [Bool.false_eq_true, if_false]
    have hv := ptrOK_of hk hv
    have hw := ptrOK_of hk hw
    have hzero : subSame C.S C.R (Same C.S C.R) t (zeroMsg C.S t) (zeroMsg C.S t) := by
      unfold subSame
      split
      · exact hR.refl _ _
      · exact same_zero hS t
    by_cases hp : C.ptrEq path v w = true
    · rw [if_pos hp]
      refine ⟨true, rfl, fun _ => rfl, fun _ hq => ?_⟩
      simp only [CEnv.ptrEq, Bool.or_eq_true, Bool.and_eq_true, isNil_iff, decide_eq_true_iff] at hp
      rcases hp with ⟨rfl, rfl⟩ | ⟨hp, rfl⟩
      · simpa [orEmpty] using hzero
      · rcases hq with hq | hq
        · rw [hq path] at hp; cases hp
        · exact hq
    · rw [if_neg hp]
      have hnn : ¬ (v = .nil ∧ w = .nil) := by
        rintro ⟨rfl, rfl⟩
        simp [CEnv.ptrEq, Val.isNil] at hp
      have hpos : 1 ≤ n := by
        by_cases h : v = .nil
        · have := hw.resolve_left (fun h' => hnn ⟨h, h'⟩)
          obtain ⟨s, u, e, rfl⟩ := wtM_isMsg this
          rw [Val.depth] at dw; omega
        · obtain ⟨s, u, e, rfl⟩ := wtM_isMsg (hv.resolve_left h)
          rw [Val.depth] at dv; omega
      have hor : ∀ x, PtrOK C.S t x → x.depth ≤ n → PtrOK C.S t (orEmpty C.S t x) ∧ (orEmpty C.S t x).depth ≤ n ∧
          (if x.isNil = true then zeroMsg C.S t else x) = orEmpty C.S t x := by
        intro x hx dx
        unfold orEmpty
        by_cases h : x = .nil
        · simp only [h, if_true]
          exact ⟨zeroMsg_ptrOK hS t, by rw [zeroMsg_depth]; exact hpos, by simp [Val.isNil]⟩
        · simp only [h, if_false]
          exact ⟨hx, dx, by simp [isNil_iff, h]⟩
      obtain ⟨a1, a2, a3⟩ := hor v hv dv
      obtain ⟨b1, b2, b3⟩ := hor w hw dw
      rw [a3, b3]
      exact dec_callEqual H path t a1 b1 a2 b2
  · unfold SameElem
    simp only [hk, if_false]
    by_cases hb : k = .bytes
    · subst hb
      simp only [compareKind, compareBytes]
      refine .ok ?_
      simp [SameScalar]
    · have e : compareKind C rec false path k t v w = .ok (scalarEq k v w) := by
        cases k <;> simp_all [compareKind, compareScalar]
      rw [e]
      exact .ok (scalarEq_iff hb v w)

theorem nullable_iff {d : MsgDesc} {f : FieldDesc} (ff : FieldFacts d f) (hc : f.card ≠ .repeated) (ho : f.oneof = false) :
    d.nullable f = f.presence := by
  unfold MsgDesc.nullable
  cases hm : f.hasMessage with
  | true => simp [ff.singMsg hc hm]
  | false =>
    cases hs : f.synthetic with
    | true => simp [(ff.synth hs).2]
    | false =>
      cases hp : d.proto3 with
      | true => simp [ff.implicit hc hp ho hs hm]
      | false => simp [ff.proto2 hc hp, ho]

theorem spare_depth {xs sp : List Val} {x : Val} (h : x ∈ xs) : x.depth ≤ (Val.list xs sp).depth := by
  have := depth_mem h
  rw [Val.depth]; omega

include hS hR in
theorem dec_field {rec : SubEq} {n : Nat} (H : RecDec C rec n) (path : List Nat) {d : MsgDesc} {f : FieldDesc} (ff : FieldFacts d f)
    (ho : f.oneof = false) {v w : Val} (hv : fieldOK (wtM C.S .typedNil) f v = true) (hw : fieldOK (wtM C.S .typedNil) f w = true)
    (dv : v.depth ≤ n) (dw : w.depth ≤ n) :
    Dec (SameField C.S (subSame C.S C.R (Same C.S C.R)) f v w) (C.apart ∨ SameField C.S (subSame C.S C.R (Same C.S C.R)) f v v)
      (compareField C rec path f (d.nullable f) v w) := by
  unfold SameField compareField
  cases hm : f.map with
  | some md =>
    have hc := (ff.map md hm).1
    simp only [hc, beq_self_eq_true, if_true]
    have he : ∀ x, fieldOK (wtM C.S .typedNil) f x = true → (x.entries.map (·.1)).Nodup ∧ ∀ e ∈ x.entries, elemOK (wtM C.S .typedNil) md.val md.valMsg e.2 = true := by
      intro x hx
      unfold fieldOK at hx
      simp only [hm] at hx
      cases x <;> simp only at hx <;> try cases hx
      · simp [Val.entries]
      · simp only [Bool.and_eq_true, decide_eq_true_iff, List.all_eq_true] at hx
        exact ⟨hx.1, fun e hm => (hx.2 e hm).2⟩
    obtain ⟨nv, ev⟩ := he v hv
    obtain ⟨nw, ew⟩ := he w hw
    simp only [FieldDesc.len, hm, Option.isSome_some, if_true]
    rw [sameMap_iff nv nw, sameMap_iff nv nv]
    by_cases hl : v.entries.length = w.entries.length
    · rw [if_neg (by simpa using hl)]
      refine Dec.mono (dec_allIdx (P := fun _ e => ∃ y, lookup w.entries e.1 = some y ∧ SameElem C.S (subSame C.S C.R (Same C.S C.R)) md.val md.valMsg e.2 y)
        (Q := C.apart ∨ ∀ e ∈ v.entries, SameElem C.S (subSame C.S C.R (Same C.S C.R)) md.val md.valMsg e.2 e.2) ?_) ?_ ?_ ?_
      · intro j e hj
        have hmem := List.mem_of_getElem? hj
        rw [mapGet_eq]
        cases hlk : lookup w.entries e.1 with
        | none => exact .ok (by simp)
        | some y =>
          simp only [Option.some.injEq, exists_eq_left']
          have hy := lookup_mem hlk
          refine (dec_elem hS hR H (path ++ [0 + j]) (ev e hmem) (ew _ hy) ?_ ?_).mono id (fun _ h => h) ?_
          · have := depth_entries hmem; omega
          · have := depth_entries hy; exact Nat.le_trans this dw
          · exact fun hq => hq.imp id fun h => h e hmem
      · intro h j e hj
        exact h.2 e (List.mem_of_getElem? hj)
      · intro _ h
        refine ⟨hl, fun e hmem => ?_⟩
        obtain ⟨j, hj⟩ := List.mem_iff_getElem?.1 hmem
        exact h j e hj
      · intro h
        refine h.imp id fun h e hmem => ?_
        obtain ⟨y, h1, h2⟩ := h.2 e hmem
        rw [(lookup_iff nv).2 hmem] at h1
        cases h1
        exact h2
    · rw [if_pos (by simpa using hl)]
      exact .ok (by simp [hl])
  | none =>
    simp only
    by_cases hc : f.card = .repeated
    · simp only [hc, beq_self_eq_true, if_true]
      have he : ∀ x, fieldOK (wtM C.S .typedNil) f x = true → ∀ e ∈ x.elems, elemOK (wtM C.S .typedNil) f.kind f.msg e = true := by
        intro x hx
        unfold fieldOK at hx
        simp only [hm, hc, beq_self_eq_true, if_true] at hx
        cases x <;> simp only at hx <;> try cases hx
        · simp [Val.elems]
        · simp only [Bool.and_eq_true, List.all_eq_true] at hx
          exact hx.1
      have ev := he v hv
      have ew := he w hw
      simp only [FieldDesc.len, hm, Option.isSome_none, Bool.false_eq_true, if_false]
      by_cases hl : v.elems.length = w.elems.length
      · rw [if_neg (by simpa using hl), forall₂_getElem? hl, forall₂_getElem? rfl]
        refine Dec.mono (dec_allIdx (P := fun j x => ∃ b, w.elems[j]? = some b ∧ SameElem C.S (subSame C.S C.R (Same C.S C.R)) f.kind f.msg x b)
          (Q := C.apart ∨ ∀ x ∈ v.elems, SameElem C.S (subSame C.S C.R (Same C.S C.R)) f.kind f.msg x x) ?_) ?_ ?_ ?_
        · intro j x hj
          have hmem := List.mem_of_getElem? hj
          have hlt : j < w.elems.length := by
            rw [← hl]
            exact (List.getElem?_eq_some_iff.1 hj).1
          rw [Nat.zero_add]
          have hg : w.elems[j]? = some w.elems[j] := List.getElem?_eq_getElem hlt
          have hy := List.mem_of_getElem? hg
          unfold indexVal
          rw [hg]
          simp only [Option.some.injEq, exists_eq_left']
          refine (dec_elem hS hR H (path ++ [j]) (ev x hmem) (ew _ hy) ?_ ?_).mono id (fun _ h => h) ?_
          · have := depth_elems hmem; omega
          · have := depth_elems hy; omega
          · exact fun hq => hq.imp id fun h => h x hmem
        · intro h j e hj
          rw [Nat.zero_add]; exact h j e hj
        · intro _ h j x hj
          simpa using h j x hj
        · intro h
          refine h.imp id fun h x hmem => ?_
          obtain ⟨j, hj⟩ := List.mem_iff_getElem?.1 hmem
          obtain ⟨b, h1, h2⟩ := h j x hj
          rw [hj] at h1
          cases h1
          exact h2
      · rw [if_pos (by simpa using hl)]
        refine .ok ?_
        simp only [Bool.false_eq_true, false_iff]
        exact fun h => hl h.length_eq
    · have hc' : (f.card == .repeated) = false := by simpa using hc
      simp only [hc, hc', Bool.false_eq_true, if_false]
      rw [nullable_iff ff hc ho]
      unfold fieldOK at hv hw
      simp only [hm, hc', Bool.false_eq_true, if_false] at hv hw
      cases hp : f.presence with
      | false =>
        simp only [hp, Bool.false_eq_true, if_false] at hv hw ⊢
        have hk : ¬ (f.kind = .message ∨ f.kind = .group) := by
          intro hk
          have := ff.singMsg hc (by simpa [FieldDesc.hasMessage] using hk)
          simp [hp] at this
        have e1 : ∀ x, scalarOK f.kind x = true → elemOK (wtM C.S .typedNil) f.kind f.msg x = true := by
          intro x hx
          revert hk hx
          cases f.kind <;> simp [elemOK]
        have := dec_elem hS hR H path (e1 v hv) (e1 w hw) dv dw
        unfold SameElem at this
        simpa only [hk, if_false] using this
      | true =>
        simp only [hp, if_true, Bool.or_eq_true, isNil_iff] at hv hw ⊢
        by_cases hk : f.kind = .message ∨ f.kind = .group
        · simp only [hk, if_true]
          have e : compareKind C rec true path f.kind f.msg v w = callEqual C rec path f.msg v w := by rcases hk with hk | hk <;> rw [hk] <;> rfl
          rw [e]
          have hv : PtrOK C.S f.msg v := hv.elim .inl (ptrOK_of hk)
          have hw : PtrOK C.S f.msg w := hw.elim .inl (ptrOK_of hk)
          have key : ∀ w, PtrOK C.S f.msg w → subSame C.S C.R (Same C.S C.R) f.msg v w → (v = .nil ↔ w = .nil) := by
            intro w hw h
            unfold subSame at h
            split at h
            · exact hR.isNil _ _ _ h
            · rw [same_iff] at h
              rcases hv with rfl | hv <;> rcases hw with rfl | hw
              · simp
              · obtain ⟨s, u, e, rfl⟩ := wtM_isMsg hw; simp [SameMsg] at h
              · obtain ⟨s, u, e, rfl⟩ := wtM_isMsg hv; simp [SameMsg] at h
              · obtain ⟨s, u, e, rfl⟩ := wtM_isMsg hw
                obtain ⟨s, u, e, rfl⟩ := wtM_isMsg hv
                simp
          have hnil : subSame C.S C.R (Same C.S C.R) f.msg .nil .nil := by
            unfold subSame
            split
            · exact hR.refl _ _
            · rw [same_iff]; trivial
          refine (dec_callEqual H path f.msg hv hw dv dw).mono ?_ ?_ ?_
          · rintro ⟨h1, h2⟩
            by_cases h : v = .nil
            · rw [h, h1.1 h]; exact hnil
            · exact h2 h
          · exact fun _ h => ⟨key w hw h, fun _ => h⟩
          · refine fun h => h.imp id ?_
            rintro ⟨h1, h2⟩
            by_cases h : v = .nil
            · rw [h]; exact hnil
            · exact h2 h
        · simp only [hk, if_false]
          by_cases hb : f.kind = .bytes
          · rw [hb]
            simp only [compareKind, compareBytes]
            refine .ok ?_
            simp only [SameScalar]
            by_cases h1 : v = .nil <;> by_cases h2 : w = .nil <;> simp [h1, h2, Val.isNil]
          · have e : compareKind C rec true path f.kind f.msg v w = compareScalar true f.kind v w := by
              revert hk hb; cases f.kind <;> simp [compareKind]
            rw [e]
            unfold compareScalar deref
            by_cases h1 : v = .nil <;> by_cases h2 : w = .nil <;> simp [h1, h2, Val.isNil]
            · exact .ok (by simp)
            · exact .ok (by simp)
            · exact .ok (by simp)
            · exact .ok (scalarEq_iff hb v w)

include hS hR in
theorem dec_oneof {rec : SubEq} {n : Nat} (H : RecDec C rec n) (path : List Nat) {d : MsgDesc} {slot : Nat} {v w : Val}
    (hv : oneofOK .typedNil (wtM C.S .typedNil) d slot v = true) (hw : oneofOK .typedNil (wtM C.S .typedNil) d slot w = true)
    (dv : v.depth ≤ n) (dw : w.depth ≤ n) :
    Dec (SameOneof C.S (subSame C.S C.R (Same C.S C.R)) d slot v w) (C.apart ∨ SameOneof C.S (subSame C.S C.R (Same C.S C.R)) d slot v v)
      (compareOneof C rec path d slot v w) := by
  have hnum : ∀ {m : Nat} {f : FieldDesc}, d.member slot m = some f → f.num = m := fun h => (member_some h).2.2.2
  unfold compareOneof
  cases v <;> simp only [oneofOK, Bool.false_eq_true] at hv
  case nil =>
    cases w <;> simp only [oneofOK, Bool.false_eq_true] at hw <;> simp only [Val.isNil, Bool.not_true, Bool.not_false, Bool.and_true, Bool.and_false, Bool.false_eq_true, if_true, if_false, SameOneof] <;> exact .ok (by simp)
  case wrap m x =>
    simp only [Val.isNil, Bool.false_and, Bool.false_eq_true, if_false, Bool.not_false, if_true]
    cases hm : d.member slot m with
    | none => simp [hm] at hv
    | some f =>
      simp only [hm, Bool.and_eq_true] at hv
      simp only [Val.depth] at dv
      cases w <;> simp only [oneofOK, Bool.false_eq_true] at hw <;> simp only [Val.isNil, Bool.false_eq_true, if_true, if_false, SameOneof, wrapperEqual]
      case nil => exact .ok (by simp)
      case wrapNil => exact .ok (by simp)
      case wrap m' y =>
        rw [hnum hm]
        simp only [Val.depth] at dw
        by_cases he : m' = m
        · subst he
          simp only [hm, Bool.and_eq_true] at hw
          simp only [ne_eq, not_true_eq_false, if_false, true_and, hm, Option.some.injEq, exists_eq_left']
          by_cases hp : C.ptrEq path (.wrap m' x) (.wrap m' y) = true
          · rw [if_pos hp]
            refine ⟨true, rfl, fun _ => rfl, fun _ hq => ?_⟩
            simp only [CEnv.ptrEq, Val.isNil, Bool.false_and, Bool.false_or, Bool.and_eq_true, decide_eq_true_iff] at hp
            rcases hq with hq | hq
            · rw [hq path] at hp; cases hp.1
            · have := hp.2
              cases this
              exact hq
          · rw [if_neg hp]
            exact dec_elem hS hR H _ hv.1 hw.1 (by omega) (by omega)
        · rw [if_pos he]
          exact .ok (by simp [Ne.symm he])
  case wrapNil m =>
    simp only [Val.isNil, Bool.false_and, Bool.false_eq_true, if_false, Bool.not_false, if_true]
    cases hm : d.member slot m with
    | none => simp [hm] at hv
    | some f =>
      cases w <;> simp only [oneofOK, Bool.false_eq_true] at hw <;> simp only [Val.isNil, Bool.false_eq_true, if_true, if_false, SameOneof, wrapperEqual]
      case nil => exact .ok (by simp)
      case wrap => exact .ok (by simp)
      case wrapNil m' =>
        rw [hnum hm]
        exact .ok (by rw [beq_iff_eq]; exact eq_comm)

theorem oneofFirst_eq : ∀ (fs : List FieldDesc) (seen : List Nat), oneofFirst seen fs = firsts seen fs
  | [], _ => rfl
  | f :: fs, seen => by
    rw [oneofFirst, firsts, oneofFirst_eq, oneofFirst_eq]

include hS hR in
theorem dec_body {rec : SubEq} {n : Nat} (H : RecDec C rec n) (path : List Nat) (t : Nat) {s s' : List Val} {u u' e e' : Bytes}
    (hf : (C.S.msg t).foreign = false) (hv : wtM C.S .typedNil t (.msg s u e) = true) (hw : wtM C.S .typedNil t (.msg s' u' e') = true)
    (dv : (Val.msg s u e).depth ≤ n + 1) (dw : (Val.msg s' u' e').depth ≤ n + 1) :
    Dec (Same C.S C.R t (.msg s u e) (.msg s' u' e')) (C.apart ∨ Same C.S C.R t (.msg s u e) (.msg s u e))
      (equalBody C rec path (C.S.msg t) s s' u u') := by
  have hd := schemaOK_msg hS t
  rw [wtM_msg, hf] at hv hw
  simp only [Bool.false_or, Bool.and_eq_true, decide_eq_true_iff, List.all_eq_true] at hv hw
  rw [same_iff, same_iff]
  have hperm : (sortFields (C.S.msg t).fields).Perm (C.S.msg t).fields := ascending_perm _
  have h1 : Dec (∀ f ∈ oneofFirst [] (sortFields (C.S.msg t).fields), SameOneof C.S (subSame C.S C.R (Same C.S C.R)) (C.S.msg t) f.slot (slotOf s f) (slotOf s' f))
      (C.apart ∨ SameMsg C.S (subSame C.S C.R (Same C.S C.R)) (C.S.msg t) (.msg s u e) (.msg s u e))
      (allRes (fun f => compareOneof C rec (path ++ [f.slot]) (C.S.msg t) f.slot (slotOf s f) (slotOf s' f)) (oneofFirst [] (sortFields (C.S.msg t).fields))) := by
    refine dec_allRes fun f hfm => ?_
    rw [oneofFirst_eq] at hfm
    obtain ⟨hmem, ho, _⟩ := firsts_mem _ _ hfm
    have hmem := hperm.mem_iff.1 hmem
    have a := hv.2 f hmem
    have b := hw.2 f hmem
    rw [if_pos ho] at a b
    refine (dec_oneof hS hR H _ a b (depth_slot f dv) (depth_slot f dw)).mono id (fun _ h => h) fun h => h.imp id fun h => ?_
    have := h.1 f hmem
    rwa [if_pos ho] at this
  have h2 : Dec (∀ f ∈ (sortFields (C.S.msg t).fields).filter fun f => !f.oneof, SameField C.S (subSame C.S C.R (Same C.S C.R)) f (slotOf s f) (slotOf s' f))
      (C.apart ∨ SameMsg C.S (subSame C.S C.R (Same C.S C.R)) (C.S.msg t) (.msg s u e) (.msg s u e))
      (allRes (fun f => compareField C rec (path ++ [f.slot]) f ((C.S.msg t).nullable f) (slotOf s f) (slotOf s' f)) ((sortFields (C.S.msg t).fields).filter fun f => !f.oneof)) := by
    refine dec_allRes fun f hfm => ?_
    rw [List.mem_filter] at hfm
    have hmem := hperm.mem_iff.1 hfm.1
    have ho : f.oneof = false := by simpa using hfm.2
    have a := hv.2 f hmem
    have b := hw.2 f hmem
    rw [if_neg (by simp [ho])] at a b
    refine (dec_field hS hR H _ (hd.fields f hmem) ho a b (depth_slot f dv) (depth_slot f dw)).mono id (fun _ h => h) fun h => h.imp id fun h => ?_
    have := h.1 f hmem
    rwa [if_neg (by simp [ho])] at this
  have h3 : Dec ((C.S.msg t).keepUnknown = true → u = u')
      (C.apart ∨ SameMsg C.S (subSame C.S C.R (Same C.S C.R)) (C.S.msg t) (.msg s u e) (.msg s u e))
      (if (C.S.msg t).keepUnknown then Res.ok (u == u') else .ok true) := by
    cases (C.S.msg t).keepUnknown <;> exact .ok (by simp)
  refine (h1.and (h2.and h3)).mono ?_ ?_ id
  · rintro ⟨ha, hb⟩
    refine ⟨fun f hfm => ?_, fun f hfm => ?_, hb⟩
    · rw [oneofFirst_eq] at hfm
      obtain ⟨hmem, ho, _⟩ := firsts_mem _ _ hfm
      have := ha f (hperm.mem_iff.1 hmem)
      rwa [if_pos ho] at this
    · rw [List.mem_filter] at hfm
      have ho : f.oneof = false := by simpa using hfm.2
      have := ha f (hperm.mem_iff.1 hfm.1)
      rwa [if_neg (by simp [ho])] at this
  · rintro _ ⟨ha, hb, hc⟩
    refine ⟨fun f hmem => ?_, hc⟩
    cases ho : f.oneof with
    | true =>
      simp only [if_true]
      obtain ⟨g, hg, hsl⟩ := List.mem_map.1 (firsts_cover _ [] (hperm.mem_iff.2 hmem) ho (by simp))
      rw [← oneofFirst_eq] at hg
      have := ha g hg
      rw [hsl] at this
      simpa [slotOf, hsl] using this
    | false =>
      simp only [Bool.false_eq_true, if_false]
      exact hb f (List.mem_filter.2 ⟨hperm.mem_iff.2 hmem, by simp [ho]⟩)

include hS hR in
theorem dec_equalN : ∀ n, RecDec C (equalN C (n + 1)) n := by
  intro n
  induction n with
  | zero =>
    intro path t v w hf hv hw dv dw
    have hnil : ∀ x, PtrOK C.S t x → x.depth ≤ 0 → x = .nil := by
      intro x hx dx
      rcases hx with h | h
      · exact h
      · obtain ⟨s, u, e, rfl⟩ := wtM_isMsg h
        rw [Val.depth] at dx; omega
    rw [hnil v hv dv, hnil w hw dw]
    have : equalN C 1 path t .nil .nil = .ok true := by simp [equalN, CEnv.ptrEq, Val.isNil]
    rw [this]
    exact .ok (by rw [same_iff]; simp [SameMsg])
  | succ n ih =>
    intro path t v w hf hv hw dv dw
    unfold equalN
    by_cases hp : C.ptrEq path v w = true
    · rw [if_pos hp]
      refine ⟨true, rfl, fun _ => rfl, fun _ hq => ?_⟩
      simp only [CEnv.ptrEq, Bool.or_eq_true, Bool.and_eq_true, isNil_iff, decide_eq_true_iff] at hp
      rcases hp with ⟨rfl, rfl⟩ | ⟨hp, rfl⟩
      · rw [same_iff]; trivial
      · rcases hq with hq | hq
        · rw [hq path] at hp; cases hp
        · exact hq
    · rw [if_neg hp]
      rcases hv with rfl | hv
      · rcases hw with rfl | hw
        · simp [CEnv.ptrEq, Val.isNil] at hp
        · obtain ⟨s, u, e, rfl⟩ := wtM_isMsg hw
          exact Dec.ok (b := false) (by rw [same_iff]; simp [SameMsg])
      · obtain ⟨s, u, e, rfl⟩ := wtM_isMsg hv
        rcases hw with rfl | hw
        · exact Dec.ok (b := false) (by rw [same_iff]; simp [SameMsg])
        · obtain ⟨s', u', e', rfl⟩ := wtM_isMsg hw
          exact dec_body hS hR ih path t hf hv hw dv dw

include hS hR in
theorem dec_equalVT {t : Nat} {v w : Val} (hf : (C.S.msg t).foreign = false) (hv : PtrOK C.S t v) (hw : PtrOK C.S t w) :
    Dec (Same C.S C.R t v w) (C.apart ∨ Same C.S C.R t v v) (equalVT C t v w) :=
  dec_equalN hS hR _ [] t v w hf hv hw (Nat.le_max_left ..) (Nat.le_max_right ..)
end

end Vtp
