import Verif.Lemmas.AlikeMarshal
import Verif.Lemmas.Equal
/-! # `EqualVT` makes no difference between alike messages -/

namespace Vtp
open Spec

theorem alike_nil {S : Schema} {R : Runtime} (t : Nat) : Alike S R t .nil .nil := by rw [alike_iff]; simp [AlikeMsg]

/-- The empty message is like itself. -/
theorem alike_zero {S : Schema} {R : Runtime} (hS : schemaOK S = true) (t : Nat) : Alike S R t (zeroMsg S t) (zeroMsg S t) := by
  rw [alike_iff]
  refine ⟨fun f hf => ?_, fun _ => rfl⟩
  rw [zeroMsg_slot hS hf]
  have ff := (schemaOK_msg hS t).fields f hf
  cases ho : f.oneof with
  | true => simp [zeroField, ho, AlikeOneof]
  | false =>
    simp only [Bool.false_eq_true, if_false]
    unfold AlikeField
    cases hm : f.map with
    | some md =>
      rw [show zeroField f = .nil by simp [zeroField, (ff.map md hm).1]]
      exact .nil
    | none =>
      simp only
      split
      · rename_i hc
        rw [show zeroField f = .nil by simp [zeroField, hc]]
        exact .nil
      · rename_i hc
        refine ⟨by intros; trivial, ?_⟩
        unfold AlikeElem
        split
        · rename_i hk
          have hp := ff.singMsg hc (by simpa [FieldDesc.hasMessage] using hk)
          rw [show zeroField f = .nil by simp [zeroField, hp]]
          exact .inl ⟨rfl, rfl⟩
        · split <;> rfl

theorem allRes_congr {α : Type} {f g : α → Res Bool} : ∀ {l : List α}, (∀ a ∈ l, f a = g a) → allRes f l = allRes g l
  | [], _ => rfl
  | a :: l, h => by
    simp only [allRes]
    rw [h a (.head _), allRes_congr fun b hb => h b (.tail _ hb)]

theorem allIdx_forall₂ {α : Type} {r : α → α → Prop} {f g : Nat → α → Res Bool} : ∀ {l l' : List α} (i : Nat), List.Forall₂ r l l' →
    (∀ j a b, a ∈ l → b ∈ l' → r a b → f j a = g j b) → allIdx f i l = allIdx g i l'
  | _, _, _, .nil, _ => rfl
  | _, _, i, .cons h1 h2, h => by
    simp only [allIdx]
    rw [h i _ _ (.head _) (.head _) h1, allIdx_forall₂ (i + 1) h2 fun j a b ha hb => h j a b (.tail _ ha) (.tail _ hb)]

theorem alike_getElem? {α : Type} {r : α → α → Prop} : ∀ {l l' : List α} (i : Nat), List.Forall₂ r l l' →
    (l[i]? = none ∧ l'[i]? = none) ∨ ∃ a b, l[i]? = some a ∧ l'[i]? = some b ∧ r a b
  | _, _, _, .nil => .inl ⟨rfl, rfl⟩
  | _, _, 0, .cons h _ => .inr ⟨_, _, rfl, rfl, h⟩
  | _, _, i + 1, .cons _ h => by simpa using alike_getElem? i h

theorem mapGet_forall₂ {r : Val → Val → Prop} {v w : Val} (k : Key) (h : List.Forall₂ (fun (e e' : Key × Val) => e.1 = e'.1 ∧ r e.2 e'.2) v.entries w.entries) :
    (mapGet v k = none ∧ mapGet w k = none) ∨ ∃ a b, mapGet v k = some a ∧ mapGet w k = some b ∧ r a b ∧ (k, a) ∈ v.entries ∧ (k, b) ∈ w.entries := by
  unfold mapGet
  generalize v.entries = l at h ⊢
  generalize w.entries = l' at h ⊢
  induction h with
  | nil => exact .inl ⟨rfl, rfl⟩
  | @cons e e' l l' h1 h2 ih =>
    obtain ⟨k1, x⟩ := e
    obtain ⟨k2, y⟩ := e'
    obtain ⟨rfl, h1⟩ := h1
    simp only [List.find?_cons]
    by_cases hk : k1 = k
    · subst hk
      right
      exact ⟨x, y, by simp, by simp, h1, by simp, by simp⟩
    · simp only [hk, decide_false]
      rcases ih with h | ⟨a, b, h3, h4, h5, h6, h7⟩
      · exact .inl h
      · exact .inr ⟨a, b, h3, h4, h5, .tail _ h6, .tail _ h7⟩

section
variable {C : CEnv} (hC : C.apart) (hS : schemaOK C.S = true) (hR : RuntimeEqual C.R) {N N' : Nat} {rec rec' : SubEq}
  (H : ∀ path t v₁ w₁ v₂ w₂, v₁.depth < N → v₂.depth < N → w₁.depth < N' → w₂.depth < N' → Alike C.S C.R t v₁ w₁ → Alike C.S C.R t v₂ w₂ →
    rec path t v₁ v₂ = rec' path t w₁ w₂)

/-- Alike pointers to messages, either of which may be nil. -/
abbrev AlikePtr (C : CEnv) (t : Nat) (v w : Val) : Prop := AlikeElem (subAlike C.S C.R (Alike C.S C.R)) .message t v w

include hC in
theorem ptrEq_apart (p : List Nat) (v w : Val) : C.ptrEq p v w = (v.isNil && w.isNil) := by simp [CEnv.ptrEq, hC p]

include hR H in
theorem callEqual_alike (path : List Nat) {t : Nat} {v₁ w₁ v₂ w₂ : Val} (d1 : v₁.depth < N) (d2 : v₂.depth < N) (d3 : w₁.depth < N') (d4 : w₂.depth < N')
    (h1 : AlikePtr C t v₁ w₁) (h2 : AlikePtr C t v₂ w₂) : callEqual C rec path t v₁ v₂ = callEqual C rec' path t w₁ w₂ := by
  unfold callEqual
  unfold AlikePtr AlikeElem at h1 h2
  simp only [true_or, if_true] at h1 h2
  cases hf : (C.S.msg t).foreign with
  | true =>
    have e : ∀ {v w : Val}, (v = .nil ∧ w = .nil ∨ v ≠ .nil ∧ w ≠ .nil ∧ subAlike C.S C.R (Alike C.S C.R) t v w) → C.R.equal t v w = true := by
      rintro v w (⟨rfl, rfl⟩ | ⟨-, -, h⟩)
      · exact hR.refl _ _
      · unfold subAlike at h; rw [if_pos hf] at h; exact h.1
    have h1 := e h1
    have h2 := e h2
    simp only [if_true]
    congr 1
    rw [Bool.eq_iff_iff]
    constructor
    · intro h; exact hR.trans _ _ _ _ (hR.symm _ _ _ h1) (hR.trans _ _ _ _ h h2)
    · intro h; exact hR.trans _ _ _ _ h1 (hR.trans _ _ _ _ h (hR.symm _ _ _ h2))
  | false =>
    have e : ∀ {v w : Val}, (v = .nil ∧ w = .nil ∨ v ≠ .nil ∧ w ≠ .nil ∧ subAlike C.S C.R (Alike C.S C.R) t v w) → Alike C.S C.R t v w := by
      rintro v w (⟨rfl, rfl⟩ | ⟨-, -, h⟩)
      · exact alike_nil t
      · unfold subAlike at h; rwa [if_neg (by simp [hf])] at h
    simp only [Bool.false_eq_true, if_false]
    exact H _ _ _ _ _ _ d1 d2 d3 d4 (e h1) (e h2)

omit hC hS hR H in
theorem alikePtr_nil {t : Nat} {v w : Val} (h : AlikePtr C t v w) : v.isNil = w.isNil := by
  unfold AlikePtr AlikeElem at h
  simp only [true_or, if_true] at h
  rcases h with ⟨rfl, rfl⟩ | ⟨h1, h2, _⟩
  · rfl
  · have a : v.isNil = false := by simpa [← isNil_iff] using h1
    have b : w.isNil = false := by simpa [← isNil_iff] using h2
    rw [a, b]

include hS hR in
omit H hC in
theorem alikePtr_orZero {t : Nat} {v w : Val} (h : AlikePtr C t v w) :
    AlikePtr C t (if v.isNil then zeroMsg C.S t else v) (if w.isNil then zeroMsg C.S t else w) := by
  rw [← alikePtr_nil h]
  split
  · unfold AlikePtr AlikeElem
    simp only [true_or, if_true]
    refine .inr ⟨by simp [zeroMsg], by simp [zeroMsg], ?_⟩
    unfold subAlike
    split
    · exact ⟨hR.refl _ _, rfl, rfl⟩
    · exact alike_zero hS t
  · exact h

include hC hS hR H in
theorem compareCall_alike (nb : Bool) (path : List Nat) {t : Nat} {v₁ w₁ v₂ w₂ : Val} (d1 : v₁.depth < N) (d2 : v₂.depth < N) (d3 : w₁.depth < N') (d4 : w₂.depth < N')
    (hz : nb = false → 1 < N ∧ 1 < N') (h1 : AlikePtr C t v₁ w₁) (h2 : AlikePtr C t v₂ w₂) : compareCall C rec nb path t v₁ v₂ = compareCall C rec' nb path t w₁ w₂ := by
  unfold compareCall
  rw [ptrEq_apart hC, ptrEq_apart hC, alikePtr_nil h1, alikePtr_nil h2]
  cases nb with
  | true => exact callEqual_alike hR H path d1 d2 d3 d4 h1 h2
  | false =>
    obtain ⟨z1, z2⟩ := hz rfl
    simp only [Bool.false_eq_true, if_false]
    split
    · rfl
    · rw [← alikePtr_nil h1, ← alikePtr_nil h2]
      have hd : ∀ {v : Val} {M : Nat}, v.depth < M → 1 < M → (if v.isNil then zeroMsg C.S t else v).depth < M := by
        intro v M a b; split
        · rw [zeroMsg_depth]; exact b
        · exact a
      have e1 := alikePtr_orZero hS hR h1
      have e2 := alikePtr_orZero hS hR h2
      rw [← alikePtr_nil h1] at e1
      rw [← alikePtr_nil h2] at e2
      have k1 : (if v₁.isNil = true then zeroMsg C.S t else w₁).depth < N' := by split; rw [zeroMsg_depth]; exact z2; exact d3
      have k2 : (if v₂.isNil = true then zeroMsg C.S t else w₂).depth < N' := by split; rw [zeroMsg_depth]; exact z2; exact d4
      exact callEqual_alike hR H path (hd d1 z1) (hd d2 z1) k1 k2 e1 e2

include hC hS hR H in
theorem compareKind_alike (nb : Bool) (path : List Nat) {k : Kind} {t : Nat} {v₁ w₁ v₂ w₂ : Val} (d1 : v₁.depth < N) (d2 : v₂.depth < N) (d3 : w₁.depth < N') (d4 : w₂.depth < N')
    (hz : nb = false → 1 < N ∧ 1 < N') (hn : nb = true → (v₁ = .nil ↔ w₁ = .nil) ∧ (v₂ = .nil ↔ w₂ = .nil))
    (h1 : AlikeElem (subAlike C.S C.R (Alike C.S C.R)) k t v₁ w₁) (h2 : AlikeElem (subAlike C.S C.R (Alike C.S C.R)) k t v₂ w₂) :
    compareKind C rec nb path k t v₁ v₂ = compareKind C rec' nb path k t w₁ w₂ := by
  by_cases hk : k = .message ∨ k = .group
  · have g : ∀ {v w}, AlikeElem (subAlike C.S C.R (Alike C.S C.R)) k t v w → AlikePtr C t v w := by
      intro v w h
      unfold AlikePtr AlikeElem at *
      rw [if_pos hk] at h
      simpa using h
    have := compareCall_alike hC hS hR H nb path d1 d2 d3 d4 hz (g h1) (g h2)
    rcases hk with rfl | rfl <;> exact this
  · unfold AlikeElem at h1 h2
    rw [if_neg hk] at h1 h2
    by_cases hb : k = .bytes
    · subst hb
      simp only [if_true] at h1 h2
      simp only [compareKind, compareBytes, h1, h2]
      cases nb with
      | false => rfl
      | true =>
        have a : v₁.isNil = w₁.isNil := by rw [Bool.eq_iff_iff, isNil_iff, isNil_iff]; exact (hn rfl).1
        have b : v₂.isNil = w₂.isNil := by rw [Bool.eq_iff_iff, isNil_iff, isNil_iff]; exact (hn rfl).2
        rw [a, b]
    · rw [if_neg hb] at h1 h2
      subst h1 h2
      cases k <;> simp_all [compareKind]

include hC hS hR H in
theorem compareField_alike {d : MsgDesc} {f : FieldDesc} (ff : FieldFacts d f) (ho : f.oneof = false) (path : List Nat) {v₁ w₁ v₂ w₂ : Val} (d1 : v₁.depth < N) (d2 : v₂.depth < N) (d3 : w₁.depth < N') (d4 : w₂.depth < N')
    (h1 : AlikeField (subAlike C.S C.R (Alike C.S C.R)) f v₁ w₁) (h2 : AlikeField (subAlike C.S C.R (Alike C.S C.R)) f v₂ w₂) :
    compareField C rec path f (d.nullable f) v₁ v₂ = compareField C rec' path f (d.nullable f) w₁ w₂ := by
  have pos : ∀ {v x : Val} {M : Nat}, v.depth < M → x ∈ v.elems → x.depth < M ∧ 1 < M := by
    intro v x M h hx
    have := depth_elems hx
    cases v with
    | list xs sp => simp only [Val.depth] at h this; omega
    | _ => simp [Val.elems] at hx
  have posE : ∀ {v : Val} {e : Key × Val} {M : Nat}, v.depth < M → e ∈ v.entries → e.2.depth < M ∧ 1 < M := by
    intro v x M h hx
    have := depth_entries hx
    cases v with
    | map xs => simp only [Val.depth] at h this; omega
    | _ => simp [Val.entries] at hx
  unfold compareField
  unfold AlikeField at h1 h2
  by_cases hc : f.card = .repeated
  · simp only [hc, beq_self_eq_true, if_true]
    cases hm : f.map with
    | some md =>
      rw [hm] at h1 h2
      simp only at h1 h2 ⊢
      have l1 : f.len v₁ = f.len w₁ := by simpa [FieldDesc.len, hm] using h1.length_eq
      have l2 : f.len v₂ = f.len w₂ := by simpa [FieldDesc.len, hm] using h2.length_eq
      rw [l1, l2]
      by_cases hl : f.len w₁ ≠ f.len w₂
      · rw [if_pos hl, if_pos hl]
      · rw [if_neg hl, if_neg hl]
        refine allIdx_forall₂ 0 h1 fun j e e' he he' hr => ?_
        rw [hr.1]
        rcases mapGet_forall₂ e'.1 h2 with ⟨g1, g2⟩ | ⟨a, b, g1, g2, g3, g4, g5⟩
        · rw [g1, g2]
        · rw [g1, g2]
          exact compareKind_alike hC hS hR H false _ (posE d1 he).1 (posE d2 g4).1 (posE d3 he').1 (posE d4 g5).1 (fun _ => ⟨(posE d1 he).2, (posE d3 he').2⟩)
            (by simp) hr.2 g3
    | none =>
      rw [hm] at h1 h2
      simp only [hc, if_true] at h1 h2 ⊢
      have l1 : f.len v₁ = f.len w₁ := by simpa [FieldDesc.len, hm] using h1.length_eq
      have l2 : f.len v₂ = f.len w₂ := by simpa [FieldDesc.len, hm] using h2.length_eq
      rw [l1, l2]
      by_cases hl : f.len w₁ ≠ f.len w₂
      · rw [if_pos hl, if_pos hl]
      · rw [if_neg hl, if_neg hl]
        refine allIdx_forall₂ 0 h1 fun j e e' he he' hr => ?_
        unfold indexVal
        rcases alike_getElem? j h2 with ⟨g1, g2⟩ | ⟨a, b, g1, g2, g3⟩
        · rw [g1, g2]; rfl
        · rw [g1, g2]
          have ga := List.mem_of_getElem? g1
          have gb := List.mem_of_getElem? g2
          exact compareKind_alike hC hS hR H false _ (pos d1 he).1 (pos d2 ga).1 (pos d3 he').1 (pos d4 gb).1 (fun _ => ⟨(pos d1 he).2, (pos d3 he').2⟩)
            (by simp) hr g3
  · have hm : f.map = none := by
      cases hm : f.map with
      | none => rfl
      | some md => exact absurd (ff.map md hm).1 hc
    have hc' : (f.card == .repeated) = false := by simpa using hc
    rw [hm] at h1 h2
    simp only [hc, hc', Bool.false_eq_true, if_false] at h1 h2 ⊢
    have hp : d.nullable f = true → f.presence = true := by
      intro h
      simp only [MsgDesc.nullable, Bool.or_eq_true, Bool.and_eq_true, Bool.not_eq_true'] at h
      rcases h with (h | h) | h
      · exact ff.singMsg hc h
      · exact (ff.synth h).2
      · exact ff.proto2 hc h.1
    by_cases hn : d.nullable f = true
    · exact compareKind_alike hC hS hR H _ _ d1 d2 d3 d4 (by simp [hn]) (fun h => ⟨h1.1 (hp h), h2.1 (hp h)⟩) h1.2 h2.2
    · have hk : ¬ (f.kind = .message ∨ f.kind = .group) := by
        intro hk; apply hn; simp [MsgDesc.nullable, FieldDesc.hasMessage, hk]
      have hn' : d.nullable f = false := by simpa using hn
      rw [hn']
      have h1 := h1.2
      have h2 := h2.2
      unfold AlikeElem at h1 h2
      rw [if_neg hk] at h1 h2
      by_cases hb : f.kind = .bytes
      · simp only [hb, if_true] at h1 h2
        simp [hb, compareKind, compareBytes, h1, h2]
      · rw [if_neg hb] at h1 h2
        subst h1 h2
        cases hkk : f.kind <;> simp_all [compareKind]

include hC hS hR H in
theorem compareOneof_alike {d : MsgDesc} {slot : Nat} (path : List Nat) {v₁ w₁ v₂ w₂ : Val} (d1 : v₁.depth < N) (d2 : v₂.depth < N) (d3 : w₁.depth < N') (d4 : w₂.depth < N')
    (h1 : AlikeOneof (subAlike C.S C.R (Alike C.S C.R)) d slot v₁ w₁) (h2 : AlikeOneof (subAlike C.S C.R (Alike C.S C.R)) d slot v₂ w₂) :
    compareOneof C rec path d slot v₁ v₂ = compareOneof C rec' path d slot w₁ w₂ := by
  rcases oneofCases h1 with ⟨n, x, y, g, rfl, rfl, a1, a2⟩ | ⟨rfl, hne⟩
  · rcases oneofCases h2 with ⟨n', x', y', g', rfl, rfl, b1, b2⟩ | ⟨rfl, hne'⟩
    · simp only [compareOneof, Val.isNil, a1, wrapperEqual, ptrEq_apart hC, Bool.not_false, Bool.and_true, Bool.false_eq_true, if_false, if_true, Bool.and_false]
      by_cases hn : n' = g.num
      · have hg := member_some a1
        rw [hn, hg.2.2.2, a1] at b1
        cases b1
        simp only [Val.depth] at d1 d2 d3 d4
        rw [if_neg (by simpa using hn), if_neg (by simpa using hn)]
        exact compareKind_alike hC hS hR H false _ (by omega) (by omega) (by omega) (by omega) (fun _ => ⟨by omega, by omega⟩) (by simp) a2 b2
      · rw [if_pos hn, if_pos hn]
    · unfold compareOneof
      simp only [Val.isNil, a1]
      cases v₂ with
      | wrap n x => exact absurd rfl (hne' n x)
      | _ => simp [wrapperEqual]
  · rcases oneofCases h2 with ⟨n', x', y', g', rfl, rfl, b1, b2⟩ | ⟨rfl, hne'⟩
    · unfold compareOneof
      cases v₁ with
      | wrap n x => exact absurd rfl (hne n x)
      | _ => simp [wrapperEqual, Val.isNil]
    · unfold compareOneof
      cases v₁ with
      | wrap n x => exact absurd rfl (hne n x)
      | _ => cases v₂ with
        | wrap n x => exact absurd rfl (hne' n x)
        | _ => simp [wrapperEqual, Val.isNil]

end

theorem equalN_alike {C : CEnv} (hC : C.apart) (hS : schemaOK C.S = true) (hR : RuntimeEqual C.R) : ∀ (n n' : Nat) path t v₁ w₁ v₂ w₂,
    v₁.depth < n → v₂.depth < n → w₁.depth < n' → w₂.depth < n' → Alike C.S C.R t v₁ w₁ → Alike C.S C.R t v₂ w₂ →
    equalN C n path t v₁ v₂ = equalN C n' path t w₁ w₂ := by
  intro n
  induction n with
  | zero => intro _ _ _ _ _ _ _ h; exact absurd h (Nat.not_lt_zero _)
  | succ n ih =>
    intro n' path t v₁ w₁ v₂ w₂ d1 d2 d3 d4 h1 h2
    obtain ⟨n', rfl⟩ : ∃ m, n' = m + 1 := ⟨n' - 1, by omega⟩
    simp only [equalN, ptrEq_apart hC]
    rcases alike_cases h1 with ⟨s, u, e, s', u', e', rfl, rfl⟩ | ⟨rfl, hne⟩
    · rcases alike_cases h2 with ⟨r, q, p, r', q', p', rfl, rfl⟩ | ⟨rfl, hne'⟩
      · rw [alike_msg] at h1 h2
        simp only [Val.isNil, Bool.and_false, Bool.false_eq_true, if_false]
        have hd := schemaOK_msg hS t
        have hperm : (sortFields (C.S.msg t).fields).Perm (C.S.msg t).fields := ascending_perm _
        have sl : ∀ {s : List Val} {u e : Bytes} {m : Nat} (f : FieldDesc), (Val.msg s u e).depth < m + 1 → (slotOf s f).depth < m := by
          intro s u e m f h
          have := depth_slotOf s f
          rw [Val.depth] at h
          omega
        have H := fun path t v₁ w₁ v₂ w₂ => ih n' path t v₁ w₁ v₂ w₂
        unfold equalBody
        have e1 : allRes (fun f => compareOneof C (equalN C n) (path ++ [f.slot]) (C.S.msg t) f.slot (slotOf s f) (slotOf r f)) (oneofFirst [] (sortFields (C.S.msg t).fields)) =
            allRes (fun f => compareOneof C (equalN C n') (path ++ [f.slot]) (C.S.msg t) f.slot (slotOf s' f) (slotOf r' f)) (oneofFirst [] (sortFields (C.S.msg t).fields)) := by
          refine allRes_congr fun f hfm => ?_
          rw [oneofFirst_eq] at hfm
          obtain ⟨hmem, ho, _⟩ := firsts_mem _ _ hfm
          have hmem := hperm.mem_iff.1 hmem
          have a := h1.1 f hmem
          have b := h2.1 f hmem
          rw [if_pos ho] at a b
          exact compareOneof_alike hC hS hR H _ (sl f d1) (sl f d2) (sl f d3) (sl f d4) a b
        have e2 : allRes (fun f => compareField C (equalN C n) (path ++ [f.slot]) f ((C.S.msg t).nullable f) (slotOf s f) (slotOf r f)) ((sortFields (C.S.msg t).fields).filter fun f => !f.oneof) =
            allRes (fun f => compareField C (equalN C n') (path ++ [f.slot]) f ((C.S.msg t).nullable f) (slotOf s' f) (slotOf r' f)) ((sortFields (C.S.msg t).fields).filter fun f => !f.oneof) := by
          refine allRes_congr fun f hfm => ?_
          rw [List.mem_filter] at hfm
          have hmem := hperm.mem_iff.1 hfm.1
          have ho : f.oneof = false := by simpa using hfm.2
          have a := h1.1 f hmem
          have b := h2.1 f hmem
          rw [if_neg (by simp [ho])] at a b
          exact compareField_alike hC hS hR H (hd.fields f hmem) ho _ (sl f d1) (sl f d2) (sl f d3) (sl f d4) a b
        simp only [e1, e2]
        by_cases hu : (C.S.msg t).keepUnknown = true
        · rw [h1.2 hu, h2.2 hu]
        · simp only [hu]
          rfl
      · cases v₂ with
        | msg r q p => exact absurd rfl (hne' r q p)
        | _ => simp [Val.isNil]
    · rcases alike_cases h2 with ⟨r, q, p, r', q', p', rfl, rfl⟩ | ⟨rfl, hne'⟩
      · cases v₁ with
        | msg r q p => exact absurd rfl (hne r q p)
        | _ => simp [Val.isNil]
      · cases v₁ with
        | msg r q p => exact absurd rfl (hne r q p)
        | _ => cases v₂ with
          | msg r q p => exact absurd rfl (hne' r q p)
          | _ => simp [Val.isNil]

/-- `EqualVT` on messages that share nothing gives the same answer on alike messages. -/
theorem equalVT_alike {C : CEnv} (hC : C.apart) (hS : schemaOK C.S = true) (hR : RuntimeEqual C.R) {t : Nat} {v₁ w₁ v₂ w₂ : Val}
    (h1 : Alike C.S C.R t v₁ w₁) (h2 : Alike C.S C.R t v₂ w₂) : equalVT C t v₁ v₂ = equalVT C t w₁ w₂ :=
  equalN_alike hC hS hR _ _ _ _ _ _ _ _ (by omega) (by omega) (by omega) (by omega) h1 h2

end Vtp
