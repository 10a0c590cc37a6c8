import Verif.Lemmas.RoundTrip
import Verif.Lemmas.Equal
import Verif.Lemmas.Shuffle
/-!
# What is read back has the same content and is written the same way
-/

namespace Vtp
open Spec

/-! ## Same content -/

/-- What `NoNaNN` says about a field. -/
def NoNaNField (P : Nat → Val → Prop) (f : FieldDesc) (v : Val) : Prop :=
  match v with
  | .nil => True
  | .wrap n' x => f.num = n' → NoNaNElem P f.kind f.msg x
  | .list xs _ => ∀ x ∈ xs, NoNaNElem P f.kind f.msg x
  | .map es => ∀ md, f.map = some md → ∀ e ∈ es, NoNaNElem P md.val md.valMsg e.2
  | v => NoNaNElem P f.kind f.msg v

theorem noNaN_single {P : Nat → Val → Prop} {okv : Nat → Val → Bool} {f : FieldDesc} {v : Val} (h : NoNaNField P f v) (hv : v ≠ .nil)
    (ho : elemOK okv f.kind f.msg v = true) (hok : ∀ t w, okv t w = true → ∃ s u e, w = .msg s u e) : NoNaNElem P f.kind f.msg v := by
  unfold NoNaNField at h
  have : v = .nil ∨ (∃ n, v = .num n) ∨ (∃ n, v = .str n) ∨ ∃ s u e, v = .msg s u e := by
    unfold elemOK at ho
    cases hk : f.kind <;> simp only [hk] at ho <;>
      first
      | (simp only [Bool.or_eq_true] at ho
         rcases ho with ho | ho
         · cases v <;> simp_all [Val.isNil]
         · exact .inr (.inr (.inr (hok _ _ ho))))
      | (cases v <;> simp_all [scalarOK])
  rcases this with rfl | ⟨n, rfl⟩ | ⟨n, rfl⟩ | ⟨s, u, e, rfl⟩
  · exact absurd rfl hv
  all_goals exact h

theorem zero_same {k : Kind} (hk : ¬ (k = .message ∨ k = .group)) {v : Val} (hv : scalarOK k v = true) (hz : isZeroVal k v = true) : SameScalar k v (zeroScalar k) := by
  by_cases hs : k = .string ∨ k = .bytes
  · unfold SameScalar
    rw [if_pos hs]
    rcases hs with rfl | rfl <;> simp [isZeroVal] at hz <;> rw [hz] <;> rfl
  · rw [← scalarEq_iff (by intro h; exact hs (.inr h))]
    cases k <;> simp at hk hs <;> simp only [isZeroVal, isZeroNum, beq_iff_eq] at hz <;> simp [scalarEq, zeroScalar, Val.bits] at hz ⊢ <;> try exact hz
    · simp [float32Eq, hz]
    · simp [float64Eq, hz]

section same
variable {S : Schema} {R : Runtime} {rec : Nat → Val → Val} {okv : Nat → Val → Bool} {P Q : Nat → Val → Prop}
variable (hS : schemaOK S = true) (hR : RuntimeEqual R)
  (H : ∀ t v, (S.msg t).foreign = false → okv t v = true → P t v → Q t v → Same S R t v (rec t v) ∧ rec t v ≠ .nil)
include hS hR H

theorem sub_same {t : Nat} {v : Val} (hv : elemOK okv .message t v = true) (hr : RestorableElem S R P .message t v) (hn : NoNaNElem Q .message t v) :
    subSame S R (Same S R) t (orEmpty S t v) (backElem S R rec .message t v) ∧ backElem S R rec .message t v ≠ .nil := by
  unfold backElem subSame
  unfold RestorableElem at hr
  unfold NoNaNElem at hn
  simp only [reduceCtorEq, if_false, if_true, true_or] at hr hn ⊢
  cases hf : (S.msg t).foreign with
  | true =>
    simp only [hf, if_true] at hr ⊢
    obtain ⟨b, w, _, h1, h2, h3, _⟩ := hr
    have : reparse R t v = w := by simp [reparse, h1, h2]
    rw [this]
    refine ⟨h3, fun h => ?_⟩
    have := (hR.isNil _ _ _ h3).2 h
    unfold orEmpty zeroMsg at this
    split at this
    · cases this
    · exact absurd this (by assumption)
  | false =>
    simp only [hf, Bool.false_eq_true, if_false] at hr ⊢
    by_cases hv' : v = .nil
    · simp only [hv', orEmpty, if_true]
      exact ⟨same_zero hS t, by unfold zeroMsg; simp⟩
    · simp only [hv', orEmpty, if_false] at hr ⊢
      refine H t v hf ?_ hr (hn hv')
      simp only [elemOK, Bool.or_eq_true] at hv
      rcases hv with h | h
      · cases v <;> simp_all [Val.isNil]
      · exact h

theorem elem_same {k : Kind} {t : Nat} {v : Val} (hv : elemOK okv k t v = true) (hr : RestorableElem S R P k t v) (hn : NoNaNElem Q k t v) :
    SameElem S (subSame S R (Same S R)) k t v (backElem S R rec k t v) := by
  unfold SameElem
  by_cases hm : k = .message
  · subst hm
    obtain ⟨h1, h2⟩ := sub_same hS hR H hv hr hn
    simp only [true_or, if_true]
    rw [show orEmpty S t (backElem S R rec .message t v) = backElem S R rec .message t v by simp [orEmpty, h2]]
    exact h1
  · have hg : k ≠ .group := by rintro rfl; simp [RestorableElem] at hr
    have hmg : ¬ (k = .message ∨ k = .group) := by simp [hm, hg]
    rw [if_neg hmg]
    unfold NoNaNElem at hn
    rw [if_neg hmg] at hn
    unfold backElem
    rw [if_neg hm]
    by_cases hb : k = .bytes
    · simp [hb, SameScalar, Val.bytes]
    · rw [if_neg hb]; exact sameScalar_refl hn hmg

theorem field_same {D : MsgDesc} {f : FieldDesc} (ff : FieldFacts D f) (ho : f.oneof = false) (hok : ∀ t w, okv t w = true → ∃ s u e, w = .msg s u e) {v : Val}
    (hv : fieldOK okv f v = true) (hr : RestorableField ⟨S, R⟩ P f v) (hn : NoNaNField Q f v) :
    SameField S (subSame S R (Same S R)) f v (backField S R rec f v) := by
  unfold fieldOK at hv
  unfold SameField backField
  cases hm : f.map with
  | some md =>
    simp only [hm] at hv ⊢
    cases v <;> simp only [Bool.false_eq_true] at hv
    · simp [Val.entries, SameMap, lookup]
    · rename_i es
      simp only [Bool.and_eq_true, decide_eq_true_eq, List.all_eq_true] at hv
      by_cases he : es = []
      · simp [he, SameMap, lookup, Val.entries]
      · rw [if_neg (by simpa [Val.entries] using he)]
        simp only [Val.entries]
        intro k
        have hnd : ((es.reverse.map fun e => (e.1, backElem S R rec md.val md.valMsg e.2)).map (·.1)).Nodup := by
          rw [List.map_map, List.map_reverse]
          exact List.nodup_reverse.2 hv.1
        cases hl : lookup es k with
        | none =>
          have : lookup (es.reverse.map fun e => (e.1, backElem S R rec md.val md.valMsg e.2)) k = none := by
            rw [lookup_none] at hl ⊢
            simpa using hl
          rw [this]; trivial
        | some x =>
          have hx := lookup_mem hl
          have : lookup (es.reverse.map fun e => (e.1, backElem S R rec md.val md.valMsg e.2)) k = some (backElem S R rec md.val md.valMsg x) := by
            rw [lookup_iff hnd]
            simp only [List.mem_map, List.mem_reverse]
            exact ⟨(k, x), hx, rfl⟩
          rw [this]
          exact elem_same hS hR H (hv.2 _ hx).2 (hr md hm _ hx) (hn md hm _ hx)
  | none =>
    simp only [hm] at hv ⊢
    by_cases hc : f.card = .repeated
    · simp only [hc, beq_self_eq_true, if_true] at hv ⊢
      cases v <;> simp only [Bool.false_eq_true] at hv
      · simp [Val.elems]
      · rename_i xs sp
        simp only [Bool.and_eq_true, List.all_eq_true] at hv
        have : ∀ l : List Val, (∀ x ∈ l, x ∈ xs) → List.Forall₂ (SameElem S (subSame S R (Same S R)) f.kind f.msg) l (l.map (backElem S R rec f.kind f.msg)) := by
          intro l
          induction l with
          | nil => exact fun _ => .nil
          | cons a l ih =>
            intro h
            exact .cons (elem_same hS hR H (hv.1 a (h a (by simp))) (hr a (h a (by simp))) (hn a (h a (by simp)))) (ih fun x hx => h x (by simp [hx]))
        have := this xs fun x hx => hx
        by_cases he : xs = []
        · simp [he, Val.elems]
        · rw [if_neg (by simpa [Val.elems] using he)]; exact this
    · have hc' : (f.card == .repeated) = false := by simpa using hc
      simp only [hc', hc, if_false, Bool.false_eq_true] at hv ⊢
      cases hp : f.presence with
      | true =>
        simp only [hp, if_true] at hv ⊢
        by_cases hnl : v = .nil
        · simp [hnl]
        · simp only [hnl, if_false]
          have hv' : elemOK okv f.kind f.msg v = true := by
            rw [Bool.or_eq_true] at hv
            rcases hv with h | h
            · cases v <;> simp_all [Val.isNil]
            · exact h
          have hr' := restorable_single hr hnl hv' hok
          have hn' := noNaN_single hn hnl hv' hok
          by_cases hk : f.kind = .message
          · rw [hk] at hr' hn' hv' ⊢
            obtain ⟨h1, h2⟩ := sub_same hS hR H hv' hr' hn'
            simp only [orEmpty, hnl, if_false] at h1
            exact ⟨by simp [h2], fun _ => by simpa using h1⟩
          · have hg : f.kind ≠ .group := by intro h; rw [h] at hr'; simp [RestorableElem] at hr'
            have hmg : ¬ (f.kind = .message ∨ f.kind = .group) := by simp [hk, hg]
            have h1 := elem_same hS hR H hv' hr' hn'
            unfold SameElem at h1
            rw [if_neg hmg] at h1 ⊢
            refine ⟨?_, fun _ => h1⟩
            unfold backElem
            rw [if_neg hk]
            split <;> simp [hnl]
      | false =>
        have hnm : f.hasMessage = false := by
          by_contra h
          simp at h
          have := ff.singMsg hc h
          rw [hp] at this; cases this
        simp only [hp, Bool.false_eq_true, if_false] at hv ⊢
        simp [FieldDesc.hasMessage] at hnm
        have hmg : ¬ (f.kind = .message ∨ f.kind = .group) := by simp [hnm]
        have hz : zeroField f = zeroScalar f.kind := by
          unfold zeroField
          simp [ho, hc', hp]
        by_cases hzv : isZeroVal f.kind v = true
        · rw [if_pos hzv, hz]
          exact zero_same hmg hv hzv
        · rw [if_neg hzv]
          by_cases hnl : v = .nil
          · subst hnl
            cases hk : f.kind <;> simp [hk, scalarOK] at hv
            simp [backElem, SameScalar]
            rfl
          have hv' : elemOK okv f.kind f.msg v = true := by
            unfold elemOK
            cases hk : f.kind <;> simp_all
          have h1 := elem_same hS hR H hv' (restorable_single hr hnl hv' hok) (noNaN_single hn hnl hv' hok)
          unfold SameElem at h1
          rwa [if_neg hmg] at h1

end same

theorem back_same {U : MsgDesc → Bytes → Prop} {S : Schema} {R : Runtime} (hS : schemaOK S = true) (hR : RuntimeEqual R) : ∀ (n t : Nat) (v : Val), v.depth ≤ n → (S.msg t).foreign = false →
    wtM S .plain t v = true → RestorableG U S R n t v → NoNaNN S n t v → Same S R t v (backN S R n t v) ∧ backN S R n t v ≠ .nil := by
  intro n
  induction n with
  | zero =>
    intro t v hd _ hw
    obtain ⟨s, u, e, rfl⟩ := wtN_shape hw
    simp [Val.depth] at hd
  | succ n ih =>
    intro t v hd hf hw hr hn
    obtain ⟨s, u, e, rfl⟩ := wtN_shape hw
    have hD := schemaOK_msg hS t
    rw [wtM_msg, hf] at hw
    simp only [Bool.false_or, Bool.and_eq_true, decide_eq_true_eq, List.all_eq_true] at hw
    simp only [Val.depth] at hd
    refine ⟨?_, by simp [backN]⟩
    rw [same_iff]
    have H : ∀ t v, (S.msg t).foreign = false → wtUpTo S n t v = true → RestorableG U S R n t v → NoNaNN S n t v → Same S R t v (backN S R n t v) ∧ backN S R n t v ≠ .nil := by
      intro t v hf hv hr hn
      simp only [wtUpTo, Bool.and_eq_true, decide_eq_true_eq] at hv
      exact ih t v hv.2 hf hv.1 hr hn
    have hok : ∀ t w, wtUpTo S n t w = true → ∃ s u e, w = .msg s u e := by
      intro t w h
      simp only [wtUpTo, Bool.and_eq_true] at h
      exact wtN_shape h.1
    refine ⟨fun f hff => ?_, fun hk => by simp [hk]⟩
    have hslot : slotOf ((List.range (S.msg t).nslots).map (backSlot S R (backN S R n) (S.msg t) s)) f = backSlot S R (backN S R n) (S.msg t) s f.slot := by
      have := (hD.fields f hff).slot
      rw [slotOf, List.getD_eq_getElem?_getD, List.getElem?_map, List.getElem?_range this]; rfl
    rw [hslot, backSlot_eq (E := ⟨S, R⟩) hD s hff]
    have hv := hw.2 f hff
    have hds : (slotOf s f).depth ≤ n := by have := depth_slotOf s f; omega
    rw [oneofOK_agree (wtUpTo_agree S n) _ _ _ hds, fieldOK_agree (wtUpTo_agree S n) _ hds] at hv
    have hnf : ∀ g ∈ (S.msg t).fields, NoNaNField (NoNaNN S n) g (slotOf s g) := hn hf
    have hrf : ∀ g ∈ (S.msg t).fields, RestorableField ⟨S, R⟩ (RestorableG U S R n) g (slotOf s g) := hr.2
    cases ho : f.oneof with
    | false =>
      rw [ho] at hv
      simp only [Bool.false_eq_true, if_false] at hv ⊢
      exact field_same hS hR H (hD.fields f hff) ho hok hv (hrf f hff) (hnf f hff)
    | true =>
      rw [ho] at hv
      simp only [if_true] at hv ⊢
      cases hsv : slotOf s f <;> rw [hsv] at hv <;> simp only [oneofOK, Bool.false_eq_true] at hv
      · trivial
      · rename_i n' x
        cases hm : (S.msg t).member f.slot n' with
        | none => simp [hm] at hv
        | some g =>
          simp only [hm, Bool.and_eq_true] at hv
          obtain ⟨m1, m2, m3, m4⟩ := member_some hm
          have hsg : slotOf s g = .wrap n' x := by rw [← hsv]; simp [slotOf, m3]
          have h1 := hrf g m1
          have h2 := hnf g m1
          rw [hsg] at h1 h2
          simp only [backOneof, hm]
          exact ⟨rfl, g, hm, elem_same hS hR H hv.1 (h1 m4) (h2 m4)⟩
      · simp at hv

/-! ## Written the same way -/

/-- Messages whose struct fields encode the same way encode the same way. -/
theorem body_congr {E : Env} {strict : Bool} {d : MsgDesc} (hd : MsgFacts d) {s m : List Val} {r : Nat → Val → Option Bytes}
    (hF : ∀ f ∈ d.fields, f.oneof = false → field E r f (slotOf s f) = field E r f (slotOf m f))
    (hO : ∀ f ∈ d.fields, f.oneof = true → ((slotOf s f = .nil ∧ slotOf m f = .nil) ∨ ∃ k x x' g, slotOf s f = .wrap k x ∧ slotOf m f = .wrap k x' ∧
            d.member f.slot k = some g ∧ record E r g.num g.kind g.msg x = record E r g.num g.kind g.msg x')) :
    (if strict = true then bodyStrict E r d s else bodyDefault E r d s) = (if strict = true then bodyStrict E r d m else bodyDefault E r d m) := by
  cases strict
  · simp only [Bool.false_eq_true, if_false]
    unfold bodyDefault
    congr 2
    · apply List.map_congr_left
      intro f hfm
      rw [List.mem_filter] at hfm
      exact hF f ((ascending_perm _).mem_iff.1 hfm.1) (by simpa using hfm.2)
    · apply List.map_congr_left
      intro f hfm
      unfold oneofLast at hfm
      rw [List.mem_filter] at hfm
      have ho : f.oneof = true := by have := hfm.2; simp only [Bool.and_eq_true] at this; exact this.1
      rcases hO f ((ascending_perm _).mem_iff.1 hfm.1) ho with ⟨h1, h2⟩ | ⟨k, x, x', g, h1, h2, h3, h4⟩
      · rw [h1, h2]
      · rw [h1, h2]; simp only [Spec.oneof, h3, h4]
  · simp only [if_true]
    unfold bodyStrict
    congr 1
    apply List.map_congr_left
    intro f hfm
    have hfm := (ascending_perm _).mem_iff.1 hfm
    cases ho : f.oneof with
    | false => simp only [Bool.false_eq_true, if_false]; exact hF f hfm ho
    | true =>
      simp only [if_true]
      rcases hO f hfm ho with ⟨h1, h2⟩ | ⟨k, x, x', g, h1, h2, h3, h4⟩
      · rw [h1, h2]
      · rw [h1, h2]
        simp only
        split
        · rename_i hk
          obtain ⟨g1, g2, g3, g4⟩ := member_some h3
          rw [hd.num_inj g1 hfm (g4.trans hk)] at h4
          exact h4
        · rfl

section again
variable {E : Env} {strict : Bool} {rec : Nat → Val → Val} {okv : Nat → Val → Bool} {P : Nat → Val → Prop}
variable (hS : schemaOK E.S = true) (hR : RuntimeEqual E.R)
  (H : ∀ t v, (E.S.msg t).foreign = false → okv t v = true → P t v → (∃ v', Shuffle v v' ∧ encode E strict t (rec t v) = encode E strict t v') ∧ rec t v ≠ .nil)
include hS hR H

theorem sub_again {t : Nat} {v : Val} (hv : elemOK okv .message t v = true) (hr : RestorableElem E.S E.R P .message t v) :
    (∃ v', Shuffle v v' ∧ Spec.sub E (encode E strict) t (backElem E.S E.R rec .message t v) = Spec.sub E (encode E strict) t v') ∧
      backElem E.S E.R rec .message t v ≠ .nil := by
  unfold backElem
  unfold RestorableElem at hr
  unfold Spec.sub
  simp only [reduceCtorEq, if_false, if_true] at hr ⊢
  cases hf : (E.S.msg t).foreign with
  | true =>
    simp only [hf, if_true] at hr ⊢
    obtain ⟨b, w, v', h1, h2, h3, h4, h5⟩ := hr
    have : reparse E.R t v = w := by simp [reparse, h1, h2]
    rw [this]
    refine ⟨⟨v', h4, h5⟩, fun h => ?_⟩
    have := (hR.isNil _ _ _ h3).2 h
    unfold orEmpty zeroMsg at this
    split at this
    · cases this
    · exact absurd this (by assumption)
  | false =>
    simp only [hf, Bool.false_eq_true, if_false] at hr ⊢
    by_cases hv' : v = .nil
    · simp only [hv', if_true] at hr ⊢
      refine ⟨⟨.nil, .refl _, ?_⟩, by unfold zeroMsg; simp⟩
      rw [encode_nil, encode_zero hS t hr]
    · simp only [hv', if_false] at hr ⊢
      refine H t v hf ?_ hr
      simp only [elemOK, Bool.or_eq_true] at hv
      rcases hv with h | h
      · cases v <;> simp_all [Val.isNil]
      · exact h

theorem record_again (num : Nat) {k : Kind} {t : Nat} {v : Val} (hv : elemOK okv k t v = true) (hr : RestorableElem E.S E.R P k t v) :
    ∃ v', Shuffle v v' ∧ record E (encode E strict) num k t (backElem E.S E.R rec k t v) = record E (encode E strict) num k t v' := by
  by_cases hm : k = .message
  · subst hm
    obtain ⟨⟨v', h1, h2⟩, _⟩ := sub_again hS hR H hv hr
    exact ⟨v', h1, by simp only [record, h2]⟩
  · have hg : k ≠ .group := by rintro rfl; simp [RestorableElem] at hr
    refine ⟨v, .refl _, ?_⟩
    have : ∀ x, record E (encode E strict) num k t x = some (tag num (wireType k) ++ scalar k x) := by
      intro x; cases k <;> simp_all [record]
    rw [this, this]
    unfold backElem
    rw [if_neg hm]
    split
    · rename_i hb; subst hb; rfl
    · rfl

theorem list_again (num : Nat) {k : Kind} {t : Nat} : ∀ xs : List Val, (∀ x ∈ xs, elemOK okv k t x = true) → (∀ x ∈ xs, RestorableElem E.S E.R P k t x) →
    ∃ ys, List.Forall₂ Shuffle xs ys ∧
      (xs.map (backElem E.S E.R rec k t)).map (record E (encode E strict) num k t) = ys.map (record E (encode E strict) num k t)
  | [], _, _ => ⟨[], .nil, rfl⟩
  | x :: xs, hv, hr => by
    obtain ⟨y, h1, h2⟩ := record_again hS hR H num (hv x (by simp)) (hr x (by simp))
    obtain ⟨ys, a1, a2⟩ := list_again num xs (fun x hx => hv x (by simp [hx])) (fun x hx => hr x (by simp [hx]))
    refine ⟨y :: ys, .cons h1 a1, ?_⟩
    rw [List.map_cons, List.map_cons, List.map_cons, a2, h2]

theorem entries_again (num : Nat) (md : MapDesc) : ∀ es : List (Key × Val), (∀ e ∈ es, elemOK okv md.val md.valMsg e.2 = true) →
    (∀ e ∈ es, RestorableElem E.S E.R P md.val md.valMsg e.2) →
    ∃ fs, List.Forall₂ (fun a b => a.1 = b.1 ∧ Shuffle a.2 b.2) es fs ∧
      (es.map fun e => (e.1, backElem E.S E.R rec md.val md.valMsg e.2)).map (entry E (encode E strict) num md) = fs.map (entry E (encode E strict) num md)
  | [], _, _ => ⟨[], .nil, rfl⟩
  | e :: es, hv, hr => by
    obtain ⟨y, h1, h2⟩ := record_again hS hR H 2 (hv e (by simp)) (hr e (by simp))
    obtain ⟨fs, a1, a2⟩ := entries_again num md es (fun x hx => hv x (by simp [hx])) (fun x hx => hr x (by simp [hx]))
    refine ⟨(e.1, y) :: fs, .cons ⟨rfl, h1⟩ a1, ?_⟩
    rw [List.map_cons, List.map_cons, List.map_cons, a2]
    congr 1
    simp only [entry, h2]

theorem field_again {D : MsgDesc} {f : FieldDesc} (ff : FieldFacts D f) (ho : f.oneof = false) (hok : ∀ t w, okv t w = true → ∃ s u e, w = .msg s u e) {v : Val}
    (hv : fieldOK okv f v = true) (hr : RestorableField E P f v) :
    ∃ v', Shuffle v v' ∧ field E (encode E strict) f (backField E.S E.R rec f v) = field E (encode E strict) f v' := by
  unfold fieldOK at hv
  unfold backField
  cases hm : f.map with
  | some md =>
    simp only [hm] at hv ⊢
    cases v <;> simp only [Bool.false_eq_true] at hv
    · exact ⟨.nil, .refl _, by simp [Val.entries]⟩
    · rename_i es
      simp only [Bool.and_eq_true, decide_eq_true_eq, List.all_eq_true] at hv
      by_cases he : es = []
      · exact ⟨.map es, .refl _, by simp [he, field, hm, Val.entries]⟩
      · rw [if_neg (by simpa [Val.entries] using he)]
        obtain ⟨fs, h1, h2⟩ := entries_again hS hR H f.num md es.reverse (fun e h => (hv.2 e (by simpa using h)).2) (fun e h => hr md hm e (by simpa using h))
        refine ⟨.map fs, .trans (.perm (List.reverse_perm es).symm) (shuffle_mapOf h1), ?_⟩
        simp only [field, hm, Val.entries]
        have h3 := congrArg (fun l => concat l.reverse) h2
        simpa only [List.map_reverse] using h3
  | none =>
    simp only [hm] at hv ⊢
    by_cases hc : f.card = .repeated
    · simp only [hc, beq_self_eq_true, if_true] at hv ⊢
      cases v <;> simp only [Bool.false_eq_true] at hv
      · exact ⟨.nil, .refl _, by simp [Val.elems]⟩
      · rename_i xs sp
        simp only [Bool.and_eq_true, List.all_eq_true] at hv
        by_cases he : xs = []
        · exact ⟨.list xs sp, .refl _, by simp [he, field, hm, hc, Val.elems, concat]⟩
        · rw [if_neg (by simpa [Val.elems] using he)]
          cases hp : f.packed with
          | true =>
            refine ⟨.list xs sp, .refl _, ?_⟩
            have hnum := (ff.packed hp).2.2
            simp only [field, hm, hc, hp, if_true, Val.elems, he, List.map_eq_nil_iff, if_false]
            have : backElem E.S E.R rec f.kind f.msg = id := by
              funext x
              unfold backElem
              rw [if_neg (by intro h; rw [h] at hnum; simp [numeric] at hnum), if_neg (by intro h; rw [h] at hnum; simp [numeric] at hnum)]
              rfl
            rw [this]; simp
          | false =>
            obtain ⟨ys, h1, h2⟩ := list_again hS hR H f.num xs hv.1 hr
            refine ⟨.list ys sp, shuffle_listOf h1 sp, ?_⟩
            simp only [field, hm, hc, hp, if_true, Val.elems, Bool.false_eq_true, if_false]
            rw [h2]
    · have hc' : (f.card == .repeated) = false := by simpa using hc
      simp only [hc', hc, if_false, Bool.false_eq_true] at hv ⊢
      cases hp : f.presence with
      | true =>
        simp only [hp, if_true] at hv ⊢
        by_cases hnl : v = .nil
        · exact ⟨v, .refl _, by simp [hnl]⟩
        · simp only [hnl, if_false]
          have hv' : elemOK okv f.kind f.msg v = true := by
            rw [Bool.or_eq_true] at hv
            rcases hv with h | h
            · cases v <;> simp_all [Val.isNil]
            · exact h
          have hr' := restorable_single hr hnl hv' hok
          obtain ⟨v', h1, h2⟩ := record_again hS hR H f.num hv' hr'
          refine ⟨v', h1, ?_⟩
          have hb : backElem E.S E.R rec f.kind f.msg v ≠ .nil := by
            by_cases hk : f.kind = .message
            · rw [hk] at hr' hv' ⊢
              exact (sub_again hS hR H hv' hr').2
            · unfold backElem
              rw [if_neg hk]
              split <;> simp [hnl]
          have hn'' : v' ≠ .nil := by
            intro h0
            have := shuffle_isNil h1
            rw [h0] at this
            exact hnl (isNil_iff.1 (by rw [this]; rfl))
          simp only [field, hm, hc, hp, if_false, Bool.true_or, if_true, hb, hn'', h2]
      | false =>
        have hnm : f.hasMessage = false := by
          by_contra h
          simp at h
          have := ff.singMsg hc h
          rw [hp] at this; cases this
        simp only [hp, Bool.false_eq_true, if_false] at hv ⊢
        refine ⟨v, .refl _, ?_⟩
        have hz : zeroField f = zeroScalar f.kind := by
          unfold zeroField
          simp [ho, hc', hp]
        have hkk := hnm
        simp [FieldDesc.hasMessage] at hkk
        by_cases hzv : isZeroVal f.kind v = true
        · rw [if_pos hzv, hz]
          simp only [field, hm, hc, hp, hnm, if_false, Bool.or_self, Bool.false_eq_true, hzv, if_true]
          rw [if_pos]
          cases hk : f.kind <;> simp [hk] at hkk <;> simp [isZeroVal, zeroScalar, isZeroNum, Val.bits, Val.bytes]
        · rw [if_neg hzv]
          by_cases hb : f.kind = .bytes
          · have : isZeroVal f.kind (.str v.bytes) = isZeroVal f.kind v := by rw [hb]; rfl
            have h2 : record E (encode E strict) f.num f.kind f.msg (.str v.bytes) = record E (encode E strict) f.num f.kind f.msg v := by
              rw [hb]; rfl
            simp only [field, hm, hc, hp, hnm, if_false, Bool.or_self, Bool.false_eq_true, backElem, hkk, hb, if_true, reduceCtorEq]
            rw [hb] at this h2
            rw [this, h2]
          · simp [backElem, hkk, hb]

end again

theorem back_again {U : MsgDesc → Bytes → Prop} {E : Env} {strict : Bool} (hS : schemaOK E.S = true) (hR : RuntimeEqual E.R) : ∀ (n t : Nat) (v : Val), v.depth ≤ n → (E.S.msg t).foreign = false →
    wtM E.S .plain t v = true → RestorableG U E.S E.R n t v →
    (∃ v', Shuffle v v' ∧ encode E strict t (backN E.S E.R n t v) = encode E strict t v') ∧ backN E.S E.R n t v ≠ .nil := by
  intro n
  induction n with
  | zero =>
    intro t v hd _ hw
    obtain ⟨s, u, e, rfl⟩ := wtN_shape hw
    simp [Val.depth] at hd
  | succ n ih =>
    intro t v hdep hf hw hr
    obtain ⟨s, u, e, rfl⟩ := wtN_shape hw
    have hd := schemaOK_msg hS t
    rw [wtM_msg, hf] at hw
    simp only [Bool.false_or, Bool.and_eq_true, decide_eq_true_eq, List.all_eq_true] at hw
    simp only [Val.depth] at hdep
    refine ⟨?_, by simp [backN]⟩
    have H : ∀ t v, (E.S.msg t).foreign = false → wtUpTo E.S n t v = true → RestorableG U E.S E.R n t v →
        (∃ v', Shuffle v v' ∧ encode E strict t (backN E.S E.R n t v) = encode E strict t v') ∧ backN E.S E.R n t v ≠ .nil := by
      intro t v hf hv hr
      simp only [wtUpTo, Bool.and_eq_true, decide_eq_true_eq] at hv
      exact ih t v hv.2 hf hv.1 hr
    have hok : ∀ t w, wtUpTo E.S n t w = true → ∃ s u e, w = .msg s u e := by
      intro t w h
      simp only [wtUpTo, Bool.and_eq_true] at h
      exact wtN_shape h.1
    have hv : ∀ f ∈ (E.S.msg t).fields, (if f.oneof then oneofOK .plain (wtUpTo E.S n) (E.S.msg t) f.slot (slotOf s f) else fieldOK (wtUpTo E.S n) f (slotOf s f)) = true := by
      intro f hff
      have hds : (slotOf s f).depth ≤ n := by have := depth_slotOf s f; omega
      rw [← oneofOK_agree (wtUpTo_agree E.S n) _ _ _ hds, ← fieldOK_agree (wtUpTo_agree E.S n) _ hds]
      exact hw.2 f hff
    have hrf : ∀ g ∈ (E.S.msg t).fields, RestorableField E (RestorableG U E.S E.R n) g (slotOf s g) := hr.2
    generalize hbs : (List.range (E.S.msg t).nslots).map (backSlot E.S E.R (backN E.S E.R n) (E.S.msg t) s) = s1
    have hbslot : ∀ f ∈ (E.S.msg t).fields, slotOf s1 f = if f.oneof then backOneof E.S E.R (backN E.S E.R n) (E.S.msg t) f.slot (slotOf s f) else backField E.S E.R (backN E.S E.R n) f (slotOf s f) := by
      intro f hff
      rw [← hbs, ← backSlot_eq hd s hff, slotOf, List.getD_eq_getElem?_getD, List.getElem?_map, List.getElem?_range (hd.fields f hff).slot]; rfl
    have hslot : ∀ j (hj : j < s.length), ∃ y, Shuffle s[j] y ∧
        ((∀ f ∈ (E.S.msg t).fields, f.slot = j → f.oneof = false → field E (encode E strict) f (slotOf s1 f) = field E (encode E strict) f y) ∧
         (∀ f ∈ (E.S.msg t).fields, f.slot = j → f.oneof = true → ((slotOf s1 f = .nil ∧ y = .nil) ∨ ∃ m x x' g, slotOf s1 f = .wrap m x ∧ y = .wrap m x' ∧
            (E.S.msg t).member f.slot m = some g ∧
            record E (encode E strict) g.num g.kind g.msg x = record E (encode E strict) g.num g.kind g.msg x'))) := by
      intro j hj
      obtain ⟨f, hfm, hfs⟩ := hd.cover j (by rw [← hw.1]; exact hj)
      have hsl : slotOf s f = s[j] := by simp [slotOf, hfs, List.getD_eq_getElem?_getD, hj]
      have h1 := hv f hfm
      have hb := hbslot f hfm
      cases ho : f.oneof with
      | false =>
        simp only [ho, Bool.false_eq_true, if_false] at h1 hb
        obtain ⟨y, a1, a2⟩ := field_again (strict := strict) hS hR H (hd.fields f hfm) ho hok h1 (hrf f hfm)
        rw [hsl] at a1
        refine ⟨y, a1, fun g hg hgs hgo => ?_, fun g hg hgs hgo => ?_⟩
        · by_cases hn : g.num = f.num
          · rw [hd.num_inj hg hfm hn, hb]; exact a2
          · have := (hd.share g hg f hfm hn (hgs.trans hfs.symm)).2
            simp [ho] at this
        · by_cases hn : g.num = f.num
          · rw [hd.num_inj hg hfm hn, ho] at hgo; cases hgo
          · have := (hd.share g hg f hfm hn (hgs.trans hfs.symm)).2
            simp [ho] at this
      | true =>
        simp only [ho, if_true] at h1 hb
        have hsame : ∀ g : FieldDesc, g.slot = f.slot → ∀ l, slotOf l g = slotOf l f := by intro g hg l; simp [slotOf, hg]
        have : ∃ y, Shuffle (slotOf s f) y ∧ ((slotOf s1 f = .nil ∧ y = .nil) ∨ ∃ m x x' g, slotOf s1 f = .wrap m x ∧ y = .wrap m x' ∧
            (E.S.msg t).member f.slot m = some g ∧
            record E (encode E strict) g.num g.kind g.msg x = record E (encode E strict) g.num g.kind g.msg x') := by
          rw [hb]
          cases hsv : slotOf s f <;> rw [hsv] at h1 <;> simp only [oneofOK, Bool.false_eq_true] at h1
          · exact ⟨.nil, .refl _, .inl ⟨rfl, rfl⟩⟩
          · rename_i m x
            cases hm : (E.S.msg t).member f.slot m with
            | none => simp [hm] at h1
            | some g =>
              simp only [hm, Bool.and_eq_true] at h1
              obtain ⟨m1, m2, m3, m4⟩ := member_some hm
              have hrg := hrf g m1
              rw [hsame g m3, hsv] at hrg
              obtain ⟨x', a1, a2⟩ := record_again (strict := strict) hS hR H g.num h1.1 (hrg m4)
              exact ⟨.wrap m x', .wrap a1, .inr ⟨m, _, x', g, by simp only [backOneof, hm], rfl, hm, a2⟩⟩
          · simp at h1
        obtain ⟨y, a1, a2⟩ := this
        rw [hsl] at a1
        refine ⟨y, a1, fun g hg hgs hgo => ?_, fun g hg hgs hgo => ?_⟩
        · by_cases hn : g.num = f.num
          · rw [hd.num_inj hg hfm hn, ho] at hgo; cases hgo
          · have := (hd.share g hg f hfm hn (hgs.trans hfs.symm)).1
            simp [hgo] at this
        · rw [hsame g (hgs.trans hfs.symm), hgs.trans hfs.symm]; exact a2
    obtain ⟨m, hm1, hm2⟩ := exists_list (P := fun j _ y =>
        ((∀ f ∈ (E.S.msg t).fields, f.slot = j → f.oneof = false → field E (encode E strict) f (slotOf s1 f) = field E (encode E strict) f y) ∧
         (∀ f ∈ (E.S.msg t).fields, f.slot = j → f.oneof = true → ((slotOf s1 f = .nil ∧ y = .nil) ∨ ∃ m x x' g, slotOf s1 f = .wrap m x ∧ y = .wrap m x' ∧
            (E.S.msg t).member f.slot m = some g ∧
            record E (encode E strict) g.num g.kind g.msg x = record E (encode E strict) g.num g.kind g.msg x')))) s 0 (by simpa using hslot)
    refine ⟨.msg m u e, shuffle_msgOf hm1 u e, ?_⟩
    have hlen := hm1.length_eq
    have hget : ∀ f ∈ (E.S.msg t).fields, f.slot < s.length ∧ ∃ h : f.slot < m.length, slotOf m f = m[f.slot] := by
      intro f hfm
      have := (hd.fields f hfm).slot
      rw [← hw.1] at this
      exact ⟨this, by omega, by simp [slotOf, List.getD_eq_getElem?_getD, show f.slot < m.length by omega]⟩
    have hF : ∀ f ∈ (E.S.msg t).fields, f.oneof = false → field E (encode E strict) f (slotOf s1 f) = field E (encode E strict) f (slotOf m f) := by
      intro f hfm ho
      obtain ⟨h1, h2, h3⟩ := hget f hfm
      rw [h3]
      exact (hm2 f.slot h1 h2).1 f hfm (by omega) ho
    have hO : ∀ f ∈ (E.S.msg t).fields, f.oneof = true → ((slotOf s1 f = .nil ∧ slotOf m f = .nil) ∨ ∃ k x x' g, slotOf s1 f = .wrap k x ∧ slotOf m f = .wrap k x' ∧
            (E.S.msg t).member f.slot k = some g ∧
            record E (encode E strict) g.num g.kind g.msg x = record E (encode E strict) g.num g.kind g.msg x') := by
      intro f hfm ho
      obtain ⟨h1, h2, h3⟩ := hget f hfm
      rw [h3]
      exact (hm2 f.slot h1 h2).2 f hfm (by omega) ho
    simp only [backN, hbs]
    rw [encode_msg, encode_msg]
    have hu : (if (E.S.msg t).keepUnknown = true then (if (E.S.msg t).keepUnknown = true then u else []) else []) = (if (E.S.msg t).keepUnknown = true then u else []) := by
      split <;> rfl
    rw [hu]
    congr 1
    exact body_congr hd hF hO

end Vtp
