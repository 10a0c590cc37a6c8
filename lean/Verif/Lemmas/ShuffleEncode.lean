import Verif.Lemmas.Shuffle
import Verif.Lemmas.Depth
import Verif.Lemmas.Equal
import Verif.Spec.Order
/-!
# Encodings under another map iteration order
-/

namespace Vtp
open Spec

namespace Spec

theorem EPerm.refl (a : Option Bytes) : EPerm a a := by cases a <;> constructor; exact List.Perm.refl _

theorem EPerm.trans {a b c : Option Bytes} (h : EPerm a b) (h' : EPerm b c) : EPerm a c := by
  cases h with
  | both h => cases h' with | both h' => exact .both (h.trans h')
  | neither => exact h'

theorem EPerm.concat_cons {x y : Option Bytes} {l m : List (Option Bytes)} (h : EPerm x y) (h' : EPerm (concat l) (concat m)) :
    EPerm (concat (x :: l)) (concat (y :: m)) := by
  simp only [concat, Option.bind_eq_bind]
  generalize concat l = p at *
  generalize concat m = q at *
  cases h with
  | both h => cases h' with
    | both h' => exact .both (h.append h')
    | neither => exact .neither
  | neither => exact .neither

theorem EPerm.concat_perm {l m : List (Option Bytes)} (h : l.Perm m) : EPerm (concat l) (concat m) := by
  induction h with
  | nil => exact .refl _
  | cons x _ ih => exact .concat_cons (.refl _) ih
  | swap x y l =>
    cases x <;> cases y <;> simp only [concat, Option.bind_eq_bind, Option.bind_some, Option.bind_none] <;> try exact .neither
    cases concat l with
    | none => exact .neither
    | some c =>
      rename_i a b
      simp only [Option.bind_some, ← List.append_assoc]
      exact .both ((List.perm_append_comm).append_right c)
  | trans _ _ ih1 ih2 => exact ih1.trans ih2

theorem EPerm.bind {a b : Option Bytes} (h : EPerm a b) (f : Bytes → Bytes) (hf : ∀ x y, x.Perm y → (f x).Perm (f y)) :
    EPerm (a.bind fun x => some (f x)) (b.bind fun x => some (f x)) := by
  cases h with
  | both h => exact .both (hf _ _ h)
  | neither => exact .neither

end Spec

theorem delimited_perm {x y : Bytes} (h : x.Perm y) : (delimited x).Perm (delimited y) := by
  unfold delimited
  rw [h.length_eq]
  exact h.append_left _

section
variable {E : Env} {r : Nat → Val → Option Bytes} (hR : RuntimePerm E.R) (h : ∀ t v w, Shuffle v w → EPerm (r t v) (r t w))
include hR h

theorem sub_perm (t : Nat) {v w : Val} (hs : Shuffle v w) : EPerm (Spec.sub E r t v) (Spec.sub E r t w) := by
  unfold Spec.sub
  split
  · exact hR t v w hs
  · exact h t v w hs

omit hR h in
theorem scalar_shuffle (k : Kind) {v w : Val} (hs : Shuffle v w) : scalar k v = scalar k w := by
  obtain ⟨h1, h2⟩ := shuffle_bits hs
  unfold scalar
  rw [h1, h2]

theorem record_perm (num : Nat) (k : Kind) (t : Nat) {v w : Val} (hs : Shuffle v w) : EPerm (record E r num k t v) (record E r num k t w) := by
  have h1 := sub_perm hR h t hs
  have h2 := scalar_shuffle k hs
  cases k <;> simp only [record, h2] <;> first
    | exact h1.bind (fun b => tag num 2 ++ delimited b) fun x y hp => (delimited_perm hp).append_left _
    | exact h1.bind (fun b => tag num 3 ++ (b ++ tag num 4)) fun x y hp => (hp.append_right _).append_left _
    | exact .refl _

theorem entry_perm (num : Nat) (md : MapDesc) (k : Key) {v w : Val} (hs : Shuffle v w) : EPerm (entry E r num md (k, v)) (entry E r num md (k, w)) := by
  unfold entry
  simp only
  cases record E r 1 md.key 0 k.toVal with
  | none => exact .neither
  | some a =>
    exact (record_perm hR h 2 md.val md.valMsg hs).bind (fun v => tag num 2 ++ delimited (a ++ v)) fun x y hp => (delimited_perm (hp.append_left _)).append_left _

theorem field_perm (f : FieldDesc) {v w : Val} (hs : Shuffle v w) : EPerm (field E r f v) (field E r f w) := by
  have pres : ∀ {l l' : List (Option Bytes)} {x y : Option Bytes}, EPerm x y → EPerm (concat (l ++ x :: l')) (concat (l ++ y :: l')) := by
    intro l l' x y hxy
    induction l with
    | nil => exact .concat_cons hxy (.refl _)
    | cons z l ih => exact .concat_cons (.refl _) ih
  have key : ∀ {v w : Val}, Shuffle v w → (v.elems = [] ↔ w.elems = []) ∧ (v.elems.map (scalar f.kind) = w.elems.map (scalar f.kind)) ∧
      EPerm (concat (v.elems.map (record E r f.num f.kind f.msg))) (concat (w.elems.map (record E r f.num f.kind f.msg))) ∧
      ∀ md, EPerm (concat (v.entries.reverse.map (entry E r f.num md))) (concat (w.entries.reverse.map (entry E r f.num md))) := by
    intro v w hs
    induction hs with
    | refl v => exact ⟨.rfl, rfl, .refl _, fun _ => .refl _⟩
    | trans _ _ i1 i2 => exact ⟨i1.1.trans i2.1, i1.2.1.trans i2.2.1, i1.2.2.1.trans i2.2.2.1, fun md => (i1.2.2.2 md).trans (i2.2.2.2 md)⟩
    | perm hp =>
      refine ⟨.rfl, rfl, .refl _, fun md => .concat_perm ?_⟩
      exact (((List.reverse_perm _).trans hp).trans (List.reverse_perm _).symm).map _
    | entry hs _ =>
      refine ⟨.rfl, rfl, .refl _, fun md => ?_⟩
      simp only [Val.entries, List.reverse_append, List.reverse_cons, List.map_append, List.map_cons, List.append_assoc, List.map_nil, List.singleton_append]
      exact pres (entry_perm hR h _ md _ hs)
    | elem hs _ =>
      refine ⟨?_, ?_, ?_, fun _ => .refl _⟩
      · simp [Val.elems]
      · simp [Val.elems, scalar_shuffle f.kind hs]
      · simp only [Val.elems, List.map_append, List.map_cons]
        exact pres (record_perm hR h _ _ _ hs)
    | slot => exact ⟨.rfl, rfl, .refl _, fun _ => .refl _⟩
    | wrap => exact ⟨.rfl, rfl, .refl _, fun _ => .refl _⟩
  obtain ⟨h1, h2, h3, h4⟩ := key hs
  have hn : v = .nil ↔ w = .nil := by
    rw [← isNil_iff, ← isNil_iff, shuffle_isNil hs]
  obtain ⟨hb, hby⟩ := shuffle_bits hs
  have hz : isZeroVal f.kind v = isZeroVal f.kind w := by cases f.kind <;> simp only [isZeroVal, hb, hby]
  have h5 := record_perm hR h f.num f.kind f.msg hs
  unfold field
  cases f.map with
  | some md => exact h4 md
  | none =>
    simp only [h1, h2, hn, hz]
    split
    · split
      · exact .refl _
      · exact h3
    · split
      · split
        · exact .refl _
        · exact h5
      · split
        · exact .refl _
        · exact h5

omit hR h in
theorem concat_map_perm {α : Type} (l : List α) (g g' : α → Option Bytes) (hg : ∀ x ∈ l, EPerm (g x) (g' x)) : EPerm (concat (l.map g)) (concat (l.map g')) := by
  induction l with
  | nil => exact .refl _
  | cons x l ih => exact .concat_cons (hg x (by simp)) (ih fun y hy => hg y (by simp [hy]))

theorem body_perm (strict : Bool) (d : MsgDesc) {s s' : List Val} (hs : ∀ i, Shuffle (s.getD i .nil) (s'.getD i .nil)) :
    EPerm (if strict then bodyStrict E r d s else bodyDefault E r d s) (if strict then bodyStrict E r d s' else bodyDefault E r d s') := by
  have hw : ∀ f : FieldDesc, (∃ n x y, slotOf s f = .wrap n x ∧ slotOf s' f = .wrap n y ∧ Shuffle x y) ∨
      ((∀ n x, slotOf s f ≠ .wrap n x) ∧ ∀ n x, slotOf s' f ≠ .wrap n x) := by
    intro f
    by_cases hw : ∃ n x, slotOf s f = .wrap n x
    · obtain ⟨n, x, hw⟩ := hw
      obtain ⟨y, hy, hxy⟩ := shuffle_wrap (hs f.slot) n x hw
      exact .inl ⟨n, x, y, hw, hy, hxy⟩
    · have h1 : ∀ n x, slotOf s f ≠ .wrap n x := fun n x e => hw ⟨n, x, e⟩
      exact .inr ⟨h1, shuffle_wrap' (hs f.slot) h1⟩
  cases strict
  · simp only [Bool.false_eq_true, if_false]
    unfold bodyDefault
    have e1 : EPerm (concat (((ascending d.fields).filter (fun f => !f.oneof)).map (fun f => field E r f (slotOf s f))))
        (concat (((ascending d.fields).filter (fun f => !f.oneof)).map (fun f => field E r f (slotOf s' f)))) :=
      concat_map_perm _ _ _ fun f _ => field_perm hR h f (hs f.slot)
    have e2 : EPerm (concat ((oneofLast d.fields).map (fun f => oneof E r d f.slot (slotOf s f))))
        (concat ((oneofLast d.fields).map (fun f => oneof E r d f.slot (slotOf s' f)))) := by
      refine concat_map_perm _ _ _ fun f _ => ?_
      rcases hw f with ⟨n, x, y, h1, h2, h3⟩ | ⟨h1, h2⟩
      · rw [h1, h2]
        simp only [oneof]
        cases d.member f.slot n with
        | none => exact .refl _
        | some g => exact record_perm hR h _ _ _ h3
      · have z : ∀ v, (∀ n x, v ≠ Val.wrap n x) → oneof E r d f.slot v = some [] := by
          intro v hv
          cases v <;> simp only [oneof]
          exact absurd rfl (hv _ _)
        rw [z _ h1, z _ h2]; exact .refl _
    rw [concat_append, concat_append]
    generalize concat (((ascending d.fields).filter (fun f => !f.oneof)).map (fun f => field E r f (slotOf s f))) = a at *
    generalize concat (((ascending d.fields).filter (fun f => !f.oneof)).map (fun f => field E r f (slotOf s' f))) = b at *
    generalize concat ((oneofLast d.fields).map (fun f => oneof E r d f.slot (slotOf s f))) = c at *
    generalize concat ((oneofLast d.fields).map (fun f => oneof E r d f.slot (slotOf s' f))) = e at *
    cases e1 with
    | both e1 => cases e2 with
      | both e2 => exact .both (e1.append e2)
      | neither => exact .neither
    | neither => exact .neither
  · simp only [if_true]
    unfold bodyStrict
    refine concat_map_perm _ _ _ fun f _ => ?_
    split
    · rcases hw f with ⟨n, x, y, h1, h2, h3⟩ | ⟨h1, h2⟩
      · rw [h1, h2]
        simp only
        split
        · exact record_perm hR h _ _ _ h3
        · exact .refl _
      · split
        · exact absurd (by assumption) (h1 _ _)
        · exact .refl _
    · exact field_perm hR h f (hs f.slot)
end

theorem encodeN_shuffle {E : Env} (strict : Bool) (hR : RuntimePerm E.R) : ∀ (n t : Nat) (v w : Val), Shuffle v w → EPerm (encodeN E strict n t v) (encodeN E strict n t w) := by
  intro n
  induction n with
  | zero => intro t v w _; exact .refl _
  | succ n ih =>
    intro t v w hs
    by_cases hm : ∃ s u e, v = .msg s u e
    · obtain ⟨s, u, e, rfl⟩ := hm
      obtain ⟨s', rfl, _, ha⟩ := shuffle_msg hs s u e rfl
      simp only [encodeN]
      have := (body_perm hR ih strict (E.S.msg t) ha).bind (fun b => b ++ (if (E.S.msg t).keepUnknown then u else [])) fun x y hp => hp.append_right _
      cases strict <;> exact this
    · have h1 : ∀ s u e, v ≠ .msg s u e := fun s u e he => hm ⟨s, u, e, he⟩
      have h2 := shuffle_notMsg hs h1
      have z : ∀ v, (∀ s u e, v ≠ Val.msg s u e) → encodeN E strict (n + 1) t v = some [] := by
        intro v hv
        cases v <;> simp only [encodeN]
        exact absurd rfl (hv _ _ _)
      rw [z _ h1, z _ h2]; exact .refl _

/-- The encodings of a message under two map iteration orders are permutations of each other, and exist together. -/
theorem encode_shuffle {E : Env} (strict : Bool) (hR : RuntimePerm E.R) {t : Nat} {v w : Val} (h : Shuffle v w) : EPerm (encode E strict t v) (encode E strict t w) := by
  have := encodeN_shuffle strict hR (max v.depth w.depth) t v w h
  rw [encodeN_eq E strict (by omega), encodeN_eq E strict (by omega)] at this
  exact this

/-- Content does not depend on iteration order. -/
theorem sameN_shuffle {S : Schema} {R : Runtime} (hS : schemaOK S = true) (hR : RuntimeEqual R) (hE : RuntimeEqualShuffle R) : ∀ (n t : Nat) (v w : Val),
    (S.msg t).foreign = false → Shuffle v w → wtM S .typedNil t v = true → NoNaNN S n t v → SameN S R n t v w
  | 0, _, _, _, _, _, _, _ => trivial
  | n + 1, t, v, w, hf, hs, hw, hn => by
    have hd := schemaOK_msg hS t
    obtain ⟨s, u, e, rfl⟩ := wtM_isMsg hw
    obtain ⟨s', rfl, _, ha⟩ := shuffle_msg hs s u e rfl
    rw [wtM_msg, hf] at hw
    simp only [Bool.false_or, Bool.and_eq_true, decide_eq_true_iff, List.all_eq_true] at hw
    have hn' := hn hf
    have helem : ∀ k t v w, Shuffle v w → elemOK (wtM S .typedNil) k t v = true → NoNaNElem (NoNaNN S n) k t v → SameElem S (subSame S R (SameN S R n)) k t v w := by
      intro k t v w hs ho hn
      unfold SameElem
      unfold NoNaNElem at hn
      split
      · rename_i hk
        rw [if_pos hk] at hn
        have hnil : v = .nil ↔ w = .nil := by rw [← isNil_iff, ← isNil_iff, shuffle_isNil hs]
        have ho : v.isNil = true ∨ wtM S .typedNil t v = true := by rcases hk with rfl | rfl <;> simpa [elemOK] using ho
        unfold subSame orEmpty
        by_cases hv : v = .nil
        · rw [if_pos hv, if_pos (hnil.1 hv)]
          split
          · exact hR.refl _ _
          · exact sameN_zero hS n t
        · rw [if_neg hv, if_neg (mt hnil.2 hv)]
          split
          · exact hE _ _ _ hs
          · rename_i hff
            have hff : (S.msg t).foreign = false := by simpa using hff
            exact sameN_shuffle hS hR hE n t v w hff hs (ho.resolve_left (by cases v <;> simp_all [Val.isNil])) (hn hv)
      · rename_i hk
        rw [if_neg hk] at hn
        have : scalarOK k v = true := by cases k <;> simp_all [elemOK]
        rw [shuffle_scalarOK hs this]
        exact sameScalar_refl hn hk
    refine ⟨fun f hfm => ?_, fun _ => rfl⟩
    have ff := hd.fields f hfm
    have h1 := hw.2 f hfm
    have h2 := hn' f hfm
    have hsh : Shuffle (slotOf s f) (slotOf s' f) := ha f.slot
    cases ho : f.oneof with
    | true =>
      simp only [ho, if_true] at h1 ⊢
      cases hv : slotOf s f <;> simp only [hv, oneofOK] at h1 hsh ⊢ <;> try cases h1
      · rw [(shuffle_atom hsh).1 rfl]; trivial
      · rename_i m x
        obtain ⟨y, hy, hxy⟩ := shuffle_wrap hsh m x rfl
        rw [hy]
        refine ⟨rfl, ?_⟩
        cases hmem : (S.msg t).member f.slot m with
        | none => simp [hmem] at h1
        | some g =>
          refine ⟨g, rfl, ?_⟩
          simp [hmem] at h1
          obtain ⟨hg1, hg2, hg3, hg4⟩ := member_some hmem
          have hgn := hn' g hg1
          have hsl : slotOf s g = .wrap m x := by rw [← hv]; simp [slotOf, hg3]
          rw [hsl] at hgn
          exact helem _ _ _ _ hxy h1 (hgn hg4)
      · rw [(shuffle_atom hsh).2.2.2 _ rfl]; exact rfl
    | false =>
      simp only [ho, Bool.false_eq_true, if_false] at h1 ⊢
      have h1' : fieldOK (wtM S .typedNil) f (slotOf s' f) = true := shuffle_fieldOK (r := wtM S .typedNil) (fun t v w => shuffle_wtM) hsh h1
      unfold SameField
      unfold fieldOK at h1 h1'
      cases hm : f.map with
      | some md =>
        simp only [hm] at h1 h1'
        cases hv : slotOf s f <;> simp only [hv] at h1 h2 hsh <;> try cases h1
        · rw [(shuffle_atom hsh).1 rfl]; intro k; simp [Val.entries, lookup]
        · rename_i es
          obtain ⟨fs, hfs, hp, hb⟩ := shuffle_map hsh es rfl
          rw [hfs] at h1' ⊢
          simp only [Val.entries]
          simp only [Bool.and_eq_true, List.all_eq_true, decide_eq_true_iff] at h1 h1'
          intro k
          cases hl : lookup fs k with
          | none =>
            have : lookup es k = none := by
              rw [lookup_none] at hl ⊢
              rwa [hp.mem_iff]
            rw [this]; trivial
          | some y =>
            obtain ⟨a, ha1, ha2, ha3⟩ := hb _ (lookup_mem hl)
            have : lookup es k = some a.2 := (lookup_iff h1.1).2 (by rw [← show a.1 = k from ha2]; exact ha1)
            rw [this]
            exact helem _ _ _ _ ha3 (h1.2 _ ha1).2 (h2 md hm _ ha1)
      | none =>
        simp only [hm] at h1 h1' ⊢
        by_cases hc : f.card = .repeated
        · rw [if_pos (by simp [hc])] at h1
          rw [if_pos hc]
          cases hv : slotOf s f <;> simp only [hv] at h1 h2 hsh <;> try cases h1
          · rw [(shuffle_atom hsh).1 rfl]; exact .nil
          · rename_i xs sp
            obtain ⟨ys, hys, hf2⟩ := shuffle_list hsh xs sp rfl
            rw [hys]
            simp only [Val.elems]
            simp only [Bool.and_eq_true, List.all_eq_true] at h1
            replace h1 := h1.1
            clear hv hys hsh
            induction hf2 with
            | nil => exact .nil
            | cons a _ ih => exact .cons (helem _ _ _ _ a (h1 _ (by simp)) (h2 _ (by simp))) (ih (fun x hx => h2 x (by simp [hx])) fun x hx => h1 x (by simp [hx]))
        · rw [if_neg (by simpa using hc)] at h1
          rw [if_neg hc]
          cases hp : f.presence with
          | true =>
            simp only [hp, if_true, Bool.or_eq_true] at h1 ⊢
            have hnil : slotOf s f = .nil ↔ slotOf s' f = .nil := by rw [← isNil_iff, ← isNil_iff, shuffle_isNil hsh]
            refine ⟨hnil, fun hv => ?_⟩
            have h1 := h1.resolve_left (by cases hx : slotOf s f <;> simp_all [Val.isNil])
            have h3 : NoNaNElem (NoNaNN S n) f.kind f.msg (slotOf s f) := by
              rcases elemOK_shape h1 with hx | ⟨_, hx⟩ | ⟨_, hx⟩ | ⟨_, _, _, hx⟩ <;> rw [hx] at h2 ⊢ <;> first | exact h2 | exact absurd hx hv
            have := helem _ _ _ _ hsh h1 h3
            unfold SameElem orEmpty at this
            rwa [if_neg hv, if_neg (mt hnil.2 hv)] at this
          | false =>
            simp only [hp, Bool.false_eq_true, if_false] at h1 ⊢
            have hk : ¬ (f.kind = .message ∨ f.kind = .group) := by
              intro hk
              have := ff.singMsg hc (by simpa [FieldDesc.hasMessage] using hk)
              simp [hp] at this
            rw [shuffle_scalarOK hsh h1]
            refine sameScalar_refl ?_ hk
            intro hnum
            cases hx : slotOf s f <;> simp only [hx] at h2 h1 <;> first | (rw [NoNaNElem, if_neg hk] at h2; exact h2 hnum) | (exfalso; revert h1 hnum; cases f.kind <;> simp [numeric, scalarOK])

theorem same_shuffle {S : Schema} {R : Runtime} (hS : schemaOK S = true) (hR : RuntimeEqual R) (hE : RuntimeEqualShuffle R) {t : Nat} {v w : Val}
    (hf : (S.msg t).foreign = false) (hs : Shuffle v w) (hw : wtM S .typedNil t v = true) (hn : NoNaN S t v) : Same S R t v w :=
  fun n => sameN_shuffle hS hR hE n t v w hf hs hw (hn n)

end Vtp
