import Verif.Lemmas.RoundTrip
import Verif.Lemmas.ShuffleEncode
import Verif.Spec.Evolve
import Mathlib.Data.List.Perm.Basic
/-!
# An older reader passes on what it read: values of fields
-/

namespace Vtp
open Spec

/-- A shuffled map: the entries in another order, with shuffled values. -/
theorem shuffle_map' {v w : Val} (h : Shuffle v w) : ∀ es, v = .map es → ∃ es' fs, w = .map fs ∧ es.Perm es' ∧
    List.Forall₂ (fun a b => a.1 = b.1 ∧ Shuffle a.2 b.2) es' fs := by
  have hrefl : ∀ l : List (Key × Val), List.Forall₂ (fun a b => a.1 = b.1 ∧ Shuffle a.2 b.2) l l := fun l => List.forall₂_same.2 fun x _ => ⟨rfl, .refl _⟩
  induction h with
  | refl v => intro es h; exact ⟨es, es, h, .refl _, hrefl _⟩
  | trans _ _ ih1 ih2 =>
    intro es h
    obtain ⟨es', fs, h1, p1, s1⟩ := ih1 es h
    obtain ⟨fs', gs, h2, p2, s2⟩ := ih2 fs h1
    have : Relation.Comp (List.Forall₂ (fun a b : Key × Val => a.1 = b.1 ∧ Shuffle a.2 b.2)) List.Perm es' fs' := ⟨fs, s1, p2⟩
    rw [List.forall₂_comp_perm_eq_perm_comp_forall₂] at this
    obtain ⟨es'', p3, s3⟩ := this
    exact ⟨es'', gs, h2, p1.trans p3, forall₂_trans' (r := fun a b : Key × Val => a.1 = b.1 ∧ Shuffle a.2 b.2)
      (fun _ _ _ h h' => ⟨h.1.trans h'.1, h.2.trans h'.2⟩) s3 s2⟩
  | perm hp =>
    intro es h
    simp only [Val.map.injEq] at h
    subst h
    exact ⟨_, _, rfl, hp, hrefl _⟩
  | @entry a b k v w hs _ =>
    intro es h
    simp only [Val.map.injEq] at h
    subst h
    refine ⟨_, _, rfl, .refl _, ?_⟩
    induction a with
    | nil => exact .cons ⟨rfl, hs⟩ (hrefl _)
    | cons c a ih => exact .cons ⟨rfl, .refl _⟩ ih
  | _ => intro es h; simp at h

def isMsgVal (_ : Nat) : Val → Bool
  | .msg _ _ _ => true
  | _ => false

theorem isMsgVal_iff {t : Nat} {v : Val} (h : isMsgVal t v = true) : ∃ s u e, v = .msg s u e := by
  cases v <;> simp_all [isMsgVal]

/-- Both programs leave the same messages to the runtime, which passes them on. -/
structure Shared (S0 S : Schema) (R0 R : Runtime) : Prop where
  foreign : ∀ t, (S0.msg t).foreign = (S.msg t).foreign
  marshal : ∀ t v, (S.msg t).foreign = true → R0.marshal t v = R.marshal t v
  restored : ∀ t v, (S.msg t).foreign = true → Restored S R t v → Restored S0 R0 t v
  pass : ∀ t v b x, (S.msg t).foreign = true → Restored S R t v → R.marshal t v = some b → Shuffle (reparse R0 t v) x →
    isMsgVal t x = true ∧ Restored S R t x ∧ (∃ c, R.marshal t x = some c ∧ c.Perm b) ∧ Shuffle (reparse R t v) (reparse R t x)

section
variable {S S0 : Schema} {R R0 : Runtime} {rE rE0 : Nat → Val → Option Bytes} {rd0 rd1 bk : Nat → Val → Val} {okv : Nat → Val → Bool}
  {P P1 : Nat → Val → Prop} {B : Nat}

/-- A message `x` that is written as the bytes `b` in some order and read as `y` by the newer schema. -/
structure Passed (rE0 : Nat → Val → Option Bytes) (rd1 : Nat → Val → Val) (P1 : Nat → Val → Prop) (t : Nat) (x : Val) (b : Bytes) (y : Val) : Prop where
  msg : isMsgVal t x = true
  good : P1 t x
  bytes : ∃ c, rE0 t x = some c ∧ c.Perm b
  value : Shuffle y (rd1 t x)

/-- Sub-messages are passed on. -/
structure SubFwd (S S0 : Schema) (R R0 : Runtime) (rE rE0 : Nat → Val → Option Bytes) (rd0 rd1 bk : Nat → Val → Val) (okv : Nat → Val → Bool) (P P1 : Nat → Val → Prop)
    (B : Nat) : Prop where
  shared : Shared S0 S R0 R
  msg : ∀ t v b, (S.msg t).foreign = false → okv t v = true → P t v → rE t v = some b → b.length < B → ∀ x, Shuffle (rd0 t v) x → Passed rE0 rd1 P1 t x b (bk t v)
  nil : ∀ t b, (S.msg t).foreign = false → rE t .nil = some b → (∀ f ∈ (S.msg t).fields, f.card ≠ .required) → ∀ x, Shuffle (zeroMsg S0 t) x → Passed rE0 rd1 P1 t x b (zeroMsg S t)

variable (H : SubFwd S S0 R R0 rE rE0 rd0 rd1 bk okv P P1 B)
include H

theorem elem_fwd {k : Kind} {t : Nat} {v : Val} (hv : elemOK okv k t v = true) (hr : RestorableElem S R P k t v) (num : Nat) {b : Bytes}
    (hb : record ⟨S, R⟩ rE num k t v = some b) (hl : b.length < B) {x : Val} (hx : Shuffle (backElem S0 R0 rd0 k t v) x) :
    elemOK isMsgVal k t x = true ∧ RestorableElem S R P1 k t x ∧ (∃ c, record ⟨S0, R0⟩ rE0 num k t x = some c ∧ c.Perm b) ∧
      Shuffle (backElem S R bk k t v) (backElem S R rd1 k t x) ∧ x ≠ .nil := by
  have hg : k ≠ .group := by
    rintro rfl
    simp [RestorableElem] at hr
  by_cases hm : k = .message
  · subst hm
    simp only [record] at hb
    cases hc : Spec.sub ⟨S, R⟩ rE t v with
    | none => simp [hc] at hb
    | some b' =>
      simp [hc] at hb
      subst hb
      simp only [List.length_append, delimited] at hl
      have hof := H.shared.foreign t
      cases hf : (S.msg t).foreign with
      | true =>
        rw [hf] at hof
        have hc' : R.marshal t v = some b' := by simpa [Spec.sub, hf] using hc
        obtain ⟨p1, p2, ⟨c, p3, p4⟩, p5⟩ := H.shared.pass t v b' x hf (by simpa [RestorableElem, hf] using hr) hc' (by simpa [backElem, hof] using hx)
        obtain ⟨s, u, e, rfl⟩ := isMsgVal_iff p1
        refine ⟨by simp [elemOK, isMsgVal], by simpa [RestorableElem, hf] using p2, ⟨tag num 2 ++ delimited c, ?_, ?_⟩, by simpa [backElem, hf] using p5, by simp⟩
        · simp [record, Spec.sub, hof, H.shared.marshal t _ hf, p3]
        · unfold delimited
          rw [p4.length_eq]
          exact (p4.append_left _).append_left _
      | false =>
      rw [hf] at hof
      have hc' : rE t v = some b' := by simpa [Spec.sub, hf] using hc
      have key : ∀ y, Passed rE0 rd1 P1 t x b' y → backElem S R bk .message t v = y →
          elemOK isMsgVal .message t x = true ∧ RestorableElem S R P1 .message t x ∧
          (∃ c, record ⟨S0, R0⟩ rE0 num .message t x = some c ∧ c.Perm (tag num 2 ++ delimited b')) ∧
          Shuffle (backElem S R bk .message t v) (backElem S R rd1 .message t x) ∧ x ≠ .nil := by
        intro y hy hyb
        obtain ⟨s, u, e, rfl⟩ := isMsgVal_iff hy.msg
        obtain ⟨c, hc1, hc2⟩ := hy.bytes
        refine ⟨by simp [elemOK, isMsgVal], ?_, ⟨tag num 2 ++ delimited c, ?_, ?_⟩, ?_, by simp⟩
        · unfold RestorableElem
          rw [if_neg (by simp), if_pos rfl, if_neg (by simp [hf]), if_neg (by simp)]
          exact hy.good
        · simp [record, Spec.sub, hof, hc1]
        · unfold delimited
          rw [hc2.length_eq]
          exact (hc2.append_left _).append_left _
        · rw [hyb]
          unfold backElem
          rw [if_pos rfl, if_neg (by simp [hf]), if_neg (by simp)]
          exact hy.value
      by_cases hn : v = .nil
      · subst hn
        refine key (zeroMsg S t) (H.nil t b' hf hc' ?_ x ?_) ?_
        · simpa [RestorableElem, hf] using hr
        · simpa [backElem, hof] using hx
        · simp [backElem, hf]
      · refine key (bk t v) (H.msg t v b' hf ?_ ?_ hc' (by omega) x ?_) ?_
        · simp only [elemOK, Bool.or_eq_true] at hv
          rcases hv with h | h
          · cases v <;> simp_all [Val.isNil]
          · exact h
        · simpa [RestorableElem, hf, hn] using hr
        · simpa [backElem, hof, hn] using hx
        · simp [backElem, hf, hn]
  · have hv' : scalarOK k v = true := by
      unfold elemOK at hv
      cases k <;> simp_all
    have hbe : ∀ (S : Schema) (R : Runtime) rd w, backElem S R rd k t w = backScalar k w := by
      intro S R rd w
      unfold backElem backScalar; rw [if_neg hm]
    have hsc : scalarOK k (backScalar k v) = true := by
      unfold backScalar
      split
      · rename_i h; subst h; rfl
      · exact hv'
    rw [hbe] at hx
    have hx' := shuffle_scalarOK hx hsc
    subst hx'
    have hrec : ∀ (E : Env) (r : Nat → Val → Option Bytes) w, record E r num k t w = some (tag num (wireType k) ++ scalar k w) := by
      intro E r w
      cases k <;> simp_all [record]
    have hs : scalar k (backScalar k v) = scalar k v := by
      unfold backScalar
      split
      · rename_i h; subst h; rfl
      · rfl
    rw [hrec] at hb
    refine ⟨?_, ?_, ⟨_, hrec _ _ _, ?_⟩, ?_, ?_⟩
    · unfold elemOK
      cases k <;> simp_all
    · unfold RestorableElem
      rw [if_neg hg, if_neg hm]; trivial
    · cases hb; rw [hs]
    · rw [hbe, hbe]
      have : backScalar k (backScalar k v) = backScalar k v := by
        unfold backScalar
        split <;> simp [Val.bytes]
      rw [this]; exact .refl _
    · intro hn
      unfold backScalar at hn
      split at hn
      · cases hn
      · subst hn
        cases k <;> simp_all [scalarOK]

/-- Elements of a list, one after the other. -/
theorem list_fwd {num : Nat} {k : Kind} {t : Nat} : ∀ {xs ys : List Val} {b : Bytes}, (∀ x ∈ xs, elemOK okv k t x = true) → (∀ x ∈ xs, RestorableElem S R P k t x) →
    concat (xs.map (record ⟨S, R⟩ rE num k t)) = some b → b.length < B → List.Forall₂ Shuffle (xs.map (backElem S0 R0 rd0 k t)) ys →
    (∀ y ∈ ys, elemOK isMsgVal k t y = true) ∧ (∀ y ∈ ys, RestorableElem S R P1 k t y) ∧ (∃ c, concat (ys.map (record ⟨S0, R0⟩ rE0 num k t)) = some c ∧ c.Perm b) ∧
      List.Forall₂ Shuffle (xs.map (backElem S R bk k t)) (ys.map (backElem S R rd1 k t)) := by
  intro xs
  induction xs with
  | nil =>
    intro ys b _ _ hb _ hy
    rw [List.map_nil] at hy
    cases hy
    simp only [List.map_nil] at hb ⊢
    exact ⟨by simp, by simp, ⟨b, hb, .refl _⟩, .nil⟩
  | cons x xs ih =>
    intro ys b hv hr hb hl hy
    rw [List.map_cons] at hb hy
    obtain ⟨a, c, h1, h2, rfl⟩ := concat_cons_some hb
    simp only [List.length_append] at hl
    cases hy with
    | cons hy1 hy2 =>
      obtain ⟨e1, e2, ⟨a', e3, e4⟩, e5, _⟩ := elem_fwd H (hv x (by simp)) (hr x (by simp)) num h1 (by omega) hy1
      obtain ⟨i1, i2, ⟨c', i3, i4⟩, i5⟩ := ih (fun y hy => hv y (by simp [hy])) (fun y hy => hr y (by simp [hy])) h2 (by omega) hy2
      refine ⟨?_, ?_, ⟨a' ++ c', by simp [concat, e3, i3], e4.append i4⟩, .cons e5 i5⟩
      · intro y hy
        rcases List.mem_cons.1 hy with rfl | hy
        · exact e1
        · exact i1 y hy
      · intro y hy
        rcases List.mem_cons.1 hy with rfl | hy
        · exact e2
        · exact i2 y hy

/-- Entries of a map, one after the other. -/
theorem entries_fwd {num : Nat} {md : MapDesc} (hk : mapKeyKind md.key = true) : ∀ {es fs : List (Key × Val)} {b : Bytes},
    (∀ e ∈ es, scalarOK md.key e.1.toVal = true ∧ elemOK okv md.val md.valMsg e.2 = true) → (∀ e ∈ es, RestorableElem S R P md.val md.valMsg e.2) →
    concat (es.map (Spec.entry ⟨S, R⟩ rE num md)) = some b → b.length < B →
    List.Forall₂ (fun a b => a.1 = b.1 ∧ Shuffle a.2 b.2) (es.map fun e => (e.1, backElem S0 R0 rd0 md.val md.valMsg e.2)) fs →
    (∀ e ∈ fs, scalarOK md.key e.1.toVal = true ∧ elemOK isMsgVal md.val md.valMsg e.2 = true) ∧ (∀ e ∈ fs, RestorableElem S R P1 md.val md.valMsg e.2) ∧
      (∃ c, concat (fs.map (Spec.entry ⟨S0, R0⟩ rE0 num md)) = some c ∧ c.Perm b) ∧ fs.map (·.1) = es.map (·.1) ∧
      List.Forall₂ (fun a b => a.1 = b.1 ∧ Shuffle a.2 b.2) (es.map fun e => (e.1, backElem S R bk md.val md.valMsg e.2)) (fs.map fun e => (e.1, backElem S R rd1 md.val md.valMsg e.2)) := by
  intro es
  induction es with
  | nil =>
    intro ys b _ _ hb _ hy
    rw [List.map_nil] at hy
    cases hy
    simp only [List.map_nil] at hb ⊢
    exact ⟨by simp, by simp, ⟨b, hb, .refl _⟩, trivial, .nil⟩
  | cons e es ih =>
    intro ys b hv hr hb hl hy
    rw [List.map_cons] at hb hy
    obtain ⟨a, c, h1, h2, rfl⟩ := concat_cons_some hb
    simp only [List.length_append] at hl
    cases hy with
    | @cons _ e' _ fs hy1 hy2 =>
      obtain ⟨ke, ve⟩ := e
      obtain ⟨ke', ve'⟩ := e'
      obtain ⟨hke, hy1⟩ := hy1
      simp only at hke hy1
      subst hke
      have hv1 := hv (ke, ve) (by simp)
      have hkm : md.key ≠ .message ∧ md.key ≠ .group := by
        refine ⟨?_, ?_⟩ <;> intro h <;> simp [h, mapKeyKind] at hk
      have hkr : ∀ (E : Env) r, record E r 1 md.key 0 ke.toVal = some (tag 1 (wireType md.key) ++ scalar md.key ke.toVal) := by
        intro E r
        cases hkk : md.key <;> simp_all [record]
      unfold Spec.entry at h1
      rw [hkr] at h1
      cases hvr : record ⟨S, R⟩ rE 2 md.val md.valMsg ve with
      | none => simp [hvr] at h1
      | some vb =>
        simp only [hvr, Option.bind_eq_bind, Option.bind_some, Option.some.injEq] at h1
        subst h1
        simp only [List.length_append, delimited] at hl
        obtain ⟨e1, e2, ⟨a', e3, e4⟩, e5, _⟩ := elem_fwd H hv1.2 (hr (ke, ve) (by simp)) 2 hvr (by omega) hy1
        obtain ⟨i1, i2, ⟨c', i3, i4⟩, i5, i6⟩ := ih (fun y hy => hv y (by simp [hy])) (fun y hy => hr y (by simp [hy])) h2 (by omega) hy2
        refine ⟨?_, ?_, ⟨(tag num 2 ++ delimited ((tag 1 (wireType md.key) ++ scalar md.key ke.toVal) ++ a')) ++ c', ?_, ?_⟩, ?_, .cons ⟨rfl, e5⟩ i6⟩
        · intro y hy
          rcases List.mem_cons.1 hy with rfl | hy
          · exact ⟨hv1.1, e1⟩
          · exact i1 y hy
        · intro y hy
          rcases List.mem_cons.1 hy with rfl | hy
          · exact e2
          · exact i2 y hy
        · simp [concat, Spec.entry, hkr, e3, i3]
        · exact ((delimited_perm (e4.append_left _)).append_left _).append i4
        · simp [i5]

omit H in
theorem restorable_field {E : Env} {f : FieldDesc} {x : Val} (ho : elemOK isMsgVal f.kind f.msg x = true) (hr : RestorableElem E.S E.R P1 f.kind f.msg x) :
    RestorableField E P1 f x := by
  have : x = .nil ∨ (∃ n, x = .num n) ∨ (∃ n, x = .str n) ∨ ∃ s u e, x = .msg s u e := by
    unfold elemOK at ho
    cases hk : f.kind <;> simp only [hk] at ho <;>
      first
      | (simp only [Bool.or_eq_true] at ho
         rcases ho with ho | ho
         · cases x <;> simp_all [Val.isNil]
         · exact .inr (.inr (.inr (isMsgVal_iff ho))))
      | (cases x <;> simp_all [scalarOK])
  rcases this with rfl | ⟨n, rfl⟩ | ⟨n, rfl⟩ | ⟨s, u, e, rfl⟩
  · trivial
  all_goals exact hr

/-- A field that is not in a oneof. -/
theorem field_fwd {d : MsgDesc} {f : FieldDesc} (ff : FieldFacts d f) (ho : f.oneof = false) (hok : ∀ t w, okv t w = true → ∃ s u e, w = .msg s u e)
    {v : Val} (hv : fieldOK okv f v = true) (hr : RestorableField ⟨S, R⟩ P f v) {b : Bytes} (hb : field ⟨S, R⟩ rE f v = some b) (hl : b.length < B)
    {x : Val} (hx : Shuffle (backField S0 R0 rd0 f v) x) :
    fieldOK isMsgVal f x = true ∧ RestorableField ⟨S, R⟩ P1 f x ∧ (∃ c, field ⟨S0, R0⟩ rE0 f x = some c ∧ c.Perm b) ∧
      Shuffle (backField S R bk f v) (backField S R rd1 f x) := by
  unfold fieldOK at hv ⊢
  unfold field at hb ⊢
  unfold backField at hx ⊢
  cases hm : f.map with
  | some md =>
    simp only [hm] at hv hb hx ⊢
    by_cases he : v.entries = []
    · rw [if_pos he] at hx
      have hxn := (shuffle_atom hx).1 rfl
      subst hxn
      rw [he] at hb
      rw [if_pos he]
      exact ⟨rfl, trivial, ⟨b, hb, .refl _⟩, .refl _⟩
    rw [if_neg he] at hx ⊢
    cases v <;> simp only [Bool.false_eq_true] at hv
    · exact absurd rfl he
    rename_i es
    simp only [Val.entries] at hx hb he
    rw [show (Val.map es).entries = es from rfl]
    simp only [Bool.and_eq_true, decide_eq_true_eq, List.all_eq_true] at hv
    obtain ⟨es', fs, rfl, hp, hs⟩ := shuffle_map' hx _ rfl
    obtain ⟨es2, hp2, rfl⟩ := perm_of_map _ hp
    have hmem : ∀ e, e ∈ es2 ↔ e ∈ es := fun e => by rw [← hp2.mem_iff, List.mem_reverse]
    have hb2 : EPerm (concat (es.reverse.map (Spec.entry ⟨S, R⟩ rE f.num md))) (concat (es2.map (Spec.entry ⟨S, R⟩ rE f.num md))) := .concat_perm (hp2.map _)
    rw [hb] at hb2
    generalize hb3 : concat (es2.map (Spec.entry ⟨S, R⟩ rE f.num md)) = ob2 at hb2
    cases hb2 with
    | @both _ b2 hpb =>
    obtain ⟨i1, i2, ⟨c, i3, i4⟩, i5, i6⟩ := entries_fwd H (R := R) (R0 := R0) (ff.map md hm).2.2.1 (fun e he => hv.2 e ((hmem e).1 he))
      (fun e he => hr md hm e ((hmem e).1 he)) hb3 (by rw [← hpb.length_eq]; exact hl) hs
    have hfs : fs ≠ [] := by
      rintro rfl
      simp only [List.map_nil] at i5
      have : es2 = [] := by simpa using i5.symm
      subst this
      have := hp2.length_eq
      simp at this
      exact he this
    have hb4 : EPerm (concat (fs.map (Spec.entry ⟨S0, R0⟩ rE0 f.num md))) (concat (fs.reverse.map (Spec.entry ⟨S0, R0⟩ rE0 f.num md))) :=
      .concat_perm (List.Perm.map _ (List.reverse_perm fs).symm)
    rw [i3] at hb4
    generalize hb5 : concat (fs.reverse.map (Spec.entry ⟨S0, R0⟩ rE0 f.num md)) = ob4 at hb4
    cases hb4 with
    | @both _ c' hpc =>
    refine ⟨?_, ?_, ⟨c', hb5, hpc.symm.trans (i4.trans hpb.symm)⟩, ?_⟩
    · simp only [Bool.and_eq_true, decide_eq_true_eq, List.all_eq_true]
      refine ⟨?_, fun e he => by simpa using i1 e he⟩
      rw [i5, ← (hp2.map _).nodup_iff, List.map_reverse]
      exact List.nodup_reverse.2 hv.1
    · intro md' hm' e he
      rw [hm] at hm'
      cases hm'
      exact i2 e he
    · rw [if_neg (show ¬ (Val.map fs).entries = [] from hfs)]
      refine (Shuffle.perm (hp2.map _)).trans ((shuffle_mapOf i6).trans (.perm ?_))
      exact (List.reverse_perm fs).symm.map _
  | none =>
    simp only [hm] at hv hb hx ⊢
    by_cases hc : f.card = .repeated
    · simp only [hc, beq_self_eq_true, if_true] at hv hb hx ⊢
      by_cases he : v.elems = []
      · rw [if_pos he] at hx ⊢
        have hxn := (shuffle_atom hx).1 rfl
        subst hxn
        rw [he] at hb
        refine ⟨rfl, trivial, ⟨b, ?_, .refl _⟩, .refl _⟩
        simpa [Val.elems] using hb
      rw [if_neg he] at hx ⊢
      cases v <;> simp only [Bool.false_eq_true] at hv
      · exact absurd rfl he
      rename_i xs sp
      simp only [Val.elems] at hx hb he
      rw [show (Val.list xs sp).elems = xs from rfl]
      simp only [Bool.and_eq_true, List.all_eq_true] at hv
      obtain ⟨ys, rfl, hs⟩ := shuffle_list hx _ _ rfl
      have hys : ys ≠ [] := by
        rintro rfl
        cases xs with
        | nil => exact he rfl
        | cons => cases hs
      cases hp : f.packed with
      | false =>
        rw [hp] at hb
        simp only [Bool.false_eq_true, if_false] at hb
        obtain ⟨i1, i2, i3, i4⟩ := list_fwd H (R := R) (R0 := R0) hv.1 hr hb hl hs
        refine ⟨?_, i2, by simpa [hp, Val.elems] using i3, ?_⟩
        · simp only [List.all_nil, List.isEmpty_nil, ite_self, Bool.and_true, List.all_eq_true]
          exact i1
        · rw [if_neg (show ¬ (Val.list ys []).elems = [] from hys)]
          exact shuffle_listOf i4 []
      | true =>
        have hnum := (ff.packed hp).2.2
        have hnm : f.kind ≠ .message ∧ f.kind ≠ .bytes ∧ f.kind ≠ .group := by
          refine ⟨?_, ?_, ?_⟩ <;> intro h <;> simp [h, numeric] at hnum
        have hbe : ∀ (S : Schema) (R : Runtime) rd, backElem S R rd f.kind f.msg = id := by
          intro S R rd; funext w
          unfold backElem; rw [if_neg hnm.1, if_neg hnm.2.1]; rfl
        have hsc : ∀ (r : Nat → Val → Bool) w, elemOK r f.kind f.msg w = scalarOK f.kind w := by
          intro r w
          unfold elemOK
          cases hk : f.kind <;> simp_all
        rw [hbe, List.map_id] at hs
        have hxy : ys = xs := by
          have hv1 := hv.1
          clear hx hb hv hr he hys
          induction hs with
          | nil => rfl
          | cons h1 _ ih =>
            have := hv1 _ (List.mem_cons_self ..)
            rw [hsc] at this
            rw [shuffle_scalarOK h1 this, ih fun y hy => hv1 y (by simp [hy])]
        subst hxy
        rw [hp] at hb
        simp only [if_true] at hb ⊢
        refine ⟨?_, ?_, ⟨b, hb, .refl _⟩, ?_⟩
        · simp only [List.all_nil, List.isEmpty_nil, ite_self, Bool.and_true, List.all_eq_true]
          intro y hy
          have := hv.1 y hy
          rw [hsc] at this ⊢
          exact this
        · intro y hy
          unfold RestorableElem
          rw [if_neg hnm.2.2, if_neg hnm.1]; trivial
        · rw [hbe, hbe]
          rw [if_neg (show ¬ (Val.list ys []).elems = [] from hys)]
          exact .refl _
    · have hc' : (f.card == .repeated) = false := by simpa using hc
      simp only [hc', hc, if_false, Bool.false_eq_true] at hv hb hx ⊢
      cases hp : f.presence with
      | true =>
        simp only [hp, if_true, Bool.true_or] at hv hb hx ⊢
        by_cases hn : v = .nil
        · rw [if_pos hn] at hx hb ⊢
          have hxn := (shuffle_atom hx).1 rfl
          subst hxn
          rw [if_pos rfl]
          exact ⟨rfl, trivial, ⟨b, hb, .refl _⟩, .refl _⟩
        · rw [if_neg hn] at hx hb ⊢
          have hv' : elemOK okv f.kind f.msg v = true := by
            rw [Bool.or_eq_true] at hv
            rcases hv with h | h
            · cases v <;> simp_all [Val.isNil]
            · exact h
          obtain ⟨e1, e2, e3, e4, e5⟩ := elem_fwd H (R := R) (R0 := R0) hv' (restorable_single hr hn hv' hok) f.num hb hl hx
          rw [if_neg e5, if_neg e5]
          exact ⟨by simp [e1], restorable_field e1 e2, e3, e4⟩
      | false =>
        have hnm : f.hasMessage = false := by
          by_contra h
          simp at h
          have := ff.singMsg hc h
          rw [hp] at this; cases this
        simp only [hp, hnm, Bool.false_eq_true, if_false, Bool.false_or] at hv hb hx ⊢
        have hnm' : f.kind ≠ .message ∧ f.kind ≠ .group := by simpa [FieldDesc.hasMessage] using hnm
        have hok' : ∀ (r : Nat → Val → Bool) w, elemOK r f.kind f.msg w = scalarOK f.kind w := by
          intro r w
          unfold elemOK
          cases hk : f.kind <;> simp_all
        have hre : ∀ (P : Nat → Val → Prop) w, RestorableElem S R P f.kind f.msg w := by
          intro P w
          unfold RestorableElem
          rw [if_neg hnm'.2, if_neg hnm'.1]; trivial
        by_cases hzv : isZeroVal f.kind v = true
        · rw [if_pos hzv] at hx hb ⊢
          have hz : zeroField f = zeroScalar f.kind := by simp [zeroField, ho, hp, hc]
          have hzs : scalarOK f.kind (zeroScalar f.kind) = true ∧ isZeroVal f.kind (zeroScalar f.kind) = true := by
            cases hk : f.kind <;> simp_all [zeroScalar] <;> decide
          rw [hz] at hx ⊢
          have hxn := shuffle_scalarOK hx hzs.1
          subst hxn
          rw [if_pos hzs.2, if_pos hzs.2]
          exact ⟨hzs.1, restorable_field (by rw [hok']; exact hzs.1) (hre _ _), ⟨b, hb, .refl _⟩, .refl _⟩
        · rw [if_neg hzv] at hx hb ⊢
          obtain ⟨e1, e2, e3, e4, e5⟩ := elem_fwd H (R := R) (R0 := R0) (k := f.kind) (t := f.msg) (v := v) (by rw [hok']; exact hv) (hre _ _) f.num hb hl hx
          have hzx : ¬ isZeroVal f.kind x = true := by
            have hbs : scalarOK f.kind (backElem S0 R0 rd0 f.kind f.msg v) = true ∧ isZeroVal f.kind (backElem S0 R0 rd0 f.kind f.msg v) = isZeroVal f.kind v := by
              unfold backElem
              rw [if_neg hnm'.1]
              split
              · rename_i h; rw [h]; exact ⟨rfl, rfl⟩
              · exact ⟨hv, rfl⟩
            rw [shuffle_scalarOK hx hbs.1, hbs.2]
            exact hzv
          rw [if_neg hzx, if_neg hzx]
          exact ⟨by rw [← hok' isMsgVal]; exact e1, restorable_field e1 e2, e3, e4⟩

end

end Vtp
