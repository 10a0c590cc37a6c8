import Verif.Lemmas.ConcReset
import Verif.Lemmas.HeapClone
/-! # What `CloneVT` does to ownership, with others around -/

namespace Vtp.Conc
open Spec

section
variable {C : Ctx} {B0 : Lent} {h0 : Heap}

theorem tri_readZ {β : Type} {a : Addr} {c : Cell} {I : List Item} {f : Cell → Prog β} {J : β → List Item} {K : List Item} (hz : C.Z a c)
    (h : Tri C I (f c) J K) : Tri C I (hread a >>= f) J K :=
  fun R σ F ho hinv _ h1 h2 => ⟨c, (h2.fixed a c hz).1, .inr hz, (h R σ F ho hinv).stable h1⟩

theorem tri_readBytes {ty : Ty} (ht : ty = .bytes ∨ ty = .mem) {v : HV} {I K : List Item} (hb : ∀ a, ¬ B0.byt a) (hv : Orig C B0 h0 [(ty, v)]) (hK : Ent C I K) : Tri C I (hreadBytes v) (fun _ => I) K := by
  obtain ⟨F, ho, hz⟩ := hv
  rw [hreadBytes.eq_def]
  rcases ht with rfl | rfl
  · cases ho with
    | nil => exact Tri.pure (Ent.refl _)
    | lent ha => exact absurd ha (hb _)
    | bytes hc _ => exact tri_readZ (hz _ (Multiset.mem_cons_self _ _) _ hc) (Tri.pure (Ent.refl _))
  · cases ho with
    | nil => exact Tri.pure (Ent.refl _)
    | mem hc _ => exact tri_readZ (hz _ (Multiset.mem_cons_self _ _) _ hc) (Tri.pure (Ent.refl _))

/-- What cloning is judged against; the original does not refer to buffers. It gives nothing to pools. -/
structure CloOK (C : Ctx) (B0 : Lent) (E : HKEnv) : Prop extends Vtp.CloOK C B0 E where
  byt : ∀ a, ¬ B0.byt a
  takes : ¬ C.lock

/-- Cloning sub-messages gives messages of their own. -/
def CloRec (C : Ctx) (B0 : Lent) (h0 : Heap) (rec : HSubClone) : Prop :=
  ∀ p t v, (C.S.msg t).foreign = false → Orig C B0 h0 [(.msg t, v)] → Tri C [] (rec p t v) (fun w => [(.msg t, w)]) []

variable {E : HKEnv} (hE : CloOK C B0 E)
include hE

omit hE in
theorem tri_runtimeClone {t : Nat} {v : HV} (hf : (C.S.msg t).foreign = true) (hv : Orig C B0 h0 [(.msg t, v)]) :
    Tri C [] (hruntimeClone E t v) (fun w => [(.msg t, w)]) [] := by
  obtain ⟨F, ho, hz⟩ := hv
  rw [hruntimeClone.eq_def]
  cases ho with
  | nil => exact Tri.pure (ent_nil rfl)
  | foreign _ hc hI =>
    refine tri_readZ (hz _ (Multiset.mem_cons_self _ _) _ hc) ?_
    have ha : ∀ x, Tri C [] (halloc (.foreign x)) (fun a => [(.msg t, .ptr a)]) [] := fun x => Tri.alloc fun h a F R hc ho => .foreign hf hc ho
    exact Tri.bind (ha _) fun b => Tri.pure (Ent.refl _)
  | msg hf' => rw [hf] at hf'; cases hf'

variable {rec : HSubClone} (hrec : CloRec C B0 h0 rec)
include hrec

theorem tri_cloneSingular {k : Kind} {t : Nat} {p : List Nat} {v : HV} (hv : Orig C B0 h0 [(elemTy k t, v)]) :
    Tri C [] (hcloneSingular E rec k t p v) (fun w => [(elemTy k t, w)]) [] := by
  rw [hcloneSingular, hE.schema]
  by_cases hk : k = .message ∨ k = .group
  · rw [if_pos hk]
    have hel : elemTy k t = .msg t := by rcases hk with rfl | rfl <;> rfl
    rw [hel] at hv ⊢
    by_cases hf : (C.S.msg t).foreign = true
    · rw [if_pos hf]
      exact tri_runtimeClone hf hv
    · rw [if_neg hf]
      exact hrec p t v (by simpa using hf) hv
  · rw [if_neg hk]
    by_cases hb : k = .bytes
    · rw [if_pos hb]
      subst hb
      exact Tri.bind (tri_readBytes (.inl rfl) hE.byt hv (Ent.refl _)) fun b => tri_copyBytes (.inl rfl)
    · rw [if_neg hb]
      have hel : elemTy k t = .flat := by
        cases k <;> simp_all [elemTy]
      rw [hel] at hv ⊢
      exact Tri.pure (ent_origFlat hE.toCloOK hv)

omit hE hrec in
theorem tri_setIndex {d w : HV} {i : Nat} {e : Ty} : Tri C [(.list e, d), (e, w)] (hsetIndex d i w) (fun _ => [(.list e, d)]) [] := by
  cases d with
  | slice a len =>
    refine tri_openList fun xs hl => ?_
    rw [hsetIndex]
    refine tri_read ?_
    dsimp only
    split_ifs
    · refine (tri_write (c := .arr xs)).sure (R := (xs.set i w).map fun x => (e, x)) (Ent.cons (ent_setList e w xs i)) fun _ => ?_
      have := ent_sealList (C := C) (e := e) (a := a) (len := len) (xs := xs.set i w) (by simpa using hl) []
      simpa using this
    · exact Tri.fail (r := .panic .indexOutOfRange) (fun _ h => nomatch h) (Ent.empty _)
  | nil => exact Tri.fail (r := .panic .typeConfusion) (fun _ h => nomatch h) (Ent.empty _)
  | bytes => exact tri_absurd fun h R F ho => nomatch ho
  | num n => exact tri_absurd fun h R F ho => nomatch ho
  | str n => exact tri_absurd fun h R F ho => nomatch ho
  | view => exact tri_absurd fun h R F ho => nomatch ho
  | ptr => exact tri_absurd fun h R F ho => nomatch ho
  | wrapNil => exact tri_absurd fun h R F ho => nomatch ho

omit hE hrec in
theorem tri_indexZ {β : Type} {a len i : Nat} {xs : List HV} {I : List Item} {f : HV → Prog β} {J : β → List Item} {K : List Item} (hz : C.Z a (.arr xs)) (hK : Ent C I K)
    (h : ∀ x ∈ xs.take len, Tri C I (f x) J K) : Tri C I (hindex (.slice a len) i >>= f) J K := by
  rw [hindex, Prog.bind_assoc]
  refine tri_readZ hz ?_
  dsimp only
  cases hx : (xs.take len)[i]? with
  | none => exact Tri.fail (r := .panic .indexOutOfRange) (fun _ h => nomatch h) hK
  | some x => exact h x (List.mem_of_getElem? hx)

theorem tri_cloneElems {k : Kind} {t : Nat} {p : List Nat} {a len : Nat} {xs : List HV} {d : HV} (hz : C.Z a (.arr xs))
    (hv : ∀ x ∈ xs.take len, Orig C B0 h0 [(elemTy k t, x)]) : ∀ (n i : Nat),
    Tri C [(.list (elemTy k t), d)] (hcloneElems E rec k t p (.slice a len) d i n) (fun _ => [(.list (elemTy k t), d)]) []
  | 0, _ => Tri.pure (Ent.refl _)
  | n + 1, i => by
    rw [hcloneElems]
    refine tri_indexZ hz (Ent.empty _) fun x hx => ?_
    refine Tri.bind ((tri_cloneSingular hE hrec (hv x hx)).use (R := [(.list (elemTy k t), d)]) (Ent.refl _) (fun _ => Ent.refl _) (Ent.empty _)) fun w => ?_
    refine Tri.bind (tri_setIndex.pre (Ent.perm (List.Perm.swap _ _ _))) fun _ => ?_
    exact tri_cloneElems hz hv n (i + 1)

theorem tri_cloneEntries {k : Kind} {t : Nat} {p : List Nat} {d : HV} : ∀ (vs : List (Key × HV)) (i : Nat), Orig C B0 h0 (vs.map fun v => (elemTy k t, v.2)) →
    Tri C [(.map (elemTy k t), d)] (hcloneEntries E rec k t p d i vs) (fun _ => [(.map (elemTy k t), d)]) []
  | [], _, _ => Tri.pure (Ent.refl _)
  | (key, v) :: vs, i, hv => by
    rw [hcloneEntries]
    refine Tri.bind ((tri_cloneSingular hE hrec (Orig.left (I := [_]) hv)).use (R := [(.map (elemTy k t), d)]) (Ent.refl _) (fun _ => Ent.refl _) (Ent.empty _)) fun w => ?_
    refine Tri.bind (tri_mapPut.conseq (Ent.perm (List.Perm.swap _ _ _)) (fun _ => Ent.refl _) (Ent.empty _)) fun _ => ?_
    exact tri_cloneEntries vs (i + 1) (Orig.right (I := [_]) hv)

theorem tri_cloneMap {md : MapDesc} {p : List Nat} {v : HV} (hv : Orig C B0 h0 [(.map (elemTy md.val md.valMsg), v)]) :
    Tri C [] (hcloneMap E rec md p v) (fun w => [(.map (elemTy md.val md.valMsg), w)]) [] := by
  obtain ⟨F, ho, hz⟩ := hv
  rw [hcloneMap.eq_def]
  cases ho with
  | nil => exact Tri.fail (r := .panic .typeConfusion) (fun _ h => nomatch h) (Ent.refl _)
  | map hc hI =>
    refine tri_readZ (hz _ (Multiset.mem_cons_self _ _) _ hc) ?_
    have ha : Tri C [] (halloc (.map [])) (fun a => [(.map (elemTy md.val md.valMsg), .ptr a)]) [] :=
      Tri.alloc fun h a F R hc ho => .map hc ho
    refine Tri.bind ha fun b => ?_
    refine Tri.bind (tri_cloneEntries hE hrec _ 0 ⟨_, by simpa using hI, fun a ha => hz a (Multiset.mem_cons_of_mem ha)⟩) fun _ => ?_
    exact Tri.pure (Ent.refl _)

theorem tri_cloneList {f : FieldDesc} {p : List Nat} {v : HV} (hv : Orig C B0 h0 [(.list (elemTy f.kind f.msg), v)]) :
    Tri C [] (hcloneList E rec f p v) (fun w => [(.list (elemTy f.kind f.msg), w)]) [] := by
  obtain ⟨F, ho, hz⟩ := hv
  rw [hcloneList.eq_def]
  cases ho with
  | nil => exact Tri.fail (r := .panic .typeConfusion) (fun _ h => nomatch h) (Ent.refl _)
  | list hc hl hI =>
    rename_i a len xs F0
    refine tri_readZ (hz _ (Multiset.mem_cons_self _ _) _ hc) ?_
    have hxs : Orig C B0 h0 ((xs.take len).map fun x => (elemTy f.kind f.msg, x)) := by
      have h1 : Orig C B0 h0 (xs.map fun x => (elemTy f.kind f.msg, x)) := ⟨_, by simpa using hI, fun a ha => hz a (Multiset.mem_cons_of_mem ha)⟩
      have h2 : (xs.map fun x => ((elemTy f.kind f.msg, x) : Item)) = (xs.take len).map (fun x => (elemTy f.kind f.msg, x)) ++ (xs.drop len).map (fun x => (elemTy f.kind f.msg, x)) := by
        rw [← List.map_append, List.take_append_drop]
      rw [h2] at h1
      exact h1.left
    have ha : ∀ ys : List HV, Tri C (ys.map fun w => (elemTy f.kind f.msg, w)) (halloc (.arr ys)) (fun a => [(.list (elemTy f.kind f.msg), .slice a ys.length)]) [] :=
      fun ys => Tri.alloc fun h a F R hc ho => .list hc le_rfl ho
    dsimp only
    by_cases hs : isScalarKind f.kind = true
    · rw [if_pos hs]
      have hel : elemTy f.kind f.msg = .flat := by
        revert hs
        cases f.kind <;> simp [isScalarKind, elemTy]
      refine Tri.bind ((ha (xs.take len)).pre ?_) fun b => Tri.pure (Ent.refl _)
      rw [hel] at hxs ⊢
      have := ent_origFlats (I := []) hE.toCloOK hxs
      rwa [List.append_nil] at this
    · rw [if_neg hs]
      refine Tri.bind (J := fun d => [(.list (elemTy f.kind f.msg), d)]) ?_ fun d => ?_
      · rw [hmakeList]
        refine Tri.bind ((ha _).pre (by have := ent_zeros (C := C) f.kind f.msg [] (xs.take len).length; rwa [List.append_nil] at this)) fun b => Tri.pure ?_
        rw [List.length_replicate]
        exact Ent.refl _
      · refine Tri.bind (tri_cloneElems hE hrec (hz _ (Multiset.mem_cons_self _ _) _ hc) (Orig.each hxs) _ _) fun _ => ?_
        exact Tri.pure (Ent.refl _)

omit hrec in
theorem tri_cloneBox {v : HV} (hv : Orig C B0 h0 [(.box, v)]) : Tri C [] (hcloneBox v) (fun w => [(.box, w)]) [] := by
  obtain ⟨F, ho, hz⟩ := hv
  rw [hcloneBox.eq_def]
  cases ho with
  | nil => exact Tri.fail (r := .panic .typeConfusion) (fun _ h => nomatch h) (Ent.refl _)
  | box hc hI =>
    refine tri_readZ (hz _ (Multiset.mem_cons_self _ _) _ hc) ?_
    exact Tri.bind (tri_allocBox.pre (ent_origFlat hE.toCloOK ⟨_, hI, fun a ha => hz a (Multiset.mem_cons_of_mem ha)⟩)) fun b => Tri.pure (Ent.refl _)

variable {d : MsgDesc} {f : FieldDesc}

theorem tri_cloneField {p : List Nat} {v : HV} (hd : MsgFacts d) (hf : f ∈ d.fields) (ho : f.oneof = false) (hr : isReference d.proto3 f = true)
    (hv : Orig C B0 h0 [(fieldTy d f, v)]) :
    Tri C [] (hcloneField E rec f p v) (fun o => o.toList.map fun w => (fieldTy d f, w)) [] := by
  have ff := hd.fields f hf
  rw [hcloneField]
  by_cases hn : v.isNil = true
  · rw [if_pos hn]
    exact Tri.pure (Ent.refl _)
  rw [if_neg hn]
  by_cases hc : (f.card == .repeated) = true
  · rw [if_pos hc]
    have hc' : f.card = .repeated := by simpa using hc
    refine Tri.bind (J := fun w => [(fieldTy d f, w)]) ?_ fun w => Tri.pure (Ent.refl _)
    rw [hcloneContainer]
    cases hm : f.map with
    | some md =>
      have hty : fieldTy d f = .map (elemTy md.val md.valMsg) := by simp [fieldTy, ho, hc', hm]
      rw [hty] at hv ⊢
      exact tri_cloneMap hE hrec hv
    | none =>
      have hty : fieldTy d f = .list (elemTy f.kind f.msg) := by simp [fieldTy, ho, hc', hm]
      rw [hty] at hv ⊢
      exact tri_cloneList hE hrec hv
  rw [if_neg hc]
  have hc' : f.card ≠ .repeated := by simpa using hc
  by_cases hs : isScalarKind f.kind = true
  · rw [if_pos hs]
    have hsc : fieldTy.isScalar f.kind = true := by
      revert hs
      cases f.kind <;> simp [isScalarKind, fieldTy.isScalar]
    have hkb : f.kind ≠ .bytes := by
      rintro h
      simp [h, isScalarKind] at hs
    have hpres : f.presence = true := by
      cases h3 : d.proto3 with
      | false => exact ff.proto2 hc' h3
      | true =>
        simp only [isReference, h3, ho, scalar_noMsg hsc] at hr
        have hsyn : f.synthetic = true := by simpa [hc', hkb] using hr
        exact (ff.synth hsyn).2
    have hty : fieldTy d f = .box := by simp [fieldTy, ho, hc', hpres, hsc]
    rw [hty] at hv ⊢
    exact Tri.bind (tri_cloneBox hE hv) fun w => Tri.pure (Ent.refl _)
  · rw [if_neg hs]
    have hsc : fieldTy.isScalar f.kind = false := by
      revert hs
      cases f.kind <;> simp [isScalarKind, fieldTy.isScalar]
    have hty : fieldTy d f = elemTy f.kind f.msg := by simp [fieldTy, ho, hc', hsc]
    rw [hty] at hv ⊢
    exact Tri.bind (tri_cloneSingular hE hrec hv) fun w => Tri.pure (Ent.refl _)

theorem tri_cloneMember {p : List Nat} {v : HV} (hv : Orig C B0 h0 [(elemTy f.kind f.msg, v)]) :
    Tri C [] (hcloneMember E rec f p v) (fun w => [(elemTy f.kind f.msg, w)]) [] := by
  rw [hcloneMember]
  split_ifs with hs hm hn
  · have hel : elemTy f.kind f.msg = .flat := by
      revert hs
      cases f.kind <;> simp [isScalarKind, elemTy]
    rw [hel] at hv ⊢
    exact Tri.pure (ent_origFlat hE.toCloOK hv)
  · rw [hE.schema] at hm
    simp only [Bool.and_eq_true, Bool.not_eq_true'] at hm
    have hel : elemTy f.kind f.msg = .msg f.msg := by
      have hk := hm.1
      unfold FieldDesc.hasMessage at hk
      revert hk
      cases f.kind <;> simp [elemTy]
    rw [hel] at hv ⊢
    exact hrec p f.msg v hm.2.2 hv
  · exact Tri.pure (ent_nil (elemTy_nilable _ _))
  · exact tri_cloneSingular hE hrec hv

theorem tri_cloneOneof {slot : Nat} {p : List Nat} {v : HV} (hv : Orig C B0 h0 [(.oneof d slot, v)]) :
    Tri C [] (hcloneOneof E rec d slot p v) (fun o => o.toList.map fun w => (.oneof d slot, w)) [] := by
  obtain ⟨F, ho, hz⟩ := hv
  rw [hcloneOneof.eq_def]
  cases ho with
  | nil => exact Tri.pure (Ent.refl _)
  | wrapNil =>
    rename_i k _
    dsimp only
    by_cases hk : (d.member slot k).isSome = true
    · rw [if_pos hk]
      exact Tri.pure fun h F ho => ⟨F, le_rfl, .wrapNil ho⟩
    · rw [if_neg hk]
      exact Tri.fail (fun _ h => nomatch h) (Ent.refl _)
  | oneof hc hm hI =>
    refine tri_readZ (hz _ (Multiset.mem_cons_self _ _) _ hc) ?_
    dsimp only
    rw [hm]
    rename_i n f a x F0
    refine Tri.bind tri_alloc fun b => ?_
    refine Tri.bind ((tri_cloneMember hE hrec ⟨_, hI, fun a ha => hz a (Multiset.mem_cons_of_mem ha)⟩).use (R := [(.raw (.wrap n (hzeroScalar f.kind)), .ptr b)])
      (Ent.refl _) (fun _ => Ent.refl _) (Ent.empty _)) fun y => ?_
    refine Tri.bind (J := fun _ => [(.oneof d slot, .ptr b)]) ?_ fun _ => Tri.pure (Ent.refl _)
    refine Tri.pre (I := [(.raw (.wrap n (hzeroScalar f.kind)), .ptr b), (elemTy f.kind f.msg, y)]) ?_ (Ent.perm (List.Perm.swap _ _ _))
    rw [hsetMember]
    refine tri_read ?_
    dsimp only
    rw [if_pos rfl]
    refine (tri_write (c := .wrap n (hzeroScalar f.kind))).sure (R := [(elemTy f.kind f.msg, y)]) (Ent.refl _) fun _ => ?_
    intro h F ho
    cases ho with
    | raw hc hI => exact ⟨_, le_rfl, .oneof hc hm hI⟩

theorem tri_cloneOut {p : List Nat} {v : HV} (hd : MsgFacts d) (hf : f ∈ d.fields) (hs : f.oneof = true ∨ f.oneof = false ∧ ¬ inFirst E.S E.direct d f)
    (hv : Orig C B0 h0 [(fieldTy d f, v)]) :
    Tri C [] (hcloneOut E rec d f p v) (fun o => o.toList.map fun w => (fieldTy d f, w)) [] := by
  rw [hcloneOut]
  rcases hs with ho | ⟨ho, hn⟩
  · rw [if_pos ho]
    have hty : fieldTy d f = .oneof d f.slot := by simp [fieldTy, ho]
    rw [hty] at hv ⊢
    exact tri_cloneOneof hE hrec hv
  · rw [ho, if_neg (by simp)]
    refine tri_cloneField hE hrec hd hf ho ?_ hv
    cases hr : isReference d.proto3 f with
    | true => rfl
    | false => exact absurd ⟨ho, .inl (by simp [hr])⟩ hn

omit hE hrec in
theorem tri_getZ {β : Type} {a : Addr} {m : List HV} {u : HV} {e : Bytes} {i : Nat} {I : List Item} {f : HV → Prog β} {J : β → List Item} {K : List Item}
    (hz : C.Z a (.msg m u e)) (h : Tri C I (f (m.getD i .nil)) J K) : Tri C I (hgetSlot (.ptr a) i >>= f) J K := by
  rw [hgetSlot, Prog.bind_assoc]
  exact tri_readZ hz h

omit hE hrec in
theorem tri_getUnknownRaw {β : Type} {a : Addr} {m : List HV} {u : HV} {e : Bytes} {I : List Item} {f : HV → Prog β} {J : β → List Item} {K : List Item}
    (h : Tri C ((.raw (.msg m u e), .ptr a) :: I) (f u) J K) : Tri C ((.raw (.msg m u e), .ptr a) :: I) (hgetUnknown (.ptr a) >>= f) J K := by
  rw [hgetUnknown, Prog.bind_assoc]
  exact tri_read h

omit hE hrec in
theorem tri_getUnknownZ {β : Type} {a : Addr} {m : List HV} {u : HV} {e : Bytes} {I : List Item} {f : HV → Prog β} {J : β → List Item} {K : List Item}
    (hz : C.Z a (.msg m u e)) (h : Tri C I (f u) J K) : Tri C I (hgetUnknown (.ptr a) >>= f) J K := by
  rw [hgetUnknown, Prog.bind_assoc]
  exact tri_readZ hz h

theorem tri_cloneFirst {p : List Nat} {a : Addr} {m : List HV} {u : HV} {e : Bytes} {r : HV} (hz : C.Z a (.msg m u e)) (hd : MsgFacts d) (hm : OrigSlots C B0 h0 d m) : ∀ fs : List FieldDesc,
    (∀ f ∈ fs, inFirst E.S E.direct d f ∧ f ∈ d.fields) →
    Tri C [theMsg d r] (hcloneFirst E rec d p (.ptr a) r fs) (fun _ => [theMsg d r]) []
  | [], _ => Tri.pure (Ent.refl _)
  | f :: fs, hs => by
    obtain ⟨⟨ho, hin⟩, hf⟩ := hs f (.head _)
    have ih := tri_cloneFirst (r := r) (p := p) hz hd hm fs fun g hg => hs g (.tail _ hg)
    have hv := hm f hf
    rw [hcloneFirst]
    split_ifs with hr
    · simp only [isReference, Bool.not_eq_true', Bool.or_eq_false_iff, Bool.not_eq_false', beq_eq_false_iff_ne, ne_eq] at hr
      obtain ⟨⟨⟨⟨⟨h1, -⟩, h2⟩, h3⟩, h4⟩, h5⟩ := hr
      have hpres := (hd.fields f hf).implicit h4 h1 ho h2 h3
      have hty : fieldTy d f = .flat := by
        simp only [FieldDesc.hasMessage, Bool.or_eq_false_iff, beq_eq_false_iff_ne, ne_eq] at h3
        have h4' : (f.card == .repeated) = false := by simpa using h4
        unfold fieldTy
        rw [ho, h4', hpres]
        revert h3 h5
        cases f.kind <;> simp [elemTy]
      rw [hty] at hv
      refine tri_getZ hz ?_
      refine Tri.bind ((tri_put hd hf).conseq (K' := []) ?_ (fun _ => Ent.refl _) (Ent.empty _)) fun _ => ih
      rw [hty]
      exact (ent_origFlat hE.toCloOK hv).trans (Ent.perm (List.Perm.swap _ _ _))
    · rcases hin with h | h
      · exact absurd h hr
      · rw [hE.schema] at h
        simp only [Bool.and_eq_true, bne_iff_ne, ne_eq, Bool.not_eq_true'] at h
        obtain ⟨⟨hc, hmsg⟩, hfor⟩ := h
        have hty : fieldTy d f = .msg f.msg := by
          unfold FieldDesc.hasMessage at hmsg
          unfold fieldTy
          revert hmsg
          cases f.kind <;> simp [ho, hc, elemTy, fieldTy.isScalar]
        rw [hty] at hv
        refine tri_getZ hz ?_
        refine Tri.bind ((hrec (p ++ [f.slot]) f.msg _ hfor.2 hv).use (R := [theMsg d r]) (Ent.refl _) (fun _ => Ent.refl _) (Ent.empty _)) fun w => ?_
        refine Tri.bind ((tri_put hd hf).conseq (K' := []) ?_ (fun _ => Ent.refl _) (Ent.empty _)) fun _ => ih
        rw [hty]
        exact Ent.perm (by items)

theorem tri_cloneSecond {p : List Nat} {a : Addr} {m : List HV} {u : HV} {e : Bytes} {r : HV} (hz : C.Z a (.msg m u e)) (hd : MsgFacts d) (hm : OrigSlots C B0 h0 d m) : ∀ fs : List FieldDesc,
    (∀ f ∈ fs, (f.oneof = true ∨ f.oneof = false ∧ ¬ inFirst E.S E.direct d f) ∧ f ∈ d.fields) →
    Tri C [theMsg d r] (hcloneSecond E rec d p (.ptr a) r fs) (fun _ => [theMsg d r]) []
  | [], _ => Tri.pure (Ent.refl _)
  | f :: fs, hs => by
    obtain ⟨hin, hf⟩ := hs f (.head _)
    have ih := tri_cloneSecond (r := r) (p := p) hz hd hm fs fun g hg => hs g (.tail _ hg)
    rw [hcloneSecond]
    refine tri_getZ hz ?_
    refine Tri.bind ((tri_cloneOut (p := p ++ [f.slot]) hE hrec hd hf hin (hm f hf)).use (R := [theMsg d r]) (Ent.refl _) (fun _ => Ent.refl _) (Ent.empty _)) fun o => ?_
    refine Tri.bind (J := fun _ => [theMsg d r]) ?_ fun _ => ih
    cases o with
    | none => exact Tri.pure (Ent.refl _)
    | some w => exact (tri_put hd hf).conseq (Ent.perm (List.Perm.swap _ _ _)) (fun _ => Ent.refl _) (Ent.empty _)

omit hE hrec in
theorem tri_setUnknown {tys : List Ty} {r u : HV} : Tri C [(.obj tys, r), (.mem, u)] (hsetUnknown r u) (fun _ => [(.obj tys, r)]) [] := by
  cases r with
  | ptr a =>
    refine tri_open fun slots u0 e hl => ?_
    rw [hsetUnknown]
    refine tri_read ?_
    refine (tri_write (c := .msg slots u0 e) (K := [never])).sure (R := tys.zip slots ++ [(.mem, u)]) ?_ fun _ => ?_
    · refine Ent.cons ?_
      exact Ent.append (I := tys.zip slots) (I' := tys.zip slots) (Ent.refl _) (Ent.rest (.mem, u0) [(.mem, u)])
    · exact ent_seal (u := u) (e := e) hl []
  | nil => exact Tri.fail (r := .panic .typeConfusion) (fun _ h => nomatch h) (Ent.empty _)
  | bytes => exact tri_absurd fun h R F ho => nomatch ho
  | num n => exact tri_absurd fun h R F ho => nomatch ho
  | str n => exact tri_absurd fun h R F ho => nomatch ho
  | view => exact tri_absurd fun h R F ho => nomatch ho
  | slice => exact tri_absurd fun h R F ho => nomatch ho
  | wrapNil => exact tri_absurd fun h R F ho => nomatch ho

omit hE hrec in
theorem tri_makeBytes {n : Nat} {K : List Item} : Tri C [] (hmakeBytes n) (fun v => [(.mem, v)]) K := by
  rw [hmakeBytes]
  have ha : Tri C [] (halloc (.bytes (List.replicate n 0))) (fun a => [(.mem, .bytes a 0 n)]) K := Tri.alloc fun h a F R hc ho => .mem hc ho
  exact Tri.bind ha fun b => Tri.pure (Ent.refl _)

omit hE hrec in
theorem tri_copyInto {d : HV} {b : Bytes} : Tri C [(.mem, d)] (hcopyInto d b) (fun _ => [(.mem, d)]) [] := by
  cases d with
  | bytes a off len =>
    refine tri_openMem fun c => ?_
    rw [hcopyInto]
    refine tri_read ?_
    refine (tri_write (c := .bytes c)).sure (R := []) (Ent.refl _) fun _ => ?_
    intro h F ho
    cases ho with
    | raw hc hI => exact ⟨_, le_rfl, .mem hc hI⟩
  | nil => exact Tri.pure (Ent.refl _)
  | slice => exact tri_absurd fun h R F ho => nomatch ho
  | num n => exact tri_absurd fun h R F ho => nomatch ho
  | str n => exact tri_absurd fun h R F ho => nomatch ho
  | view => exact tri_absurd fun h R F ho => nomatch ho
  | ptr => exact tri_absurd fun h R F ho => nomatch ho
  | wrapNil => exact tri_absurd fun h R F ho => nomatch ho

omit hE hrec in
theorem tri_cloneUnknown {t : Nat} {a : Addr} {m : List HV} {u : HV} {e : Bytes} {r : HV} {tys : List Ty} (hz : C.Z a (.msg m u e)) (hb : ∀ a, ¬ B0.byt a)
    (hu : Orig C B0 h0 [(.mem, u)]) :
    Tri C [(.obj tys, r)] (hcloneUnknown E t (.ptr a) r) (fun _ => [(.obj tys, r)]) [] := by
  rw [hcloneUnknown]
  split_ifs
  · refine tri_getUnknownZ hz ?_
    refine Tri.bind (tri_readBytes (.inr rfl) hb hu (Ent.empty _)) fun b => ?_
    split_ifs
    · refine Tri.bind ((tri_makeBytes (K := [never])).sure (R := [(.obj tys, r)]) (Ent.refl _) (fun _ => Ent.refl _)) fun u' => ?_
      refine Tri.bind (tri_setUnknown.pre (Ent.perm (List.Perm.swap _ _ _))) fun _ => ?_
      cases r with
      | ptr b =>
        refine tri_open fun slots u2 e2 hl => ?_
        refine tri_getUnknownRaw ?_
        refine tri_getUnknownZ hz ?_
        refine Tri.bind (tri_readBytes (.inr rfl) hb hu (Ent.empty _)) fun b2 => ?_
        refine tri_copyInto.use (R := (.raw (.msg slots u2 e2), .ptr b) :: tys.zip slots) (Ent.perm (by items)) (fun _ => ?_) (Ent.empty _)
        refine Ent.trans (Ent.perm ?_) (ent_seal (u := u2) (e := e2) hl [])
        items
      | nil => exact Tri.bind (J := fun _ => [never]) (Tri.fail (r := .panic .nilDeref) (fun _ h => nomatch h) (Ent.empty _)) fun _ => tri_absurd fun h R F ho => not_never ho
      | bytes => exact tri_absurd fun h R F ho => nomatch ho
      | num n => exact tri_absurd fun h R F ho => nomatch ho
      | str n => exact tri_absurd fun h R F ho => nomatch ho
      | view => exact tri_absurd fun h R F ho => nomatch ho
      | slice => exact tri_absurd fun h R F ho => nomatch ho
      | wrapNil => exact tri_absurd fun h R F ho => nomatch ho
    · exact Tri.pure (Ent.refl _)
  · exact Tri.pure (Ent.refl _)

omit hrec in
theorem tri_cloneAlloc {t : Nat} {p : List Nat} : Tri C [] (hcloneAlloc E p t) (fun v => [(.msg t, v)]) [] := by
  rw [hcloneAlloc, hE.schema]
  split_ifs
  · exact tri_poolGet hE.takes
  · exact tri_new

theorem tri_cloneBody : CloRec C B0 h0 (hcloneBody E rec) := by
  intro p t v hf hv
  obtain ⟨F, ho, hz⟩ := hv
  rw [hcloneBody.eq_def]
  cases ho with
  | nil => exact Tri.pure (ent_nil rfl)
  | foreign hf' => rw [hf] at hf'; cases hf'
  | msg hf0 hc hl hI =>
    rename_i a m u e F0
    have hd := schemaOK_msg hE.ok t
    have hza := hz _ (Multiset.mem_cons_self _ _) _ hc
    rw [if_neg (by simp [HV.isNil])]
    have hm : OrigSlots C B0 h0 (C.S.msg t) m := by
      intro f hf
      have h1 : Orig C B0 h0 ((slotTys (C.S.msg t)).zip m ++ [(.mem, u)]) := ⟨_, hI, fun a ha => hz a (Multiset.mem_cons_of_mem ha)⟩
      have hs := (hd.fields f hf).slot
      have h2 := Orig.slot (by rw [slotTys_length]; exact hl) (by simp [slotTys, slotTy_nilable]) h1.left f.slot (by rw [slotTys_length]; exact hs)
      rwa [slotTys_getD hs, slotTy_eq hd hf] at h2
    refine Tri.bind ((tri_cloneAlloc hE).conseq (Ent.refl _) (fun r => ent_msg hf r []) (Ent.refl _)) fun r => ?_
    refine Tri.bind (tri_cloneFirst hE hrec hza (by rw [hE.schema]; exact hd) (by rw [hE.schema]; exact hm) _ (cloneSplit_first _ _ _ _ _) |>.conseq (by rw [hE.schema]; exact Ent.refl _) (fun _ => Ent.refl _) (Ent.refl _)) fun _ => ?_
    refine Tri.bind (tri_cloneSecond hE hrec hza (by rw [hE.schema]; exact hd) (by rw [hE.schema]; exact hm) _ fun f hf => ?_) fun _ => ?_
    · obtain ⟨h1, h2⟩ := cloneSplit_second _ _ _ _ _ f hf
      exact ⟨h1.imp (·.1) id, h2⟩
    refine Tri.bind (tri_cloneUnknown hza hE.byt (Orig.right (I := (slotTys (C.S.msg t)).zip m) ⟨_, hI, fun a ha => hz a (Multiset.mem_cons_of_mem ha)⟩)) fun _ => ?_
    rw [hE.schema]
    exact Tri.pure (ent_obj hf r [])

omit hrec in
theorem tri_cloneN : ∀ n, CloRec C B0 h0 (hcloneN E n)
  | 0 => fun _ _ _ _ _ => Tri.fail (r := .diverge) (fun _ h => nomatch h) (Ent.refl _)
  | n + 1 => tri_cloneBody hE (tri_cloneN n)

end

end Vtp.Conc
