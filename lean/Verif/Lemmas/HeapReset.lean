import Verif.Lemmas.HeapDecode
import Verif.Model.HeapPool
/-! # What `ResetVT` and `ReturnToVTPool` do to ownership -/

namespace Vtp
open Spec

theorem HM.bind_assoc {α β γ : Type} (x : HM α) (f : α → HM β) (g : β → HM γ) : (x >>= f) >>= g = x >>= fun a => f a >>= g := by
  funext σ
  show HM.bind (HM.bind x f) g σ = HM.bind x (fun a => HM.bind (f a) g) σ
  simp only [HM.bind]
  rcases x σ with ⟨σ', r⟩
  cases r <;> rfl

section
variable {C : Ctx}

/-- Resetting sub-messages keeps ownership, unless it panics. -/
def ResetOK (C : Ctx) (rec : HSubReset) : Prop := ∀ t x, Tri C [(.msg t, x)] (rec t x) (fun _ => [(.msg t, x)]) []

variable {rec : HSubReset} (hrec : ResetOK C rec)

include hrec in
theorem tri_returnWith {t : Nat} {x : HV} : Tri C [(.msg t, x)] (hreturnWith rec t x) (fun _ => []) [] := by
  cases x with
  | nil => exact Tri.pure (Ent.empty _)
  | ptr a => exact Tri.bind (hrec t (.ptr a)) fun _ => tri_poolPut
  | bytes => exact tri_absurd fun h R F ho => nomatch ho
  | num n => exact tri_absurd fun h R F ho => nomatch ho
  | str n => exact tri_absurd fun h R F ho => nomatch ho
  | view => exact tri_absurd fun h R F ho => nomatch ho
  | slice => exact tri_absurd fun h R F ho => nomatch ho
  | wrapNil => exact tri_absurd fun h R F ho => nomatch ho

/-- Overwriting a message with the zero message. -/
theorem tri_zero {t : Nat} {x : HV} : Tri C [(.msg t, x)] (hzero C.S t x) (fun _ => [(.msg t, x)]) [] := by
  cases x with
  | ptr a =>
    intro R σ F P ho hinv
    have hw : ∀ c, Tri C [(.raw c, .ptr a)] (hwrite a (hzeroCell C.S t)) (fun _ => [(.msg t, .ptr a)]) [] := fun c =>
      (tri_write (c := c)).sure (R := []) (Ent.refl _) fun _ => ent_zeroCell t a []
    cases ho with
    | foreign _ hc hI => exact hw _ R σ _ P (.raw hc hI) hinv
    | msg hf' hc hl hI =>
      rename_i slots u e F0
      have : Tri C ((.raw (.msg slots u e), .ptr a) :: ((slotTys (C.S.msg t)).zip slots ++ [(.mem, u)])) (hwrite a (hzeroCell C.S t)) (fun _ => [(.msg t, .ptr a)]) [] :=
        (hw _).pre (Ent.first _ _)
      refine this R σ _ P (.raw hc ?_) hinv
      simpa using hI
  | nil => exact Tri.fail (r := .panic .typeConfusion) (fun _ h => nomatch h) (Ent.empty _)
  | bytes => exact tri_absurd fun h R F ho => nomatch ho
  | num n => exact tri_absurd fun h R F ho => nomatch ho
  | str n => exact tri_absurd fun h R F ho => nomatch ho
  | view => exact tri_absurd fun h R F ho => nomatch ho
  | slice => exact tri_absurd fun h R F ho => nomatch ho
  | wrapNil => exact tri_absurd fun h R F ho => nomatch ho

include hrec in
theorem tri_resetElem {t : Nat} {x : HV} : Tri C [(.msg t, x)] (hresetElem C.S rec t x) (fun _ => [(.msg t, x)]) [] := by
  rw [hresetElem.eq_def]
  split_ifs
  · exact Tri.pure (Ent.refl _)
  · exact hrec t x
  · cases x with
    | nil => exact Tri.fail (r := .panic .nilDeref) (fun _ h => nomatch h) (Ent.empty _)
    | ptr a => exact tri_zero (x := .ptr a)
    | bytes => exact tri_absurd fun h R F ho => nomatch ho
    | num n => exact tri_absurd fun h R F ho => nomatch ho
    | str n => exact tri_absurd fun h R F ho => nomatch ho
    | view => exact tri_absurd fun h R F ho => nomatch ho
    | slice => exact tri_absurd fun h R F ho => nomatch ho
    | wrapNil => exact tri_absurd fun h R F ho => nomatch ho

include hrec in
theorem tri_resetElems {t : Nat} {a len : Nat} {xs : List HV} : ∀ n i,
    Tri C ((.raw (.arr xs), .ptr a) :: xs.map fun x => (.msg t, x)) (hresetElems C.S rec t (.slice a len) i n)
      (fun _ => (.raw (.arr xs), .ptr a) :: xs.map fun x => (.msg t, x)) []
  | 0, _ => Tri.pure (Ent.refl _)
  | n + 1, i => by
    rw [hresetElems, hindex, HM.bind_assoc]
    refine tri_read ?_
    dsimp only
    cases hx : (xs.take len)[i]? with
    | none => exact Tri.bind (J := fun _ => [never]) (Tri.fail (r := .panic .indexOutOfRange) (fun _ h => nomatch h) (Ent.empty _)) fun _ => tri_absurd fun h R F ho => not_never ho
    | some x =>
      dsimp only
      have hm : x ∈ xs := List.mem_of_mem_take (List.mem_of_getElem? hx)
      have hp : (xs.map fun x => ((.msg t, x) : Item)).Perm ((.msg t, x) :: ((xs.erase x).map fun x => (.msg t, x))) := (List.perm_cons_erase hm).map _
      refine Tri.bind (x := hresetElem C.S rec t x) ((tri_resetElem hrec).use (R := (.raw (.arr xs), .ptr a) :: ((xs.erase x).map fun x => (.msg t, x))) ?_
        (fun _ => Ent.refl _) (Ent.empty _)) fun _ => (tri_resetElems n (i + 1)).pre ?_
      · exact Ent.perm ((hp.cons _).trans (List.Perm.swap _ _ _))
      · exact Ent.perm ((List.Perm.swap _ _ _).trans (hp.symm.cons _))

theorem take_drop_map (e : Ty) (xs : List HV) (len : Nat) : (xs.map fun x => ((e, x) : Item)) = (xs.take len).map (fun x => (e, x)) ++ (xs.drop len).map (fun x => (e, x)) := by
  rw [← List.map_append, List.take_append_drop]

theorem tri_clear {k : Kind} {t : Nat} {s : HV} : Tri C [(.list (elemTy k t), s)] (hclear k s) (fun _ => [(.list (elemTy k t), s)]) [] := by
  cases s with
  | nil => exact Tri.pure (Ent.refl _)
  | slice a len =>
    refine tri_openList fun xs hlen => ?_
    rw [hclear]
    refine tri_read ?_
    dsimp only
    rw [List.append_nil]
    refine (tri_write (c := .arr xs) (K := [never])).sure (R := (xs.drop len).map fun x => (elemTy k t, x)) ?_ fun _ => ?_
    · refine Ent.cons ?_
      rw [take_drop_map _ xs len]
      exact Ent.dropLeft _ _
    · have hz : ∀ n, Ent C ((xs.drop len).map fun x => (elemTy k t, x))
          ((List.replicate n (hzeroScalar k)).map (fun x => (elemTy k t, x)) ++ (xs.drop len).map fun x => (elemTy k t, x)) := by
        intro n
        induction n with
        | zero => exact Ent.refl _
        | succ n ih => exact ih.trans (ent_zeroScalar k t _)
      refine (Ent.cons (hz (xs.take len).length)).trans ?_
      have := ent_sealList (C := C) (e := elemTy k t) (a := a) (len := len) (xs := List.replicate (xs.take len).length (hzeroScalar k) ++ xs.drop len)
        (by simp; omega) []
      rw [List.map_append] at this
      simpa using this
  | bytes => exact tri_absurd fun h R F ho => nomatch ho
  | num n => exact tri_absurd fun h R F ho => nomatch ho
  | str n => exact tri_absurd fun h R F ho => nomatch ho
  | view => exact tri_absurd fun h R F ho => nomatch ho
  | ptr => exact tri_absurd fun h R F ho => nomatch ho
  | wrapNil => exact tri_absurd fun h R F ho => nomatch ho

include hrec in
theorem tri_resetLoop {t : Nat} {s : HV} : Tri C [(.list (.msg t), s)] (hlen s >>= fun n => hresetElems C.S rec t s 0 n) (fun _ => [(.list (.msg t), s)]) [] := by
  cases s with
  | nil => exact Tri.pure (Ent.refl _)
  | slice a len =>
    refine tri_openList fun xs hl => ?_
    rw [hlen, HM.bind_assoc]
    refine tri_read ?_
    dsimp only
    rw [List.append_nil]
    refine (tri_resetElems hrec (xs.take len).length 0).conseq (Ent.refl _) (fun _ => ?_) (Ent.refl _)
    have := ent_sealList (C := C) (e := .msg t) (a := a) (len := len) (xs := xs) hl []
    simpa using this
  | bytes => exact tri_absurd fun h R F ho => nomatch ho
  | num n => exact tri_absurd fun h R F ho => nomatch ho
  | str n => exact tri_absurd fun h R F ho => nomatch ho
  | view => exact tri_absurd fun h R F ho => nomatch ho
  | ptr => exact tri_absurd fun h R F ho => nomatch ho
  | wrapNil => exact tri_absurd fun h R F ho => nomatch ho

theorem tri_cutList {e : Ty} {s : HV} : Tri C [(.list e, s)] (hcutList s) (fun v => [(.list e, v)]) [] := by
  cases s with
  | nil => exact Tri.pure (Ent.refl _)
  | slice a len =>
    refine tri_openList fun xs hl => Tri.pure ?_
    have := ent_sealList (C := C) (e := e) (a := a) (len := 0) (xs := xs) (Nat.zero_le _) []
    simpa using this
  | bytes => exact tri_absurd fun h R F ho => nomatch ho
  | num n => exact tri_absurd fun h R F ho => nomatch ho
  | str n => exact tri_absurd fun h R F ho => nomatch ho
  | view => exact tri_absurd fun h R F ho => nomatch ho
  | ptr => exact tri_absurd fun h R F ho => nomatch ho
  | wrapNil => exact tri_absurd fun h R F ho => nomatch ho

theorem tri_cutBytes {s : HV} : Tri C [(.bytes, s)] (hcutBytes s) (fun v => [(.bytes, v)]) [] := by
  cases s with
  | nil => exact Tri.pure (Ent.refl _)
  | bytes a off len =>
    refine Tri.pure fun h F ho => ?_
    cases ho with
    | lent ha hI => exact ⟨_, le_rfl, .lent ha hI⟩
    | bytes hc hI => exact ⟨_, le_rfl, .bytes hc hI⟩
  | slice => exact tri_absurd fun h R F ho => nomatch ho
  | num n => exact tri_absurd fun h R F ho => nomatch ho
  | str n => exact tri_absurd fun h R F ho => nomatch ho
  | view => exact tri_absurd fun h R F ho => nomatch ho
  | ptr => exact tri_absurd fun h R F ho => nomatch ho
  | wrapNil => exact tri_absurd fun h R F ho => nomatch ho

variable {d : MsgDesc} {f : FieldDesc} {p : HV}

theorem set_getD (tys : List Ty) (i : Nat) : tys.set i (tys.getD i .flat) = tys := by
  refine List.ext_getElem (by simp) fun j h1 h2 => ?_
  rw [List.getElem_set]
  split_ifs with h
  · subst h
    simp [List.getD_eq_getElem?_getD, h2]
  · rfl

/-- Reading a struct field, then code on what was in it that leaves something of the same type there. -/
theorem tri_onSlot {tys : List Ty} {i : Nat} {ty : Ty} {x : HV → HM Unit} (hi : i < tys.length) (ht : tys.getD i .flat = ty)
    (h : ∀ s, Tri C [(ty, s)] (x s) (fun _ => [(ty, s)]) []) : Tri C [(.obj tys, p)] (hgetSlot p i >>= x) (fun _ => [(.obj tys, p)]) [] := by
  refine Tri.bind ((tri_getSlot hi).conseq (Ent.refl _) (fun _ => Ent.refl _) (Ent.empty _)) fun s => ?_
  rw [ht]
  refine (h s).use (R := [(.obj (tys.set i (.is s)), p)]) (Ent.perm (List.Perm.swap _ _ _)) (fun _ => ?_) (Ent.empty _)
  refine (Ent.perm (List.Perm.swap _ _ _)).trans ((ent_close hi).trans ?_)
  rw [← ht, set_getD]
  exact Ent.refl _

include hrec in
theorem tri_resetList {tys : List Ty} (hi : f.slot < tys.length) (ht : tys.getD f.slot .flat = .list (elemTy f.kind f.msg)) :
    Tri C [(.obj tys, p)] (hresetList C.S rec p f) (fun _ => [(.obj tys, p)]) [] := by
  rw [hresetList]
  split_ifs with hm hk
  · have hel : elemTy f.kind f.msg = .msg f.msg := by
      unfold FieldDesc.hasMessage at hm
      revert hm
      cases f.kind <;> simp [elemTy]
    rw [hel] at ht
    exact tri_onSlot hi ht fun s => tri_resetLoop hrec
  · exact tri_onSlot hi ht fun s => tri_clear
  · exact Tri.pure (Ent.refl _)

include hrec in
/-- A field that is not in a oneof: what is saved has the type of the field. -/
theorem tri_resetField {α : Type} {tys : List Ty} {I : List Item} {k : Option HV → HM α} {J : α → List Item} (hd : MsgFacts d) (hf : f ∈ d.fields) (ho : f.oneof = false)
    (hi : f.slot < tys.length) (ht : tys.getD f.slot .flat = fieldTy d f)
    (hk : ∀ o T, Tri C ((.obj (tys.set f.slot T), p) :: ((o.toList.map fun v => (fieldTy d f, v)) ++ I)) (k o) J []) :
    Tri C ((.obj tys, p) :: I) (hresetField C.S rec p f >>= k) J [] := by
  have ff := hd.fields f hf
  have hnone : Tri C ((.obj tys, p) :: I) (k none) J [] := by
    have := hk none (tys.getD f.slot .flat)
    rw [set_getD] at this
    exact this
  rw [hresetField, ho]
  by_cases hl : f.isList = true
  · rw [if_pos hl]
    simp only [FieldDesc.isList, Bool.and_eq_true, beq_iff_eq, Option.isNone_iff_eq_none] at hl
    have hty : fieldTy d f = .list (elemTy f.kind f.msg) := by simp [fieldTy, ho, hl.1, hl.2]
    rw [hty] at hk ht
    rw [HM.bind_assoc]
    refine Tri.bind ((tri_resetList hrec hi ht).use (R := I) (Ent.refl _) (fun _ => Ent.refl _) (Ent.empty _)) fun _ => ?_
    rw [HM.bind_assoc]
    refine Tri.bind ((tri_getSlot (tys := tys) (p := p) hi).use (R := I) (Ent.refl _) (fun _ => Ent.refl _) (Ent.empty _)) fun s => ?_
    rw [HM.bind_assoc, ht]
    refine Tri.bind (tri_cutList.use (R := (.obj (tys.set f.slot (.is s)), p) :: I) (Ent.perm (by items)) (fun _ => Ent.refl _) (Ent.empty _)) fun v => ?_
    exact (hk (some v) (.is s)).pre (Ent.perm (by simp only [Option.toList, List.map_cons, List.map_nil]; items))
  · rw [if_neg hl]
    simp only [Bool.false_eq_true, ↓reduceIte]
    by_cases hm : f.hasMessage = true
    · rw [if_pos hm]
      by_cases hp : (f.map.isNone && (C.S.msg f.msg).pooled) = true
      · rw [if_pos hp]
        simp only [Bool.and_eq_true, Option.isNone_iff_eq_none] at hp
        have hr : f.card ≠ .repeated := by
          intro h
          simp [FieldDesc.isList, h, hp.1] at hl
        have hty : fieldTy d f = .msg f.msg := by
          unfold FieldDesc.hasMessage at hm
          unfold fieldTy
          revert hm
          cases f.kind <;> simp [ho, hr, elemTy, fieldTy.isScalar]
        rw [hty] at hk ht
        rw [HM.bind_assoc]
        refine Tri.bind ((tri_getSlot (tys := tys) (p := p) hi).use (R := I) (Ent.refl _) (fun _ => Ent.refl _) (Ent.empty _)) fun s => ?_
        rw [HM.bind_assoc, ht]
        refine Tri.bind ((tri_returnWith hrec).use (R := (.obj (tys.set f.slot (.is s)), p) :: I) (Ent.perm (by items)) (fun _ => Ent.refl _) (Ent.empty _)) fun _ => ?_
        exact hk none (.is s)
      · rw [if_neg hp]
        exact hnone
    · rw [if_neg hm]
      by_cases hkb : f.kind = .bytes
      · rw [if_pos hkb]
        have hmap : f.map = none := scalar_noMap hd hf (by rw [hkb]; exact fun h => nomatch h)
        have hr : f.card ≠ .repeated := by
          intro h
          simp [FieldDesc.isList, h, hmap] at hl
        have hty : fieldTy d f = .bytes := by simp [fieldTy, ho, hr, hkb, elemTy, fieldTy.isScalar]
        rw [hty] at hk ht
        rw [HM.bind_assoc]
        refine Tri.bind ((tri_getSlot (tys := tys) (p := p) hi).use (R := I) (Ent.refl _) (fun _ => Ent.refl _) (Ent.empty _)) fun s => ?_
        rw [HM.bind_assoc, ht]
        refine Tri.bind (tri_cutBytes.use (R := (.obj (tys.set f.slot (.is s)), p) :: I) (Ent.perm (by items)) (fun _ => Ent.refl _) (Ent.empty _)) fun v => ?_
        exact (hk (some v) (.is s)).pre (Ent.perm (by simp only [Option.toList, List.map_cons, List.map_nil]; items))
      · rw [if_neg hkb]
        exact hnone

theorem tri_holdsOther {α : Type} {n m : Nat} {ty : Ty} {s : HV} {I : List Item} {k : Option HV → HM α} {J : α → List Item} {K : List Item} (hn : n ≠ m)
    (h : Tri C ((.wrap n ty, s) :: I) (k none) J K) : Tri C ((.wrap n ty, s) :: I) (hholds s m >>= k) J K := by
  cases s with
  | nil => exact h
  | ptr a =>
    intro R σ F P ho hinv
    have h' := h R σ F P ho hinv
    cases ho with
    | wrap hc hI =>
      have : hholds (.ptr a) m σ = (σ, .ok none) := by rw [hholds, HM.bind_ok (hread_ok hc)]; simp [hn]; rfl
      rw [HM.bind_ok this]
      exact h'
  | bytes => exact tri_absurd fun h R F ho => nomatch ho
  | num n => exact tri_absurd fun h R F ho => nomatch ho
  | str n => exact tri_absurd fun h R F ho => nomatch ho
  | view => exact tri_absurd fun h R F ho => nomatch ho
  | slice => exact tri_absurd fun h R F ho => nomatch ho
  | wrapNil => exact tri_absurd fun h R F ho => nomatch ho

/-- What is known about the struct field of a oneof during the loop over the fields: untouched, or the member that it holds was returned to its pool. -/
def OneofLeft (d : MsgDesc) (slot : Nat) (T : Ty) (nums : Nat → Prop) : Prop := T = .oneof d slot ∨ ∃ n ty, T = .wrap n ty ∧ ¬ nums n

include hrec in
theorem tri_resetOneof {α : Type} {tys : List Ty} {I0 : List Item} {k : Option HV → HM α} {J : α → List Item} (hd : MsgFacts d) (hf : f ∈ d.fields) (ho : f.oneof = true)
    (hi : f.slot < tys.length) (hT0 : OneofLeft d f.slot (tys.getD f.slot .flat) (· = f.num))
    (hk0 : ∀ T', T' = tys.getD f.slot .flat ∨ (∃ ty, T' = .wrap f.num ty) → Tri C ((.obj (tys.set f.slot T'), p) :: I0) (k none) J []) :
    Tri C ((.obj tys, p) :: I0) (hresetField C.S rec p f >>= k) J [] := by
  have ff := hd.fields f hf
  have hl : f.isList = false := by simp [FieldDesc.isList, (ff.oneof ho).1]
  rw [hresetField, ho, hl]
  simp only [Bool.false_eq_true, ↓reduceIte]
  by_cases hp : (f.hasMessage && (C.S.msg f.msg).pooled) = true
  · rw [if_pos hp]
    simp only [Bool.and_eq_true] at hp
    have hel : elemTy f.kind f.msg = .msg f.msg := by
      have hm := hp.1
      unfold FieldDesc.hasMessage at hm
      revert hm
      cases f.kind <;> simp [elemTy]
    rw [HM.bind_assoc]
    refine Tri.bind ((tri_getSlot (tys := tys) (p := p) hi).use (R := I0) (Ent.refl _) (fun _ => Ent.refl _) (Ent.empty _)) fun s => ?_
    rw [HM.bind_assoc]
    generalize hTe : tys.getD f.slot .flat = T at hT0 hk0 ⊢
    have hk : ∀ T', T' = T ∨ (∃ ty, T' = .wrap f.num ty) → Tri C ((T', s) :: (.obj (tys.set f.slot (.is s)), p) :: I0) (k none) J [] := fun T' h =>
      (hk0 T' h).pre (Ent.trans (Ent.perm (J := [(.obj (tys.set f.slot (.is s)), p), (T', s)] ++ I0) (by items)) ((ent_close hi).frame I0))
    have hT := hT0
    generalize hI : (Ty.obj (tys.set f.slot (.is s)), p) :: I0 = I at hk
    refine Tri.pre (I := (T, s) :: I) ?_ (Ent.perm (by rw [← hI]; items))
    rcases hT with rfl | ⟨n, ty, rfl, hn⟩
    · refine Tri.bind ((tri_holds (member_of hd hf ho)).use (R := I) (Ent.refl _) (fun _ => Ent.refl _) (Ent.empty _)) fun o => ?_
      rw [hel]
      have hold : ∀ w, Tri C ((.is s, w) :: (.wrap f.num (.msg f.msg), w) :: I) ((do
          let x ← hmember w
          hreturnWith rec f.msg x
          pure none) >>= k) J [] := by
        intro w
        refine tri_is fun hw => ?_
        subst hw
        rw [HM.bind_assoc]
        refine Tri.bind (tri_member.use (R := I) (Ent.refl _) (fun _ => Ent.refl _) (Ent.empty _)) fun x => ?_
        rw [HM.bind_assoc]
        refine Tri.bind ((tri_returnWith hrec).use (R := (.wrap f.num (.is x), w) :: I) (Ent.perm (by items)) (fun _ => Ent.refl _) (Ent.empty _)) fun _ => ?_
        exact hk _ (.inr ⟨_, rfl⟩)
      match o with
      | none => exact hk _ (.inl rfl)
      | some w =>
        cases w with
        | nil => exact Tri.fail (r := .panic .nilDeref) (fun _ h => nomatch h) (Ent.empty _)
        | _ => exact hold _
    · exact tri_holdsOther (fun h => hn h) (hk _ (.inl rfl))
  · rw [if_neg hp]
    have := hk0 _ (.inl rfl)
    rwa [set_getD] at this

/-- The items for what was saved. -/
abbrev savedItems (d : MsgDesc) (saved : List (Nat × HV)) : List Item := saved.map fun q => (slotTy d q.1, q.2)

/-- Types of the struct fields during the loop over the fields, `fs` being still to be looked at. -/
def Midway (d : MsgDesc) (fs : List FieldDesc) (tys : List Ty) : Prop :=
  tys.length = d.nslots ∧ ∀ f ∈ fs, if f.oneof then OneofLeft d f.slot (tys.getD f.slot .flat) (fun n => ∃ g ∈ fs, g.num = n) else tys.getD f.slot .flat = fieldTy d f

theorem midway_start (hd : MsgFacts d) : Midway d d.fields (slotTys d) := by
  refine ⟨slotTys_length d, fun f hf => ?_⟩
  rw [slotTys_getD (hd.fields f hf).slot, slotTy_eq hd hf]
  split_ifs with ho
  · exact .inl (by simp [fieldTy, ho])
  · rfl

theorem getD_set (tys : List Ty) (i j : Nat) (T : Ty) : (tys.set i T).getD j .flat = if i = j then (if i < tys.length then T else .flat) else tys.getD j .flat := by
  simp only [List.getD_eq_getElem?_getD, List.getElem?_set]
  split_ifs <;> simp_all

theorem Midway.next {fs : List FieldDesc} {tys : List Ty} (hd : MsgFacts d) (hm : Midway d (f :: fs) tys) (hsub : ∀ g ∈ f :: fs, g ∈ d.fields)
    (hnd : ((f :: fs).map (·.num)).Nodup) {T : Ty} (hT : f.oneof = true → T = tys.getD f.slot .flat ∨ ∃ ty, T = .wrap f.num ty) : Midway d fs (tys.set f.slot T) := by
  refine ⟨by simp [hm.1], fun g hg => ?_⟩
  have hne : f.num ≠ g.num := by
    rw [List.map_cons, List.nodup_cons] at hnd
    exact fun h => hnd.1 (List.mem_map.mpr ⟨g, hg, h.symm⟩)
  have hgd := hsub g (.tail _ hg)
  have hfd := hsub f (.head _)
  have hslot : f.slot < tys.length := by rw [hm.1]; exact (hd.fields f hfd).slot
  have hmg := hm.2 g (.tail _ hg)
  rw [getD_set]
  have weaken : ∀ T, OneofLeft d g.slot T (fun n => ∃ h ∈ f :: fs, h.num = n) → OneofLeft d g.slot T (fun n => ∃ h ∈ fs, h.num = n) := by
    rintro T (h | ⟨n, ty, h, hn⟩)
    · exact .inl h
    · exact .inr ⟨n, ty, h, fun ⟨x, hx, e⟩ => hn ⟨x, .tail _ hx, e⟩⟩
  split_ifs with ho he
  · obtain ⟨hof, -⟩ := hd.share f hfd g hgd hne he
    rw [if_pos ho] at hmg
    rcases hT hof with rfl | ⟨ty, rfl⟩
    · rw [he]
      exact weaken _ hmg
    · refine .inr ⟨_, _, rfl, ?_⟩
      rintro ⟨x, hx, e⟩
      rw [List.map_cons, List.nodup_cons] at hnd
      exact hnd.1 (List.mem_map.mpr ⟨x, hx, e⟩)
  · rw [if_pos ho] at hmg
    exact weaken _ hmg
  · rename_i he
    obtain ⟨-, hog⟩ := hd.share f hfd g hgd hne he
    exact absurd hog ho
  · rw [if_neg ho] at hmg
    exact hmg

include hrec in
theorem tri_resetFields {α : Type} {J : α → List Item} (hd : MsgFacts d) : ∀ (fs : List FieldDesc) (tys : List Ty) (I : List Item) (k : List (Nat × HV) → HM α),
    (∀ g ∈ fs, g ∈ d.fields) → (fs.map (·.num)).Nodup → Midway d fs tys →
    (∀ saved tys', tys'.length = d.nslots → (∀ q ∈ saved, q.1 < d.nslots) → Tri C ((.obj tys', p) :: (savedItems d saved ++ I)) (k saved) J []) →
    Tri C ((.obj tys, p) :: I) (hresetFields C.S rec p fs >>= k) J []
  | [], tys, I, k, _, _, hm, hk => hk [] tys hm.1 (fun _ h => nomatch h)
  | f :: fs, tys, I, k, hsub, hnd, hm, hk => by
    have hfd := hsub f (.head _)
    have hnd' : (fs.map (·.num)).Nodup := (List.nodup_cons.mp hnd).2
    have hsub' : ∀ g ∈ fs, g ∈ d.fields := fun g hg => hsub g (.tail _ hg)
    have hslot : f.slot < tys.length := by rw [hm.1]; exact (hd.fields f hfd).slot
    rw [hresetFields, HM.bind_assoc]
    have hmf := hm.2 f (.head _)
    by_cases ho : f.oneof = true
    · rw [if_pos ho] at hmf
      have hT : OneofLeft d f.slot (tys.getD f.slot .flat) (· = f.num) := by
        rcases hmf with h | ⟨n, ty, h, hn⟩
        · exact .inl h
        · exact .inr ⟨n, ty, h, fun e => hn ⟨f, .head _, e.symm⟩⟩
      refine tri_resetOneof hrec hd hfd ho hslot hT fun T' hT' => ?_
      rw [HM.bind_assoc]
      exact tri_resetFields hd fs (tys.set f.slot T') I _ hsub' hnd' (hm.next hd hsub hnd fun _ => hT') fun saved tys' hl hs => hk saved tys' hl hs
    · rw [if_neg ho] at hmf
      have hof : f.oneof = false := by simpa using ho
      refine tri_resetField hrec hd hfd hof hslot hmf fun o T => ?_
      rw [HM.bind_assoc]
      refine tri_resetFields hd fs (tys.set f.slot T) (o.toList.map (fun v => (fieldTy d f, v)) ++ I) _ hsub' hnd'
        (hm.next hd hsub hnd fun h => absurd h ho) fun saved tys' hl hs => ?_
      cases o with
      | none => exact (hk saved tys' hl hs).pre (Ent.refl _)
      | some v =>
        refine (hk ((f.slot, v) :: saved) tys' hl fun q hq => ?_).pre (Ent.perm ?_)
        · rcases List.mem_cons.mp hq with rfl | hq
          · exact (hd.fields f hfd).slot
          · exact hs q hq
        · simp only [Option.toList, List.map_cons, List.map_nil, savedItems, slotTy_eq hd hfd]
          items

theorem tri_restore : ∀ saved : List (Nat × HV), (∀ q ∈ saved, q.1 < d.nslots) →
    Tri C (theMsg d p :: savedItems d saved) (hrestore p saved) (fun _ => [theMsg d p]) []
  | [], _ => Tri.pure (Ent.refl _)
  | (i, v) :: saved, hs => by
    have hi : i < d.nslots := hs (i, v) (.head _)
    have hi' : i < (slotTys d).length := by rw [slotTys_length]; exact hi
    rw [hrestore]
    refine Tri.bind ((tri_setSlot (tys := slotTys d) (p := p) (v := v) (K := []) hi' fun _ _ => .done).use (R := savedItems d ((i, v) :: saved)) (Ent.refl _) (fun _ => Ent.refl _) (Ent.empty _)) fun _ => ?_
    refine (tri_restore saved fun q hq => hs q (.tail _ hq)).pre ?_
    have h := ent_close (C := C) (tys := slotTys d) (p := p) (s := v) (i := i) (ty := slotTy d i) hi'
    rw [slotTys_set hi] at h
    exact h.frame (savedItems d saved)

theorem tri_zeroObj {t : Nat} {tys : List Ty} {x : HV} : Tri C [(.obj tys, x)] (hzero C.S t x) (fun _ => [(.msg t, x)]) [] := by
  cases x with
  | ptr a =>
    refine tri_open fun slots u e _ => ?_
    exact (tri_write (c := .msg slots u e) (K := [never])).sure (R := []) (Ent.first _ _) fun _ => ent_zeroCell t a []
  | nil => exact Tri.fail (r := .panic .typeConfusion) (fun _ h => nomatch h) (Ent.empty _)
  | bytes => exact tri_absurd fun h R F ho => nomatch ho
  | num n => exact tri_absurd fun h R F ho => nomatch ho
  | str n => exact tri_absurd fun h R F ho => nomatch ho
  | view => exact tri_absurd fun h R F ho => nomatch ho
  | slice => exact tri_absurd fun h R F ho => nomatch ho
  | wrapNil => exact tri_absurd fun h R F ho => nomatch ho

theorem tri_getForeign {α : Type} {t i : Nat} {x : HV} (hf : (C.S.msg t).foreign = true) {k : HV → HM α} {J : α → List Item} :
    Tri C [(.msg t, x)] (hgetSlot x i >>= k) J [] := by
  intro R σ F P ho hinv
  have hfail : ∀ r : Res HV, (∀ a, r ≠ .ok a) → hgetSlot x i σ = (σ, r) → ∃ F' P', Inv C ((hgetSlot x i >>= k) σ).1 F' P' ∧
      (∀ a, ((hgetSlot x i >>= k) σ).2 = .ok a → OwnL C.S C.B ((hgetSlot x i >>= k) σ).1.heap (J a ++ R) F') ∧
      ((∀ a, ((hgetSlot x i >>= k) σ).2 ≠ .ok a) → OwnL C.S C.B ((hgetSlot x i >>= k) σ).1.heap ([] ++ R) F') := by
    intro r hr hg
    obtain ⟨F', hle, hF'⟩ := (Ent.empty (C := C) [(.msg t, x)]).frame R _ _ ho
    have hb : (hgetSlot x i >>= k) σ = HM.bind (hgetSlot x i) k σ := rfl
    rw [hb, HM.bind, hg]
    cases r with
    | ok a => exact absurd rfl (hr a)
    | err e => exact ⟨F', P, hinv.shrink hle, (fun a h => nomatch h), fun _ => hF'⟩
    | panic e => exact ⟨F', P, hinv.shrink hle, (fun a h => nomatch h), fun _ => hF'⟩
    | diverge => exact ⟨F', P, hinv.shrink hle, (fun a h => nomatch h), fun _ => hF'⟩
  have ho' := ho
  cases ho' with
  | nil => exact hfail (.panic .nilDeref) (fun _ h => nomatch h) rfl
  | foreign _ hc hI =>
    refine hfail (.panic .typeConfusion) (fun _ h => nomatch h) ?_
    rw [hgetSlot, HM.bind_ok (hread_ok hc)]
    rfl
  | msg hf' => rw [hf] at hf'; cases hf'

/-- The code for a field starts with reading it, if there is any. -/
theorem hresetField_reads (S : Schema) (rec : HSubReset) (p : HV) (f : FieldDesc) :
    hresetField S rec p f = pure none ∨ ∃ k, hresetField S rec p f = hgetSlot p f.slot >>= k := by
  unfold hresetField hresetList
  split_ifs
  all_goals first
    | exact .inl rfl
    | exact .inr ⟨_, rfl⟩
    | exact .inr ⟨_, HM.bind_assoc _ _ _⟩

theorem tri_resetForeign {α : Type} {t : Nat} {x : HV} (hf : (C.S.msg t).foreign = true) {J : α → List Item} : ∀ (fs : List FieldDesc) (k : List (Nat × HV) → HM α),
    Tri C [(.msg t, x)] (k []) J [] → Tri C [(.msg t, x)] (hresetFields C.S rec x fs >>= k) J []
  | [], k, h => h
  | f :: fs, k, h => by
    rw [hresetFields, HM.bind_assoc]
    rcases hresetField_reads C.S rec x f with e | ⟨k', e⟩ <;> rw [e]
    · show Tri C _ ((hresetFields C.S rec x fs >>= fun saved => pure saved) >>= k) _ _
      rw [HM.bind_assoc]
      exact tri_resetForeign hf fs _ h
    · rw [HM.bind_assoc]
      exact tri_getForeign hf

include hrec in
theorem tri_resetBody (hS : schemaOK C.S = true) : ResetOK C (fun t p => do
    let saved ← hresetFields C.S rec p (C.S.msg t).fields
    hzero C.S t p
    hrestore p saved) := by
  intro t p
  have hd := schemaOK_msg hS t
  cases hf : (C.S.msg t).foreign with
  | false =>
    refine Tri.pre (I := [theMsg (C.S.msg t) p]) ?_ (ent_msg hf p [])
    refine tri_resetFields hrec hd _ _ _ _ (fun g hg => hg) hd.nodup (midway_start hd) fun saved tys' hl hs => ?_
    refine Tri.bind (tri_zeroObj.use (R := savedItems (C.S.msg t) saved ++ []) (Ent.refl _) (fun _ => Ent.refl _) (Ent.empty _)) fun _ => ?_
    refine (tri_restore saved hs).conseq ?_ (fun _ => ent_obj hf p []) (Ent.refl _)
    rw [List.append_nil]
    exact ent_msg hf p _
  | true =>
    refine tri_resetForeign hf _ _ ?_
    show Tri C [(.msg t, p)] (hzero C.S t p >>= fun _ => pure ()) _ _
    exact Tri.bind tri_zero fun _ => Tri.pure (Ent.refl _)

theorem tri_resetN (hS : schemaOK C.S = true) : ∀ n, ResetOK C (hresetN C.S n)
  | 0 => fun _ _ => Tri.fail (r := .diverge) (fun _ h => nomatch h) (Ent.empty _)
  | n + 1 => tri_resetBody (tri_resetN hS n) hS

/-- `ResetVT` keeps ownership, unless it panics. -/
theorem tri_resetVT (hS : schemaOK C.S = true) {t : Nat} {x : HV} :
    Tri C [(.msg t, x)] (hresetVT C.S t x) (fun _ => [(.msg t, x)]) [] := by
  intro R σ F P ho hinv
  rw [hresetVT]
  split_ifs
  · exact ⟨F, P, hinv, fun _ _ => ho, fun h => absurd rfl (h ())⟩
  · exact tri_resetN hS _ _ _ R σ F P ho hinv

/-- `ReturnToVTPool` takes a message and what is in it. -/
theorem tri_returnToVTPool (hS : schemaOK C.S = true) {t : Nat} {x : HV} :
    Tri C [(.msg t, x)] (hreturnToVTPool C.S t x) (fun _ => []) [] := by
  intro R σ F P ho hinv
  rw [hreturnToVTPool]
  exact tri_returnWith (tri_resetN hS _) R σ F P ho hinv

end

end Vtp
