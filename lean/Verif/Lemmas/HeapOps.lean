import Verif.Lemmas.HeapPrim
import Verif.Model.HeapUnmarshal
import Verif.Model.HeapPool
/-! # Triples for slices, maps, pools -/

namespace Vtp
open Spec

section
variable {C : Ctx}

theorem bind_fun {α β : Type} (x : HM α) (f : α → HM β) (σ : HState) : (x >>= f) σ = (fun σ => (x >>= f) σ) σ := rfl

/-- Code that looks at how many objects there are. -/
theorem tri_state {α : Type} {I : List Item} {x : HState → HM α} {J : α → List Item} {K : List Item} (h : ∀ σ, Tri C I (x σ) J K) :
    Tri C I (fun σ => x σ σ) J K := fun R σ F P ho hinv => h σ R σ F P ho hinv

theorem tri_copyBytes {b : Bytes} {K : List Item} {ty : Ty} (ht : ty = .bytes ∨ ty = .mem) : Tri C [] (hcopyBytes b) (fun v => [(ty, v)]) K := by
  refine Tri.bind (tri_alloc (c := .bytes b)) fun a => Tri.pure fun h F ho => ?_
  cases ho with
  | raw hc hI =>
    rcases ht with rfl | rfl
    · exact ⟨_, le_rfl, .bytes hc hI⟩
    · exact ⟨_, le_rfl, .mem hc hI⟩

theorem tri_growBytes {g : Growth} {b : Bytes} {K : List Item} {ty : Ty} (ht : ty = .bytes ∨ ty = .mem) :
    Tri C [] (hgrowBytes g b) (fun v => [(ty, v)]) K := by
  refine tri_state (x := fun σ => (do
    let a ← halloc (.bytes (b ++ List.replicate (g σ.next) 0))
    pure (HV.bytes a 0 b.length) : HM HV)) fun σ => ?_
  refine Tri.bind tri_alloc fun a => Tri.pure fun h F ho => ?_
  cases ho with
  | raw hc hI =>
    rcases ht with rfl | rfl
    · exact ⟨_, le_rfl, .bytes hc hI⟩
    · exact ⟨_, le_rfl, .mem hc hI⟩

/-- Opening bytes that are owned. -/
theorem tri_openMem {α : Type} {a off len : Nat} {I : List Item} {x : HM α} {J : α → List Item} {K : List Item}
    (h : ∀ c, Tri C ((.raw (.bytes c), .ptr a) :: I) x J K) : Tri C ((.mem, .bytes a off len) :: I) x J K := by
  intro R σ F P ho hinv
  cases ho with
  | mem hc hI => exact h _ R σ _ P (.raw hc hI) hinv

theorem ent_sealBytes {ty : Ty} (ht : ty = .bytes ∨ ty = .mem) {a off len : Nat} {c : Bytes} (I : List Item) :
    Ent C ((.raw (.bytes c), .ptr a) :: I) ((ty, .bytes a off len) :: I) := by
  intro h F ho
  cases ho with
  | raw hc hI =>
    rcases ht with rfl | rfl
    · exact ⟨_, le_rfl, .bytes hc hI⟩
    · exact ⟨_, le_rfl, .mem hc hI⟩

/-- Appending to bytes that are owned. -/
theorem tri_appendOwned {g : Growth} {a off len n : Nat} {c b : Bytes} {ty : Ty} (ht : ty = .bytes ∨ ty = .mem) {K : List Item} :
    Tri C [(.raw (.bytes c), .ptr a)] (happendBytes g (.bytes a off len) n b) (fun v => [(ty, v)]) K := by
  rw [happendBytes]
  refine tri_read ?_
  dsimp only
  split_ifs
  · exact Tri.bind tri_write fun _ => Tri.pure (ent_sealBytes ht [])
  · exact (tri_growBytes ht).pre (Ent.empty _)

theorem tri_appendMem {g : Growth} {s : HV} {n : Nat} {b : Bytes} :
    Tri C [(.mem, s)] (happendBytes g s n b) (fun v => [(.mem, v)]) [(.mem, s)] := by
  cases s with
  | nil =>
    rw [happendBytes]
    split_ifs
    · exact Tri.pure (Ent.refl _)
    · exact (tri_growBytes (.inr rfl)).pre (Ent.empty _)
  | bytes a off len => exact tri_openMem fun c => tri_appendOwned (.inr rfl)
  | num n => exact tri_absurd fun h R F ho => nomatch ho
  | str n => exact tri_absurd fun h R F ho => nomatch ho
  | view => exact tri_absurd fun h R F ho => nomatch ho
  | slice => exact tri_absurd fun h R F ho => nomatch ho
  | ptr => exact tri_absurd fun h R F ho => nomatch ho
  | wrapNil => exact tri_absurd fun h R F ho => nomatch ho

theorem tri_appendBytes {g : Growth} {s : HV} {n : Nat} {b : Bytes} (hl : C.lock → ∀ a, ¬ C.B.byt a) :
    Tri C [(.bytes, s)] (happendBytes g s n b) (fun v => [(.bytes, v)]) [(.bytes, s)] := by
  cases s with
  | nil =>
    rw [happendBytes]
    split_ifs
    · exact Tri.pure (Ent.refl _)
    · exact (tri_growBytes (.inl rfl)).pre (Ent.empty _)
  | bytes a off len =>
    intro R σ F P ho hinv
    cases ho with
    | bytes hc hI => exact tri_appendOwned (ty := .bytes) (.inl rfl) R σ _ P (.raw hc hI) hinv
    | lent ha hI =>
      have hI' : OwnL C.S C.B σ.heap R F := hI
      obtain ⟨c, hc⟩ := hinv.below a ha
      rw [happendBytes, HM.bind_ok (hread_ok hc)]
      dsimp only
      split_ifs with hcap
      · refine ⟨F, P, hinv.scribble ha (fun h => hl h a ha), fun v hv => ?_, fun hn => absurd rfl (hn _)⟩
        cases hv
        refine .lent ha (hI'.frame fun x hx => ?_)
        have : a ≠ x := fun e => hinv.apart x (.inl hx) (e ▸ ha)
        exact List.getElem?_set_ne this
      · exact tri_growBytes (C := C) (K := [(.bytes, .bytes a off len)]) (.inl rfl) R σ F P hI hinv
  | num n => exact tri_absurd fun h R F ho => nomatch ho
  | str n => exact tri_absurd fun h R F ho => nomatch ho
  | view => exact tri_absurd fun h R F ho => nomatch ho
  | slice => exact tri_absurd fun h R F ho => nomatch ho
  | ptr => exact tri_absurd fun h R F ho => nomatch ho
  | wrapNil => exact tri_absurd fun h R F ho => nomatch ho

theorem ent_nils {ty : Ty} (ht : ty.nilable = true) (n : Nat) (I : List Item) :
    Ent C I ((List.replicate n HV.nil).map (fun x => (ty, x)) ++ I) := by
  induction n with
  | zero => exact Ent.refl _
  | succ n ih => exact ih.trans (ent_nil ht)

theorem tri_growArr {g : Growth} {xs : List HV} {len : Nat} {e : Ty} (he : e.nilable = true) (hl : len ≤ xs.length) {K : List Item} :
    Tri C (xs.map fun x => (e, x)) (hgrowArr g xs len) (fun v => [(.list e, v)]) K := by
  refine tri_state (x := fun σ => (do
    let a ← halloc (.arr (xs ++ List.replicate (g σ.next) .nil))
    pure (HV.slice a len) : HM HV)) fun σ => ?_
  refine Tri.bind (tri_alloc.sure (R := (xs ++ List.replicate (g σ.next) HV.nil).map (fun x => (e, x))) ?_ (fun _ => Ent.refl _)) fun a => Tri.pure ?_
  · refine (ent_nils he (g σ.next) _).trans (Ent.perm ?_)
    simp only [List.map_append]
    items
  · have := ent_sealList (C := C) (e := e) (a := a) (len := len) (xs := xs ++ List.replicate (g σ.next) HV.nil) (by simp; omega) []
    simpa using this

theorem map_split (e : Ty) {xs : List HV} {i : Nat} (h : i < xs.length) :
    xs.map (fun x => (e, x)) = (xs.take i).map (fun x => (e, x)) ++ (e, xs[i]) :: (xs.drop (i + 1)).map (fun x => (e, x)) := by
  have h1 : xs = xs.take i ++ xs[i] :: xs.drop (i + 1) := by simp
  conv => lhs; rw [h1]
  simp only [List.map_append, List.map_cons]

theorem tri_append {g : Growth} {s x : HV} {e : Ty} (he : e.nilable = true) :
    Tri C [(.list e, s), (e, x)] (happend g s x) (fun v => [(.list e, v)]) [(.list e, s)] := by
  cases s with
  | nil => exact (tri_growArr (xs := [x]) he (by simp)).pre (Ent.rest _ _)
  | slice a len =>
    refine tri_openList fun xs hlen => ?_
    rw [happend]
    refine tri_read ?_
    rw [happendTo]
    split_ifs with hc
    · have hs : xs.set len x = xs.take len ++ x :: xs.drop (len + 1) := by rw [List.set_eq_take_append_cons_drop]; simp [hc]
      refine Tri.bind ((tri_write (c := .arr xs)).sure (R := (xs.set len x).map (fun x => (e, x))) ?_ (fun _ => Ent.refl _)) fun _ => Tri.pure ?_
      · refine Ent.cons ?_
        rw [hs]
        have h1 : xs.map (fun x => (e, x)) = (xs.take len).map (fun x => (e, x)) ++ (e, xs[len]) :: (xs.drop (len + 1)).map (fun x => (e, x)) := by
          exact map_split e hc
        rw [h1]
        simp only [List.map_append, List.map_cons]
        refine (Ent.perm ?_).trans (Ent.rest (e, xs[len]) _)
        items
      · have := ent_sealList (C := C) (e := e) (a := a) (len := len + 1) (xs := xs.set len x) (by simpa using Nat.succ_le_of_lt hc) []
        simpa using this
    · refine (tri_growArr (xs := xs ++ [x]) he (by simp; omega)).pre ((Ent.rest _ _).trans (Ent.perm ?_))
      simp only [List.map_append, List.map_cons, List.map_nil]
      exact List.Perm.refl _
  | bytes => exact tri_absurd fun h R F ho => nomatch ho
  | num n => exact tri_absurd fun h R F ho => nomatch ho
  | str n => exact tri_absurd fun h R F ho => nomatch ho
  | view => exact tri_absurd fun h R F ho => nomatch ho
  | ptr => exact tri_absurd fun h R F ho => nomatch ho
  | wrapNil => exact tri_absurd fun h R F ho => nomatch ho

theorem tri_makeSlice {n : Nat} {e : Ty} (he : e.nilable = true) {K : List Item} : Tri C [] (hmakeSlice n) (fun v => [(.list e, v)]) K := by
  refine Tri.bind tri_alloc fun a => Tri.pure ?_
  have h1 := (ent_nils (C := C) he n []).cons (x := (.raw (.arr (List.replicate n .nil)), .ptr a))
  exact h1.trans (ent_sealList (by simp) [])

theorem elemTy_nilable (k : Kind) (t : Nat) : (elemTy k t).nilable = true := by cases k <;> rfl

theorem fieldTy_nilable (d : MsgDesc) (f : FieldDesc) : (fieldTy d f).nilable = true := by
  rw [fieldTy]
  split
  · rfl
  · split
    · split <;> rfl
    · split
      · rfl
      · exact elemTy_nilable _ _

theorem slotTy_nilable (d : MsgDesc) (s : Nat) : (slotTy d s).nilable = true := by
  rw [slotTy]
  split
  · exact fieldTy_nilable _ _
  · rfl

/-- The zero values have their types and need no memory. -/
theorem ent_zeroScalar (k : Kind) (t : Nat) (I : List Item) : Ent C I ((elemTy k t, hzeroScalar k) :: I) := by
  intro h F ho
  refine ⟨F, le_rfl, ?_⟩
  cases k <;> first | exact .num ho | exact .str ho | exact .nil rfl ho

theorem ent_zeroField (d : MsgDesc) (f : FieldDesc) (I : List Item) : Ent C I ((fieldTy d f, hzeroField f) :: I) := by
  rw [hzeroField]
  split_ifs with h
  · exact ent_nil (fieldTy_nilable d f)
  · simp only [Bool.or_eq_true, not_or, Bool.not_eq_true] at h
    have : fieldTy d f = elemTy f.kind f.msg := by
      rw [fieldTy]
      simp [h.1.1, h.1.2, h.2]
    rw [this]
    exact ent_zeroScalar _ _ _

theorem ent_zeroSlot (d : MsgDesc) (s : Nat) (I : List Item) : Ent C I ((slotTy d s, hzeroSlot d s) :: I) := by
  rw [slotTy, hzeroSlot]
  cases d.fields.find? (fun f => f.slot == s) with
  | some f => exact ent_zeroField d f I
  | none => exact ent_nil rfl

theorem ent_zeroSlots (d : MsgDesc) (l : List Nat) (I : List Item) : Ent C I ((l.map (slotTy d)).zip (l.map (hzeroSlot d)) ++ I) := by
  induction l with
  | nil => exact Ent.refl _
  | cons s l ih => exact ih.trans (ent_zeroSlot d s _)

theorem ent_zeroCell (t : Nat) (a : Addr) (I : List Item) : Ent C ((.raw (hzeroCell C.S t), .ptr a) :: I) ((.msg t, .ptr a) :: I) := by
  rw [hzeroCell]
  split_ifs with hf
  · intro h F ho
    cases ho with
    | raw hc hI => exact ⟨_, le_rfl, .foreign hf hc hI⟩
  · rw [Bool.not_eq_true] at hf
    have h1 := (ent_zeroSlots (C := C) (C.S.msg t) (List.range (C.S.msg t).nslots) ((.mem, .nil) :: I))
    refine Ent.trans (Ent.cons ((ent_nil (ty := .mem) rfl).trans h1)) ?_
    exact (ent_seal (tys := slotTys (C.S.msg t)) (by simp [slotTys]) I).trans (ent_obj hf _ _)

theorem tri_new {t : Nat} {K : List Item} : Tri C [] (hnew C.S t) (fun v => [(.msg t, v)]) K :=
  Tri.bind tri_alloc fun _ => Tri.pure (ent_zeroCell t _ [])

theorem tri_poolGet {t : Nat} {want : Option Addr} {K : List Item} : Tri C [] (poolGet C.S want t) (fun v => [(.msg t, v)]) K := by
  intro R σ0 F P ho0 hinv0
  have hinv := hinv0.asked want
  have ho := ho0
  rw [← σ0.asked_heap want] at ho
  have hpool := σ0.asked_pool want
  rw [poolGet]
  generalize hσ : σ0.asked want = σ at hinv ho hpool
  rw [← hpool]
  cases σ0.ask want with
  | none => exact tri_new R σ F P ho hinv
  | some a =>
    simp only
    split_ifs with ha
    · have hp : (σ.pool.map fun q => (Ty.msg q.1, HV.ptr q.2)).Perm ((Ty.msg t, HV.ptr a) :: (σ.pool.erase (t, a)).map fun q => (Ty.msg q.1, HV.ptr q.2)) := by
        simpa using (List.perm_cons_erase ha).map fun q => (Ty.msg q.1, HV.ptr q.2)
      obtain ⟨P1, P2, hP, h1, h2⟩ := OwnL.cons_iff.mp (hinv.pool.perm hp)
      refine ⟨P1 + F, P2, ⟨h2, ?_, ?_, hinv.below, ?_, hinv.nofree⟩, fun v hv => ?_, fun hn => absurd rfl (hn _)⟩
      · have := hinv.nodup
        rw [hP] at this
        convert this using 1
        abel
      · intro b hb
        refine hinv.apart b ?_
        rw [hP]
        rcases hb with hb | hb
        · rcases Multiset.mem_add.mp hb with hb | hb
          · exact .inr (Multiset.mem_add.mpr (.inl hb))
          · exact .inl hb
        · exact .inr (Multiset.mem_add.mpr (.inr hb))
      · intro b c hz
        obtain ⟨z1, z2, z3, z4⟩ := hinv.fixed b c hz
        rw [hP] at z3
        refine ⟨z1, fun hb => ?_, fun hb => z3 (Multiset.mem_add.mpr (.inr hb)), z4⟩
        rcases Multiset.mem_add.mp hb with hb | hb
        · exact z3 (Multiset.mem_add.mpr (.inl hb))
        · exact z2 hb
      · cases hv
        exact h1.append (by simpa using ho)
    · exact tri_new R σ F P ho hinv

theorem tri_poolPut {t : Nat} {a : Addr} {K : List Item} : Tri C [(.msg t, .ptr a)] (poolPut t a) (fun _ => []) K := by
  intro R σ F P ho hinv
  obtain ⟨F1, F2, rfl, h1, h2⟩ := OwnL.cons_iff.mp ho
  refine ⟨F2, F1 + P, ⟨?_, ?_, ?_, hinv.below, ?_, hinv.nofree⟩, fun v hv => ?_, fun hn => absurd rfl (hn _)⟩
  · exact h1.append hinv.pool
  · convert hinv.nodup using 1
    abel
  · intro b hb
    refine hinv.apart b ?_
    rcases hb with hb | hb
    · exact .inl (Multiset.mem_add.mpr (.inr hb))
    · rcases Multiset.mem_add.mp hb with hb | hb
      · exact .inl (Multiset.mem_add.mpr (.inl hb))
      · exact .inr hb
  · intro b c hz
    obtain ⟨z1, z2, z3, z4⟩ := hinv.fixed b c hz
    refine ⟨z1, fun hb => z2 (Multiset.mem_add.mpr (.inr hb)), fun hb => ?_, z4⟩
    rcases Multiset.mem_add.mp hb with hb | hb
    · exact z2 (Multiset.mem_add.mpr (.inl hb))
    · exact z3 hb
  · exact h2

/-! ## Maps -/

theorem ent_mapInsert (e : Ty) (k : Key) (v : HV) : ∀ es : List (Key × HV),
    Ent C ((e, v) :: es.map (fun x => (e, x.2))) ((hmapInsert es k v).map (fun x => (e, x.2)))
  | [] => Ent.refl _
  | (k', v') :: es => by
    rw [hmapInsert]
    split_ifs
    · exact Ent.cons (Ent.rest _ _)
    · refine Ent.trans (Ent.perm (List.Perm.swap _ _ _)) ?_
      exact Ent.cons (ent_mapInsert e k v es)

theorem tri_mapPut {s v : HV} {k : Key} {e : Ty} : Tri C [(.map e, s), (e, v)] (hmapPut s k v) (fun _ => [(.map e, s)]) [(.map e, s)] := by
  cases s with
  | ptr a =>
    refine tri_openMap fun es => ?_
    rw [hmapPut]
    refine tri_read ?_
    refine (tri_write (c := .map es)).sure (R := (hmapInsert es k v).map (fun x => (e, x.2))) (Ent.cons ?_) fun _ => ?_
    · exact (Ent.perm (by simp)).trans (ent_mapInsert e k v es)
    · have := ent_sealMap (C := C) (e := e) (a := a) (es := hmapInsert es k v) []
      simpa using this
  | nil => exact Tri.fail (r := .panic .typeConfusion) (fun _ h => nomatch h) (Ent.first _ _)
  | bytes => exact tri_absurd fun h R F ho => nomatch ho
  | num n => exact tri_absurd fun h R F ho => nomatch ho
  | str n => exact tri_absurd fun h R F ho => nomatch ho
  | view => exact tri_absurd fun h R F ho => nomatch ho
  | slice => exact tri_absurd fun h R F ho => nomatch ho
  | wrapNil => exact tri_absurd fun h R F ho => nomatch ho

/-! ## Oneofs -/

/-- What is known after looking at the dynamic type of a oneof. -/
def holdsItems (d : MsgDesc) (slot n : Nat) (e : Ty) (s : HV) : Option HV → List Item
  | none => [(.oneof d slot, s)]
  | some .nil => [(.oneof d slot, s)]
  | some w => [(.is s, w), (.wrap n e, w)]

theorem tri_holds {d : MsgDesc} {slot n : Nat} {f : FieldDesc} {s : HV} (hm : d.member slot n = some f) :
    Tri C [(.oneof d slot, s)] (hholds s n) (holdsItems d slot n (elemTy f.kind f.msg) s) [(.oneof d slot, s)] := by
  cases s with
  | nil => exact Tri.pure (Ent.refl _)
  | wrapNil n' =>
    rw [hholds]
    split_ifs
    · exact Tri.pure (Ent.refl _)
    · exact Tri.pure (Ent.refl _)
  | ptr a =>
    intro R σ F P ho hinv
    cases ho with
    | oneof hc hm' hI =>
      rename_i n' f' v F0
      rw [hholds, HM.bind_ok (hread_ok hc)]
      refine ⟨_, P, hinv, fun o hb => ?_, fun hn => absurd rfl (hn _)⟩
      cases hb
      split_ifs with hn
      · subst hn
        rw [hm] at hm'
        cases hm'
        exact .is (.wrap hc hI)
      · exact .oneof hc hm' hI
  | bytes => exact tri_absurd fun h R F ho => nomatch ho
  | num n => exact tri_absurd fun h R F ho => nomatch ho
  | str n => exact tri_absurd fun h R F ho => nomatch ho
  | view => exact tri_absurd fun h R F ho => nomatch ho
  | slice => exact tri_absurd fun h R F ho => nomatch ho

theorem tri_member {n : Nat} {e : Ty} {w : HV} :
    Tri C [(.wrap n e, w)] (hmember w) (fun x => [(.wrap n (.is x), w), (e, x)]) [(.wrap n e, w)] := by
  cases w with
  | nil => exact Tri.fail (r := .panic .nilDeref) (fun _ h => nomatch h) (Ent.refl _)
  | ptr a =>
    refine tri_openWrap fun v => ?_
    rw [hmember]
    refine tri_read ?_
    refine Tri.pure ?_
    refine (ent_addIs (v := v)).trans ((Ent.perm (List.Perm.swap _ _ _)).trans (ent_sealWrap _))
  | bytes => exact tri_absurd fun h R F ho => nomatch ho
  | num n => exact tri_absurd fun h R F ho => nomatch ho
  | str n => exact tri_absurd fun h R F ho => nomatch ho
  | view => exact tri_absurd fun h R F ho => nomatch ho
  | slice => exact tri_absurd fun h R F ho => nomatch ho
  | wrapNil => exact tri_absurd fun h R F ho => nomatch ho

theorem ent_closeWrap {n : Nat} {e : Ty} {w x : HV} : Ent C [(.wrap n (.is x), w), (e, x)] [(.wrap n e, w)] := by
  intro h F ho
  cases ho with
  | nil _ _ => exact ⟨0, Multiset.zero_le _, .nil rfl .done⟩
  | wrap hc hI =>
    cases hI with
    | nil ht _ => simp [Ty.nilable] at ht
    | is hI => exact ⟨_, le_rfl, .wrap hc hI⟩

theorem ent_wrapOneof {d : MsgDesc} {slot n : Nat} {f : FieldDesc} {w : HV} (hm : d.member slot n = some f) :
    Ent C [(.wrap n (elemTy f.kind f.msg), w)] [(.oneof d slot, w)] := by
  intro h F ho
  cases ho with
  | nil _ _ => exact ⟨0, Multiset.zero_le _, .nil rfl .done⟩
  | wrap hc hI => exact ⟨_, le_rfl, .oneof hc hm hI⟩

theorem tri_allocWrap {d : MsgDesc} {slot n : Nat} {f : FieldDesc} {v : HV} {K : List Item} (hm : d.member slot n = some f) :
    Tri C [(elemTy f.kind f.msg, v)] (halloc (.wrap n v)) (fun a => [(.oneof d slot, .ptr a)]) K :=
  Tri.alloc (val := .ptr) fun _ _ _ _ hc ho => .oneof hc hm ho

theorem tri_allocBox {v : HV} {K : List Item} : Tri C [(.flat, v)] (halloc (.box v)) (fun a => [(.box, .ptr a)]) K :=
  Tri.alloc (val := .ptr) fun _ _ _ _ hc ho => .box hc ho

/-! ## Elements beyond the length -/

/-- The length of a slice. -/
def HV.len : HV → Nat
  | .slice _ len => len
  | _ => 0

/-- What is known after looking at the element beyond the length. -/
def spareItems (e : Ty) (s : HV) : Option HV → List Item
  | none => [(.list e, s)]
  | some v => [(.hole e s.len v, s), (e, v)]

theorem tri_spare {s : HV} {e : Ty} : Tri C [(.list e, s)] (hspare s) (spareItems e s) [(.list e, s)] := by
  cases s with
  | nil => exact Tri.pure (Ent.refl _)
  | slice a len =>
    intro R σ F P ho hinv
    cases ho with
    | list hc hl hI =>
      rename_i xs F0
      rw [hspare, HM.bind_ok (hread_ok hc)]
      refine ⟨_, P, hinv, fun o hb => ?_, fun hn => absurd rfl (hn _)⟩
      cases hb
      cases hx : xs[len]? with
      | none => exact .list hc hl hI
      | some v =>
        obtain ⟨hlt, hv⟩ := List.getElem?_eq_some_iff.mp hx
        show OwnL _ _ _ ((.hole e len v, .slice a len) :: (e, v) :: R) _
        refine .hole hc hl hx (hI.perm ?_)
        rw [List.eraseIdx_eq_take_drop_succ]
        have h2 : xs.map (fun x => (e, x)) = (xs.take len).map (fun x => (e, x)) ++ (e, xs[len]) :: (xs.drop (len + 1)).map (fun x => (e, x)) := by
          exact map_split e hlt
        rw [h2, hv, List.map_append]
        items
  | bytes => exact tri_absurd fun h R F ho => nomatch ho
  | num n => exact tri_absurd fun h R F ho => nomatch ho
  | str n => exact tri_absurd fun h R F ho => nomatch ho
  | view => exact tri_absurd fun h R F ho => nomatch ho
  | ptr => exact tri_absurd fun h R F ho => nomatch ho
  | wrapNil => exact tri_absurd fun h R F ho => nomatch ho

theorem ent_closeHole {e : Ty} {i : Nat} {v s : HV} : Ent C [(.hole e i v, s), (e, v)] [(.list e, s)] := by
  intro h F ho
  cases ho with
  | nil _ _ => exact ⟨0, Multiset.zero_le _, .nil rfl .done⟩
  | hole hc hl hi hI =>
    rename_i a len xs F0
    refine ⟨_, le_rfl, .list hc hl (hI.perm ?_)⟩
    obtain ⟨hlt, hv⟩ := List.getElem?_eq_some_iff.mp hi
    rw [List.eraseIdx_eq_take_drop_succ]
    have h2 : xs.map (fun x => (e, x)) = (xs.take i).map (fun x => (e, x)) ++ (e, xs[i]) :: (xs.drop (i + 1)).map (fun x => (e, x)) := by
      exact map_split e hlt
    rw [h2, hv, List.map_append]
    items

theorem ent_longer {e : Ty} {v s : HV} : Ent C [(.hole e s.len v, s)] [(.hole e s.len v, s.longer)] := by
  intro h F ho
  cases s with
  | slice a len =>
    cases ho with
    | hole hc hl hi hI =>
      have := (List.getElem?_eq_some_iff.mp hi).1
      exact ⟨_, le_rfl, .hole hc this hi hI⟩
  | nil => exact ⟨F, le_rfl, ho⟩
  | num => exact ⟨F, le_rfl, ho⟩
  | str => exact ⟨F, le_rfl, ho⟩
  | view => exact ⟨F, le_rfl, ho⟩
  | bytes => exact ⟨F, le_rfl, ho⟩
  | ptr => exact ⟨F, le_rfl, ho⟩
  | wrapNil => exact ⟨F, le_rfl, ho⟩

theorem tri_lenCap {s : HV} {e : Ty} : Tri C [(.list e, s)] (hlenCap s) (fun _ => [(.list e, s)]) [(.list e, s)] := by
  cases s with
  | nil => exact Tri.pure (Ent.refl _)
  | slice a len =>
    intro R σ F P ho hinv
    cases ho with
    | list hc hl hI =>
      rw [hlenCap, HM.bind_ok (hread_ok hc)]
      exact ⟨_, P, hinv, fun o hb => .list hc hl hI, fun hn => absurd rfl (hn _)⟩
  | bytes => exact tri_absurd fun h R F ho => nomatch ho
  | num n => exact tri_absurd fun h R F ho => nomatch ho
  | str n => exact tri_absurd fun h R F ho => nomatch ho
  | view => exact tri_absurd fun h R F ho => nomatch ho
  | ptr => exact tri_absurd fun h R F ho => nomatch ho
  | wrapNil => exact tri_absurd fun h R F ho => nomatch ho

/-! ## Unknown fields -/

theorem tri_appendUnknown {E : HEnv} {tys : List Ty} {p : HV} {b : Bytes} :
    Tri C [(.obj tys, p)] (happendUnknown E p b) (fun _ => [(.obj tys, p)]) [(.obj tys, p)] := by
  cases p with
  | nil => exact Tri.fail (r := .panic .nilDeref) (fun _ h => nomatch h) (Ent.refl _)
  | ptr a =>
    refine tri_open fun slots u e hl => ?_
    rw [happendUnknown]
    refine tri_read ?_
    refine Tri.bind (tri_appendMem.use (R := (.raw (.msg slots u e), .ptr a) :: tys.zip slots) (Ent.perm (by items)) (fun _ => Ent.refl _) ?_) fun u' => ?_
    · refine (Ent.perm (J := (.raw (.msg slots u e), .ptr a) :: (tys.zip slots ++ [(.mem, u)])) ?_).trans (ent_seal hl [])
      items
    · refine Tri.pre (I := (.raw (.msg slots u e), .ptr a) :: (tys.zip slots ++ [(.mem, u')])) ?_ (Ent.perm (by items))
      refine tri_read ?_
      exact (tri_write (c := .msg slots u e)).sure (R := tys.zip slots ++ [(.mem, u')]) (Ent.refl _) fun _ => ent_seal hl []
  | bytes => exact tri_absurd fun h R F ho => nomatch ho
  | num n => exact tri_absurd fun h R F ho => nomatch ho
  | str n => exact tri_absurd fun h R F ho => nomatch ho
  | view => exact tri_absurd fun h R F ho => nomatch ho
  | slice => exact tri_absurd fun h R F ho => nomatch ho
  | wrapNil => exact tri_absurd fun h R F ho => nomatch ho

end

end Vtp
