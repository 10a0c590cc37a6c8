import Verif.Lemmas.ConcPrim
import Verif.Lemmas.HeapOps
/-! # Triples for slices, maps, pools -/

namespace Vtp.Conc
open Spec

section
variable {C : Ctx}

theorem tri_copyBytes {b : Bytes} {K : List Item} {ty : Ty} (ht : ty = .bytes ∨ ty = .mem) : Tri C [] (hcopyBytes b) (fun v => [(ty, v)]) K := by
  refine Tri.bind (tri_alloc (c := .bytes b)) fun a => Tri.pure fun h F ho => ?_
  cases ho with
  | raw hc hI =>
    rcases ht with rfl | rfl
    · exact ⟨_, le_rfl, .bytes hc hI⟩
    · exact ⟨_, le_rfl, .mem hc hI⟩

theorem tri_growBytes {g : Growth} {b : Bytes} {K : List Item} {ty : Ty} (ht : ty = .bytes ∨ ty = .mem) :
    Tri C [] (hgrowBytes g b) (fun v => [(ty, v)]) K := by
  refine Tri.bind (J := fun a => [(ty, .bytes a 0 b.length)]) (Tri.allocBy (val := fun a => .bytes a 0 b.length) fun h a F R hc ho => ?_) fun a => Tri.pure (Ent.refl _)
  rcases ht with rfl | rfl
  · exact .bytes hc ho
  · exact .mem hc ho

/-- Opening bytes that are owned. -/
theorem tri_openMem {α : Type} {a off len : Nat} {I : List Item} {x : Prog α} {J : α → List Item} {K : List Item}
    (h : ∀ c, Tri C ((.raw (.bytes c), .ptr a) :: I) x J K) : Tri C ((.mem, .bytes a off len) :: I) x J K := by
  intro R σ F ho hinv
  cases ho with
  | mem hc hI => exact h _ R σ _ (.raw hc hI) hinv

/-- Appending to bytes that are owned. -/
theorem tri_appendOwned {g : Growth} {a off len n : Nat} {c b : Bytes} {ty : Ty} (ht : ty = .bytes ∨ ty = .mem) {K : List Item} :
    Tri C [(.raw (.bytes c), .ptr a)] (happendBytes g (.bytes a off len) n b) (fun v => [(ty, v)]) K := by
  rw [happendBytes]
  refine tri_read ?_
  dsimp only
  split_ifs
  · exact Tri.bind tri_write fun _ => Tri.pure (ent_sealBytes ht [])
  · exact (tri_growBytes ht).pre (Ent.empty _)

theorem tri_appendMem {g : Growth} {s : HV} {n : Nat} {b : Bytes} :
    Tri C [(.mem, s)] (happendBytes g s n b) (fun v => [(.mem, v)]) [(.mem, s)] := by
  cases s with
  | nil =>
    rw [happendBytes]
    split_ifs
    · exact Tri.pure (Ent.refl _)
    · exact (tri_growBytes (.inr rfl)).pre (Ent.empty _)
  | bytes a off len => exact tri_openMem fun c => tri_appendOwned (.inr rfl)
  | num n => exact tri_absurd fun h R F ho => nomatch ho
  | str n => exact tri_absurd fun h R F ho => nomatch ho
  | view => exact tri_absurd fun h R F ho => nomatch ho
  | slice => exact tri_absurd fun h R F ho => nomatch ho
  | ptr => exact tri_absurd fun h R F ho => nomatch ho
  | wrapNil => exact tri_absurd fun h R F ho => nomatch ho

theorem tri_appendBytes {g : Growth} {s : HV} {n : Nat} {b : Bytes} :
    Tri C [(.bytes, s)] (happendBytes g s n b) (fun v => [(.bytes, v)]) [(.bytes, s)] := by
  cases s with
  | nil =>
    rw [happendBytes]
    split_ifs
    · exact Tri.pure (Ent.refl _)
    · exact (tri_growBytes (.inl rfl)).pre (Ent.empty _)
  | bytes a off len =>
    intro R σ F ho hinv
    cases ho with
    | bytes hc hI => exact tri_appendOwned (ty := .bytes) (.inl rfl) R σ _ (.raw hc hI) hinv
    | lent ha hI => exact absurd ha (hinv.nolent a)
  | num n => exact tri_absurd fun h R F ho => nomatch ho
  | str n => exact tri_absurd fun h R F ho => nomatch ho
  | view => exact tri_absurd fun h R F ho => nomatch ho
  | slice => exact tri_absurd fun h R F ho => nomatch ho
  | ptr => exact tri_absurd fun h R F ho => nomatch ho
  | wrapNil => exact tri_absurd fun h R F ho => nomatch ho

theorem tri_growArr {g : Growth} {xs : List HV} {len : Nat} {e : Ty} (he : e.nilable = true) (hl : len ≤ xs.length) {K : List Item} :
    Tri C (xs.map fun x => (e, x)) (hgrowArr g xs len) (fun v => [(.list e, v)]) K := by
  refine Tri.bind (J := fun a => [(.list e, .slice a len)]) (Tri.allocBy (val := fun a => .slice a len) fun h a F R hc ho => ?_) fun a => Tri.pure (Ent.refl _)
  have hn : ∀ n (J : List Item), OwnL C.S C.B h J F → OwnL C.S C.B h ((List.replicate n HV.nil).map (fun x => (e, x)) ++ J) F := by
    intro n J hJ
    induction n with
    | zero => exact hJ
    | succ n ih => exact .nil he ih
  refine .list hc (by simp; omega) (OwnL.perm ?_ (hn (g a) _ ho))
  simp only [List.map_append]
  items

theorem tri_append {g : Growth} {s x : HV} {e : Ty} (he : e.nilable = true) :
    Tri C [(.list e, s), (e, x)] (happend g s x) (fun v => [(.list e, v)]) [(.list e, s)] := by
  cases s with
  | nil => exact (tri_growArr (xs := [x]) he (by simp)).pre (Ent.rest _ _)
  | slice a len =>
    refine tri_openList fun xs hlen => ?_
    rw [happend]
    refine tri_read ?_
    rw [happendTo]
    split_ifs with hc
    · have hs : xs.set len x = xs.take len ++ x :: xs.drop (len + 1) := by rw [List.set_eq_take_append_cons_drop]; simp [hc]
      refine Tri.bind ((tri_write (c := .arr xs)).sure (R := (xs.set len x).map (fun x => (e, x))) ?_ (fun _ => Ent.refl _)) fun _ => Tri.pure ?_
      · refine Ent.cons ?_
        rw [hs]
        have h1 : xs.map (fun x => (e, x)) = (xs.take len).map (fun x => (e, x)) ++ (e, xs[len]) :: (xs.drop (len + 1)).map (fun x => (e, x)) := by
          exact map_split e hc
        rw [h1]
        simp only [List.map_append, List.map_cons]
        refine (Ent.perm ?_).trans (Ent.rest (e, xs[len]) _)
        items
      · have := ent_sealList (C := C) (e := e) (a := a) (len := len + 1) (xs := xs.set len x) (by simpa using Nat.succ_le_of_lt hc) []
        simpa using this
    · refine (tri_growArr (xs := xs ++ [x]) he (by simp; omega)).pre ((Ent.rest _ _).trans (Ent.perm ?_))
      simp only [List.map_append, List.map_cons, List.map_nil]
      exact List.Perm.refl _
  | bytes => exact tri_absurd fun h R F ho => nomatch ho
  | num n => exact tri_absurd fun h R F ho => nomatch ho
  | str n => exact tri_absurd fun h R F ho => nomatch ho
  | view => exact tri_absurd fun h R F ho => nomatch ho
  | ptr => exact tri_absurd fun h R F ho => nomatch ho
  | wrapNil => exact tri_absurd fun h R F ho => nomatch ho

theorem tri_makeSlice {n : Nat} {e : Ty} (he : e.nilable = true) {K : List Item} : Tri C [] (hmakeSlice n) (fun v => [(.list e, v)]) K := by
  refine Tri.bind tri_alloc fun a => Tri.pure ?_
  have h1 := (ent_nils (C := C) he n []).cons (x := (.raw (.arr (List.replicate n .nil)), .ptr a))
  exact h1.trans (ent_sealList (by simp) [])

theorem tri_new {t : Nat} {K : List Item} : Tri C [] (hnew C.S t) (fun v => [(.msg t, v)]) K :=
  Tri.bind tri_alloc fun _ => Tri.pure (ent_zeroCell t _ [])

theorem tri_poolGet (hk : ¬ C.lock) {t : Nat} {want : Option Addr} {K : List Item} : Tri C [] (poolGet C.S want t) (fun v => [(.msg t, v)]) K := by
  intro R σ F ho hinv h' h1 h2
  refine ⟨hk, tri_new R h' F (h1.own ho) h2, fun a G hG hi => safe_pure (a := HV.ptr a) ?_⟩
  exact hG.append (by simpa using h1.own ho)

theorem tri_poolPut (hk : C.lock) {t : Nat} {a : Addr} {K : List Item} : Tri C [(.msg t, .ptr a)] (poolPut t a) (fun _ => []) K := by
  intro R σ F ho hinv h' h1 h2
  obtain ⟨F1, F2, rfl, o1, o2⟩ := OwnL.cons_iff.mp (h1.own ho)
  exact ⟨hk, F1, F2, rfl, o1, safe_pure o2⟩

/-! ## Maps -/

theorem tri_mapPut {s v : HV} {k : Key} {e : Ty} : Tri C [(.map e, s), (e, v)] (hmapPut s k v) (fun _ => [(.map e, s)]) [(.map e, s)] := by
  cases s with
  | ptr a =>
    refine tri_openMap fun es => ?_
    rw [hmapPut]
    refine tri_read ?_
    refine (tri_write (c := .map es)).sure (R := (hmapInsert es k v).map (fun x => (e, x.2))) (Ent.cons ?_) fun _ => ?_
    · exact (Ent.perm (by simp)).trans (ent_mapInsert e k v es)
    · have := ent_sealMap (C := C) (e := e) (a := a) (es := hmapInsert es k v) []
      simpa using this
  | nil => exact Tri.fail (r := .panic .typeConfusion) (fun _ h => nomatch h) (Ent.first _ _)
  | bytes => exact tri_absurd fun h R F ho => nomatch ho
  | num n => exact tri_absurd fun h R F ho => nomatch ho
  | str n => exact tri_absurd fun h R F ho => nomatch ho
  | view => exact tri_absurd fun h R F ho => nomatch ho
  | slice => exact tri_absurd fun h R F ho => nomatch ho
  | wrapNil => exact tri_absurd fun h R F ho => nomatch ho

/-! ## Oneofs -/

theorem tri_holds {d : MsgDesc} {slot n : Nat} {f : FieldDesc} {s : HV} (hm : d.member slot n = some f) :
    Tri C [(.oneof d slot, s)] (hholds s n) (holdsItems d slot n (elemTy f.kind f.msg) s) [(.oneof d slot, s)] := by
  cases s with
  | nil => exact Tri.pure (Ent.refl _)
  | wrapNil n' =>
    rw [hholds]
    split_ifs
    · exact Tri.pure (Ent.refl _)
    · exact Tri.pure (Ent.refl _)
  | ptr a =>
    intro R σ F ho hinv
    cases ho with
    | oneof hc hm' hI =>
      rename_i n' f' v F0
      rw [hholds]
      refine safe_read hc (Multiset.mem_cons_self _ _) (safe_pure ?_)
      split_ifs with hn
      · subst hn
        rw [hm] at hm'
        cases hm'
        exact .is (.wrap hc hI)
      · exact .oneof hc hm' hI
  | bytes => exact tri_absurd fun h R F ho => nomatch ho
  | num n => exact tri_absurd fun h R F ho => nomatch ho
  | str n => exact tri_absurd fun h R F ho => nomatch ho
  | view => exact tri_absurd fun h R F ho => nomatch ho
  | slice => exact tri_absurd fun h R F ho => nomatch ho

theorem tri_member {n : Nat} {e : Ty} {w : HV} :
    Tri C [(.wrap n e, w)] (hmember w) (fun x => [(.wrap n (.is x), w), (e, x)]) [(.wrap n e, w)] := by
  cases w with
  | nil => exact Tri.fail (r := .panic .nilDeref) (fun _ h => nomatch h) (Ent.refl _)
  | ptr a =>
    refine tri_openWrap fun v => ?_
    rw [hmember]
    refine tri_read ?_
    refine Tri.pure ?_
    refine (ent_addIs (v := v)).trans ((Ent.perm (List.Perm.swap _ _ _)).trans (ent_sealWrap _))
  | bytes => exact tri_absurd fun h R F ho => nomatch ho
  | num n => exact tri_absurd fun h R F ho => nomatch ho
  | str n => exact tri_absurd fun h R F ho => nomatch ho
  | view => exact tri_absurd fun h R F ho => nomatch ho
  | slice => exact tri_absurd fun h R F ho => nomatch ho
  | wrapNil => exact tri_absurd fun h R F ho => nomatch ho

theorem tri_allocWrap {d : MsgDesc} {slot n : Nat} {f : FieldDesc} {v : HV} {K : List Item} (hm : d.member slot n = some f) :
    Tri C [(elemTy f.kind f.msg, v)] (halloc (.wrap n v)) (fun a => [(.oneof d slot, .ptr a)]) K :=
  Tri.alloc (val := .ptr) fun _ _ _ _ hc ho => .oneof hc hm ho

theorem tri_allocBox {v : HV} {K : List Item} : Tri C [(.flat, v)] (halloc (.box v)) (fun a => [(.box, .ptr a)]) K :=
  Tri.alloc (val := .ptr) fun _ _ _ _ hc ho => .box hc ho

/-! ## Elements beyond the length -/

theorem tri_spare {s : HV} {e : Ty} : Tri C [(.list e, s)] (hspare s) (spareItems e s) [(.list e, s)] := by
  cases s with
  | nil => exact Tri.pure (Ent.refl _)
  | slice a len =>
    intro R σ F ho hinv
    cases ho with
    | list hc hl hI =>
      rename_i xs F0
      rw [hspare]
      refine safe_read hc (Multiset.mem_cons_self _ _) (safe_pure ?_)
      cases hx : xs[len]? with
      | none => exact .list hc hl hI
      | some v =>
        obtain ⟨hlt, hv⟩ := List.getElem?_eq_some_iff.mp hx
        show OwnL _ _ _ ((.hole e len v, .slice a len) :: (e, v) :: R) _
        refine .hole hc hl hx (hI.perm ?_)
        rw [List.eraseIdx_eq_take_drop_succ]
        have h2 : xs.map (fun x => (e, x)) = (xs.take len).map (fun x => (e, x)) ++ (e, xs[len]) :: (xs.drop (len + 1)).map (fun x => (e, x)) := by
          exact map_split e hlt
        rw [h2, hv, List.map_append]
        items
  | bytes => exact tri_absurd fun h R F ho => nomatch ho
  | num n => exact tri_absurd fun h R F ho => nomatch ho
  | str n => exact tri_absurd fun h R F ho => nomatch ho
  | view => exact tri_absurd fun h R F ho => nomatch ho
  | ptr => exact tri_absurd fun h R F ho => nomatch ho
  | wrapNil => exact tri_absurd fun h R F ho => nomatch ho

theorem tri_lenCap {s : HV} {e : Ty} : Tri C [(.list e, s)] (hlenCap s) (fun _ => [(.list e, s)]) [(.list e, s)] := by
  cases s with
  | nil => exact Tri.pure (Ent.refl _)
  | slice a len =>
    intro R σ F ho hinv
    cases ho with
    | list hc hl hI =>
      rw [hlenCap]
      exact safe_read hc (Multiset.mem_cons_self _ _) (safe_pure (.list hc hl hI))
  | bytes => exact tri_absurd fun h R F ho => nomatch ho
  | num n => exact tri_absurd fun h R F ho => nomatch ho
  | str n => exact tri_absurd fun h R F ho => nomatch ho
  | view => exact tri_absurd fun h R F ho => nomatch ho
  | ptr => exact tri_absurd fun h R F ho => nomatch ho
  | wrapNil => exact tri_absurd fun h R F ho => nomatch ho

/-! ## Unknown fields -/

theorem tri_appendUnknown {E : HEnv} {tys : List Ty} {p : HV} {b : Bytes} :
    Tri C [(.obj tys, p)] (happendUnknown E p b) (fun _ => [(.obj tys, p)]) [(.obj tys, p)] := by
  cases p with
  | nil => exact Tri.fail (r := .panic .nilDeref) (fun _ h => nomatch h) (Ent.refl _)
  | ptr a =>
    refine tri_open fun slots u e hl => ?_
    rw [happendUnknown]
    refine tri_read ?_
    refine Tri.bind (tri_appendMem.use (R := (.raw (.msg slots u e), .ptr a) :: tys.zip slots) (Ent.perm (by items)) (fun _ => Ent.refl _) ?_) fun u' => ?_
    · refine (Ent.perm (J := (.raw (.msg slots u e), .ptr a) :: (tys.zip slots ++ [(.mem, u)])) ?_).trans (ent_seal hl [])
      items
    · refine Tri.pre (I := (.raw (.msg slots u e), .ptr a) :: (tys.zip slots ++ [(.mem, u')])) ?_ (Ent.perm (by items))
      refine tri_read ?_
      exact (tri_write (c := .msg slots u e)).sure (R := tys.zip slots ++ [(.mem, u')]) (Ent.refl _) fun _ => ent_seal hl []
  | bytes => exact tri_absurd fun h R F ho => nomatch ho
  | num n => exact tri_absurd fun h R F ho => nomatch ho
  | str n => exact tri_absurd fun h R F ho => nomatch ho
  | view => exact tri_absurd fun h R F ho => nomatch ho
  | slice => exact tri_absurd fun h R F ho => nomatch ho
  | wrapNil => exact tri_absurd fun h R F ho => nomatch ho

end

end Vtp.Conc
