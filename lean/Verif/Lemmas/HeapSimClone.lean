import Verif.Lemmas.HeapPoolSim
import Verif.Lemmas.HeapClone
import Verif.Lemmas.HeapFuel
import Verif.Lemmas.HeapSimLoop
/-! # `CloneVT` on memory gives what it gives on values -/

namespace Vtp
open Spec

section
variable {S : Schema} {B : Bufs} {σ : HState} {R : List VItem}

theorem perm_front {x : VItem} (h : x ∈ R) : ∃ R', R.Perm (x :: R') := by
  obtain ⟨A, D, rfl⟩ := List.append_of_mem h
  exact ⟨A ++ D, List.perm_middle⟩

theorem Spec.HoldsPool.readAt {c : Cell} {a : Addr} (h : HoldsPool S B σ R) (hm : rawItem c a ∈ R) : σ.heap[a]? = some c := by
  obtain ⟨R', hp⟩ := perm_front hm
  exact (h.perm hp).read

/-- Numbers and strings can be used twice. -/
theorem Spec.HoldsPool.dupFlat {x : HV} {v : Val} (h : HoldsPool S B σ R) (hm : (Ty.flat, x, v) ∈ R) : HoldsPool S B σ ((.flat, x, v) :: R) := by
  obtain ⟨R', hp⟩ := perm_front hm
  refine h.mapAll fun P h => ?_
  have h1 := h.perm (hp.append_right P)
  refine Holds.perm (I := (.flat, x, v) :: (.flat, x, v) :: (R' ++ P)) ?_ (List.Perm.cons _ (hp.append_right P).symm)
  refine h1.map fun F hF => ⟨F, le_rfl, ?_⟩
  cases hF with
  | nil ht hI => exact .nil ht (.nil ht hI)
  | num hI => exact .num (.num hI)
  | str hI => exact .str (.str hI)
  | view ha hI => exact .view ha (.view ha hI)

theorem Spec.HoldsPool.dupFlats : ∀ {xs : List (HV × Val)}, HoldsPool S B σ R → (∀ x ∈ xs, (Ty.flat, x) ∈ R) →
    HoldsPool S B σ (xs.map (fun x => (.flat, x)) ++ R)
  | [], h, _ => h
  | x :: xs, h, hm => by
    have h1 := Spec.HoldsPool.dupFlats (xs := xs) h fun y hy => hm y (.tail _ hy)
    exact h1.dupFlat (List.mem_append_right _ (hm x (.head _)))

theorem Spec.HoldsPool.addNil {ty : Ty} (ht : ty.nilable = true) (h : HoldsPool S B σ R) : HoldsPool S B σ ((ty, .nil, .nil) :: R) :=
  h.mapAll fun _ h => h.addNil ht

theorem Spec.HoldsPool.isNil {ty : Ty} {x : HV} {v : Val} (hty : ∀ c, ty ≠ .raw c) (h : HoldsPool S B σ R) (hm : (ty, x, v) ∈ R) : x.isNil = v.isNil := by
  obtain ⟨R', hp⟩ := perm_front hm
  obtain ⟨L, -, -, h3⟩ := h
  exact Holds.isNil hty (h3.perm (hp.append_right _))

/-- What is in a byte slice. -/
theorem readBytes_sim {ty : Ty} {s : HV} {v : Val} (hB : B.Live) (ht : ty = .bytes ∨ ty = .mem) (h : HoldsPool S B σ R) (hm : (ty, s, v) ∈ R) :
    hreadBytes s σ = (σ, .ok v.bytes) := by
  obtain ⟨R', hp⟩ := perm_front hm
  obtain ⟨L, -, -, F, hF, hg⟩ := h
  obtain ⟨F', hF', -⟩ : Holds S B σ ((ty, s, v) :: (R' ++ L.map fun q => (.msg q.1, .ptr q.2.1, q.2.2))) :=
    Holds.perm ⟨F, hF, hg⟩ (hp.append_right _)
  rcases ht with rfl | rfl <;> cases hF' <;> rw [hreadBytes.eq_def] <;> first | rfl | skip
  · rename_i ha _ hI
    simp only
    rw [HM.bind_ok (hread_ok (hg.fixed _ _ ha))]
    rw [hB _ _ ha]
    rfl
  · rename_i hc _ _
    simp only
    rw [HM.bind_ok (hread_ok hc)]
    rfl
  · rename_i hc _ _
    simp only
    rw [HM.bind_ok (hread_ok hc)]
    rfl

theorem Spec.HoldsPool.openMap {e : Ty} {s : HV} {v : Val} (h : HoldsPool S B σ R) (hm : (Ty.map e, s, v) ∈ R) :
    (s = .nil ∧ v = .nil) ∨ ∃ (a : Addr) (es : List (Key × HV × Val)) (R' : List VItem), s = .ptr a ∧ v = .map (es.map fun q => (q.1, q.2.2)) ∧
      R.Perm ((.map e, s, v) :: R') ∧ HoldsPool S B σ (rawItem (.map (es.map fun q => (q.1, q.2.1))) a :: (es.map (fun q => (e, q.2)) ++ R')) := by
  obtain ⟨R', hp⟩ := perm_front hm
  obtain ⟨L, h1, h2, h3⟩ := h
  rcases (h3.perm (hp.append_right _)).openMap with ⟨rfl, rfl, -⟩ | ⟨a, es, rfl, rfl, h4⟩
  · exact .inl ⟨rfl, rfl⟩
  · exact .inr ⟨a, es, R', rfl, rfl, hp, L, h1, h2, by simpa [List.append_assoc] using h4⟩

theorem Spec.HoldsPool.openList {e : Ty} {s : HV} {v : Val} (h : HoldsPool S B σ R) (hm : (Ty.list e, s, v) ∈ R) :
    (s = .nil ∧ v = .nil) ∨ ∃ (a len : Nat) (xs : List (HV × Val)) (sp : List Val) (R' : List VItem), s = .slice a len ∧
      v = .list ((xs.map (·.2)).take len) sp ∧ len ≤ xs.length ∧ SpareRep e ((xs.map (·.2)).drop len) sp ∧ R.Perm ((.list e, s, v) :: R') ∧
      HoldsPool S B σ (rawItem (.arr (xs.map (·.1))) a :: (xs.map (fun x => (e, x)) ++ R')) := by
  obtain ⟨R', hp⟩ := perm_front hm
  obtain ⟨L, h1, h2, h3⟩ := h
  rcases (h3.perm (hp.append_right _)).openList with ⟨rfl, rfl, -⟩ | ⟨a, len, xs, sp, rfl, rfl, hl, hs, h4⟩
  · exact .inl ⟨rfl, rfl⟩
  · exact .inr ⟨a, len, xs, sp, R', rfl, rfl, hl, hs, hp, L, h1, h2, by simpa [List.append_assoc] using h4⟩

theorem Spec.HoldsPool.openOneof {d : MsgDesc} {slot : Nat} {s : HV} {v : Val} (h : HoldsPool S B σ R) (hm : (Ty.oneof d slot, s, v) ∈ R) :
    (s = .nil ∧ v = .nil) ∨ (∃ n, s = .wrapNil n ∧ v = .wrapNil n) ∨ ∃ a n g x w R', s = .ptr a ∧ v = .wrap n w ∧ d.member slot n = some g ∧
      R.Perm ((.oneof d slot, s, v) :: R') ∧ HoldsPool S B σ (rawItem (.wrap n x) a :: (elemTy g.kind g.msg, x, w) :: R') := by
  obtain ⟨R', hp⟩ := perm_front hm
  obtain ⟨L, h1, h2, h3⟩ := h
  rcases (h3.perm (hp.append_right _)).openOneof with ⟨rfl, rfl⟩ | ⟨n, rfl, rfl⟩ | ⟨a, n, g, x, w, rfl, rfl, hg, h4⟩
  · exact .inl ⟨rfl, rfl⟩
  · exact .inr (.inl ⟨n, rfl, rfl⟩)
  · exact .inr (.inr ⟨a, n, g, x, w, R', rfl, rfl, hg, hp, L, h1, h2, h4⟩)

theorem Spec.HoldsPool.openMsg {t : Nat} {s : HV} {v : Val} (h : HoldsPool S B σ R) (hf : (S.msg t).foreign = false) (hm : (Ty.msg t, s, v) ∈ R) :
    (s = .nil ∧ v = .nil) ∨ ∃ (a : Addr) (its : List VItem) (u : HV) (uv : Val) (e : Bytes) (R' : List VItem), s = .ptr a ∧ v = .msg (its.map (·.2.2)) uv.bytes e ∧
      its.map (·.1) = slotTys (S.msg t) ∧ R.Perm ((.msg t, s, v) :: R') ∧
      HoldsPool S B σ (rawItem (.msg (its.map (·.2.1)) u e) a :: (its ++ (.mem, u, uv) :: R')) := by
  obtain ⟨R', hp⟩ := perm_front hm
  obtain ⟨L, h1, h2, h3⟩ := h
  rcases (h3.perm (hp.append_right _)).openMsg hf with ⟨rfl, rfl, -⟩ | ⟨a, its, u, uv, e, rfl, rfl, ht, h4⟩
  · exact .inl ⟨rfl, rfl⟩
  · exact .inr ⟨a, its, u, uv, e, R', rfl, rfl, ht, hp, L, h1, h2, by simpa [List.append_assoc] using h4⟩

theorem Spec.HoldsPool.openForeign {t : Nat} {s : HV} {v : Val} (h : HoldsPool S B σ R) (hf : (S.msg t).foreign = true) (hm : (Ty.msg t, s, v) ∈ R) :
    (s = .nil ∧ v = .nil) ∨ ∃ a, s = .ptr a ∧ v ≠ .nil ∧ σ.heap[a]? = some (.foreign v) := by
  obtain ⟨R', hp⟩ := perm_front hm
  obtain ⟨L, h1, h2, h3⟩ := h
  obtain ⟨F, hF, -⟩ := h3.perm (hp.append_right _)
  cases hF with
  | nil => exact .inl ⟨rfl, rfl⟩
  | foreign _ hc hv _ => exact .inr ⟨_, rfl, hv, hc⟩
  | msg hf' => rw [hf] at hf'; cases hf'

theorem Spec.HoldsPool.openBox {s : HV} {v : Val} (h : HoldsPool S B σ R) (hm : (Ty.box, s, v) ∈ R) :
    (s = .nil ∧ v = .nil) ∨ ∃ a x, s = .ptr a ∧ x ≠ .nil ∧ σ.heap[a]? = some (.box x) ∧ HoldsPool S B σ ((.flat, x, v) :: R) := by
  obtain ⟨R', hp⟩ := perm_front hm
  obtain ⟨L, h1, h2, h3⟩ := h
  obtain ⟨F, hF, hg⟩ := h3.perm (hp.append_right _)
  cases hF with
  | nil => exact .inl ⟨rfl, rfl⟩
  | box hc hx hI =>
    rename_i a x F
    refine .inr ⟨a, x, rfl, hx, hc, L, h1, h2, ?_⟩
    refine Holds.perm (I := (.flat, x, v) :: (.box, .ptr a, v) :: (R' ++ L.map fun q => (.msg q.1, .ptr q.2.1, q.2.2))) ?_ (List.Perm.cons _ (hp.append_right _).symm)
    refine ⟨_, ?_, hg⟩
    have key : ∀ {I : List VItem} {F' : Multiset Addr}, RepL S B σ.heap ((.flat, x, v) :: I) F → RepL S B σ.heap ((.box, .ptr a, v) :: I) F' →
        RepL S B σ.heap ((.flat, x, v) :: (.box, .ptr a, v) :: I) F' := by
      intro I F' h1 h2
      cases h1 with
      | nil ht => exact .nil ht h2
      | num _ => exact .num h2
      | str _ => exact .str h2
      | view ha _ => exact .view ha h2
    exact key hI (.box hc hx hI)

theorem mapPut_simP {e : Ty} {s x : HV} {es : List (Key × Val)} {k : Key} {v : Val} (h : HoldsPool S B σ ((.map e, s, .map es) :: (e, x, v) :: R)) :
    ∃ σ', hmapPut s k x σ = (σ', .ok ()) ∧ HoldsPool S B σ' ((.map e, s, .map (mapInsert es k v)) :: R) := by
  obtain ⟨L, h1, h2, h3⟩ := h
  obtain ⟨σ', h4, h5⟩ := mapPut_sim (k := k) (R := R ++ L.map fun q => (.msg q.1, .ptr q.2.1, q.2.2)) h3
  refine ⟨σ', h4, L, ?_, h2, h5⟩
  rcases Holds.openMap h3 with ⟨-, h, -⟩ | ⟨a, es', rfl, -, h6⟩
  · cases h
  have h7 : hmapPut (.ptr a) k x σ = ({ σ with heap := σ.heap.set a (.map (hmapInsert (es'.map fun q => (q.1, q.2.1)) k x)) }, .ok ()) := by
    unfold hmapPut
    simp only
    rw [HM.bind_ok (hread_ok h6.read)]
    rfl
  rw [h4] at h7
  cases h7
  exact h1

/-- An assignment to an element of a list. -/
theorem setIndex_simP {e : Ty} {d w : HV} {vs : List Val} {y : Val} {i : Nat} (hi : i < vs.length)
    (h : HoldsPool S B σ ((.list e, d, .list vs []) :: (e, w, y) :: R)) :
    ∃ σ', hsetIndex d i w σ = (σ', .ok ()) ∧ HoldsPool S B σ' ((.list e, d, .list (vs.set i y) []) :: R) := by
  obtain ⟨L, h1, h2, h3⟩ := h
  rcases Holds.openList h3 with ⟨-, h, -⟩ | ⟨a, len, xs, sp, rfl, hv, hl, hs, h4⟩
  · cases h
  simp only [Val.list.injEq] at hv
  obtain ⟨rfl, rfl⟩ := hv
  have hi' : i < len ∧ i < xs.length := by simpa using hi
  have hw := h4.write (.arr ((xs.map (·.1)).set i w))
  refine ⟨{ σ with heap := σ.heap.set a (.arr ((xs.map (·.1)).set i w)) }, ?_, L, h1, h2, ?_⟩
  · unfold hsetIndex
    simp only
    rw [HM.bind_ok (hread_ok h4.read)]
    simp only
    rw [if_pos (by simpa using hi')]
    rfl
  · have hset : xs.set i (w, y) = xs.take i ++ (w, y) :: xs.drop (i + 1) := List.set_eq_take_append_cons_drop .. |>.trans (if_pos hi'.2)
    have hold : xs = xs.take i ++ xs[i]'hi'.2 :: xs.drop (i + 1) := by
      rw [List.getElem_cons_drop, List.take_append_drop]
    have hm1 : (xs.map (·.1)).set i w = (xs.set i (w, y)).map (·.1) := by rw [List.map_set]
    have hm2 : (xs.map (·.2)).set i y = (xs.set i (w, y)).map (·.2) := by rw [List.map_set]
    have h5 : Holds S B { σ with heap := σ.heap.set a (.arr ((xs.map (·.1)).set i w)) }
        ((e, xs[i]'hi'.2) :: rawItem (.arr ((xs.set i (w, y)).map (·.1))) a :: ((xs.set i (w, y)).map (fun x => (e, x)) ++ (R ++ L.map fun q => (.msg q.1, .ptr q.2.1, q.2.2)))) := by
      rw [← hm1]
      refine hw.perm ?_
      refine List.Perm.trans ?_ (List.Perm.swap _ _ _)
      refine List.Perm.cons _ ?_
      rw [hset]
      conv_lhs => rw [hold]
      simp only [List.map_append, List.map_cons, List.append_assoc, List.cons_append]
      have : ∀ (A D Q : List VItem) (x z : VItem), (A ++ x :: (D ++ z :: Q)).Perm (x :: (A ++ z :: (D ++ Q))) := by
        intro A D Q x z
        refine List.perm_middle.trans (List.Perm.cons _ ?_)
        exact List.Perm.append_left _ List.perm_middle
      exact this _ _ _ _ _
    have h6 := Holds.sealList (len := len) (sp := []) (by simpa using hl) (by
      rw [← hm2, List.drop_set_of_lt hi'.1]
      exact hs) (Holds.dropLeft (I := [(e, xs[i]'hi'.2)]) h5)
    rw [← hm2, List.take_set] at h6
    exact h6

theorem Spec.HoldsPool.addNils {e : Ty} (he : e.nilable = true) (h : HoldsPool S B σ R) : ∀ n, HoldsPool S B σ ((List.replicate n (HV.nil, Val.nil)).map (fun x => (e, x)) ++ R)
  | 0 => h
  | n + 1 => (h.addNils he n).addNil he

/-- A new list. -/
theorem makeList_simP {k : Kind} {t n : Nat} (hk : isScalarKind k = false) (h : HoldsPool S B σ R) :
    ∃ σ' d, hmakeList k n σ = (σ', .ok d) ∧ HoldsPool S B σ' ((.list (elemTy k t), d, .list (List.replicate n .nil) []) :: R) := by
  have hz : hzeroScalar k = .nil := by
    revert hk
    cases k <;> simp [isScalarKind, hzeroScalar]
  refine ⟨(σ.grow (.arr (List.replicate n .nil))), .slice σ.next n, ?_, ?_⟩
  · unfold hmakeList
    rw [hz, HM.bind_ok (halloc_ok _ _)]
    rfl
  · have h1 := (h.addNils (elemTy_nilable k t) n).alloc (.arr (List.replicate n .nil))
    refine h1.mapAll fun P h => ?_
    have h2 := Holds.sealList (e := elemTy k t) (sp := []) (len := n) (xs := List.replicate n (.nil, .nil)) (R := R ++ P) (by simp) (by
      rw [List.drop_of_length_le (by simp)]
      exact SpareRep.nils 0) (by simpa [List.append_assoc] using h)
    simpa using h2

end

section
variable {S : Schema} {B : Bufs} {σ : HState} {R : List VItem} {E : HKEnv}

/-- Elements made. -/
def ElemPost (S : Schema) (k : Kind) (t : Nat) (a : HV) (b : Val) (I : List VItem) : Prop :=
  ∃ b1, I = [(elemTy k t, a, b1)] ∧ ReuseElem (Reuse S) k t b1 b

/-- Depths for which there is fuel. -/
def Within (N N' : Nat) (x x' : Val) : Prop := x.depth ≤ N ∧ x'.depth ≤ N'

/-- Cloning a sub-message in memory gives, up to memory kept for reuse, what it gives on values; nothing else changes. -/
def CloneRec (S : Schema) (B : Bufs) (N N' : Nat) (hrec : HSubClone) (rec : SubClone) : Prop := ∀ p t v x x' R σ, (S.msg t).foreign = false → (Ty.msg t, v, x) ∈ R →
  Within N N' x x' → Reuse S t x x' → HoldsPool S B σ R → PoolSim S B (fun a b I => ∃ b1, I = [(.msg t, a, b1)] ∧ Reuse S t b1 b) (hrec p t v) (rec p t x') R σ

theorem plain_foreign (hE : CloneEnv S B E) (t : Nat) : (E.plain.S.msg t).foreign = (S.msg t).foreign := by
  show ((unpool E.S).msg t).foreign = _
  rw [unpool_msg, hE.schema]

variable (hE : CloneEnv S B E)
include hE

theorem runtimeClone_sim {t : Nat} {v : HV} {x : Val} (hf : (S.msg t).foreign = true) (hm : (Ty.msg t, v, x) ∈ R) (h : HoldsPool S B σ R) :
    PoolSim S B (fun a b I => I = [(.msg t, a, b)]) (hruntimeClone E t v) (.ok (E.R.clone t x)) R σ := by
  rw [hruntimeClone.eq_def]
  rcases h.openForeign hf hm with ⟨rfl, rfl⟩ | ⟨a, rfl, hx, hc⟩
  · rw [hE.nil]
    exact PoolSim.pure rfl (h.addNil rfl)
  · refine ⟨(σ.grow (.foreign (E.R.clone t x))), .ptr σ.next, [(.msg t, .ptr σ.next, E.R.clone t x)], ?_, rfl, ?_⟩
    · simp only
      rw [HM.bind_ok (hread_ok hc)]
      simp only
      rw [HM.bind_ok (halloc_ok _ _)]
      rfl
    · refine h.step rfl fun P h => ?_
      refine (h.alloc (.foreign (E.R.clone t x))).map fun F hF => ⟨F, le_rfl, ?_⟩
      cases hF with
      | raw hc hI => exact .foreign hf hc (hE.some _ _ hx) hI

variable {hrec : HSubClone} {rec : SubClone} {N N' : Nat} (H : CloneRec S B N N' hrec rec)
include H

omit H in
theorem cloneBytes_sim {k : Kind} {t : Nat} {p : List Nat} {v : HV} {x : Val} (hb : k = .bytes) (hm : (elemTy k t, v, x) ∈ R) (h : HoldsPool S B σ R) :
    PoolSim S B (ElemPost S k t) (hcloneSingular E hrec k t p v) (.ok (.str x.bytes)) R σ := by
  subst hb
  have h1 := readBytes_sim hE.live (.inl rfl) h hm
  obtain ⟨L, h2, h3, h4⟩ := h
  obtain ⟨σ', w, h5, -, h6⟩ := copyBytes_sim x.bytes h4
  refine ⟨σ', w, [(.bytes, w, .str x.bytes)], ?_, ⟨_, rfl, (reuseElem_scalar (by simp)).2 rfl⟩, L, ?_, h3, h6⟩
  · unfold hcloneSingular
    rw [if_neg (by simp), if_pos rfl, HM.bind_ok h1, h5]
  · have : σ'.pool = σ.pool := by
      have := congrArg (fun q => q.1.pool) h5
      rw [← this]
      rfl
    rw [this, h2]

theorem cloneSingular_sim {k : Kind} {t : Nat} {p : List Nat} {v : HV} {x x' : Val} (hm : (elemTy k t, v, x) ∈ R) (hN : Within N N' x x') (hx : ReuseElem (Reuse S) k t x x')
    (h : HoldsPool S B σ R) : PoolSim S B (ElemPost S k t) (hcloneSingular E hrec k t p v) (cloneSingular E.plain rec k t p x') R σ := by
  rw [hcloneSingular, cloneSingular, plain_foreign hE, hE.schema]
  by_cases hk : k = .message ∨ k = .group
  · rw [if_pos hk, if_pos hk]
    have hel := elemTy_message (t := t) hk
    have hr : Reuse S t x x' := by
      unfold ReuseElem at hx
      rw [if_pos hk] at hx
      rcases hx with ⟨rfl, rfl⟩ | h
      · rw [reuse_iff]; unfold ReuseMsg; split <;> rfl
      · exact h.2.2
    rw [hel] at hm
    by_cases hf : (S.msg t).foreign = true
    · rw [if_pos hf, if_pos hf]
      have he : x = x' := by rw [reuse_iff] at hr; unfold ReuseMsg at hr; rwa [hf, if_pos rfl] at hr
      subst he
      refine (runtimeClone_sim hE hf hm h).weaken ?_
      rintro a b I rfl
      refine ⟨b, by rw [hel], reuseElem_msg hk ?_⟩
      rw [reuse_iff]; unfold ReuseMsg; rw [hf]; rfl
    · rw [if_neg hf, if_neg hf]
      refine (H p t v x x' R σ (by simpa using hf) hm hN hr h).weaken ?_
      rintro a b I ⟨b1, rfl, hb⟩
      exact ⟨b1, by rw [hel], reuseElem_msg hk hb⟩
  · rw [if_neg hk, if_neg hk]
    have he : x = x' := by unfold ReuseElem at hx; rwa [if_neg hk] at hx
    subst he
    by_cases hb : k = .bytes
    · have h1 := cloneBytes_sim (p := p) (hrec := hrec) hE hb hm h
      rw [hcloneSingular, if_neg hk, if_pos hb] at h1
      rw [if_pos hb, if_pos hb]
      exact h1
    · rw [if_neg hb, if_neg hb]
      have hel : elemTy k t = .flat := by
        cases k <;> simp_all [elemTy]
      rw [hel] at hm
      refine PoolSim.pure (I := [(.flat, v, x)]) ⟨x, by rw [hel], ?_⟩ (h.dupFlat hm)
      unfold ReuseElem
      rw [if_neg hk]

theorem cloneElems_sim {k : Kind} {t : Nat} {p : List Nat} {a len : Nat} {xs : List (HV × Val)} {d : HV} (hraw : rawItem (.arr (xs.map (·.1))) a ∈ R)
    (hm : ∀ x ∈ xs.take len, (elemTy k t, x) ∈ R) (hN : ∀ x ∈ xs.take len, x.2.depth ≤ N) : ∀ (ws : List Val) (i : Nat) (vs : List Val) (σ : HState),
    (∀ w ∈ ws, w.depth ≤ N') → List.Forall₂ (ReuseElem (Reuse S) k t) (((xs.take len).drop i).map (·.2)) ws → vs.length = i + ws.length →
    HoldsPool S B σ ((.list (elemTy k t), d, .list vs []) :: R) →
    PoolSim S B (fun _ b I => ∃ vs', I = [(.list (elemTy k t), d, .list vs' [])] ∧ vs'.take i = vs.take i ∧ List.Forall₂ (ReuseElem (Reuse S) k t) (vs'.drop i) b)
      (hcloneElems E hrec k t p (.slice a len) d i ws.length) (cloneElems E.plain rec k t p i ws) R σ
  | [], i, vs, σ, hN', hw, hl, h => by
    refine PoolSim.pure (I := [(.list (elemTy k t), d, .list vs [])]) ⟨vs, rfl, rfl, ?_⟩ h
    rw [List.drop_of_length_le (by simp only [hl, List.length_nil]; omega)]
    exact .nil
  | w :: ws, i, vs, σ, hN', hw, hl, h => by
    rw [List.length_cons, hcloneElems, cloneElems]
    cases hd : (xs.take len).drop i with
    | nil => rw [hd] at hw; cases hw
    | cons x rest =>
    rw [hd, List.map_cons] at hw
    cases hw with
    | cons hx hw =>
    have hxi : (xs.take len)[i]? = some x := by
      have := congrArg (fun l => l[0]?) hd
      simpa using this
    have hxm := List.mem_of_getElem? hxi
    have hrest : (xs.take len).drop (i + 1) = rest := by
      rw [← List.tail_drop, hd]
      rfl
    have hread : hindex (.slice a len) i σ = (σ, .ok x.1) := by
      unfold hindex
      simp only
      rw [HM.bind_ok (hread_ok (h.readAt (.tail _ hraw)))]
      simp only
      rw [← List.map_take, List.getElem?_map, hxi]
      rfl
    refine PoolSim.run (σ' := σ) ?_ (HM.bind_ok hread)
    have h1 := cloneSingular_sim (p := p ++ [i]) hE H (List.mem_cons_of_mem _ (hm x hxm)) ⟨hN x hxm, hN' _ (.head _)⟩ hx h
    refine PoolSim.bind (h1.unframe (J := [(.list (elemTy k t), d, .list vs [])])
      (post' := fun y b I => ∃ b1, I = [(elemTy k t, y, b1), (.list (elemTy k t), d, .list vs [])] ∧ ReuseElem (Reuse S) k t b1 b) ?_) ?_
    · rintro y b I ⟨b1, rfl, hb⟩
      exact ⟨b1, rfl, hb⟩
    · rintro σ1 y b I ⟨b1, rfl, hb⟩ h2
      have hlt : i < vs.length := by rw [hl, List.length_cons]; omega
      obtain ⟨σ2, h3, h4⟩ := setIndex_simP hlt (HoldsPool.swap h2)
      refine PoolSim.run (σ' := σ2) ?_ (HM.bind_ok h3)
      have ih := cloneElems_sim (p := p) hraw hm hN ws (i + 1) (vs.set i b1) σ2 (fun y hy => hN' y (.tail _ hy)) (by rw [hrest]; exact hw)
        (by rw [List.length_set, hl, List.length_cons]; omega) h4
      have h5 := PoolSim.bind (f := fun u => (pure u : HM Unit)) (g := fun bs => .ok (b :: bs))
        (post' := fun _ c I => ∃ vs', I = [(.list (elemTy k t), d, .list vs' [])] ∧ vs'.take i = vs.take i ∧ List.Forall₂ (ReuseElem (Reuse S) k t) (vs'.drop i) c) ih (by
          rintro σ3 _ bs I ⟨vs', rfl, h6, h7⟩ h8
          refine PoolSim.pure (I := [(.list (elemTy k t), d, .list vs' [])]) ⟨vs', rfl, ?_, ?_⟩ h8
          · have := congrArg (List.take i) h6
            rw [List.take_take, List.take_take, Nat.min_eq_left (by omega), List.take_set_of_le (by omega)] at this
            exact this
          · have hlen : i < vs'.length := by
              have := congrArg List.length h6
              simp only [List.length_take, List.length_set] at this
              omega
            have hb1 : vs'[i] = b1 := by
              have := congrArg (fun l => l[i]?) h6
              simp only [List.getElem?_take, Nat.lt_succ_self, if_true, List.getElem?_set_self hlt] at this
              rw [List.getElem?_eq_getElem hlen] at this
              exact Option.some.inj this
            rw [List.drop_eq_getElem_cons hlen, hb1]
            exact .cons hb h7)
      have hp : ∀ z : HM Unit, (z >>= fun u => (pure u : HM Unit)) = z := by
        intro z
        funext σ
        show HM.bind z _ σ = z σ
        unfold HM.bind
        rcases z σ with ⟨σ', r⟩
        cases r <;> rfl
      rw [hp] at h5
      exact h5

theorem cloneEntries_sim {k : Kind} {t : Nat} {p : List Nat} {d : HV} : ∀ (xs : List (Key × HV × Val)) (ws : List (Key × Val)) (i : Nat) (c c' : List (Key × Val)) (σ : HState),
    (∀ x ∈ xs, (elemTy k t, x.2) ∈ R) → (∀ x ∈ xs, x.2.2.depth ≤ N) → (∀ w ∈ ws, w.2.depth ≤ N') →
    List.Forall₂ (fun e e' => e.1 = e'.1 ∧ ReuseElem (Reuse S) k t e.2 e'.2) (xs.map fun x => (x.1, x.2.2)) ws →
    List.Forall₂ (fun e e' => e.1 = e'.1 ∧ ReuseElem (Reuse S) k t e.2 e'.2) c c' → HoldsPool S B σ ((.map (elemTy k t), d, .map c) :: R) →
    PoolSim S B (fun _ b I => ∃ c2, I = [(.map (elemTy k t), d, .map c2)] ∧ List.Forall₂ (fun e e' => e.1 = e'.1 ∧ ReuseElem (Reuse S) k t e.2 e'.2) c2 b)
      (hcloneEntries E hrec k t p d i (xs.map fun x => (x.1, x.2.1))) (cloneEntries E.plain rec k t p i ws c') R σ
  | [], [], i, c, c', σ, hm, hN, hN', hw, hc, h => PoolSim.pure (I := [(.map (elemTy k t), d, .map c)]) ⟨c, rfl, hc⟩ h
  | x :: xs, [], i, c, c', σ, hm, hN, hN', hw, hc, h => by cases hw
  | [], w :: ws, i, c, c', σ, hm, hN, hN', hw, hc, h => by cases hw
  | x :: xs, w :: ws, i, c, c', σ, hm, hN, hN', hw, hc, h => by
    obtain ⟨key, w⟩ := w
    rw [List.map_cons, hcloneEntries, cloneEntries]
    rw [List.map_cons] at hw
    cases hw with
    | cons hx hw =>
    obtain ⟨hk, hx⟩ := hx
    have h1 := cloneSingular_sim (p := p ++ [i]) hE H (List.mem_cons_of_mem _ (hm x (.head _))) ⟨hN x (.head _), hN' _ (.head _)⟩ hx h
    refine PoolSim.bind (h1.unframe (J := [(.map (elemTy k t), d, .map c)])
      (post' := fun y b I => ∃ b1, I = [(elemTy k t, y, b1), (.map (elemTy k t), d, .map c)] ∧ ReuseElem (Reuse S) k t b1 b) ?_) ?_
    · rintro y b I ⟨b1, rfl, hb⟩
      exact ⟨b1, rfl, hb⟩
    · rintro σ1 y b I ⟨b1, rfl, hb⟩ h2
      obtain ⟨σ2, h3, h4⟩ := mapPut_simP (k := x.1) (HoldsPool.swap h2)
      refine PoolSim.run (σ' := σ2) ?_ (HM.bind_ok h3)
      have hk' : key = x.1 := hk.symm
      rw [hk']
      exact cloneEntries_sim xs ws (i + 1) _ _ σ2 (fun y hy => hm y (.tail _ hy)) (fun y hy => hN y (.tail _ hy)) (fun y hy => hN' y (.tail _ hy)) hw (forall₂_mapInsert hb hc) h4

theorem cloneMap_sim {d : MsgDesc} {f : FieldDesc} {md : MapDesc} {p : List Nat} {v : HV} {x x' : Val} (hmd : f.map = some md)
    (hm : (Ty.map (elemTy md.val md.valMsg), v, x) ∈ R) (hN : Within N N' x x') (hx : ReuseField S (Reuse S) d f x x') (hn : v ≠ .nil) (h : HoldsPool S B σ R) :
    ∃ es, x' = .map es ∧ PoolSim S B (fun a b I => ∃ b1, I = [(.map (elemTy md.val md.valMsg), a, b1)] ∧ ReuseField S (Reuse S) d f b1 b)
      (hcloneMap E hrec md p v) (cloneEntries E.plain rec md.val md.valMsg p 0 es [] >>= fun es' => .ok (.map es')) R σ := by
  rcases h.openMap hm with ⟨rfl, rfl⟩ | ⟨a, es, R', rfl, rfl, hp, h1⟩
  · exact absurd rfl hn
  unfold ReuseField at hx
  rw [hmd] at hx
  simp only at hx
  rcases hx with ⟨h, -⟩ | ⟨es1, es2, he1, rfl, h2⟩
  · cases h
  cases he1
  refine ⟨es2, rfl, ?_⟩
  rw [hcloneMap.eq_def]
  refine PoolSim.conv (R' := rawItem (.map (es.map fun q => (q.1, q.2.1))) a :: (es.map (fun q => (elemTy md.val md.valMsg, q.2)) ++ R')) ?_ ?_
  · have hnew : HoldsPool S B (σ.grow (.map [])) ((.map (elemTy md.val md.valMsg), .ptr σ.next, .map []) ::
        rawItem (.map (es.map fun q => (q.1, q.2.1))) a :: (es.map (fun q => (elemTy md.val md.valMsg, q.2)) ++ R')) := by
      refine (h1.alloc (.map [])).mapAll fun P h => ?_
      exact Holds.sealMap (es := []) h
    refine PoolSim.run (x' := hcloneEntries E hrec md.val md.valMsg p (.ptr σ.next) 0 (es.map fun q => (q.1, q.2.1)) >>= fun _ => pure (.ptr σ.next))
      (σ' := (σ.grow (.map []))) ?_ (by simp only; rw [HM.bind_ok (hread_ok h1.read)]; simp only; rw [HM.bind_ok (halloc_ok _ _)])
    refine (cloneEntries_sim hE H es es2 0 [] [] _ (fun y hy => ?_) (fun y hy => ?_) (fun y hy => ?_) h2 .nil hnew).bind ?_
    · exact List.mem_cons_of_mem _ (List.mem_append_left _ (List.mem_map.mpr ⟨y, hy, rfl⟩))
    · have := hN.1
      have := depth_entry (List.mem_map.mpr ⟨y, hy, rfl⟩ : (y.1, y.2.2) ∈ es.map fun q => (q.1, q.2.2))
      simp only [Val.depth] at *
      omega
    · have := hN.2
      have := depth_entry hy
      simp only [Val.depth] at *
      omega
    · rintro σ1 _ bs J ⟨c2, rfl, h4⟩ h5
      refine PoolSim.pure (I := [(.map (elemTy md.val md.valMsg), .ptr σ.next, .map c2)]) ⟨_, rfl, ?_⟩ h5
      unfold ReuseField
      rw [hmd]
      exact .inr ⟨_, _, rfl, rfl, h4⟩
  · intro σ P h
    refine Holds.perm (I := (Ty.map (elemTy md.val md.valMsg), .ptr a, .map (es.map fun q => (q.1, q.2.2))) :: (R' ++ P)) ?_ (hp.append_right P).symm
    exact Holds.sealMap (by simpa [List.append_assoc] using h)

theorem cloneList_sim {d : MsgDesc} {f : FieldDesc} {p : List Nat} {v : HV} {x x' : Val} (hmd : f.map = none) (hc : f.card = .repeated)
    (hm : (Ty.list (elemTy f.kind f.msg), v, x) ∈ R) (hN : Within N N' x x') (hx : ReuseField S (Reuse S) d f x x') (hn : v ≠ .nil) (h : HoldsPool S B σ R) :
    PoolSim S B (fun a b I => ∃ xs, I = [(.list (elemTy f.kind f.msg), a, .list xs [])] ∧ List.Forall₂ (ReuseElem (Reuse S) f.kind f.msg) xs b)
      (hcloneList E hrec f p v) (if isScalarKind f.kind then .ok x'.elems else cloneElems E.plain rec f.kind f.msg p 0 x'.elems) R σ := by
  rcases h.openList hm with ⟨rfl, rfl⟩ | ⟨a, len, xs, sp, R', rfl, rfl, hl, hs, hp, h1⟩
  · exact absurd rfl hn
  unfold ReuseField at hx
  rw [hmd] at hx
  simp only [hc, if_true] at hx
  have h2 : List.Forall₂ (ReuseElem (Reuse S) f.kind f.msg) ((xs.take len).map (·.2)) x'.elems := by rw [List.map_take]; exact hx.2.2.1
  rw [hcloneList.eq_def]
  have hmem : ∀ y ∈ xs.take len, (elemTy f.kind f.msg, y) ∈ rawItem (.arr (xs.map (·.1))) a :: (xs.map (fun x => (elemTy f.kind f.msg, x)) ++ R') := fun y hy =>
    List.mem_cons_of_mem _ (List.mem_append_left _ (List.mem_map.mpr ⟨y, List.mem_of_mem_take hy, rfl⟩))
  have hN1 : ∀ y ∈ xs.take len, y.2.depth ≤ N := fun y hy => by
    have := hN.1
    have := depth_mem (List.mem_map.mpr ⟨y, hy, rfl⟩ : y.2 ∈ (xs.take len).map (·.2))
    rw [List.map_take] at this
    simp only [Val.depth] at *
    omega
  have hN2 : ∀ y ∈ x'.elems, y.depth ≤ N' := fun y hy => by
    have := hN.2
    cases x' with
    | list ys sp =>
      have := depth_mem (show y ∈ ys from hy)
      simp only [Val.depth] at *
      omega
    | _ => simp [Val.elems] at hy
  have hnew : ∀ (ys : List (HV × Val)) (σ : HState) (R : List VItem), HoldsPool S B σ (ys.map (fun y => (elemTy f.kind f.msg, y)) ++ R) →
      HoldsPool S B (σ.grow (.arr (ys.map (·.1)))) ((.list (elemTy f.kind f.msg), .slice σ.next ys.length, .list (ys.map (·.2)) []) :: R) := by
    intro ys σ R h
    refine (h.alloc (.arr (ys.map (·.1)))).mapAll fun P h => ?_
    have h5 : Holds S B (σ.grow (.arr (ys.map (·.1)))) (rawItem (.arr (ys.map (·.1))) σ.next :: (ys.map (fun x => (elemTy f.kind f.msg, x)) ++ (R ++ P))) := by
      simpa [List.append_assoc] using h
    have h6 := Holds.sealList (sp := []) (len := ys.length) le_rfl (by
      rw [List.drop_of_length_le (by simp)]
      exact SpareRep.nils 0) h5
    rw [List.take_of_length_le (by simp)] at h6
    exact h6
  refine PoolSim.conv (R' := rawItem (.arr (xs.map (·.1))) a :: (xs.map (fun x => (elemTy f.kind f.msg, x)) ++ R')) ?_ ?_
  · refine PoolSim.run (x' := if isScalarKind f.kind then halloc (.arr ((xs.map (·.1)).take len)) >>= fun b => pure (.slice b ((xs.map (·.1)).take len).length)
        else hmakeList f.kind ((xs.map (·.1)).take len).length >>= fun d => hcloneElems E hrec f.kind f.msg p (.slice a len) d 0 ((xs.map (·.1)).take len).length >>= fun _ => pure d)
      (σ' := σ) ?_ (by simp only; rw [HM.bind_ok (hread_ok h1.read)])
    rw [← List.map_take]
    by_cases hsc : isScalarKind f.kind = true
    · rw [if_pos hsc, if_pos hsc]
      have hel : elemTy f.kind f.msg = .flat := by
        revert hsc
        cases f.kind <;> simp [isScalarKind, elemTy]
      have h3 := h1.dupFlats (xs := xs.take len) (by rw [← hel]; exact hmem)
      rw [← hel] at h3
      refine ⟨(σ.grow (.arr ((xs.take len).map (·.1)))), .slice σ.next (xs.take len).length, _, ?_, ⟨(xs.take len).map (·.2), rfl, h2⟩, ?_⟩
      · rw [HM.bind_ok (halloc_ok _ _), List.length_map]
        rfl
      · exact hnew _ _ _ h3
    · rw [if_neg hsc, if_neg hsc]
      have hlen : ((xs.take len).map (·.1)).length = x'.elems.length := by
        have := h2.length_eq
        simpa using this
      rw [hlen]
      obtain ⟨σ1, d1, h3, h4⟩ := makeList_simP (k := f.kind) (t := f.msg) (n := x'.elems.length) (by simpa using hsc) h1
      refine PoolSim.run (σ' := σ1) ?_ (HM.bind_ok h3)
      have h5 := cloneElems_sim (p := p) (len := len) hE H (.head _) hmem hN1 x'.elems 0 (List.replicate x'.elems.length .nil) σ1 hN2 (by simpa using h2) (by simp) h4
      have h6 := PoolSim.bind (g := fun b => .ok b) (f := fun _ => (pure d1 : HM HV))
        (post' := fun a b I => ∃ xs, I = [(.list (elemTy f.kind f.msg), a, .list xs [])] ∧ List.Forall₂ (ReuseElem (Reuse S) f.kind f.msg) xs b) h5 (by
          rintro σ2 _ bs J ⟨ys, rfl, -, h7⟩ h8
          exact PoolSim.pure (I := [(.list (elemTy f.kind f.msg), d1, .list ys [])]) ⟨ys, rfl, h7⟩ h8)
      have hb : ∀ r : Res (List Val), (r >>= fun b => .ok b) = r := by intro r; cases r <;> rfl
      rw [hb] at h6
      exact h6
  · intro σ P h
    refine Holds.perm (I := (Ty.list (elemTy f.kind f.msg), .slice a len, .list ((xs.map (·.2)).take len) sp) :: (R' ++ P)) ?_ (hp.append_right P).symm
    exact Holds.sealList hl hs (by simpa [List.append_assoc] using h)

/-- What one field of the second pass assigns, if anything. Memory kept for reuse may be cloned where values have nil. -/
def OutPost (S : Schema) (t : Nat) (f : FieldDesc) (a : Option HV) (b : Option Val) (I : List VItem) : Prop :=
  (a = none ∧ b = none ∧ I = []) ∨ ∃ w y1, a = some w ∧ I = [(fieldTy (S.msg t) f, w, y1)] ∧
    ((∃ y, b = some y ∧ (VRel.reuse S).slot t f y1 y) ∨ (b = none ∧ f.oneof = false ∧ (VRel.reuse S).slot t f y1 (zeroField f)))

variable {t : Nat} {f : FieldDesc}

omit hE H in
theorem reuse_slot (ho : f.oneof = false) {v w : Val} : (VRel.reuse S).slot t f v w ↔ ReuseField S (Reuse S) (S.msg t) f v w := by
  show (if f.oneof then _ else _) ↔ _
  rw [ho]; simp

omit H in
theorem cloneBox_sim {v : HV} {x : Val} (hn : v ≠ .nil) (hm : (Ty.box, v, x) ∈ R) (h : HoldsPool S B σ R) :
    PoolSim S B (fun a b I => I = [(.box, a, b)]) (hcloneBox v) (.ok x) R σ := by
  rcases h.openBox hm with ⟨rfl, rfl⟩ | ⟨a, y, rfl, hy, hc, h1⟩
  · exact absurd rfl hn
  rw [hcloneBox.eq_def]
  refine ⟨(σ.grow (.box y)), .ptr σ.next, [(.box, .ptr σ.next, x)], ?_, rfl, ?_⟩
  · simp only
    rw [HM.bind_ok (hread_ok hc)]
    simp only
    rw [HM.bind_ok (halloc_ok _ _)]
    rfl
  · refine h1.step rfl fun P h => ?_
    refine (h.alloc (.box y)).map fun F hF => ⟨F, le_rfl, ?_⟩
    cases hF with
    | raw hc hI => exact .box hc hy hI

theorem cloneField_sim {p : List Nat} {v : HV} {x x' : Val} (hf : f ∈ (S.msg t).fields) (ho : f.oneof = false)
    (hr : isReference (S.msg t).proto3 f = true) (hm : (fieldTy (S.msg t) f, v, x) ∈ R) (hN : Within N N' x x') (hx : (VRel.reuse S).slot t f x x') (h : HoldsPool S B σ R) :
    PoolSim S B (OutPost S t f) (hcloneField E hrec f p v) (cloneField E.plain rec f p x') R σ := by
  have hd := schemaOK_msg hE.ok t
  have ff := hd.fields f hf
  have hty : ∀ c, fieldTy (S.msg t) f ≠ .raw c := by
    intro c
    unfold fieldTy
    rw [ho]
    have hel : ∀ k m, elemTy k m ≠ .raw c := by intro k m; cases k <;> simp [elemTy]
    split_ifs <;> (try cases f.map) <;> simp [hel] at *
  have hnil := h.isNil hty hm
  rw [reuse_slot ho] at hx
  rw [hcloneField, cloneField.eq_def]
  by_cases hn : v.isNil = true
  · have hx0 : x = .nil := isNil_iff.1 (hnil.symm.trans hn)
    have hx1 : x' = .nil := by
      subst hx0
      unfold ReuseField at hx
      cases hmd : f.map with
      | some md =>
        rw [hmd] at hx
        rcases hx with h | ⟨_, _, h, _⟩
        · exact h.2
        · cases h
      | none =>
        rw [hmd] at hx
        simp only at hx
        split at hx
        · rename_i hc
          exact hx.2.2.2.2.1 trivial
        split at hx
        · rcases hx with h | ⟨_, h, _⟩
          · exact h.symm
          · cases h
        · unfold ReuseElem at hx
          split at hx
          · rcases hx with h | h
            · exact h.2
            · exact absurd rfl h.1
          · exact hx.symm
    subst hx1
    rw [if_pos hn, if_pos (show Val.isNil .nil = true from rfl)]
    exact PoolSim.pure (I := []) (.inl ⟨rfl, rfl, rfl⟩) h
  rw [if_neg hn]
  have hn' : v ≠ .nil := fun he => hn (by rw [he]; rfl)
  by_cases hc : f.card = .repeated
  · have hcb : (f.card == .repeated) = true := by simpa using hc
    rw [if_pos hcb, if_pos hcb, hcloneContainer]
    cases hmd : f.map with
    | some md =>
      have hty : fieldTy (S.msg t) f = .map (elemTy md.val md.valMsg) := by simp [fieldTy, ho, hc, hmd]
      rw [hty] at hm
      obtain ⟨es, rfl, h1⟩ := cloneMap_sim (p := p) hE H hmd hm hN hx hn' h
      simp only
      rw [if_neg (by simp [Val.isNil])]
      have := PoolSim.bind (g := fun b => .ok (some b)) (f := fun w => (pure (some w) : HM (Option HV))) (post' := OutPost S t f) h1 (by
        rintro σ a b I ⟨b1, rfl, hb⟩ h2
        refine PoolSim.pure (I := [(.map (elemTy md.val md.valMsg), a, b1)]) (.inr ⟨a, b1, rfl, by rw [hty], .inl ⟨b, rfl, (reuse_slot ho).2 hb⟩⟩) h2)
      have he : ((cloneEntries E.plain rec md.val md.valMsg p 0 es [] >>= fun es' => Res.ok (Val.map es')) >>= fun b => Res.ok (some b)) =
          (cloneEntries E.plain rec md.val md.valMsg p 0 es [] >>= fun es' => Res.ok (some (Val.map es'))) := by
        cases cloneEntries E.plain rec md.val md.valMsg p 0 es [] <;> rfl
      rw [he] at this
      exact this
    | none =>
      have hty : fieldTy (S.msg t) f = .list (elemTy f.kind f.msg) := by simp [fieldTy, ho, hc, hmd]
      rw [hty] at hm
      have h1 := cloneList_sim (p := p) hE H hmd hc hm hN hx hn' h
      unfold ReuseField at hx
      rw [hmd] at hx
      simp only [hc, if_true] at hx
      have key : ∀ (o : List Val → Option Val), (∀ xs b, List.Forall₂ (ReuseElem (Reuse S) f.kind f.msg) xs b →
          (∃ y, o b = some y ∧ (VRel.reuse S).slot t f (.list xs []) y) ∨ (o b = none ∧ f.oneof = false ∧ (VRel.reuse S).slot t f (.list xs []) (zeroField f))) →
          PoolSim S B (OutPost S t f) (hcloneList E hrec f p v >>= fun w => pure (some w))
            ((if isScalarKind f.kind then .ok x'.elems else cloneElems E.plain rec f.kind f.msg p 0 x'.elems) >>= fun b => .ok (o b)) R σ := by
        intro o hO
        refine h1.bind ?_
        rintro σ a b I ⟨xs, rfl, hb⟩ h2
        exact PoolSim.pure (I := [(.list (elemTy f.kind f.msg), a, .list xs [])]) (.inr ⟨a, _, rfl, by rw [hty], hO xs b hb⟩) h2
      cases x' with
      | nil =>
        have h3 := key (fun b => if b = [] then none else some (.list b [])) (by
          intro xs b hb
          by_cases hb0 : b = []
          · subst hb0
            cases hb
            refine .inr ⟨by simp, ho, (reuse_slot ho).2 ?_⟩
            have hz : zeroField f = .nil := by unfold zeroField; simp [hc]
            rw [hz]
            unfold ReuseField
            rw [hmd]
            simp only [hc, if_true]
            have hv : x ≠ .nil := fun he => hn (by rw [hnil, he]; rfl)
            have hp : (S.msg t).pooled = true := by
              rcases hx.2.2.2.1 rfl with h | h
              · exact absurd h hv
              · exact h
            simp [isSlice, Val.elems, spareOf, hp]
          · refine .inl ⟨_, if_neg hb0, (reuse_slot ho).2 ?_⟩
            unfold ReuseField
            rw [hmd]
            simp only [hc, if_true]
            exact ⟨trivial, trivial, hb, by simp, by simp, by simp [spareOf], by simp [spareOf]⟩)
        rw [if_pos (show Val.isNil .nil = true from rfl)]
        have he : ((if isScalarKind f.kind = true then Res.ok (Val.elems .nil) else cloneElems E.plain rec f.kind f.msg p 0 (Val.elems .nil)) >>=
            fun b => Res.ok (if b = [] then (none : Option Val) else some (.list b []))) = .ok none := by
          simp only [Val.elems, cloneElems, ite_self]
          rfl
        rw [he] at h3
        exact h3
      | list ys sp =>
        rw [if_neg (by simp [Val.isNil])]
        have h3 := key (fun b => some (.list b [])) (by
          intro xs b hb
          refine .inl ⟨_, rfl, (reuse_slot ho).2 ?_⟩
          unfold ReuseField
          rw [hmd]
          simp only [hc, if_true]
          exact ⟨trivial, trivial, hb, by simp, by simp, by simp [spareOf], by simp [spareOf]⟩)
        simp only
        by_cases hs : isScalarKind f.kind = true
        · rw [if_pos hs] at h3 ⊢
          exact h3
        · rw [if_neg hs] at h3 ⊢
          exact h3
      | _ => exact absurd hx.2.1 (by simp [isSlice])
  have hcb : ¬ (f.card == .repeated) = true := by simpa using hc
  rw [if_neg hcb, if_neg hcb]
  have hmd : f.map = none := by
    cases hmd : f.map with
    | none => rfl
    | some md => exact absurd (ff.map md hmd).1 hc
  have hxv := hx
  unfold ReuseField at hx
  rw [hmd] at hx
  simp only [hc, if_false] at hx
  by_cases hs : isScalarKind f.kind = true
  · rw [if_pos hs, if_pos hs]
    have hsc : fieldTy.isScalar f.kind = true := by
      revert hs
      cases f.kind <;> simp [isScalarKind, fieldTy.isScalar]
    have hkb : f.kind ≠ .bytes := by
      rintro h
      simp [h, isScalarKind] at hs
    have hkm : f.kind ≠ .message ∧ f.kind ≠ .group := by
      constructor <;> rintro h <;> simp [h, isScalarKind] at hs
    rw [if_neg hkb, reuseElem_scalar hkm] at hx
    subst hx
    have hpres : f.presence = true := by
      cases h3 : (S.msg t).proto3 with
      | false => exact ff.proto2 hc h3
      | true =>
        simp only [isReference, h3, ho, scalar_noMsg hsc] at hr
        have hsyn : f.synthetic = true := by simpa [hc, hkb] using hr
        exact (ff.synth hsyn).2
    have hty : fieldTy (S.msg t) f = .box := by simp [fieldTy, ho, hc, hpres, hsc]
    rw [hty] at hm
    rw [if_neg (by rw [← hnil]; exact hn)]
    have h1 := PoolSim.bind (g := fun b => .ok (some b)) (f := fun w => (pure (some w) : HM (Option HV))) (post' := OutPost S t f) (cloneBox_sim hE hn' hm h) (by
      rintro σ a b I rfl h2
      exact PoolSim.pure (I := [(.box, a, b)]) (.inr ⟨a, b, rfl, by rw [hty], .inl ⟨b, rfl, (reuse_slot ho).2 (by
        unfold ReuseField
        rw [hmd]
        simp only [hc, hkb, if_false]
        rw [reuseElem_scalar hkm])⟩⟩) h2)
    exact h1
  · rw [if_neg hs, if_neg hs]
    have hsc : fieldTy.isScalar f.kind = false := by
      revert hs
      cases f.kind <;> simp [isScalarKind, fieldTy.isScalar]
    have hty : fieldTy (S.msg t) f = elemTy f.kind f.msg := by simp [fieldTy, ho, hc, hsc]
    rw [hty] at hm
    by_cases hb : f.kind = .bytes
    · rw [if_pos hb] at hx
      have hel : elemTy f.kind f.msg = .bytes := by rw [hb]; rfl
      have h1 := cloneBytes_sim (p := p) (t := f.msg) (hrec := hrec) (k := f.kind) hE hb hm h
      have hsing : ∀ y, cloneSingular E.plain rec f.kind f.msg p y = .ok (.str y.bytes) := by intro y; simp [cloneSingular, hb]
      rw [hsing]
      rcases hx with rfl | ⟨hpool, rfl, rfl⟩
      · rw [if_neg (by rw [← hnil]; exact hn)]
        have h2 := PoolSim.bind (g := fun b => .ok (some b)) (f := fun w => (pure (some w) : HM (Option HV))) (post' := OutPost S t f) h1 (by
          rintro σ a b I ⟨b1, rfl, hb1⟩ h2
          rw [reuseElem_scalar (by simp [hb])] at hb1
          subst hb1
          refine PoolSim.pure (I := [(elemTy f.kind f.msg, a, b1)]) (.inr ⟨a, b1, rfl, by rw [hty], .inl ⟨b1, rfl, (reuse_slot ho).2 ?_⟩⟩) h2
          unfold ReuseField
          rw [hmd]
          simp [hc, hb])
        exact h2
      · rw [if_pos (show Val.isNil .nil = true from rfl)]
        have h2 := PoolSim.bind (g := fun b => .ok (if b = .str [] then none else some b)) (f := fun w => (pure (some w) : HM (Option HV))) (post' := OutPost S t f) h1 (by
          rintro σ a b I ⟨b1, rfl, hb1⟩ h2
          rw [reuseElem_scalar (by simp [hb])] at hb1
          subst hb1
          by_cases hb0 : b1 = .str []
          · subst hb0
            rw [if_pos rfl]
            refine PoolSim.pure (I := [(elemTy f.kind f.msg, a, .str [])]) (.inr ⟨a, .str [], rfl, by rw [hty], .inr ⟨rfl, ho, (reuse_slot ho).2 ?_⟩⟩) h2
            have hz : zeroField f = .nil := by unfold zeroField; simp [hb, zeroScalar]
            rw [hz]
            unfold ReuseField
            rw [hmd]
            simp [hc, hb, hpool]
          · rw [if_neg hb0]
            refine PoolSim.pure (I := [(elemTy f.kind f.msg, a, b1)]) (.inr ⟨a, b1, rfl, by rw [hty], .inl ⟨b1, rfl, (reuse_slot ho).2 ?_⟩⟩) h2
            unfold ReuseField
            rw [hmd]
            simp [hc, hb])
        exact h2
    · rw [if_neg hb] at hx
      have hx0 : ¬ x'.isNil = true := by
        intro he
        have he := isNil_iff.1 he
        subst he
        unfold ReuseElem at hx
        split at hx
        · rcases hx with h | h
          · exact hn (by rw [hnil, h.1]; rfl)
          · exact h.2.1 rfl
        · exact hn (by rw [hnil, hx]; rfl)
      rw [if_neg hx0]
      have h1 := cloneSingular_sim (p := p) hE H hm hN hx h
      refine h1.bind ?_
      rintro σ a b I ⟨b1, rfl, hb1⟩ h2
      refine PoolSim.pure (I := [(elemTy f.kind f.msg, a, b1)]) (.inr ⟨a, b1, rfl, by rw [hty], .inl ⟨b, rfl, (reuse_slot ho).2 ?_⟩⟩) h2
      unfold ReuseField
      rw [hmd]
      simp only [hc, hb, if_false]
      exact hb1

theorem cloneMember_sim {p : List Nat} {v : HV} {x x' : Val} (hm : (elemTy f.kind f.msg, v, x) ∈ R) (hN : Within N N' x x') (hx : ReuseElem (Reuse S) f.kind f.msg x x')
    (h : HoldsPool S B σ R) : PoolSim S B (ElemPost S f.kind f.msg) (hcloneMember E hrec f p v) (cloneMember E.plain rec f p x') R σ := by
  have hsing := cloneSingular_sim (p := p) hE H hm hN hx h
  rw [hcloneMember, cloneMember, plain_foreign hE, hE.schema]
  by_cases hs : isScalarKind f.kind = true
  · rw [if_pos hs, if_pos hs]
    have hkm : ¬ (f.kind = .message ∨ f.kind = .group) ∧ f.kind ≠ .bytes := by
      refine ⟨?_, ?_⟩
      · rintro (h | h) <;> simp [h, isScalarKind] at hs
      · rintro h; simp [h, isScalarKind] at hs
    rw [hcloneSingular, cloneSingular, if_neg hkm.1, if_neg hkm.1, if_neg hkm.2, if_neg hkm.2] at hsing
    exact hsing
  rw [if_neg hs, if_neg hs]
  have hdir : E.plain.direct = E.direct := rfl
  rw [hdir]
  by_cases hmsg : (f.hasMessage && (E.direct f.msg && !(S.msg f.msg).foreign)) = true
  · rw [if_pos hmsg, if_pos hmsg]
    simp only [Bool.and_eq_true, Bool.not_eq_true'] at hmsg
    have hk : f.kind = .message ∨ f.kind = .group := by
      have := hmsg.1
      unfold FieldDesc.hasMessage at this
      simpa using this
    rw [hcloneSingular, cloneSingular, if_pos hk, if_pos hk, plain_foreign hE, hE.schema, hmsg.2.2] at hsing
    exact hsing
  rw [if_neg hmsg, if_neg hmsg]
  have hty : ∀ c, elemTy f.kind f.msg ≠ .raw c := by intro c; cases f.kind <;> simp [elemTy]
  have hnil := h.isNil hty hm
  have hnil' : x.isNil = x'.isNil := by
    unfold ReuseElem at hx
    split at hx
    · rcases hx with h | h
      · rw [h.1, h.2]
      · exact reuse_nil h.2.2
    · rw [hx]
  by_cases hn : v.isNil = true
  · rw [if_pos hn, if_pos (by rw [← hnil', ← hnil]; exact hn)]
    refine PoolSim.pure (I := [(elemTy f.kind f.msg, .nil, .nil)]) ⟨.nil, rfl, ?_⟩ (h.addNil (elemTy_nilable _ _))
    unfold ReuseElem
    split
    · exact .inl ⟨rfl, rfl⟩
    · rfl
  · rw [if_neg hn, if_neg (by rw [← hnil', ← hnil]; exact hn)]
    exact hsing

theorem cloneOneof_sim {p : List Nat} {v : HV} {x x' : Val} (ho : f.oneof = true) (hm : (Ty.oneof (S.msg t) f.slot, v, x) ∈ R) (hN : Within N N' x x')
    (hx : ReuseOneof (Reuse S) (S.msg t) f.slot x x') (h : HoldsPool S B σ R) :
    PoolSim S B (OutPost S t f) (hcloneOneof E hrec (S.msg t) f.slot p v) (cloneOneof E.plain rec (S.msg t) f.slot p x') R σ := by
  have hty : fieldTy (S.msg t) f = .oneof (S.msg t) f.slot := by simp [fieldTy, ho]
  rw [hcloneOneof.eq_def, cloneOneof.eq_def]
  rcases h.openOneof hm with ⟨rfl, rfl⟩ | ⟨n, rfl, rfl⟩ | ⟨a, n, g, y, w, R', rfl, rfl, hg, hp, h1⟩
  · have : x' = .nil := by cases x' <;> simp_all [ReuseOneof]
    subst this
    exact PoolSim.pure (I := []) (.inl ⟨rfl, rfl, rfl⟩) h
  · have : x' = .wrapNil n := by cases x' <;> simp_all [ReuseOneof]
    subst this
    dsimp only
    by_cases hk : ((S.msg t).member f.slot n).isSome = true
    swap
    · rw [if_neg hk, if_neg hk]
      exact PoolSim.panic h
    rw [if_pos hk, if_pos hk]
    refine PoolSim.pure (I := [(.oneof (S.msg t) f.slot, .wrapNil n, .wrapNil n)]) (.inr ⟨_, _, rfl, by rw [hty], .inl ⟨_, rfl, ?_⟩⟩)
      (h.mapAll fun P h => h.map fun F hF => ⟨F, le_rfl, .wrapNil hF⟩)
    show if f.oneof then _ else _
    rw [if_pos ho]
    rfl
  · obtain ⟨y', rfl, hy⟩ : ∃ y', x' = .wrap n y' ∧ ReuseElem (Reuse S) g.kind g.msg w y' := by
      cases x' with
      | wrap n' y' =>
        obtain ⟨rfl, g', hg', hy⟩ := hx
        rw [hg] at hg'
        cases hg'
        exact ⟨y', rfl, hy⟩
      | _ => simp [ReuseOneof] at hx
    simp only
    rw [hg]
    refine PoolSim.conv (R' := rawItem (.wrap n y) a :: (elemTy g.kind g.msg, y, w) :: R') ?_ ?_
    · refine PoolSim.run (x' := hcloneMember E hrec g p y >>= fun y => hsetMember (.ptr σ.next) n y >>= fun _ => pure (some (.ptr σ.next)))
        (σ' := (σ.grow (.wrap n (hzeroScalar g.kind)))) ?_
        (by rw [HM.bind_ok (hread_ok h1.read)]; simp only [hg]; rw [HM.bind_ok (halloc_ok _ _)])
      have h1' := h1.alloc (.wrap n (hzeroScalar g.kind))
      have hc := cloneMember_sim (p := p) hE H (.tail _ (.tail _ (.head _))) ⟨by have := hN.1; simp only [Val.depth] at this; omega, by have := hN.2; simp only [Val.depth] at this; omega⟩ hy h1'
      refine PoolSim.bind (hc.unframe (J := [rawItem (.wrap n (hzeroScalar g.kind)) σ.next])
        (post' := fun z b I => ∃ b1, I = [(elemTy g.kind g.msg, z, b1), rawItem (.wrap n (hzeroScalar g.kind)) σ.next] ∧ ReuseElem (Reuse S) g.kind g.msg b1 b) ?_) ?_
      · rintro z b I ⟨b1, rfl, hb⟩
        exact ⟨b1, rfl, hb⟩
      rintro σ1 as bs J ⟨b1, rfl, hb⟩ h2
      have h2' := HoldsPool.swap h2
      refine ⟨{ σ1 with heap := σ1.heap.set σ.next (.wrap n as) }, some (.ptr σ.next), [(.oneof (S.msg t) f.slot, .ptr σ.next, .wrap n b1)],
        ?_, .inr ⟨_, _, rfl, by rw [hty], .inl ⟨_, rfl, ?_⟩⟩, ?_⟩
      · have : hsetMember (.ptr σ.next) n as σ1 = ({ σ1 with heap := σ1.heap.set σ.next (.wrap n as) }, .ok ()) := by
          unfold hsetMember
          simp only
          rw [HM.bind_ok (hread_ok h2'.read)]
          simp only [if_true]
          rfl
        rw [HM.bind_ok this]
        rfl
      · show if f.oneof then _ else _
        rw [if_pos ho]
        exact ⟨rfl, g, hg, hb⟩
      · exact (h2'.write (.wrap n as)).mapAll fun P h => Holds.sealOneof hg h
    · intro σ P h
      refine Holds.perm (I := (Ty.oneof (S.msg t) f.slot, .ptr a, .wrap n w) :: (R' ++ P)) ?_ (hp.append_right P).symm
      exact Holds.sealOneof hg h

theorem cloneOut_sim {p : List Nat} {v : HV} {x x' : Val} (hf : f ∈ (S.msg t).fields) (hs : f.oneof = true ∨ f.oneof = false ∧ ¬ inFirst S E.direct (S.msg t) f)
    (hm : (fieldTy (S.msg t) f, v, x) ∈ R) (hN : Within N N' x x') (hx : (VRel.reuse S).slot t f x x') (h : HoldsPool S B σ R) :
    PoolSim S B (OutPost S t f) (hcloneOut E hrec (S.msg t) f p v)
      (if f.oneof then cloneOneof E.plain rec (S.msg t) f.slot p x' else cloneField E.plain rec f p x') R σ := by
  rw [hcloneOut]
  rcases hs with ho | ⟨ho, hn⟩
  · rw [if_pos ho, if_pos ho]
    have hty : fieldTy (S.msg t) f = .oneof (S.msg t) f.slot := by simp [fieldTy, ho]
    rw [hty] at hm
    have hx : if f.oneof then _ else _ := hx
    rw [if_pos ho] at hx
    exact cloneOneof_sim hE H ho hm hN hx h
  · rw [ho, if_neg (by simp), if_neg (by simp)]
    refine cloneField_sim hE H hf ho ?_ hm hN hx h
    cases hr : isReference (S.msg t).proto3 f with
    | true => rfl
    | false => exact absurd ⟨ho, .inl (by simp [hr])⟩ hn

omit hE H in
theorem reuse_set (hS : schemaOK S = true) (hfo : (S.msg t).foreign = false) (hf : f ∈ (S.msg t).fields) {s s' : List Val} {u u' e e' : Bytes} {v v' : Val}
    (h : Reuse S t (.msg s u e) (.msg s' u' e')) (hv : (VRel.reuse S).slot t f v v') :
    Reuse S t (.msg (s.set f.slot v) u e) (.msg (s'.set f.slot v') u' e') := by
  rw [reuse_msg hfo] at h ⊢
  obtain ⟨h1, h2, h3, h4, h5⟩ := h
  have hd := schemaOK_msg hS t
  have hl := (hd.fields f hf).slot
  refine ⟨h1, h2, by simpa using h3, by simpa using h4, fun g hg => ?_⟩
  by_cases hs : g.slot = f.slot
  · rw [slotOf_set_eq s v (by omega) hs, slotOf_set_eq s' v' (by omega) hs]
    by_cases hn : g.num = f.num
    · rw [hd.num_inj hg hf hn]; exact hv
    · have ho := hd.share g hg f hf hn hs
      have hv : if f.oneof then ReuseOneof (Reuse S) (S.msg t) f.slot v v' else ReuseField S (Reuse S) (S.msg t) f v v' := hv
      rw [if_pos ho.2] at hv
      rw [if_pos ho.1, hs]; exact hv
  · rw [slotOf_set_ne s v hs, slotOf_set_ne s' v' hs]; exact h5 g hg

/-- The message being made, `I`, is like the one with the struct fields `r`. -/
def Making (S : Schema) (t : Nat) (p : HV) (r : List Val) (u e : Bytes) (I : List VItem) : Prop :=
  ∃ m, I = [(.msg t, p, m)] ∧ Reuse S t m (.msg r u e)

omit H in
/-- An assignment to a field of a message. -/
theorem assign_sim {p w : HV} {m y1 y : Val} {r : List Val} {u e : Bytes} (hfo : (S.msg t).foreign = false) (hf : f ∈ (S.msg t).fields)
    (hm : Reuse S t m (.msg r u e)) (hy : (VRel.reuse S).slot t f y1 y) (h : HoldsPool S B σ ((.msg t, p, m) :: (fieldTy (S.msg t) f, w, y1) :: R)) :
    PoolSim S B (fun _ r' I => r' = r.set f.slot y ∧ Making S t p r' u e I) (hsetSlot p f.slot w) (.ok (r.set f.slot y)) R σ := by
  have hd := schemaOK_msg hE.ok t
  obtain ⟨L, h1, h2, h3⟩ := h
  have h4 := put_sim hfo hd hf h3
  rcases reuse_cases hfo hm with ⟨s, u1, e1, s', u', e', rfl, he⟩ | ⟨rfl, hn⟩
  · cases he
    refine ⟨(hsetSlot p f.slot w σ).1, (), [(.msg t, p, .msg (s.set f.slot y1) u1 e1)], ?_, ⟨rfl, _, rfl, reuse_set hE.ok hfo hf hm hy⟩, L, ?_, h2, h4.2⟩
    · exact Prod.ext rfl h4.1
    · rw [hsetSlot_pool, h1]
  · exact absurd rfl (hn _ _ _)

/-- The struct fields of the original, in memory and as values. -/
def Source (S : Schema) (N N' : Nat) (t : Nat) (a : Addr) (m : List HV) (w : HV) (e : Bytes) (v : List Val) (R : List VItem) : Prop :=
  rawItem (.msg m w e) a ∈ R ∧ ∀ f ∈ (S.msg t).fields, ∃ x, (fieldTy (S.msg t) f, m.getD f.slot .nil, x) ∈ R ∧ Within N N' x (slotOf v f) ∧ (VRel.reuse S).slot t f x (slotOf v f)

omit hE H in
theorem Source.get {a : Addr} {m : List HV} {w : HV} {e : Bytes} {v : List Val} {i : Nat} {I : List VItem} (hs : Source S N N' t a m w e v R) (h : HoldsPool S B σ (I ++ R)) :
    hgetSlot (.ptr a) i σ = (σ, .ok (m.getD i .nil)) := by
  unfold hgetSlot
  simp only
  rw [HM.bind_ok (hread_ok (h.readAt (List.mem_append_right _ hs.1)))]
  rfl

omit hE H in
theorem slot_other {d : MsgDesc} (hd : MsgFacts d) {f g : FieldDesc} (hf : f ∈ d.fields) (hg : g ∈ d.fields) (hne : g ≠ f) (ho : g.oneof = false) : g.slot ≠ f.slot := by
  intro hs
  have hn : g.num ≠ f.num := fun hn => hne (hd.num_inj hg hf hn)
  have := (hd.share g hg f hf hn hs).1
  rw [ho] at this
  cases this

theorem cloneFirst_sim {p : List Nat} {a0 : Addr} {m : List HV} {w0 : HV} {e0 : Bytes} {v : List Val} {q : HV} {u e : Bytes} (hfo : (S.msg t).foreign = false) : ∀ (fs : List FieldDesc)
    (r : List Val) (I : List VItem) (σ : HState), (∀ f ∈ fs, inFirst S E.direct (S.msg t) f ∧ f ∈ (S.msg t).fields) → Source S N N' t a0 m w0 e0 v R →
    Making S t q r u e I → HoldsPool S B σ (I ++ R) →
    PoolSim S B (fun _ r' I => Making S t q r' u e I ∧ ∀ g ∈ (S.msg t).fields, g.oneof = false → g ∉ fs → slotOf r' g = slotOf r g)
      (hcloneFirst E hrec (S.msg t) p (.ptr a0) q fs) (cloneFirst E.plain rec (S.msg t) p v fs r) R σ
  | [], r, I, σ, hs, hsrc, hI, h => by
    refine PoolSim.pure ⟨hI, fun _ _ _ _ => rfl⟩ h
  | f :: fs, r, I, σ, hs, hsrc, hI, h => by
    have hd := schemaOK_msg hE.ok t
    obtain ⟨⟨ho, hin⟩, hf⟩ := hs f (.head _)
    obtain ⟨x, hx1, hxN, hx2⟩ := hsrc.2 f hf
    have ih := fun r I σ => cloneFirst_sim (p := p) (a0 := a0) (m := m) (w0 := w0) (e0 := e0) (v := v) (q := q) (u := u) (e := e) hfo fs r I σ (fun g hg => hs g (.tail _ hg)) hsrc
    have next : ∀ (w : HV) (y1 y : Val) (I : List VItem) (σ : HState), (VRel.reuse S).slot t f y1 y → Making S t q r u e I →
        HoldsPool S B σ ((fieldTy (S.msg t) f, w, y1) :: (I ++ R)) →
        PoolSim S B (fun _ r' I => Making S t q r' u e I ∧ ∀ g ∈ (S.msg t).fields, g.oneof = false → g ∉ f :: fs → slotOf r' g = slotOf r g)
          (hsetSlot q f.slot w >>= fun _ => hcloneFirst E hrec (S.msg t) p (.ptr a0) q fs) (cloneFirst E.plain rec (S.msg t) p v fs (r.set f.slot y)) R σ := by
      rintro w y1 y I σ hy ⟨m1, rfl, hm1⟩ h
      refine PoolSim.bind (r := .ok (r.set f.slot y)) (g := fun r => cloneFirst E.plain rec (S.msg t) p v fs r) (assign_sim hE hfo hf hm1 hy h.swap) ?_
      rintro σ _ r' I ⟨rfl, hI⟩ h
      refine (ih _ I σ hI h).weaken ?_
      rintro _ r' I ⟨h1, h2⟩
      refine ⟨h1, fun g hg hgo hgn => ?_⟩
      rw [h2 g hg hgo (fun hc => hgn (.tail _ hc))]
      exact slotOf_set_ne _ _ (slot_other hd hf hg (fun he => hgn (he ▸ .head _)) hgo)
    rw [hcloneFirst, cloneFirst]
    by_cases hr : (!isReference (S.msg t).proto3 f) = true
    · rw [if_pos hr, if_pos hr]
      simp only [isReference, Bool.not_eq_true', Bool.or_eq_false_iff, Bool.not_eq_false', beq_eq_false_iff_ne, ne_eq] at hr
      obtain ⟨⟨⟨⟨⟨h1, -⟩, h2⟩, h3⟩, h4⟩, h5⟩ := hr
      have hpres := (hd.fields f hf).implicit h4 h1 ho h2 h3
      have hty : fieldTy (S.msg t) f = .flat := by
        simp only [FieldDesc.hasMessage, Bool.or_eq_false_iff, beq_eq_false_iff_ne, ne_eq] at h3
        have h4' : (f.card == .repeated) = false := by simpa using h4
        unfold fieldTy
        rw [ho, h4', hpres]
        revert h3 h5
        cases f.kind <;> simp [elemTy]
      refine PoolSim.run (σ' := σ) ?_ (HM.bind_ok (hsrc.get h))
      refine next _ x _ I σ hx2 hI ?_
      rw [hty] at hx1 ⊢
      exact h.dupFlat (List.mem_append_right _ hx1)
    · rw [if_neg hr, if_neg hr]
      rcases hin with h' | h'
      · exact absurd h' hr
      · simp only [Bool.and_eq_true, bne_iff_ne, ne_eq, Bool.not_eq_true'] at h'
        obtain ⟨⟨hc, hmsg⟩, hfor⟩ := h'
        have hk : f.kind = .message ∨ f.kind = .group := by
          unfold FieldDesc.hasMessage at hmsg
          simpa using hmsg
        have hmd : f.map = none := by
          cases hmd : f.map with
          | none => rfl
          | some md => exact absurd ((hd.fields f hf).map md hmd).1 hc
        have hty : fieldTy (S.msg t) f = .msg f.msg := by
          unfold fieldTy
          rcases hk with hk | hk <;> simp [ho, hc, elemTy, fieldTy.isScalar, hk]
        have hslot : ∀ a b, (VRel.reuse S).slot t f a b ↔ ReuseElem (Reuse S) f.kind f.msg a b := by
          intro a b
          rw [reuse_slot ho]
          unfold ReuseField
          rw [hmd]
          have hb : f.kind ≠ .bytes := by rcases hk with hk | hk <;> simp [hk]
          simp only [hc, hb, if_false]
        have hre : Reuse S f.msg x (slotOf v f) := by
          rw [hslot] at hx2
          unfold ReuseElem at hx2
          rw [if_pos hk] at hx2
          rcases hx2 with ⟨h1, h2⟩ | h
          · rw [h1, h2, reuse_iff]; unfold ReuseMsg; split <;> rfl
          · exact h.2.2
        have hrec' := H (p ++ [f.slot]) f.msg (m.getD f.slot .nil) x (slotOf v f) (I ++ R) σ hfor.2 (by rw [← hty]; exact List.mem_append_right _ hx1) hxN hre h
        refine PoolSim.run (σ' := σ) ?_ (HM.bind_ok (hsrc.get h))
        refine PoolSim.bind (hrec'.unframe (post' := fun a b J => ∃ b1, J = (.msg f.msg, a, b1) :: I ∧ Reuse S f.msg b1 b) ?_) ?_
        · rintro a b J ⟨b1, rfl, hb⟩
          exact ⟨b1, rfl, hb⟩
        · rintro σ a b J ⟨b1, rfl, hb⟩ h
          exact next a b1 b I σ ((hslot _ _).2 (reuseElem_msg hk hb)) hI (by rw [hty]; exact h)

theorem cloneSecond_sim {p : List Nat} {a0 : Addr} {m : List HV} {w0 : HV} {e0 : Bytes} {v : List Val} {q : HV} {u e : Bytes} (hfo : (S.msg t).foreign = false) : ∀ (fs : List FieldDesc)
    (r : List Val) (I : List VItem) (σ : HState), fs.Nodup →
    (∀ f ∈ fs, (f.oneof = true ∨ f.oneof = false ∧ ¬ inFirst S E.direct (S.msg t) f) ∧ f ∈ (S.msg t).fields) → Source S N N' t a0 m w0 e0 v R →
    (∀ f ∈ fs, f.oneof = false → slotOf r f = zeroField f) → Making S t q r u e I → HoldsPool S B σ (I ++ R) →
    PoolSim S B (fun _ r' I => Making S t q r' u e I) (hcloneSecond E hrec (S.msg t) p (.ptr a0) q fs) (cloneSecond E.plain rec (S.msg t) p v fs r) R σ
  | [], r, I, σ, hnd, hs, hsrc, hz, hI, h => PoolSim.pure hI h
  | f :: fs, r, I, σ, hnd, hs, hsrc, hz, hI, h => by
    have hd := schemaOK_msg hE.ok t
    obtain ⟨hin, hf⟩ := hs f (.head _)
    obtain ⟨x, hx1, hxN, hx2⟩ := hsrc.2 f hf
    rw [List.nodup_cons] at hnd
    rw [hcloneSecond, cloneSecond]
    have h1 := cloneOut_sim (p := p ++ [f.slot]) hE H hf hin (List.mem_append_right I hx1) hxN hx2 h
    have hif : ∀ (c : Bool) (x y : Res (Option Val)) (k : Option Val → Res (List Val)), (if c = true then x >>= k else y >>= k) = ((if c = true then x else y) >>= k) := by
      intro c x y k
      split <;> rfl
    rw [hif]
    refine PoolSim.run (σ' := σ) ?_ (HM.bind_ok (hsrc.get h))
    refine PoolSim.bind (h1.unframe (post' := fun a b J => ∃ J', OutPost S t f a b J' ∧ J = J' ++ I) fun a b J h => ⟨J, h, rfl⟩) ?_
    rintro σ a b J ⟨J', hJ, rfl⟩ h
    have hstep : PoolSim S B (fun _ r' I => r' = assignTo r f.slot b ∧ Making S t q r' u e I) (hassignTo q f.slot a) (.ok (assignTo r f.slot b)) R σ := by
      rcases hJ with ⟨rfl, rfl, rfl⟩ | ⟨w, y1, rfl, rfl, hy⟩
      · exact PoolSim.pure ⟨rfl, hI⟩ h
      · obtain ⟨m1, rfl, hm1⟩ := hI
        rcases hy with ⟨y, rfl, hy⟩ | ⟨rfl, ho, hy⟩
        · exact assign_sim hE hfo hf hm1 hy (HoldsPool.swap h)
        · have h2 := assign_sim hE hfo hf hm1 hy (HoldsPool.swap h)
          have he : r.set f.slot (zeroField f) = r := by
            rw [← hz f (.head _) ho]
            unfold slotOf
            apply List.ext_getElem
            · simp
            · intro i h1 h2
              rw [List.getElem_set]
              split
              · rename_i he
                subst he
                simp [h2]
              · rfl
          rw [he] at h2
          exact h2
    refine PoolSim.bind (r := .ok (assignTo r f.slot b)) (g := fun r => cloneSecond E.plain rec (S.msg t) p v fs r) hstep ?_
    rintro σ _ r' I ⟨rfl, hI⟩ h
    refine cloneSecond_sim hfo fs _ I σ hnd.2 (fun g hg => hs g (.tail _ hg)) hsrc (fun g hg hgo => ?_) hI h
    have hgf := (hs g (.tail _ hg)).2
    have hne : g ≠ f := fun he => hnd.1 (he ▸ hg)
    rw [← hz g (.tail _ hg) hgo]
    cases b with
    | none => rfl
    | some y => exact slotOf_set_ne _ _ (slot_other hd hf hgf hne hgo)

omit H in
theorem cloneAlloc_sim {p : List Nat} (h : HoldsPool S B σ R) :
    ∃ σ' a m, hcloneAlloc E p t σ = (σ', .ok (.ptr a)) ∧ Blank S t m ∧ HoldsPool S B σ' ((.msg t, .ptr a, m) :: R) := by
  rw [hcloneAlloc, hE.schema]
  split
  · exact poolGet_sim hE.ok h
  · exact poolGet_sim (want := none) hE.ok h

omit H in
theorem cloneUnknown_sim {a0 : Addr} {m0 : List HV} {e0 : Bytes} {x : HV} {xv : Val} {q : HV} {r : List Val} {e : Bytes} {I : List VItem} (hfo : (S.msg t).foreign = false)
    (hraw : rawItem (.msg m0 x e0) a0 ∈ R) (hx : (Ty.mem, x, xv) ∈ R) (hI : Making S t q r [] e I) (h : HoldsPool S B σ (I ++ R)) :
    PoolSim S B (fun _ u I => Making S t q r u e I) (hcloneUnknown E t (.ptr a0) q)
      (.ok (if (S.msg t).keepUnknown && decide (xv.bytes.length > 0) then xv.bytes else [])) R σ := by
  obtain ⟨m, rfl, hm⟩ := hI
  have hrd : ∀ {σ : HState} {I : List VItem}, HoldsPool S B σ (I ++ R) → hreadBytes x σ = (σ, .ok xv.bytes) := fun h => readBytes_sim hE.live (.inr rfl) h (List.mem_append_right _ hx)
  have hgu : ∀ {σ : HState} {a : Addr} {s : List HV} {u : HV} {e : Bytes}, σ.heap[a]? = some (.msg s u e) → hgetUnknown (.ptr a) σ = (σ, .ok u) := by
    intro σ a s u e h
    unfold hgetUnknown
    simp only
    rw [HM.bind_ok (hread_ok h)]
    rfl
  have hgx : ∀ {σ : HState} {I : List VItem}, HoldsPool S B σ (I ++ R) → hgetUnknown (.ptr a0) σ = (σ, .ok x) := fun h => hgu (h.readAt (List.mem_append_right _ hraw))
  rw [hcloneUnknown, hE.schema]
  by_cases hk : (S.msg t).keepUnknown = true
  swap
  · rw [if_neg hk, if_neg (by simp [hk])]
    exact PoolSim.pure ⟨m, rfl, hm⟩ h
  rw [if_pos hk]
  refine PoolSim.run (σ' := σ) ?_ (HM.bind_ok (hgx h))
  refine PoolSim.run (σ' := σ) ?_ (HM.bind_ok (hrd h))
  by_cases hl : xv.bytes.length > 0
  swap
  · rw [if_neg hl, if_neg (by simp [hl])]
    exact PoolSim.pure ⟨m, rfl, hm⟩ h
  rw [if_pos hl, if_pos (by simp [hk, hl])]
  rcases reuse_cases hfo hm with ⟨s, u1, e1, s', u', e', rfl, he⟩ | ⟨rfl, hn⟩
  swap
  · exact absurd rfl (hn _ _ _)
  cases he
  obtain ⟨L, h2, h3, h4⟩ := h.alloc (.bytes (List.replicate xv.bytes.length 0))
  rcases h4.swap.openMsg hfo with ⟨-, h, -⟩ | ⟨a, its, u2, uv2, e2, rfl, he, ht, h6⟩
  · cases h
  cases he
  have h7 := h6.write (.msg (its.map (·.2.1)) (.bytes σ.next 0 xv.bytes.length) e1)
  -- the old bytes are gone; the new ones are in front
  have h8 := Holds.dropLeft (I := [(.mem, u2, uv2)]) (J := rawItem (.bytes (List.replicate xv.bytes.length 0)) σ.next ::
    rawItem (.msg (its.map (·.2.1)) (.bytes σ.next 0 xv.bytes.length) e1) a :: (its ++ (R ++ L.map fun q => (.msg q.1, .ptr q.2.1, q.2.2)))) (h7.perm (by
      refine List.Perm.trans (List.Perm.cons _ List.perm_middle) ?_
      refine (List.Perm.swap _ _ _).trans (List.Perm.cons _ ?_)
      refine List.Perm.trans (List.Perm.cons _ List.perm_middle) ?_
      exact List.Perm.swap _ _ _))
  have h9 := h8.write (.bytes xv.bytes)
  have h10 := Holds.sealMem (off := 0) (len := xv.bytes.length) (by simp) h9
  rw [cut_all] at h10
  have h11 := Holds.sealMsg (uv := .str xv.bytes) (R := R ++ L.map fun q => (.msg q.1, .ptr q.2.1, q.2.2)) hfo ht (h10.perm (by
    refine (List.Perm.swap _ _ _).trans (List.Perm.cons _ ?_)
    exact List.perm_middle.symm))
  have hpool : HoldsPool S B { σ.grow (Cell.bytes (List.replicate xv.bytes.length 0)) with heap := (σ.grow (Cell.bytes (List.replicate xv.bytes.length 0))).heap.set a (.msg (its.map (·.2.1)) (.bytes σ.next 0 xv.bytes.length) e1) }
      ((rawItem (.bytes (List.replicate xv.bytes.length 0)) σ.next ::
        rawItem (.msg (its.map (·.2.1)) (.bytes σ.next 0 xv.bytes.length) e1) a :: its) ++ R) := ⟨L, h2, h3, by simpa [List.append_assoc] using h8⟩
  refine ⟨{ σ.grow (Cell.bytes (List.replicate xv.bytes.length 0)) with heap := ((σ.grow (Cell.bytes (List.replicate xv.bytes.length 0))).heap.set a (.msg (its.map (·.2.1)) (.bytes σ.next 0 xv.bytes.length) e1)).set σ.next (.bytes xv.bytes) },
    (), [(Ty.msg t, HV.ptr a, Val.msg (its.map (fun q => q.2.2)) xv.bytes e1)], ?_, ⟨Val.msg (its.map (fun q => q.2.2)) xv.bytes e1, rfl, ?_⟩, L, h2, h3, ?_⟩
  · have hmk : hmakeBytes xv.bytes.length σ = ((σ.grow (Cell.bytes (List.replicate xv.bytes.length 0))), .ok (.bytes σ.next 0 xv.bytes.length)) := rfl
    rw [HM.bind_ok hmk]
    have hsu : hsetUnknown (.ptr a) (.bytes σ.next 0 xv.bytes.length) (σ.grow (Cell.bytes (List.replicate xv.bytes.length 0))) =
        ({ σ.grow (Cell.bytes (List.replicate xv.bytes.length 0)) with heap := (σ.grow (Cell.bytes (List.replicate xv.bytes.length 0))).heap.set a (.msg (its.map (·.2.1)) (.bytes σ.next 0 xv.bytes.length) e1) }, .ok ()) := by
      unfold hsetUnknown
      simp only
      rw [HM.bind_ok (hread_ok h6.read)]
      rfl
    rw [HM.bind_ok hsu, HM.bind_ok (hgu h7.read), HM.bind_ok (hgx hpool), HM.bind_ok (hrd hpool)]
    unfold hcopyInto
    simp only
    rw [HM.bind_ok (hread_ok h8.read)]
    simp only [List.take_zero, List.nil_append, List.take_length, Nat.zero_add, Nat.min_self, List.drop_replicate, Nat.sub_self, List.replicate_zero, List.append_nil]
    rfl
  · rw [reuse_msg hfo] at hm ⊢
    exact ⟨rfl, hm.2⟩
  · exact h11

end

section
variable {S : Schema}

theorem cloneFirst_unpool {E : KEnv} {rec : SubClone} {d : MsgDesc} {p : List Nat} {m : List Val} : ∀ (fs : List FieldDesc) (r : List Val),
    cloneFirst E rec { d with pooled := false } p m fs r = cloneFirst E rec d p m fs r
  | [], _ => rfl
  | f :: fs, r => by
    rw [cloneFirst, cloneFirst]
    simp only [cloneFirst_unpool fs]

theorem cloneSecond_unpool {E : KEnv} {rec : SubClone} {d : MsgDesc} {p : List Nat} {m : List Val} : ∀ (fs : List FieldDesc) (r : List Val),
    cloneSecond E rec { d with pooled := false } p m fs r = cloneSecond E rec d p m fs r
  | [], _ => rfl
  | f :: fs, r => by
    rw [cloneSecond, cloneSecond]
    simp only [cloneSecond_unpool fs]
    rfl

theorem cloneSplit_unpool {dir : Nat → Bool} {d : MsgDesc} : ∀ (fs : List FieldDesc) (seen : List Nat), cloneSplit (unpool S) dir { d with pooled := false } seen fs = cloneSplit S dir d seen fs
  | [], _ => rfl
  | f :: fs, seen => by
    rw [cloneSplit, cloneSplit]
    simp only [cloneSplit_unpool fs, unpool_msg]

theorem cloneSplit_sub (dir : Nat → Bool) (d : MsgDesc) : ∀ (fs : List FieldDesc) (seen : List Nat), (cloneSplit S dir d seen fs).2.Sublist fs
  | [], _ => .slnil
  | f :: fs, seen => by
    have ih := cloneSplit_sub dir d fs
    rw [cloneSplit]
    split_ifs
    · exact (ih seen).cons _
    · exact (ih _).cons_cons _
    · exact (ih _).cons _
    · exact (ih _).cons _
    · exact (ih _).cons_cons _

end

section
variable {S : Schema} {B : Bufs} {E : HKEnv} (hE : CloneEnv S B E)
include hE

theorem cloneBody_sim {hrec : HSubClone} {rec : SubClone} {N N' : Nat} (H : CloneRec S B N N' hrec rec) :
    CloneRec S B (N + 1) (N' + 1) (hcloneBody E hrec) (cloneBody E.plain rec) := by
  intro p t v x x' R σ hfo hm hN hx h
  have hd := schemaOK_msg hE.ok t
  rcases h.openMsg hfo hm with ⟨rfl, rfl⟩ | ⟨a, its, u, uv, e, R', rfl, rfl, ht, hp, h1⟩
  · rcases reuse_cases hfo hx with ⟨s, u1, e1, s', u', e', h, -⟩ | ⟨rfl, -⟩
    · cases h
    · refine PoolSim.pure (I := [(.msg t, .nil, .nil)]) ⟨.nil, rfl, hx⟩ (h.addNil rfl)
  obtain ⟨v, u', e', rfl, hx⟩ : ∃ v u' e', x' = .msg v u' e' ∧ Reuse S t (.msg (its.map (·.2.2)) uv.bytes e) (.msg v u' e') := by
    rcases reuse_cases hfo hx with ⟨s, u1, e1, s', u', e', h, rfl⟩ | ⟨-, h⟩
    · exact ⟨_, _, _, rfl, hx⟩
    · exact absurd rfl (h _ _ _)
  have hx := (reuse_msg hfo).1 hx
  obtain ⟨rfl, rfl, hl1, hl2, hx⟩ := hx
  rw [hcloneBody, cloneBody]
  simp only
  have hz : cloneAlloc E.plain p t = zeroMsg S t := by
    unfold cloneAlloc
    rw [show E.plain.S = unpool S by show unpool E.S = _; rw [hE.schema], unpool_msg, (samePlan_unpool S).zeroMsg]
    rfl
  rw [hz]
  unfold zeroMsg
  simp only
  rw [show E.plain.S = unpool S by show unpool E.S = _; rw [hE.schema], unpool_msg, cloneSplit_unpool]
  rw [hE.schema]
  refine PoolSim.conv (R' := rawItem (.msg (its.map (·.2.1)) u e) a :: (its ++ (.mem, u, uv) :: R')) ?_ ?_
  · have hsrc : Source S N N' t a (its.map (·.2.1)) u e v (rawItem (.msg (its.map (·.2.1)) u e) a :: (its ++ (.mem, u, uv) :: R')) := ⟨.head _, fun f hf => by
      have hg : its[f.slot]? = some (fieldTy (S.msg t) f, (its.map (·.2.1)).getD f.slot .nil, slotOf (its.map (·.2.2)) f) := by
        have hlt : f.slot < its.length := by
          have := congrArg List.length ht
          simp only [List.length_map, slotTys, List.length_range] at this
          rw [this]
          exact (hd.fields f hf).slot
        have h1 : (its.map (·.1))[f.slot]? = (slotTys (S.msg t))[f.slot]? := by rw [ht]
        simp only [List.getElem?_map, List.getElem?_eq_getElem hlt, Option.map_some] at h1 ⊢
        unfold slotTys at h1
        simp only [List.getElem?_map, List.getElem?_range (hd.fields f hf).slot, Option.map_some, Option.some.injEq] at h1
        rw [slotTy_eq hd hf] at h1
        simp only [slotOf, List.getD_eq_getElem?_getD, List.getElem?_map, List.getElem?_eq_getElem hlt, Option.map_some, Option.getD_some]
        rw [← h1]
      refine ⟨_, List.mem_cons_of_mem _ (List.mem_append_left _ (List.mem_of_getElem? hg)), ⟨?_, ?_⟩, hx f hf⟩
      · have := hN.1
        have := depth_slotOf (its.map (·.2.2)) f
        simp only [Val.depth] at *
        omega
      · have := hN.2
        have := depth_slotOf v f
        simp only [Val.depth] at *
        omega⟩
    refine PoolSim.run (x' := hcloneAlloc E p t >>= fun r => hcloneFirst E hrec (S.msg t) p (.ptr a) r (cloneSplit S E.direct (S.msg t) [] (S.msg t).fields).1 >>= fun _ =>
      hcloneSecond E hrec (S.msg t) p (.ptr a) r (cloneSplit S E.direct (S.msg t) [] (S.msg t).fields).2 >>= fun _ =>
      hcloneUnknown E t (.ptr a) r >>= fun _ => pure r) (σ' := σ) ?_ (by rw [if_neg (by simp [HV.isNil])])
    obtain ⟨σ', b, m, h2, h3, h4⟩ := cloneAlloc_sim (t := t) (p := p) hE h1
    refine PoolSim.run (σ' := σ') ?_ (HM.bind_ok h2)
    have hs := cloneSplit_first S E.direct (S.msg t) (S.msg t).fields []
    have hs2 := cloneSplit_second S E.direct (S.msg t) (S.msg t).fields []
    simp only [cloneFirst_unpool, cloneSecond_unpool]
    refine PoolSim.bind (cloneFirst_sim (u := []) (e := []) hE H hfo _ _ [(.msg t, .ptr b, m)] σ' hs hsrc ⟨m, rfl, h3⟩ h4) ?_
    rintro σ1 _ r I ⟨hI, hkeep⟩ h5
    refine PoolSim.bind (cloneSecond_sim (u := []) (e := []) hE H hfo _ _ I σ1 ?_ (fun f hf => ?_) hsrc (fun f hf ho => ?_) hI h5) ?_
    · refine (cloneSplit_sub _ _ _ _).nodup ?_
      exact hd.nodup.of_map _
    · exact ⟨(hs2 f hf).1.imp (fun h => h.1) id, (hs2 f hf).2⟩
    · rw [hkeep f (hs2 f hf).2 ho (fun hc => ?_)]
      · exact zeroMsg_slot hE.ok (hs2 f hf).2
      · rcases (hs2 f hf).1 with h | h
        · rw [ho] at h; cases h.1
        · exact h.2 (hs f hc).1
    · rintro σ2 _ r I hI h6
      have h7 := cloneUnknown_sim (x := u) (xv := uv) hE hfo (.head _) (List.mem_cons_of_mem _ (List.mem_append_right _ (.head _))) hI h6
      refine PoolSim.bind (r := .ok (if (S.msg t).keepUnknown && decide (uv.bytes.length > 0) then uv.bytes else [])) (g := fun u => .ok (Val.msg r u [])) h7 ?_
      rintro σ3 _ u' I ⟨m', rfl, hm'⟩ h8
      exact PoolSim.pure (I := [(.msg t, .ptr b, m')]) ⟨m', rfl, hm'⟩ h8
  · intro σ P h
    refine Holds.perm (I := (Ty.msg t, .ptr a, .msg (its.map (·.2.2)) uv.bytes e) :: (R' ++ P)) ?_ (hp.append_right P).symm
    exact Holds.sealMsg hfo ht (by simpa [List.append_assoc] using h)

theorem cloneN_sim : ∀ N N', CloneRec S B N N' (hcloneN E (N + 1)) (cloneN E.plain (N' + 1))
  | 0, N' => fun p t v x x' R σ hfo hm hN hx h => by
    rcases h.openMsg hfo hm with ⟨rfl, rfl⟩ | ⟨a, its, u, uv, e, R', rfl, rfl, ht, hp, h1⟩
    · rcases reuse_cases hfo hx with ⟨s, u1, e1, s', u', e', h, -⟩ | ⟨rfl, -⟩
      · cases h
      · exact PoolSim.pure (I := [(.msg t, .nil, .nil)]) ⟨.nil, rfl, hx⟩ (h.addNil rfl)
    · have := hN.1
      simp [Val.depth] at this
  | N + 1, 0 => fun p t v x x' R σ hfo hm hN hx h => by
    rcases h.openMsg hfo hm with ⟨rfl, rfl⟩ | ⟨a, its, u, uv, e, R', rfl, rfl, ht, hp, h1⟩
    · rcases reuse_cases hfo hx with ⟨s, u1, e1, s', u', e', h, -⟩ | ⟨rfl, -⟩
      · cases h
      · exact PoolSim.pure (I := [(.msg t, .nil, .nil)]) ⟨.nil, rfl, hx⟩ (h.addNil rfl)
    · rcases reuse_cases hfo hx with ⟨s, u1, e1, s', u', e', h, rfl⟩ | ⟨-, h⟩
      · have := hN.2
        simp [Val.depth] at this
      · exact absurd rfl (h _ _ _)
  | N + 1, N' + 1 => cloneBody_sim hE (cloneN_sim N N')

/-- Cloning in memory, whatever the pools hand out. -/
theorem cloneVT_sim {t : Nat} {v : HV} {x x' : Val} {R : List VItem} {σ : HState} (hfo : (S.msg t).foreign = false) (hm : (Ty.msg t, v, x) ∈ R)
    (hx : Reuse S t x x') (h : HoldsPool S B σ R) :
    PoolSim S B (fun a b I => ∃ b1, I = [(.msg t, a, b1)] ∧ Reuse S t b1 b) (hcloneVT E t v) (cloneVT E.plain t x') R σ := by
  have hd : x.depth + 1 ≤ σ.fuel := by
    obtain ⟨L, -, -, h3⟩ := h
    exact h3.depth (x := (.msg t, v, x)) (List.mem_append_left _ hm)
  obtain ⟨N, hN⟩ : ∃ N, σ.fuel = N + 1 := ⟨σ.fuel - 1, by omega⟩
  refine PoolSim.run (x' := hcloneN E (N + 1) [] t v) (σ' := σ) ?_ (by unfold hcloneVT; rw [hN])
  exact cloneN_sim hE N x'.depth [] t v x x' R σ hfo hm ⟨by omega, le_rfl⟩ hx h

end

end Vtp
