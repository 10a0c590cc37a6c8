import Verif.Lemmas.HeapSimLoop
import Verif.Lemmas.HeapReset
import Verif.Lemmas.HeapFuel
import Verif.Model.Pool
import Verif.Spec.Reuse
/-! # `ResetVT` in memory and on values -/

namespace Vtp
open Spec

theorem HM.bind_err' {α β : Type} {x : HM α} {k : α → HM β} {σ : HState} {e : Err} (h : (x σ).2 = .err e) : ((x >>= k) σ).2 = .err e := by
  show (HM.bind x k σ).2 = _
  unfold HM.bind
  generalize x σ = q at h
  obtain ⟨σ', r⟩ := q
  subst h
  rfl

theorem HM.bind_panic' {α β : Type} {x : HM α} {k : α → HM β} {σ : HState} {e : Panic} (h : (x σ).2 = .panic e) : ((x >>= k) σ).2 = .panic e := by
  show (HM.bind x k σ).2 = _
  unfold HM.bind
  generalize x σ = q at h
  obtain ⟨σ', r⟩ := q
  subst h
  rfl

theorem HM.bind_diverge' {α β : Type} {x : HM α} {k : α → HM β} {σ : HState} (h : (x σ).2 = .diverge) : ((x >>= k) σ).2 = .diverge := by
  show (HM.bind x k σ).2 = _
  unfold HM.bind
  generalize x σ = q at h
  obtain ⟨σ', r⟩ := q
  subst h
  rfl

/-- Messages put into pools, as items. -/
abbrev putItems (L : List (Nat × Addr × Val)) : List VItem := L.map fun q => (.msg q.1, .ptr q.2.1, q.2.2)
/-- What they stand for. -/
abbrev putVals (L : List (Nat × Addr × Val)) : Puts := L.map fun q => (q.1, q.2.2)
/-- Their places in the pool: the last one is first. -/
abbrev putPool (L : List (Nat × Addr × Val)) : List (Nat × Addr) := (L.map fun q => (q.1, q.2.1)).reverse

/-- The code `x` on memory does what `r` tells, also about the messages put into pools. -/
def PutSim (S : Schema) (B : Bufs) {α β : Type} (rel : α → β → Prop) (items : α → β → List VItem) (x : HM α) (r : Res (β × Puts)) (R : List VItem)
    (σ : HState) : Prop :=
  match r with
  | .ok (b, ps) => ∃ σ' a L, x σ = (σ', .ok a) ∧ putVals L = ps ∧ σ'.pool = putPool L ++ σ.pool ∧ rel a b ∧ Holds S B σ' (items a b ++ (putItems L ++ R))
  | .err e => (x σ).2 = .err e
  | .panic e => (x σ).2 = .panic e
  | .diverge => (x σ).2 = .diverge

/-- The same, where what is left need not be determined by the results. -/
def PutSimE (S : Schema) (B : Bufs) {α β : Type} (post : α → β → List VItem → Prop) (x : HM α) (r : Res (β × Puts)) (R : List VItem) (σ : HState) : Prop :=
  match r with
  | .ok (b, ps) => ∃ σ' a L I, x σ = (σ', .ok a) ∧ putVals L = ps ∧ σ'.pool = putPool L ++ σ.pool ∧ post a b I ∧ Holds S B σ' (I ++ (putItems L ++ R))
  | .err e => (x σ).2 = .err e
  | .panic e => (x σ).2 = .panic e
  | .diverge => (x σ).2 = .diverge

section
variable {S : Schema} {B : Bufs} {σ : HState} {R : List VItem} {α β γ δ : Type}

theorem PutSim.pure {rel : α → β → Prop} {items : α → β → List VItem} {a : α} {b : β} (hr : rel a b) (h : Holds S B σ (items a b ++ R)) :
    PutSim S B rel items (Pure.pure a) (.ok (b, [])) R σ :=
  ⟨σ, a, [], rfl, rfl, rfl, hr, h⟩

theorem PutSimE.bind {post : α → β → List VItem → Prop} {rel' : γ → δ → Prop} {items' : γ → δ → List VItem} {x : HM α} {r : Res (β × Puts)}
    {k : α → HM γ} {u : β → Res (δ × Puts)} (J : List VItem) (h : PutSimE S B post x r (J ++ R) σ)
    (hk : ∀ a b I σ' R', post a b I → Holds S B σ' (I ++ (J ++ R')) → PutSim S B rel' items' (k a) (u b) R' σ') :
    PutSim S B rel' items' (x >>= k) (r >>= fun q => u q.1 >>= fun q' => .ok (q'.1, q.2 ++ q'.2)) R σ := by
  unfold PutSimE at h
  cases r with
  | ok q =>
    obtain ⟨σ', a, L, I, h1, h2, h3, h4, h5⟩ := h
    have h6 := hk a q.1 I σ' (putItems L ++ R) h4 (h5.perm (List.Perm.append_left _ (by
      rw [← List.append_assoc, ← List.append_assoc]
      exact List.Perm.append_right _ List.perm_append_comm)))
    show PutSim S B rel' items' (x >>= k) (u q.1 >>= fun q' => .ok (q'.1, q.2 ++ q'.2)) R σ
    unfold PutSim at h6 ⊢
    cases hu : u q.1 with
    | ok q' =>
      rw [hu] at h6
      obtain ⟨σ'', c, L', h7, h8, h9, h10, h11⟩ := h6
      refine ⟨σ'', c, L ++ L', by rw [HM.bind_ok h1, h7], by rw [← h2, ← h8]; simp [putVals], by simp [h9, h3, putPool], h10, h11.perm ?_⟩
      refine List.Perm.append_left _ ?_
      rw [show putItems (L ++ L') = putItems L ++ putItems L' from List.map_append, ← List.append_assoc]
      exact List.Perm.append_right _ List.perm_append_comm
    | err e => rw [hu] at h6; exact (congrArg Prod.snd (HM.bind_ok h1)).trans h6
    | panic e => rw [hu] at h6; exact (congrArg Prod.snd (HM.bind_ok h1)).trans h6
    | diverge => rw [hu] at h6; exact (congrArg Prod.snd (HM.bind_ok h1)).trans h6
  | err e => exact HM.bind_err' h
  | panic e => exact HM.bind_panic' h
  | diverge => exact HM.bind_diverge' h

theorem PutSim.bind {rel : α → β → Prop} {items : α → β → List VItem} {rel' : γ → δ → Prop} {items' : γ → δ → List VItem} {x : HM α} {r : Res (β × Puts)}
    {k : α → HM γ} {u : β → Res (δ × Puts)} (J : List VItem) (h : PutSim S B rel items x r (J ++ R) σ)
    (hk : ∀ a b σ' R', rel a b → Holds S B σ' (items a b ++ (J ++ R')) → PutSim S B rel' items' (k a) (u b) R' σ') :
    PutSim S B rel' items' (x >>= k) (r >>= fun q => u q.1 >>= fun q' => .ok (q'.1, q.2 ++ q'.2)) R σ := by
  refine PutSimE.bind (post := fun a b I => rel a b ∧ I = items a b) J ?_ fun a b I σ' R' hp h => ?_
  · unfold PutSim at h
    unfold PutSimE
    cases r with
    | ok q =>
      obtain ⟨σ', a, L, h1, h2, h3, h4, h5⟩ := h
      exact ⟨σ', a, L, _, h1, h2, h3, ⟨h4, rfl⟩, h5⟩
    | err e => exact h
    | panic e => exact h
    | diverge => exact h
  · obtain ⟨h1, rfl⟩ := hp
    exact hk a b σ' R' h1 h

/-- Only the result changes. -/
theorem PutSim.map {rel : α → β → Prop} {items : α → β → List VItem} {rel' : γ → δ → Prop} {items' : γ → δ → List VItem} {x : HM α} {r : Res (β × Puts)}
    {f : α → γ} {g : β → δ} (h : PutSim S B rel items x r R σ) (hr : ∀ a b, rel a b → rel' (f a) (g b))
    (hi : ∀ a b σ' R', rel a b → Holds S B σ' (items a b ++ R') → Holds S B σ' (items' (f a) (g b) ++ R')) :
    PutSim S B rel' items' (x >>= fun a => Pure.pure (f a)) (r >>= fun q => .ok (g q.1, q.2)) R σ := by
  have h1 := PutSim.bind (k := fun a => (Pure.pure (f a) : HM γ)) (u := fun b => Res.ok (g b, [])) [] h
    fun a b σ' R' hab h => PutSim.pure (rel := rel') (items := items') (hr a b hab) (hi a b σ' R' hab h)
  have e : (r >>= fun q => Res.ok (g q.1, ([] : Puts)) >>= fun q' => Res.ok (q'.1, q.2 ++ q'.2)) = (r >>= fun q => Res.ok (g q.1, q.2)) := by
    cases r <;> simp [Bind.bind, Res.bind]
  rwa [e] at h1

theorem PutSim.run {rel : α → β → Prop} {items : α → β → List VItem} {x x' : HM α} {r : Res (β × Puts)} (h : PutSim S B rel items x r R σ) (hx : x' σ = x σ) :
    PutSim S B rel items x' r R σ := by
  unfold PutSim at *
  rw [hx]
  exact h

theorem PutSimE.run {post : α → β → List VItem → Prop} {x x' : HM α} {r : Res (β × Puts)} (h : PutSimE S B post x r R σ) (hx : x' σ = x σ) :
    PutSimE S B post x' r R σ := by
  unfold PutSimE at *
  rw [hx]
  exact h

/-- What belongs to the frame belongs to the result. -/
theorem PutSim.unframe {rel : α → β → Prop} {items : α → β → List VItem} {x : HM α} {r : Res (β × Puts)} {J : List VItem}
    (h : PutSim S B rel items x r (J ++ R) σ) : PutSim S B rel (fun a b => items a b ++ J) x r R σ := by
  unfold PutSim at h ⊢
  cases r with
  | ok q =>
    obtain ⟨σ', a, L, h1, h2, h3, h4, h5⟩ := h
    refine ⟨σ', a, L, h1, h2, h3, h4, h5.perm ?_⟩
    rw [List.append_assoc]
    refine List.Perm.append_left _ ?_
    rw [← List.append_assoc, ← List.append_assoc]
    exact List.Perm.append_right _ List.perm_append_comm
  | err e => exact h
  | panic e => exact h
  | diverge => exact h

/-- Resetting messages, as the recursive calls do. -/
def ResetSim (S : Schema) (B : Bufs) (hrec : HSubReset) (rec : SubReset) : Prop := ∀ t p m R σ, (S.msg t).foreign = false → m ≠ .nil →
  Holds S B σ ((.msg t, p, m) :: R) → PutSim S B (fun _ _ => True) (fun _ m' => [(.msg t, p, m')]) (hrec t p) (rec t m) R σ

variable {hrec : HSubReset} {rec : SubReset} (hp : poolsLocal S) (H : ResetSim S B hrec rec)
include H

theorem returnWith_sim {t : Nat} {p : HV} {m : Val} (hf : (S.msg t).foreign = false) (h : Holds S B σ ((.msg t, p, m) :: R)) :
    PutSim S B (fun _ (_ : Unit) => True) (fun _ _ => []) (hreturnWith hrec t p) (returnWith rec t m >>= fun ps => .ok ((), ps)) R σ := by
  have hn := h.isNil (fun c e => by cases e)
  unfold returnWith
  by_cases hm : m.isNil = true
  · rw [hm] at hn
    have hp : p = .nil := by cases p <;> first | rfl | cases hn
    subst hp
    simp only [hm, if_true]
    exact ⟨σ, (), [], rfl, rfl, rfl, trivial, h.tail⟩
  · have hm' : m ≠ .nil := fun e => hm (by rw [e]; rfl)
    rcases h.openMsg hf with ⟨-, rfl, -⟩ | ⟨a, its, u, uv, e, rfl, rfl, ht, -⟩
    · exact absurd rfl hm'
    · have h1 := H t _ _ R σ hf hm' h
      simp only [hm, Bool.false_eq_true, if_false]
      unfold hreturnWith
      simp only [HV.isNil, Bool.false_eq_true, if_false]
      generalize hr : rec t _ = r at h1
      unfold PutSim at h1 ⊢
      cases r with
      | ok q =>
        obtain ⟨σ', x, L, h2, h3, h4, -, h5⟩ := h1
        refine ⟨{ σ' with pool := (t, a) :: σ'.pool }, (), L ++ [(t, a, q.1)], ?_, ?_, ?_, trivial, ?_⟩
        · rw [HM.bind_ok h2]
          rfl
        · rw [← h3]
          simp [putVals]
        · simp [h4, putPool]
        · obtain ⟨F, h6, hg⟩ := h5
          refine Holds.perm (I := (.msg t, .ptr a, q.1) :: (putItems L ++ R)) ⟨F, h6, hg.same rfl rfl⟩ ?_
          rw [show putItems (L ++ [(t, a, q.1)]) = putItems L ++ [(.msg t, .ptr a, q.1)] by simp [putItems]]
          simp only [List.nil_append, List.append_assoc, List.cons_append]
          exact List.perm_middle.symm
      | err e => exact HM.bind_err' h1
      | panic e => exact HM.bind_panic' h1
      | diverge => exact HM.bind_diverge' h1

omit H in
/-- The zero value of a type, in place of an old one. -/
theorem zero_sim {t : Nat} {a : Addr} {c : Cell} (h : Holds S B σ (rawItem c a :: R)) :
    Holds S B { σ with heap := σ.heap.set a (hzeroCell S t) } ((.msg t, .ptr a, zeroMsg S t) :: R) := by
  have h1 := h.write (hzeroCell S t)
  unfold hzeroCell at h1 ⊢
  by_cases hf : (S.msg t).foreign = true
  · simp only [hf, if_true] at h1 ⊢
    obtain ⟨F, h1, hg⟩ := h1
    cases h1 with
    | raw hc hI => exact ⟨_, .foreign hf hc (fun e => nomatch e) hI, hg⟩
  · simp only [hf, Bool.false_eq_true, if_false] at h1 ⊢
    have h2 := (Holds.addNil (ty := .mem) rfl (h1.perm (List.perm_append_comm (l₁ := [_])))).addZeroSlots (S.msg t) (List.range (S.msg t).nslots)
    have h3 := Holds.sealMsg (t := t) (its := (List.range (S.msg t).nslots).map (fun s => (slotTy (S.msg t) s, hzeroSlot (S.msg t) s, zeroSlot (S.msg t) s)))
      (u := .nil) (uv := .nil) (e := []) (R := R) (a := a) (by simpa using hf) (by rw [List.map_map]; rfl) (h2.perm (by
        rw [List.map_map]
        refine List.Perm.trans ?_ (List.perm_append_comm (l₁ := _ ++ (Ty.mem, HV.nil, Val.nil) :: R) (l₂ := [_]))
        simp only [List.append_assoc, List.cons_append]
        exact List.Perm.refl _))
    rw [List.map_map] at h3
    exact h3

omit H in
theorem Spec.Holds.openPtr {t : Nat} {p : HV} {m : Val} (h : Holds S B σ ((.msg t, p, m) :: R)) (hm : m ≠ .nil) :
    ∃ a c, p = .ptr a ∧ Holds S B σ (rawItem c a :: R) := by
  obtain ⟨F, h1, hg⟩ := h
  cases h1 with
  | nil _ hI => exact absurd rfl hm
  | foreign hf hc _ hI => exact ⟨_, _, rfl, _, .raw hc hI, hg⟩
  | msg hf hc ht hI =>
    rename_i a its u uv e F
    refine ⟨a, .msg (its.map (·.2.1)) u e, rfl, Holds.dropLeft (I := its ++ [(.mem, u, uv)]) (Holds.perm ⟨_, .raw hc hI, hg⟩ ?_)⟩
    rw [List.append_assoc, List.cons_append, List.nil_append]
    refine List.Perm.trans List.perm_middle.symm (List.Perm.append_left _ (List.Perm.swap _ _ _))

/-! ## Lists -/

include hp in
theorem resetElem_sim {t : Nat} {x : HV} {v : Val} (h : Holds S B σ ((.msg t, x, v) :: R)) :
    PutSim S B (fun _ _ => True) (fun _ v' => [(.msg t, x, v')]) (hresetElem S hrec t x) (resetElem S rec t v) R σ := by
  have hn := h.isNil (fun c e => by cases e)
  unfold hresetElem resetElem
  by_cases hpo : (S.msg t).pooled = true
  · simp only [hpo, if_true]
    rw [hn]
    by_cases hv : v.isNil = true
    · have : v = .nil := by cases v <;> first | rfl | cases hv
      subst this
      simp only [hv, if_true]
      exact PutSim.pure trivial h
    · simp only [hv, Bool.false_eq_true, if_false]
      exact H t x v R σ (hp t hpo) (fun e => hv (by rw [e]; rfl)) h
  · simp only [hpo, Bool.false_eq_true, if_false]
    by_cases hv : v.isNil = true
    · rw [hv] at hn
      have : x = .nil := by cases x <;> first | rfl | cases hn
      subst this
      simp only [hv, if_true]
      rfl
    · obtain ⟨a, c, rfl, h1⟩ := h.openPtr (fun e => hv (by rw [e]; rfl))
      simp only [hv, Bool.false_eq_true, if_false]
      exact ⟨_, (), [], rfl, rfl, rfl, trivial, zero_sim h1⟩

omit H in
theorem Spec.Holds.readRaw {I : List VItem} {c : Cell} {a : Addr} (h : Holds S B σ I) (hm : rawItem c a ∈ I) : σ.heap[a]? = some c := by
  obtain ⟨l, r, rfl⟩ := List.append_of_mem hm
  exact (h.perm List.perm_middle).read

include hp in
theorem resetElems_sim {t a len : Nat} {ys : List HV} : ∀ (xs : List (HV × Val)) (i : Nat) (R : List VItem) (σ : HState), rawItem (.arr ys) a ∈ R →
    (ys.take len).drop i = xs.map (·.1) → Holds S B σ (xs.map (fun x => (.msg t, x)) ++ R) →
    PutSim S B (fun _ vs => vs.length = xs.length) (fun _ vs => (List.zip (xs.map (·.1)) vs).map (fun x => (.msg t, x)))
      (hresetElems S hrec t (.slice a len) i xs.length) (resetElems S rec t (xs.map (·.2))) R σ
  | [], _, R, σ, _, _, h => PutSim.pure rfl h
  | (x, v) :: xs, i, R, σ, hraw, hys, h => by
    have hxi : (ys.take len)[i]? = some x := by
      have := congrArg (fun l => l[0]?) hys
      simpa using this
    have hrest : (ys.take len).drop (i + 1) = xs.map (·.1) := by
      rw [← List.tail_drop, hys]
      rfl
    have hread : hindex (.slice a len) i σ = (σ, .ok x) := by
      unfold hindex
      simp only
      rw [HM.bind_ok (hread_ok (h.readRaw (List.mem_append_right _ hraw)))]
      simp only [hxi]
      rfl
    have h1 := resetElem_sim (R := xs.map (fun x => ((.msg t, x) : VItem)) ++ R) hp H h
    have e1 : hresetElems S hrec t (.slice a len) i (xs.length + 1) σ = (hresetElem S hrec t x >>= fun _ => hresetElems S hrec t (.slice a len) (i + 1) xs.length) σ := by
      rw [hresetElems, HM.bind_ok hread]
    have e2 : resetElems S rec t (v :: xs.map (·.2)) = (resetElem S rec t v >>= fun q => (resetElems S rec t (xs.map (·.2)) >>= fun q' => .ok (q.1 :: q'.1, q'.2)) >>=
        fun q' => .ok (q'.1, q.2 ++ q'.2)) := by
      simp only [resetElems]
      cases resetElem S rec t v with
      | ok q => cases resetElems S rec t (xs.map (·.2)) <;> rfl
      | err e => rfl
      | panic e => rfl
      | diverge => rfl
    simp only [List.map_cons, List.length_cons]
    refine PutSim.run ?_ e1
    rw [e2]
    unfold PutSim at h1
    cases hr : resetElem S rec t v with
    | ok q =>
      rw [hr] at h1
      obtain ⟨σ1, u, L, h2, h3, h4, -, h5⟩ := h1
      have h6 := resetElems_sim xs (i + 1) ((.msg t, x, q.1) :: (putItems L ++ R)) σ1 (.tail _ (List.mem_append_right _ hraw)) hrest (h5.perm (by
        simp only [List.singleton_append]
        refine (List.Perm.cons _ ?_).trans List.perm_middle.symm
        rw [← List.append_assoc, ← List.append_assoc]
        exact List.Perm.append_right _ List.perm_append_comm))
      unfold PutSim at h6 ⊢
      cases hr' : resetElems S rec t (xs.map (·.2)) with
      | ok q' =>
        rw [hr'] at h6
        obtain ⟨σ2, u', L', h7, h8, h9, h10, h11⟩ := h6
        refine ⟨σ2, u', L ++ L', by rw [HM.bind_ok h2, h7], by rw [← h3, ← h8]; simp [putVals], by simp [h9, h4, putPool], by simpa using h10, h11.perm ?_⟩
        simp only [List.zip_cons_cons, List.map_cons, List.cons_append]
        rw [show putItems (L ++ L') = putItems L ++ putItems L' from List.map_append]
        refine List.Perm.trans ?_ (List.perm_middle (l₁ := (List.zip (xs.map (·.1)) q'.1).map (fun x => ((.msg t, x) : VItem))))
        refine List.Perm.append_left _ ?_
        refine List.perm_middle.trans (List.Perm.cons _ ?_)
        rw [← List.append_assoc]
        exact List.Perm.append_right _ List.perm_append_comm
      | err e => rw [hr'] at h6; exact (congrArg Prod.snd (HM.bind_ok h2)).trans h6
      | panic e => rw [hr'] at h6; exact (congrArg Prod.snd (HM.bind_ok h2)).trans h6
      | diverge => rw [hr'] at h6; exact (congrArg Prod.snd (HM.bind_ok h2)).trans h6
    | err e => rw [hr] at h1; exact HM.bind_err' h1
    | panic e => rw [hr] at h1; exact HM.bind_panic' h1
    | diverge => rw [hr] at h1; exact HM.bind_diverge' h1

omit H in
theorem Spec.Holds.addZeros (k : Kind) (t : Nat) (n : Nat) (h : Holds S B σ R) :
    Holds S B σ (List.replicate n (elemTy k t, hzeroScalar k, zeroScalar k) ++ R) := by
  induction n with
  | zero => exact h
  | succ n ih => exact ih.addZeroScalar k t

/-- What is saved of a field, if anything. -/
def savedOne (ty : Ty) : Option HV → Option Val → List VItem
  | some s, some v => [(ty, s, v)]
  | _, _ => []

abbrev sameOption : Option HV → Option Val → Prop := fun a b => a.isSome = b.isSome

omit H in
theorem elemTy_message {k : Kind} {t : Nat} (h : k = .message ∨ k = .group) : elemTy k t = .msg t := by
  rcases h with rfl | rfl <;> rfl

omit H in
theorem elemTy_keeps {k : Kind} {t : Nat} (h : ¬ (k = .message ∨ k = .group)) : (elemTy k t).keeps = false := by
  cases k <;> first | rfl | simp at h

omit H in
theorem hgetSlot_ok {hs : List HV} {u : HV} {e : Bytes} {a : Addr} {i : Nat} (h : σ.heap[a]? = some (.msg hs u e)) :
    hgetSlot (.ptr a) i σ = (σ, .ok (hs.getD i .nil)) := by
  unfold hgetSlot
  simp only
  rw [HM.bind_ok (hread_ok h)]
  rfl

include hp in
theorem resetList_sim {f : FieldDesc} {v : Val} {hs : List HV} {u : HV} {e : Bytes} {pa : Addr} (hl : f.isList = true) (hraw : rawItem (.msg hs u e) pa ∈ R)
    (h : Holds S B σ ((.list (elemTy f.kind f.msg), hs.getD f.slot .nil, v) :: R)) :
    PutSim S B sameOption (savedOne (.list (elemTy f.kind f.msg))) (hresetField S hrec (.ptr pa) f) (resetField S rec f v) R σ := by
  have hget : ∀ {σ' : HState} {I : List VItem}, Holds S B σ' (I ++ R) → hgetSlot (.ptr pa) f.slot σ' = (σ', .ok (hs.getD f.slot .nil)) := fun h =>
    hgetSlot_ok (h.readRaw (List.mem_append_right _ hraw))
  have hg0 := hget (I := [_]) h
  unfold hresetField resetField
  simp only [hl, if_true]
  have fin : ∀ (x : HM Unit), hresetList S hrec (.ptr pa) f σ = x σ →
      PutSim S B sameOption (savedOne (.list (elemTy f.kind f.msg))) (x >>= fun _ => hgetSlot (.ptr pa) f.slot >>= fun s => hcutList s >>= fun s => pure (some s)) (resetField S rec f v) R σ →
      PutSim S B sameOption (savedOne (.list (elemTy f.kind f.msg))) (hresetList S hrec (.ptr pa) f >>= fun _ => hgetSlot (.ptr pa) f.slot >>= fun s => hcutList s >>= fun s =>
        pure (some s)) (resetField S rec f v) R σ := fun x hx hP => hP.run (by
      show HM.bind _ _ σ = HM.bind _ _ σ
      unfold HM.bind
      rw [hx])
  unfold resetField at fin
  simp only [hl, if_true] at fin
  rcases h.openList with ⟨hs0, rfl, -⟩ | ⟨a, len, xs, sp, hs0, rfl, hlen, hs', h1⟩
  · rw [hs0] at hg0 h
    refine fin (pure ()) ?_ ⟨σ, some .nil, [], ?_, rfl, rfl, rfl, h⟩
    · unfold hresetList
      split_ifs
      · rw [HM.bind_ok hg0]; rfl
      · rw [HM.bind_ok hg0]; rfl
      · rfl
    · rw [HM.bind_ok (x := pure ()) rfl, HM.bind_ok hg0]; rfl
  · rw [hs0] at hg0 hget
    have hr : hread a σ = (σ, .ok (.arr (xs.map (·.1)))) := hread_ok h1.read
    have hcut : ∀ σ' : HState, hgetSlot (.ptr pa) f.slot σ' = (σ', .ok (.slice a len)) →
        (hgetSlot (.ptr pa) f.slot >>= fun s => hcutList s >>= fun s => pure (some s)) σ' = (σ', .ok (some (.slice a 0))) := fun σ' h => by
      rw [HM.bind_ok h]
      rfl
    by_cases hm : f.hasMessage = true
    · have hty : elemTy f.kind f.msg = .msg f.msg := elemTy_message (by simpa [FieldDesc.hasMessage] using hm)
      rw [hty] at h1 hs' fin ⊢
      have h2 : Holds S B σ ((xs.take len).map (fun x => ((.msg f.msg, x) : VItem)) ++ ((rawItem (.arr (xs.map (·.1))) a :: (xs.drop len).map (fun x => ((.msg f.msg, x) : VItem))) ++ R)) := by
        refine h1.perm ?_
        rw [← List.take_append_drop len (xs.map fun x => ((.msg f.msg, x) : VItem)), List.append_assoc, ← List.map_take, ← List.map_drop]
        exact List.perm_middle.symm
      have h3 := resetElems_sim (a := a) (len := len) (ys := xs.map (·.1)) hp H (xs.take len) 0 _ σ (.head _) (by rw [List.drop_zero, List.map_take]) h2
      have e2 : resetElems S rec f.msg ((xs.map (·.2)).take len) = resetElems S rec f.msg ((xs.take len).map (·.2)) := by rw [List.map_take]
      refine fin (hresetElems S hrec f.msg (.slice a len) 0 (xs.take len).length) ?_ ?_
      · unfold hresetList
        simp only [hm, if_true]
        rw [HM.bind_ok hg0]
        have : Vtp.hlen (.slice a len) σ = (σ, .ok (xs.take len).length) := by
          unfold Vtp.hlen
          simp only
          rw [HM.bind_ok hr]
          simp only [List.length_take, List.length_map]
          rfl
        rw [HM.bind_ok this]
      · simp only [hm, if_true]
        rw [e2]
        unfold PutSim at h3 ⊢
        cases hre : resetElems S rec f.msg ((xs.take len).map (·.2)) with
        | ok q =>
          obtain ⟨vs, ps⟩ := q
          rw [hre] at h3
          obtain ⟨σ', w, L, h4, h5, h6, hvs, h'⟩ := h3
          have hz : (List.zip ((xs.take len).map (·.1)) vs).map (·.2) = vs := List.map_snd_zip (by simp [hvs])
          have hz' : (List.zip ((xs.take len).map (·.1)) vs).map (·.1) = (xs.take len).map (·.1) := List.map_fst_zip (by simp [hvs])
          have := Holds.sealList (e := .msg f.msg) (a := a) (len := 0) (xs := List.zip ((xs.take len).map (·.1)) vs ++ xs.drop len) (sp := vs ++ sp) (R := putItems L ++ R) (σ := σ') (S := S) (B := B) (Nat.zero_le _) (by
            unfold SpareRep at hs' ⊢
            simp only [Ty.keeps, if_true] at hs' ⊢
            obtain ⟨k, hk⟩ := hs'
            refine ⟨k, ?_⟩
            rw [List.drop_zero, List.map_append, hz, List.map_drop, hk, List.append_assoc]) (by
            refine h'.perm ?_
            rw [List.map_append, hz', ← List.map_append, List.take_append_drop, List.map_append, List.append_assoc]
            refine (List.Perm.append_left _ List.perm_middle).trans (List.perm_middle.trans (List.Perm.cons _ (List.Perm.append_left _ ?_)))
            show (putItems L ++ ((xs.drop len).map (fun x => ((.msg f.msg, x) : VItem)) ++ R)).Perm _
            rw [← List.append_assoc, ← List.append_assoc]
            exact List.Perm.append_right _ List.perm_append_comm)
          refine ⟨σ', some (.slice a 0), L, ?_, h5, h6, rfl, this⟩
          rw [HM.bind_ok h4]
          exact hcut σ' ((hgetSlot_ok (h'.readRaw (List.mem_append_right _ (List.mem_append_right _ (.tail _ (List.mem_append_right _ hraw)))))).trans (by rw [hs0]))
        | err e => rw [hre] at h3; exact HM.bind_err' h3
        | panic e => rw [hre] at h3; exact HM.bind_panic' h3
        | diverge => rw [hre] at h3; exact HM.bind_diverge' h3
    · have hk : ¬ (f.kind = .message ∨ f.kind = .group) := by simpa [FieldDesc.hasMessage] using hm
      have hs' : ∀ xs' : List (HV × Val), SpareRep (elemTy f.kind f.msg) ((xs'.map (·.2)).drop 0) [] := fun xs' => by
        simp [SpareRep, elemTy_keeps hk]
      by_cases hb : f.kind = .bytes ∨ f.kind = .string
      · let zs : List (HV × Val) := List.replicate len (hzeroScalar f.kind, zeroScalar f.kind) ++ xs.drop len
        have e : List.replicate ((xs.map (·.1)).take len).length (hzeroScalar f.kind) ++ (xs.map (·.1)).drop len = zs.map (·.1) := by
          simp [zs, hlen]
        have hx : hresetList S hrec (.ptr pa) f σ = ({ σ with heap := σ.heap.set a (.arr (zs.map (·.1))) }, .ok ()) := by
          unfold hresetList
          simp only [hm, Bool.false_eq_true, if_false, hb, if_true]
          rw [HM.bind_ok hg0]
          unfold hclear
          simp only
          rw [HM.bind_ok hr]
          simp only
          rw [e]
          rfl
        have h2 := h1.write (.arr (zs.map (·.1)))
        have h3 : Holds S B { σ with heap := σ.heap.set a (.arr (zs.map (·.1))) } (rawItem (.arr (zs.map (·.1))) a :: (zs.map (fun x => (elemTy f.kind f.msg, x)) ++ R)) := by
          have h4 : Holds S B { σ with heap := σ.heap.set a (.arr (zs.map (·.1))) } ((xs.drop len).map (fun x => (elemTy f.kind f.msg, x)) ++ (rawItem (.arr (zs.map (·.1))) a :: R)) := by
            refine Holds.dropLeft (I := (xs.take len).map (fun x => (elemTy f.kind f.msg, x))) (h2.perm ?_)
            rw [← List.append_assoc, ← List.map_append, List.take_append_drop]
            exact List.perm_middle.symm
          refine (h4.addZeros f.kind f.msg len).perm ?_
          have ez : zs.map (fun x => (elemTy f.kind f.msg, x)) = List.replicate len (elemTy f.kind f.msg, hzeroScalar f.kind, zeroScalar f.kind) ++
              (xs.drop len).map (fun x => (elemTy f.kind f.msg, x)) := by
            simp only [zs, List.map_append, List.map_replicate]
          rw [ez, ← List.append_assoc]
          exact List.perm_middle
        have h5 := Holds.sealList (len := 0) (sp := []) (Nat.zero_le _) (hs' zs) h3
        simp only [hm, Bool.false_eq_true, if_false]
        refine ⟨{ σ with heap := σ.heap.set a (.arr (zs.map (·.1))) }, some (.slice a 0), [], ?_, rfl, rfl, rfl, h5⟩
        rw [HM.bind_ok hx]
        exact hcut _ (hget (I := [_]) h5)
      · simp only [hm, Bool.false_eq_true, if_false]
        refine ⟨σ, some (.slice a 0), [], ?_, rfl, rfl, rfl, Holds.sealList (len := 0) (sp := []) (Nat.zero_le _) (hs' xs) h1⟩
        have hx : hresetList S hrec (.ptr pa) f σ = (σ, .ok ()) := by
          unfold hresetList
          simp only [hm, Bool.false_eq_true, if_false, hb]
          rfl
        rw [HM.bind_ok hx]
        exact hcut _ hg0

omit H in
theorem cut_sim {s : HV} {v : Val} (h : Holds S B σ ((.bytes, s, v) :: R)) :
    ∃ s', hcutBytes s σ = (σ, .ok s') ∧ Holds S B σ ((.bytes, s', if v.isNil then .nil else .str []) :: R) := by
  obtain ⟨F, h1, hg⟩ := h
  cases h1 with
  | nil ht hI => exact ⟨_, rfl, _, .nil rfl hI, hg⟩
  | lent ha hb hI =>
    rename_i a off len c
    have := RepL.lent (len := 0) (off := off) ha hb hI
    simp only [cut, List.take_zero] at this
    exact ⟨_, rfl, _, this, hg⟩
  | bytes hc hl hI =>
    rename_i a off len c F
    have := RepL.bytes (len := 0) (off := off) hc (by omega) hI
    simp only [cut, List.take_zero] at this
    exact ⟨_, rfl, _, this, hg⟩

/-! ## Fields -/

variable {d : MsgDesc} {f : FieldDesc}

include hp in
theorem resetField_sim {v : Val} {hs : List HV} {u : HV} {e : Bytes} {pa : Addr} (hd : MsgFacts d) (hm : f ∈ d.fields) (ho : f.oneof = false) (hraw : rawItem (.msg hs u e) pa ∈ R)
    (h : Holds S B σ ((fieldTy d f, hs.getD f.slot .nil, v) :: R)) :
    PutSim S B sameOption (savedOne (fieldTy d f)) (hresetField S hrec (.ptr pa) f) (resetField S rec f v) R σ := by
  have hg0 : hgetSlot (.ptr pa) f.slot σ = (σ, .ok (hs.getD f.slot .nil)) := hgetSlot_ok (h.readRaw (.tail _ hraw))
  have hff := hd.fields f hm
  by_cases hl : f.isList = true
  · have hty : fieldTy d f = .list (elemTy f.kind f.msg) := by
      simp only [FieldDesc.isList, Bool.and_eq_true, Option.isNone_iff_eq_none] at hl
      simp [fieldTy, ho, hl.1, hl.2]
    rw [hty] at h ⊢
    exact resetList_sim hp H hl hraw h
  · have hl' : f.isList = false := by simpa using hl
    unfold hresetField resetField
    simp only [hl', ho, Bool.false_eq_true, if_false]
    by_cases hm' : f.hasMessage = true
    · simp only [hm', if_true]
      by_cases hq : (f.map.isNone && (S.msg f.msg).pooled) = true
      · simp only [hq, if_true]
        simp only [Bool.and_eq_true] at hq
        have hty : fieldTy d f = .msg f.msg := by
          have hc : (f.card == .repeated) = false := by
            simp only [FieldDesc.isList, hq.1, Bool.and_true] at hl'
            exact hl'
          have hk : f.kind = .message ∨ f.kind = .group := by simpa [FieldDesc.hasMessage] using hm'
          have hsc : fieldTy.isScalar f.kind = false := by rcases hk with e | e <;> rw [e] <;> rfl
          simp [fieldTy, ho, hc, hsc, elemTy_message hk]
        rw [hty] at h
        have h1 := returnWith_sim H (hp f.msg hq.2) h
        have h2 := PutSim.map (rel' := sameOption) (items' := savedOne (fieldTy d f)) (f := fun _ => (none : Option HV)) (g := fun _ => (none : Option Val)) h1
          (fun _ _ _ => rfl) fun _ _ _ _ _ h => h
        have e : (returnWith rec f.msg v >>= fun ps => Res.ok ((none : Option Val), ps)) =
            ((returnWith rec f.msg v >>= fun ps => Res.ok ((), ps)) >>= fun q => Res.ok ((none : Option Val), q.2)) := by
          cases returnWith rec f.msg v <;> rfl
        rw [e]
        exact h2.run (HM.bind_ok hg0)
      · simp only [hq, Bool.false_eq_true, if_false]
        exact PutSim.pure rfl h.tail
    · simp only [hm', Bool.false_eq_true, if_false]
      by_cases hb : f.kind = .bytes
      · simp only [hb, if_true]
        have hty : fieldTy d f = .bytes := by
          have hc : (f.card == .repeated) = false := by
            cases hc : f.card == .repeated with
            | false => rfl
            | true =>
              have hc' : f.card = .repeated := by simpa using hc
              have : f.map = none := by
                cases hmp : f.map with
                | none => rfl
                | some md =>
                  have := (hff.map md hmp).2.1
                  rw [hb] at this
                  cases this
              simp [FieldDesc.isList, hc', this] at hl'
          simp [fieldTy, ho, hc, hb, fieldTy.isScalar, elemTy]
        rw [hty] at h ⊢
        obtain ⟨s', h1, h2⟩ := cut_sim h
        refine PutSim.run (PutSim.pure (rel := sameOption) (items := savedOne .bytes) (a := some s') rfl h2) ?_
        rw [HM.bind_ok hg0, HM.bind_ok h1]
      · simp only [hb, if_false]
        exact PutSim.pure rfl h.tail

/-- The struct field of a oneof: as it was, or its member was reset and put into the pool. -/
inductive OneofSt (d : MsgDesc) (slot : Nat) (s : HV) (sv : Val) (done : List Nat) : List VItem → Prop
  | whole : OneofSt d slot s sv done [(.oneof d slot, s, sv)]
  | taken {n : Nat} {x : HV} {w : Val} {a : Addr} (hs : s = .ptr a) (hv : sv = .wrap n w) (hn : n ∈ done) : OneofSt d slot s sv done [rawItem (.wrap n x) a]

omit H in
theorem OneofSt.more {slot : Nat} {s : HV} {sv : Val} {done done' : List Nat} {its : List VItem} (h : OneofSt d slot s sv done its) (hd : ∀ n ∈ done, n ∈ done') :
    OneofSt d slot s sv done' its := by
  cases h with
  | whole => exact .whole
  | taken hs hv hn => exact .taken hs hv (hd _ hn)

include hp in
theorem resetOneof_sim {s : HV} {sv : Val} {done : List Nat} {its : List VItem} (hd : MsgFacts d) (hm : f ∈ d.fields) (ho : f.oneof = true) (hn : f.num ∉ done)
    (hst : OneofSt d f.slot s sv done its) (h : Holds S B σ (its ++ R)) {p : HV} (hg0 : hgetSlot p f.slot σ = (σ, .ok s)) :
    PutSimE S B (fun a b I => a = none ∧ b = none ∧ OneofSt d f.slot s sv (f.num :: done) I) (hresetField S hrec p f) (resetField S rec f sv) R σ := by
  have hl : f.isList = false := by
    have := ((hd.fields f hm).oneof ho).1
    simp [FieldDesc.isList, this]
  have hskip : PutSimE S B (fun a b I => a = none ∧ b = none ∧ OneofSt d f.slot s sv (f.num :: done) I) (pure none : HM (Option HV)) (.ok ((none : Option Val), [])) R σ :=
    ⟨σ, none, [], its, rfl, rfl, rfl, ⟨rfl, rfl, hst.more fun _ h => .tail _ h⟩, h⟩
  unfold hresetField resetField
  simp only [hl, ho, Bool.false_eq_true, if_false, if_true]
  by_cases hq : (f.hasMessage && (S.msg f.msg).pooled) = true
  · simp only [hq, if_true]
    simp only [Bool.and_eq_true] at hq
    have hk : f.kind = .message ∨ f.kind = .group := by simpa [FieldDesc.hasMessage] using hq.1
    refine PutSimE.run ?_ (HM.bind_ok hg0)
    cases hst with
    | taken hs hv hn' =>
      rename_i n x w a
      subst hs hv
      have hne : n ≠ f.num := fun e => hn (e ▸ hn')
      simp only [hne, if_false]
      have hr : hholds (.ptr a) f.num σ = (σ, .ok none) := by
        unfold hholds
        simp only
        rw [HM.bind_ok (hread_ok h.read)]
        simp only [hne, if_false]
        rfl
      exact PutSimE.run hskip (HM.bind_ok hr)
    | whole =>
      rcases h.openOneof with ⟨rfl, rfl⟩ | ⟨n, rfl, rfl⟩ | ⟨a, n, g, x, w, rfl, rfl, hg, h1⟩
      · exact hskip
      · by_cases hnn : n = f.num
        · subst hnn
          simp only [if_true]
          have hr : hholds (.wrapNil f.num) f.num σ = (σ, .ok (some .nil)) := by
            unfold hholds
            simp only [if_true]
            rfl
          show ((hholds _ _ >>= _) σ).2 = _
          rw [HM.bind_ok hr]
          rfl
        · simp only [hnn, if_false]
          have hr : hholds (.wrapNil n) f.num σ = (σ, .ok none) := by
            unfold hholds
            simp only [hnn, if_false]
            rfl
          exact PutSimE.run hskip (HM.bind_ok hr)
      · by_cases hnn : n = f.num
        · subst hnn
          simp only [if_true]
          have hr : hholds (.ptr a) f.num σ = (σ, .ok (some (.ptr a))) := by
            unfold hholds
            simp only
            rw [HM.bind_ok (hread_ok h1.read)]
            simp only [if_true]
            rfl
          have hr' : hmember (.ptr a) σ = (σ, .ok x) := by
            unfold hmember
            simp only
            rw [HM.bind_ok (hread_ok h1.read)]
            rfl
          have hgf : g = f := by
            rw [member_of hd hm ho] at hg
            exact (Option.some.inj hg).symm
          subst hgf
          refine PutSimE.run (x := hreturnWith hrec g.msg x >>= fun _ => pure none) ?_ (by
            rw [HM.bind_ok hr]
            simp only
            rw [HM.bind_ok hr'])
          rw [elemTy_message hk] at h1
          have h2 := returnWith_sim H (hp g.msg hq.2) h1.swap
          unfold PutSim at h2
          cases hrw : returnWith rec g.msg w with
          | ok ps =>
            rw [hrw] at h2
            obtain ⟨σ', u, L, h3, h4, h5, -, h6⟩ := h2
            refine ⟨σ', none, L, [rawItem (.wrap g.num x) a], ?_, h4, h5, ⟨rfl, rfl, .taken rfl rfl (.head _)⟩, h6.perm ?_⟩
            · rw [HM.bind_ok h3]
              rfl
            · exact List.perm_middle
          | err e => rw [hrw] at h2; exact HM.bind_err' h2
          | panic e => rw [hrw] at h2; exact HM.bind_panic' h2
          | diverge => rw [hrw] at h2; exact HM.bind_diverge' h2
        · simp only [hnn, if_false]
          have hr : hholds (.ptr a) f.num σ = (σ, .ok none) := by
            unfold hholds
            simp only
            rw [HM.bind_ok (hread_ok h1.read)]
            simp only [hnn, if_false]
            rfl
          exact PutSimE.run hskip (HM.bind_ok hr)
  · simp only [hq, Bool.false_eq_true, if_false]
    exact hskip

/-! ### All fields -/

omit H in
theorem flatten_take {cur : List (List VItem)} {i : Nat} {c : List VItem} (h : cur[i]? = some c) : cur.flatten.Perm (c ++ (cur.eraseIdx i).flatten) := by
  induction cur generalizing i with
  | nil => simp at h
  | cons x cur ih =>
    cases i with
    | zero =>
      simp only [List.getElem?_cons_zero, Option.some.injEq] at h
      subst h
      simp
    | succ i =>
      simp only [List.getElem?_cons_succ] at h
      simp only [List.flatten_cons, List.eraseIdx_cons_succ]
      refine ((ih h).append_left x).trans ?_
      rw [← List.append_assoc, ← List.append_assoc]
      exact List.Perm.append_right _ List.perm_append_comm

omit H in
theorem flatten_put {cur : List (List VItem)} {i : Nat} (c : List VItem) (h : i < cur.length) : (cur.set i c).flatten.Perm (c ++ (cur.eraseIdx i).flatten) := by
  have := flatten_take (cur := cur.set i c) (i := i) (c := c) (by simp [h])
  refine this.trans (List.Perm.append_left _ (List.Perm.of_eq ?_))
  congr 1
  clear this
  induction cur generalizing i with
  | nil => rfl
  | cons x cur ih =>
    cases i with
    | zero => rfl
    | succ i =>
      simp only [List.set_cons_succ, List.eraseIdx_cons_succ]
      rw [ih (by simpa using h)]

/-- What is saved, as items. -/
def savedVItems (d : MsgDesc) : List (Nat × HV) → List (Nat × Val) → List VItem
  | q :: qs, r :: rs => (slotTy d q.1, q.2, r.2) :: savedVItems d qs rs
  | _, _ => []

/-- The same struct fields are saved. -/
def SavedRel (d : MsgDesc) (qs : List (Nat × HV)) (rs : List (Nat × Val)) : Prop := qs.map (·.1) = rs.map (·.1) ∧ ∀ q ∈ qs, ∃ f ∈ d.fields, f.slot = q.1

/-- In the middle of the loop over the fields: what is left of each struct field, for the fields to come. -/
structure ResetMid (d : MsgDesc) (hs : List HV) (vs : List Val) (fs : List FieldDesc) (done : List Nat) (cur : List (List VItem)) : Prop where
  sub : ∀ f ∈ fs, f ∈ d.fields
  nodup : (fs.map (·.num)).Nodup
  new : ∀ f ∈ fs, f.num ∉ done
  plain : ∀ f ∈ fs, f.oneof = false → cur[f.slot]? = some [(fieldTy d f, hs.getD f.slot .nil, slotOf vs f)]
  one : ∀ f ∈ fs, f.oneof = true → ∃ c, cur[f.slot]? = some c ∧ OneofSt d f.slot (hs.getD f.slot .nil) (slotOf vs f) done c

omit H in
theorem ResetMid.next {hs : List HV} {vs : List Val} {fs : List FieldDesc} {done : List Nat} {cur : List (List VItem)} {c : List VItem} (hd : MsgFacts d)
    (h : ResetMid d hs vs (f :: fs) done cur) (hlt : f.slot < cur.length)
    (hc : f.oneof = true → OneofSt d f.slot (hs.getD f.slot .nil) (slotOf vs f) (f.num :: done) c) :
    ResetMid d hs vs fs (f.num :: done) (cur.set f.slot c) := by
  have hnd := h.nodup
  simp only [List.map_cons, List.nodup_cons, List.mem_map, not_exists, not_and] at hnd
  have hm := h.sub f (.head _)
  refine ⟨fun g hg => h.sub g (.tail _ hg), hnd.2, fun g hg hn => ?_, fun g hg ho => ?_, fun g hg ho => ?_⟩
  · rcases List.mem_cons.1 hn with hn | hn
    · exact hnd.1 g hg hn
    · exact h.new g (.tail _ hg) hn
  · have hne : f.slot ≠ g.slot := fun e => by
      have := (hd.share f hm g (h.sub g (.tail _ hg)) (fun e => hnd.1 g hg e.symm) e).2
      rw [ho] at this
      cases this
    rw [List.getElem?_set_ne hne]
    exact h.plain g (.tail _ hg) ho
  · by_cases he : f.slot = g.slot
    · have ho' := (hd.share f hm g (h.sub g (.tail _ hg)) (fun e => hnd.1 g hg e.symm) he).1
      refine ⟨c, by rw [← he]; simp [hlt], ?_⟩
      have := hc ho'
      unfold slotOf at this ⊢
      rw [he] at this
      exact this
    · obtain ⟨c', h1, h2⟩ := h.one g (.tail _ hg) ho
      exact ⟨c', by rw [List.getElem?_set_ne he]; exact h1, h2.more fun _ h => .tail _ h⟩

include hp in
theorem resetFields_sim {hs : List HV} {vs : List Val} {u : HV} {e : Bytes} {a : Addr} (hd : MsgFacts d) : ∀ (fs : List FieldDesc) (done : List Nat) (cur : List (List VItem))
    (R : List VItem) (σ : HState), ResetMid d hs vs fs done cur → Holds S B σ (rawItem (.msg hs u e) a :: (cur.flatten ++ R)) →
    PutSim S B (SavedRel d) (fun qs rs => rawItem (.msg hs u e) a :: savedVItems d qs rs) (hresetFields S hrec (.ptr a) fs) (resetFields S rec vs fs) R σ
  | [], done, cur, R, σ, hmid, h => by
    refine PutSim.pure ⟨rfl, fun _ h => nomatch h⟩ ?_
    exact (Holds.dropLeft (h.perm (by
      refine List.Perm.trans ?_ (List.Perm.of_eq (List.append_assoc cur.flatten [rawItem (.msg hs u e) a] R))
      simpa using List.perm_middle.symm))).perm (List.Perm.refl _)
  | f :: fs, done, cur, R, σ, hmid, h => by
    have hm := hmid.sub f (.head _)
    have hg := hgetSlot_ok (i := f.slot) h.read
    have e2 : resetFields S rec vs (f :: fs) = (resetField S rec f (slotOf vs f) >>= fun q => (resetFields S rec vs fs >>= fun q' =>
        .ok ((match q.1 with | some v => (f.slot, v) :: q'.1 | none => q'.1), q'.2)) >>= fun q' => .ok (q'.1, q.2 ++ q'.2)) := by
      simp only [resetFields]
      cases resetField S rec f (slotOf vs f) with
      | ok q =>
        obtain ⟨o, ps⟩ := q
        simp only [Bind.bind, Res.bind]
        cases resetFields S rec vs fs with
        | ok q' => rfl
        | err e => rfl
        | panic e => rfl
        | diverge => rfl
      | err e => rfl
      | panic e => rfl
      | diverge => rfl
    rw [e2]
    refine PutSim.run (x := hresetField S hrec (.ptr a) f >>= fun o => hresetFields S hrec (.ptr a) fs >>= fun saved =>
      pure (match o with | some v => (f.slot, v) :: saved | none => saved)) ?_ (by rw [hresetFields]; rfl)
    by_cases ho : f.oneof = true
    · obtain ⟨c, hc, hst⟩ := hmid.one f (.head _) ho
      have hlt : f.slot < cur.length := (List.getElem?_eq_some_iff.1 hc).1
      refine PutSimE.bind (rawItem (.msg hs u e) a :: (cur.eraseIdx f.slot).flatten) (u := fun o => resetFields S rec vs fs >>= fun q' =>
        .ok ((match o with | some v => (f.slot, v) :: q'.1 | none => q'.1), q'.2))
        (resetOneof_sim hp H hd hm ho (hmid.new f (.head _)) hst (h.perm ?_) hg) fun x y I σ' R' hpost h' => ?_
      · refine ((List.Perm.append_right R (flatten_take hc)).cons _).trans ?_
        simp only [List.append_assoc, List.cons_append]
        exact List.perm_middle.symm
      · obtain ⟨rfl, rfl, hst'⟩ := hpost
        have h3 := resetFields_sim hd fs (f.num :: done) (cur.set f.slot I) R' σ' (hmid.next hd hlt fun _ => hst') (h'.perm (by
          refine List.perm_middle.trans ?_
          show (_ :: (I ++ ((cur.eraseIdx f.slot).flatten ++ R'))).Perm _
          rw [← List.append_assoc]
          exact (List.Perm.append_right R' (flatten_put I hlt)).symm.cons _))
        exact PutSim.map (f := fun a => a) (g := fun b => b) h3 (fun _ _ h => h) fun _ _ _ _ _ h => h
    · have ho' : f.oneof = false := by simpa using ho
      have hc := hmid.plain f (.head _) ho'
      have hlt : f.slot < cur.length := (List.getElem?_eq_some_iff.1 hc).1
      refine PutSim.bind (rawItem (.msg hs u e) a :: (cur.eraseIdx f.slot).flatten) (u := fun o => resetFields S rec vs fs >>= fun q' =>
        .ok ((match o with | some v => (f.slot, v) :: q'.1 | none => q'.1), q'.2))
        (resetField_sim (hs := hs) (u := u) (e := e) (pa := a) hp H hd hm ho' (.head _) (h.perm ?_)) fun x y σ' R' hsame h' => ?_
      · refine ((List.Perm.append_right R (flatten_take hc)).cons _).trans ?_
        simp only [List.append_assoc, List.cons_append, List.nil_append]
        exact List.Perm.swap _ _ _
      · have h3 := PutSim.unframe (J := savedOne (fieldTy d f) x y) (resetFields_sim hd fs (f.num :: done) (cur.set f.slot []) (savedOne (fieldTy d f) x y ++ R') σ'
          (hmid.next hd hlt fun h => absurd h ho) (h'.perm (by
          refine List.perm_middle.trans (List.Perm.cons _ ?_)
          refine List.Perm.trans ?_ (List.Perm.append_right _ (flatten_put [] hlt)).symm
          simp only [List.nil_append]
          show (savedOne (fieldTy d f) x y ++ ((cur.eraseIdx f.slot).flatten ++ R')).Perm _
          rw [← List.append_assoc, ← List.append_assoc]
          exact List.Perm.append_right _ List.perm_append_comm)))
        have hty : slotTy d f.slot = fieldTy d f := slotTy_eq hd hm
        cases x with
        | none =>
          cases y with
          | some y => exact nomatch (hsame : false = true)
          | none => exact PutSim.map (f := fun a => a) (g := fun b => b) h3 (fun _ _ h => h) fun _ _ _ _ _ h => by simpa [savedOne] using h
        | some x =>
          cases y with
          | none => exact nomatch (hsame : true = false)
          | some y =>
            refine PutSim.map (f := fun a => (f.slot, x) :: a) (g := fun b => (f.slot, y) :: b) h3 (fun qs rs h => ⟨by simp [h.1], ?_⟩)
              fun qs rs σ'' R'' hr h => h.perm ?_
            · intro q hq
              rcases List.mem_cons.1 hq with rfl | hq
              · exact ⟨f, hm, rfl⟩
              · exact h.2 q hq
            · simp only [savedOne, savedVItems, hty, List.cons_append, List.append_assoc, List.nil_append]
              exact List.Perm.cons _ List.perm_middle

end

/-! ### `ResetVT` -/

theorem hsetSlot_pool (p : HV) (i : Nat) (x : HV) (σ : HState) : (hsetSlot p i x σ).1.pool = σ.pool := by
  unfold hsetSlot
  split
  · rfl
  · show (HM.bind _ _ σ).1.pool = _
    unfold HM.bind hread
    split
    · rename_i h
      split at h
      · cases h
        dsimp only
        split <;> rfl
      · cases h
    · rename_i h
      split at h <;> cases h
      try rfl
    · rename_i h
      split at h <;> cases h
      try rfl
    · rename_i h
      split at h <;> cases h
      try rfl
  · rfl

theorem restore_sim {S : Schema} {B : Bufs} {t : Nat} {a : Addr} (hf : (S.msg t).foreign = false) (hd : MsgFacts (S.msg t)) :
    ∀ (qs : List (Nat × HV)) (rs : List (Nat × Val)) (slots : List Val) (R : List VItem) (σ : HState), SavedRel (S.msg t) qs rs →
      Holds S B σ ((.msg t, .ptr a, .msg slots [] []) :: (savedVItems (S.msg t) qs rs ++ R)) →
      ∃ σ', hrestore (.ptr a) qs σ = (σ', .ok ()) ∧ σ'.pool = σ.pool ∧ Holds S B σ' ((.msg t, .ptr a, .msg (restore slots rs) [] []) :: R)
  | [], [], slots, R, σ, hr, h => ⟨σ, rfl, rfl, h⟩
  | [], r :: rs, slots, R, σ, hr, h => by simp [SavedRel] at hr
  | q :: qs, [], slots, R, σ, hr, h => by simp [SavedRel] at hr
  | q :: qs, r :: rs, slots, R, σ, hr, h => by
    obtain ⟨i, s⟩ := q
    obtain ⟨j, v⟩ := r
    obtain ⟨h1, h2⟩ := hr
    simp only [List.map_cons, List.cons.injEq] at h1
    obtain ⟨rfl, h1⟩ := h1
    obtain ⟨f, hm, rfl⟩ := h2 (_, s) (.head _)
    simp only [savedVItems] at h
    rw [slotTy_eq hd hm] at h
    have h3 := put_sim hf hd hm h
    obtain ⟨σ', h4, h5, h6⟩ := restore_sim hf hd qs rs (slots.set f.slot v) R _ ⟨h1, fun q hq => h2 q (.tail _ hq)⟩ h3.2
    refine ⟨σ', ?_, ?_, h6⟩
    · rw [hrestore, HM.bind_ok (Prod.ext rfl h3.1)]
      exact h4
    · rw [h5]
      exact hsetSlot_pool _ _ _ _

theorem resetMid_start {S : Schema} {t : Nat} {its : List VItem} (hd : MsgFacts (S.msg t)) (ht : its.map (·.1) = slotTys (S.msg t)) :
    ResetMid (S.msg t) (its.map (·.2.1)) (its.map (·.2.2)) (S.msg t).fields [] (its.map fun x => [x]) := by
  have hg : ∀ f ∈ (S.msg t).fields, its[f.slot]? = some (fieldTy (S.msg t) f, (its.map (·.2.1)).getD f.slot .nil, slotOf (its.map (·.2.2)) f) := fun f hm => by
    have hlt : f.slot < its.length := by
      have := congrArg List.length ht
      simp only [List.length_map, slotTys, List.length_range] at this
      rw [this]
      exact (hd.fields f hm).slot
    have h1 : (its.map (·.1))[f.slot]? = (slotTys (S.msg t))[f.slot]? := by rw [ht]
    simp only [List.getElem?_map, List.getElem?_eq_getElem hlt, Option.map_some] at h1 ⊢
    unfold slotTys at h1
    simp only [List.getElem?_map, List.getElem?_range (hd.fields f hm).slot, Option.map_some, Option.some.injEq] at h1
    rw [slotTy_eq hd hm] at h1
    simp only [slotOf, List.getD_eq_getElem?_getD, List.getElem?_map, List.getElem?_eq_getElem hlt, Option.map_some, Option.getD_some]
    rw [← h1]
  refine ⟨fun f h => h, hd.nodup, fun _ _ h => (nomatch h), fun f hm ho => ?_, fun f hm ho => ?_⟩
  · rw [List.getElem?_map, hg f hm]; rfl
  · refine ⟨[(.oneof (S.msg t) f.slot, (its.map (·.2.1)).getD f.slot .nil, slotOf (its.map (·.2.2)) f)], ?_, .whole⟩
    have : fieldTy (S.msg t) f = .oneof (S.msg t) f.slot := by simp [fieldTy, ho]
    rw [List.getElem?_map, hg f hm, this]; rfl

theorem resetN_sim {S : Schema} {B : Bufs} (hS : schemaOK S = true) (hp : poolsLocal S) : ∀ n, ResetSim S B (hresetN S n) (resetN S n)
  | 0 => fun t p m R σ hf hm h => rfl
  | n + 1 => fun t p m R σ hf hm h => by
    have hd := schemaOK_msg hS t
    rcases h.openMsg hf with ⟨-, rfl, -⟩ | ⟨a, its, u, uv, e, rfl, rfl, ht, h1⟩
    · exact absurd rfl hm
    · have hfl : (its.map fun x => [x]).flatten = its := by
        clear h1 ht h hm
        induction its with
        | nil => rfl
        | cons x its ih => rw [List.map_cons, List.flatten_cons, ih]; rfl
      have h2 := resetFields_sim (u := u) (e := e) (a := a) hp (resetN_sim hS hp n) hd (S.msg t).fields [] (its.map fun x => [x]) R σ (resetMid_start hd ht) (by
        rw [hfl]
        exact Holds.tail (x := (.mem, u, uv)) (h1.perm (by
          refine (List.Perm.cons _ List.perm_middle).trans (List.Perm.swap _ _ _))))
      have h3 := PutSim.bind (rel' := fun (_ : Unit) (_ : Val) => True) (items' := fun _ m' => [(.msg t, .ptr a, m')]) [] h2
        (k := fun saved => hzero S t (.ptr a) >>= fun _ => hrestore (.ptr a) saved)
        (u := fun saved => .ok (.msg (restore ((List.range (S.msg t).nslots).map (zeroSlot (S.msg t))) saved) [] [], []))
        fun qs rs σ' R' hr h' => by
          have h4 := zero_sim (t := t) h'
          obtain ⟨σ2, h5, h6, h7⟩ := restore_sim hf hd qs rs _ R' _ hr (by
            simpa [zeroMsg, hf] using h4)
          refine ⟨σ2, (), [], ?_, rfl, ?_, trivial, h7⟩
          · rw [HM.bind_ok (x := hzero S t (.ptr a)) rfl]
            exact h5
          · rw [h6]
            rfl
      have e2 : resetN S (n + 1) t (.msg (its.map (·.2.2)) uv.bytes e) = (resetFields S (resetN S n) (its.map (·.2.2)) (S.msg t).fields >>= fun q =>
          (Res.ok ((.msg (restore ((List.range (S.msg t).nslots).map (zeroSlot (S.msg t))) q.1) [] [] : Val), ([] : Puts))) >>= fun q' => .ok (q'.1, q.2 ++ q'.2)) := by
        simp only [resetN]
        cases resetFields S (resetN S n) (its.map (·.2.2)) (S.msg t).fields with
        | ok q => simp [Bind.bind, Res.bind]
        | err e => rfl
        | panic e => rfl
        | diverge => rfl
      rw [e2]
      exact h3

theorem resetVT_sim {S : Schema} {B : Bufs} (hS : schemaOK S = true) (hp : poolsLocal S) {t : Nat} (hf : (S.msg t).foreign = false) {p : HV} {m : Val} {R : List VItem}
    {σ : HState} (h : Holds S B σ ((.msg t, p, m) :: R)) :
    PutSim S B (fun _ _ => True) (fun _ m' => [(.msg t, p, m')]) (hresetVT S t p) (resetVT S t m) R σ := by
  have hn := h.isNil (fun c e => by cases e)
  unfold resetVT
  by_cases hm : m.isNil = true
  · have hpn : p.isNil = true := hn.trans hm
    have hm' : m = .nil := by cases m <;> first | rfl | cases hm
    subst hm'
    refine PutSim.run (x := pure ()) ?_ (by simp only [hresetVT, hpn, if_true]; rfl)
    exact PutSim.pure trivial h
  · have hpn : ¬ p.isNil = true := fun e => hm (hn.symm.trans e)
    simp only [hm, Bool.false_eq_true, if_false]
    rw [← resetN_eq S (h.depth (.head _))]
    refine PutSim.run (x := hresetN S σ.fuel t p) ?_ (by simp only [hresetVT, hpn, if_false]; rfl)
    exact resetN_sim hS hp σ.fuel t p m R σ hf (fun e => hm (by rw [e]; rfl)) h

theorem returnToVTPool_sim {S : Schema} {B : Bufs} (hS : schemaOK S = true) (hp : poolsLocal S) {t : Nat} (hf : (S.msg t).foreign = false) {p : HV} {m : Val} {R : List VItem}
    {σ : HState} (h : Holds S B σ ((.msg t, p, m) :: R)) :
    PutSim S B (fun _ (_ : Unit) => True) (fun _ _ => []) (hreturnToVTPool S t p) (returnToVTPool S t m >>= fun ps => .ok ((), ps)) R σ := by
  have he : returnToVTPool S t m = returnWith (resetN S σ.fuel) t m := by
    unfold returnToVTPool returnWith
    rw [resetN_eq S (h.depth (.head _))]
  rw [he]
  exact PutSim.run (x := hreturnWith (hresetN S σ.fuel) t p) (returnWith_sim (resetN_sim hS hp σ.fuel) hf h) rfl

end Vtp
