import Verif.Spec.HeapPool
import Verif.Lemmas.HeapSimReset
import Verif.Lemmas.Reuse
/-! # Code on memory with pools, and code on values without them -/

namespace Vtp
open Spec

section
variable {S : Schema} {B : Bufs} {σ : HState} {I J R : List VItem}

theorem Spec.HoldsPool.mapAll (h : HoldsPool S B σ I) (hm : ∀ P, Holds S B σ (I ++ P) → Holds S B σ (J ++ P)) : HoldsPool S B σ J := by
  obtain ⟨L, h1, h2, h3⟩ := h
  exact ⟨L, h1, h2, hm _ h3⟩

theorem Spec.HoldsPool.same {σ' : HState} (h : HoldsPool S B σ I) (hh : σ'.heap = σ.heap) (hp : σ'.pool = σ.pool) (hf : σ'.free = σ.free) : HoldsPool S B σ' I := by
  obtain ⟨L, h1, h2, h3⟩ := h
  exact ⟨L, h1.trans hp.symm, h2, h3.same hh hf⟩

theorem Spec.HoldsPool.perm (h : HoldsPool S B σ I) (hp : I.Perm J) : HoldsPool S B σ J :=
  h.mapAll fun _ h => h.perm (hp.append_right _)

theorem Spec.HoldsPool.dropLeft (h : HoldsPool S B σ (I ++ J)) : HoldsPool S B σ J :=
  h.mapAll fun P h => Holds.dropLeft (I := I) (by rwa [List.append_assoc] at h)

theorem Spec.HoldsPool.tail {x : VItem} (h : HoldsPool S B σ (x :: I)) : HoldsPool S B σ I := Spec.HoldsPool.dropLeft (I := [x]) h

theorem Spec.HoldsPool.swap {x y : VItem} (h : HoldsPool S B σ (x :: y :: I)) : HoldsPool S B σ (y :: x :: I) := h.perm (List.Perm.swap y x I)

/-- A step of a program that leaves the pools alone. -/
theorem Spec.HoldsPool.step {σ' : HState} (h : HoldsPool S B σ I) (hp : σ'.pool = σ.pool) (hm : ∀ P, Holds S B σ (I ++ P) → Holds S B σ' (J ++ P)) :
    HoldsPool S B σ' J := by
  obtain ⟨L, h1, h2, h3⟩ := h
  exact ⟨L, h1.trans hp.symm, h2, hm _ h3⟩

theorem Spec.HoldsPool.alloc (h : HoldsPool S B σ I) (c : Cell) : HoldsPool S B (σ.grow c) (rawItem c σ.next :: I) :=
  h.step rfl fun _ h => h.alloc c

theorem Spec.HoldsPool.read {c : Cell} {a : Addr} (h : HoldsPool S B σ (rawItem c a :: I)) : σ.heap[a]? = some c := by
  obtain ⟨L, -, -, h3⟩ := h
  exact Holds.read h3

theorem Spec.HoldsPool.write {c : Cell} {a : Addr} (h : HoldsPool S B σ (rawItem c a :: I)) (c' : Cell) :
    HoldsPool S B { σ with heap := σ.heap.set a c' } (rawItem c' a :: I) :=
  h.step rfl fun _ h => Holds.write h c'

/-- Taking a message from a pool. -/
theorem poolGet_sim {want : Option Addr} {t : Nat} (hS : schemaOK S = true) (h : HoldsPool S B σ R) :
    ∃ σ' a m, poolGet S want t σ = (σ', .ok (.ptr a)) ∧ Blank S t m ∧ HoldsPool S B σ' ((.msg t, .ptr a, m) :: R) := by
  unfold poolGet
  have h' : HoldsPool S B (σ.asked want) R := h.same (σ.asked_heap want) (σ.asked_pool want) (σ.asked_free want)
  have hpool := σ.asked_pool want
  generalize hσ : σ.asked want = σ at h' hpool
  rw [← hpool]
  clear h hpool
  obtain ⟨L, h1, h2, h3⟩ := h'
  have hnew : ∃ σ' a m, hnew S t σ = (σ', .ok (.ptr a)) ∧ Blank S t m ∧ HoldsPool S B σ' ((.msg t, .ptr a, m) :: R) := by
    obtain ⟨σ', a, h4, h5⟩ := new_sim t h3
    have h6 : σ'.pool = σ.pool := by
      have := congrArg (fun q => q.1.pool) h4
      exact this.symm
    exact ⟨σ', a, _, h4, zeroMsg_reuse hS t, L, h1.trans h6.symm, h2, h5⟩
  cases HState.ask _ want with
  | none => exact hnew
  | some a =>
    simp only
    split
    · rename_i hm
      rw [← h1] at hm
      obtain ⟨q, hq, he⟩ := List.mem_map.mp hm
      obtain ⟨L1, L2, rfl⟩ := List.append_of_mem hq
      obtain ⟨t', a', m⟩ := q
      simp only [Prod.mk.injEq] at he
      obtain ⟨rfl, rfl⟩ := he
      have hp := h3.perm (J := (Ty.msg t', .ptr a', m) :: (R ++ ((L1 ++ L2).map fun q => (.msg q.1, .ptr q.2.1, q.2.2)))) (by
        simp only [List.map_append, List.map_cons, ← List.append_assoc]
        exact List.perm_middle)
      refine ⟨{ σ with pool := σ.pool.erase (t', a') }, a', m, rfl, h2 _ hq, ?_⟩
      -- the pool is only known up to the order of equal entries
      have hperm : (((L1 ++ (t', a', m) :: L2).map fun q => (q.1, q.2.1)).erase (t', a')).Perm ((L1 ++ L2).map fun q => (q.1, q.2.1)) := by
        simp only [List.map_append, List.map_cons]
        refine ((List.perm_middle (a := (t', a'))).erase (t', a')).trans ?_
        rw [List.erase_cons_head]
      have horder : ∃ L' : List (Nat × Addr × Val), L'.map (fun q => (q.1, q.2.1)) = σ.pool.erase (t', a') ∧ L'.Perm (L1 ++ L2) := by
        rw [← h1]
        clear hp hnew h3 h2 hq h1 hm
        generalize hA : ((L1 ++ (t', a', m) :: L2).map fun q => (q.1, q.2.1)).erase (t', a') = A at hperm
        clear hA
        generalize L1 ++ L2 = L at hperm
        clear L1 L2
        induction A generalizing L with
        | nil =>
          have := List.Perm.eq_nil hperm.symm
          exact ⟨[], rfl, by rw [List.map_eq_nil_iff.mp this]⟩
        | cons y A ih =>
          have hy : y ∈ L.map (fun q => (q.1, q.2.1)) := hperm.subset (.head _)
          obtain ⟨q, hq, rfl⟩ := List.mem_map.mp hy
          obtain ⟨L1, L2, rfl⟩ := List.append_of_mem hq
          have h1 : A.Perm ((L1 ++ L2).map fun q => (q.1, q.2.1)) := by
            refine List.Perm.cons_inv (hperm.trans ?_)
            simp only [List.map_append, List.map_cons]
            exact List.perm_middle
          obtain ⟨L', h2, h3⟩ := ih _ h1
          exact ⟨q :: L', by simp [h2], (h3.cons q).trans List.perm_middle.symm⟩
      obtain ⟨L', h4, h5⟩ := horder
      refine ⟨L', h4, fun q hq' => h2 q ?_, ?_⟩
      · have := h5.subset hq'
        simp only [List.mem_append, List.mem_cons] at this ⊢
        exact this.imp id .inr
      · have h6 : Holds S B σ ((Ty.msg t', .ptr a', m) :: (R ++ L'.map fun q => (.msg q.1, .ptr q.2.1, q.2.2))) :=
          hp.perm (List.Perm.cons _ (List.Perm.append_left _ (h5.symm.map _)))
        exact h6.same rfl rfl
    · exact hnew

/-- Code `x` on memory gives what `r` is on values, up to what `post` says, which names the items made; in the end the items `R` are as they were. -/
def PoolSim (S : Schema) (B : Bufs) {α β : Type} (post : α → β → List VItem → Prop) (x : HM α) (r : Res β) (R : List VItem) (σ : HState) : Prop :=
  match r with
  | .ok b => ∃ σ' a I, x σ = (σ', .ok a) ∧ post a b I ∧ HoldsPool S B σ' (I ++ R)
  | .err e => ∃ σ', x σ = (σ', .err e) ∧ HoldsPool S B σ' R
  | .panic e => ∃ σ', x σ = (σ', .panic e) ∧ HoldsPool S B σ' R
  | .diverge => ∃ σ', x σ = (σ', .diverge) ∧ HoldsPool S B σ' R

variable {α β γ δ : Type} {post : α → β → List VItem → Prop} {post' : γ → δ → List VItem → Prop}

theorem PoolSim.pure {a : α} {b : β} (hp : post a b I) (h : HoldsPool S B σ (I ++ R)) : PoolSim S B post (Pure.pure a : HM α) (.ok b) R σ :=
  ⟨σ, a, I, rfl, hp, h⟩

theorem PoolSim.panic {e : Panic} (h : HoldsPool S B σ R) : PoolSim S B post (HM.lift (.panic e)) (.panic e) R σ := ⟨σ, rfl, h⟩

theorem PoolSim.bind {x : HM α} {r : Res β} {f : α → HM γ} {g : β → Res δ} (h : PoolSim S B post x r R σ)
    (hk : ∀ σ a b I, post a b I → HoldsPool S B σ (I ++ R) → PoolSim S B post' (f a) (g b) R σ) : PoolSim S B post' (x >>= f) (r >>= g) R σ := by
  have hrun : ∀ {σ' a}, x σ = (σ', .ok a) → (x >>= f) σ = f a σ' := fun h => HM.bind_ok h
  cases r with
  | ok b =>
    obtain ⟨σ', a, I, h1, h2, h3⟩ := h
    have := hk σ' a b I h2 h3
    show PoolSim S B post' (x >>= f) (g b) R σ
    unfold PoolSim at this ⊢
    rw [hrun h1]
    exact this
  | err e =>
    obtain ⟨σ', h1, h2⟩ := h
    exact ⟨σ', by simp only [Bind.bind, HM.bind, h1], h2⟩
  | panic e =>
    obtain ⟨σ', h1, h2⟩ := h
    exact ⟨σ', by simp only [Bind.bind, HM.bind, h1], h2⟩
  | diverge =>
    obtain ⟨σ', h1, h2⟩ := h
    exact ⟨σ', by simp only [Bind.bind, HM.bind, h1], h2⟩

theorem PoolSim.run {x x' : HM α} {r : Res β} {σ' : HState} (h : PoolSim S B post x' r R σ') (hx : x σ = x' σ') : PoolSim S B post x r R σ := by
  unfold PoolSim at h ⊢
  rw [hx]
  exact h

/-- Items made before belong to the result. -/
theorem PoolSim.unframe {post' : α → β → List VItem → Prop} {x : HM α} {r : Res β} (h : PoolSim S B post x r (J ++ R) σ)
    (hp : ∀ a b I, post a b I → post' a b (I ++ J)) : PoolSim S B post' x r R σ := by
  cases r with
  | ok b =>
    obtain ⟨σ', a, I, h1, h2, h3⟩ := h
    exact ⟨σ', a, I ++ J, h1, hp _ _ _ h2, by rwa [List.append_assoc]⟩
  | err e =>
    obtain ⟨σ', h1, h2⟩ := h
    exact ⟨σ', h1, h2.dropLeft⟩
  | panic e =>
    obtain ⟨σ', h1, h2⟩ := h
    exact ⟨σ', h1, h2.dropLeft⟩
  | diverge =>
    obtain ⟨σ', h1, h2⟩ := h
    exact ⟨σ', h1, h2.dropLeft⟩

theorem PoolSim.weaken {post' : α → β → List VItem → Prop} {x : HM α} {r : Res β} (h : PoolSim S B post x r R σ)
    (hp : ∀ a b I, post a b I → post' a b I) : PoolSim S B post' x r R σ :=
  PoolSim.unframe (J := []) h fun a b I h => by simpa using hp a b I h

/-- The frame can be seen in another way. -/
theorem PoolSim.conv {x : HM α} {r : Res β} {R' : List VItem} (h : PoolSim S B post x r R' σ) (hc : ∀ σ P, Holds S B σ (R' ++ P) → Holds S B σ (R ++ P)) :
    PoolSim S B post x r R σ := by
  have hc' : ∀ {σ I}, HoldsPool S B σ (I ++ R') → HoldsPool S B σ (I ++ R) := by
    intro σ I h
    refine h.mapAll fun P h => ?_
    have h1 := hc σ (I ++ P) (h.perm (by simpa [List.append_assoc] using (List.perm_append_comm_assoc I R' P)))
    refine h1.perm ?_
    simpa [List.append_assoc] using (List.perm_append_comm_assoc R I P)
  cases r with
  | ok b =>
    obtain ⟨σ', a, I, h1, h2, h3⟩ := h
    exact ⟨σ', a, I, h1, h2, hc' h3⟩
  | err e =>
    obtain ⟨σ', h1, h2⟩ := h
    exact ⟨σ', h1, hc' (I := []) h2⟩
  | panic e =>
    obtain ⟨σ', h1, h2⟩ := h
    exact ⟨σ', h1, hc' (I := []) h2⟩
  | diverge =>
    obtain ⟨σ', h1, h2⟩ := h
    exact ⟨σ', h1, hc' (I := []) h2⟩

end

end Vtp
