import Verif.Lemmas.HeapOwn
/-! # Triples: what code does to ownership -/

namespace Vtp
open Spec

/-- What code is judged against: the memory of others, objects `Z` that must stay what they are, and whether the memory of others is among
what must not be written to. -/
structure Ctx where
  S : Schema
  B : Lent
  Z : Addr → Cell → Prop
  lock : Prop

theorem HState.next_or (σ : HState) : σ.heap[σ.next]? = some (.foreign .nil) ∨ σ.next = σ.heap.length := by
  unfold HState.next
  split
  · split
    · rename_i h
      exact .inl h
    · exact .inr rfl
  · exact .inr rfl

theorem HState.next_le (σ : HState) : σ.next ≤ σ.heap.length :=
  σ.next_or.elim (fun h => Nat.le_of_lt (List.getElem?_eq_some_iff.mp h).1) (fun h => Nat.le_of_eq h)

theorem HState.grow_next (σ : HState) (c : Cell) : (σ.grow c).heap[σ.next]? = some c := by
  unfold HState.grow
  have hn : σ.next ≤ σ.heap.length := by
    unfold HState.next
    split
    · split
      · rename_i h
        exact Nat.le_of_lt (List.getElem?_eq_some_iff.mp h).1
      · exact Nat.le_refl _
    · exact Nat.le_refl _
  by_cases h : σ.next < σ.heap.length
  · simp [h]
  · have : σ.next = σ.heap.length := Nat.le_antisymm hn (Nat.not_lt.mp h)
    simp [this]

theorem HState.grow_old (σ : HState) (c : Cell) {b : Addr} (hb : b < σ.heap.length) (hn : b ≠ σ.next) : (σ.grow c).heap[b]? = σ.heap[b]? := by
  unfold HState.grow
  by_cases h : σ.next < σ.heap.length
  · simp [h, Ne.symm hn]
  · simp [h, List.getElem?_append_left hb]

theorem HState.grow_length (σ : HState) (c : Cell) : σ.heap.length ≤ (σ.grow c).heap.length := by
  unfold HState.grow
  by_cases h : σ.next < σ.heap.length <;> simp [h]

/-- New objects come after the others. -/
theorem HState.next_nofree {σ : HState} (h : σ.free = []) : σ.next = σ.heap.length := by simp only [HState.next, h]

theorem HState.grow_nofree {σ : HState} (h : σ.free = []) (c : Cell) : σ.grow c = { σ with heap := σ.heap ++ [c] } := by
  cases σ
  simp only at h
  subst h
  simp [HState.grow, HState.next]

theorem HState.asked_heap (σ : HState) (want : Option Addr) : (σ.asked want).heap = σ.heap := by cases want <;> rfl

theorem HState.asked_pool (σ : HState) (want : Option Addr) : (σ.asked want).pool = σ.pool := by cases want <;> rfl

theorem HState.asked_free (σ : HState) (want : Option Addr) : (σ.asked want).free = σ.free := by cases want <;> rfl

/-- The objects of `F` and those in pools, `P`, are not shared. -/
structure Inv (C : Ctx) (σ : HState) (F P : Multiset Addr) : Prop where
  pool : OwnL C.S C.B σ.heap (σ.pool.map fun q => (Ty.msg q.1, HV.ptr q.2)) P
  nodup : (F + P).Nodup
  apart : ∀ a, a ∈ F ∨ a ∈ P → ¬ C.B.byt a
  below : ∀ a, C.B.byt a → ∃ b, σ.heap[a]? = some (.bytes b)
  fixed : ∀ a c, C.Z a c → σ.heap[a]? = some c ∧ a ∉ F ∧ a ∉ P ∧ (C.B.byt a → C.lock)
  nofree : σ.free = []

theorem Inv.shrink {C : Ctx} {σ : HState} {F F' P : Multiset Addr} (h : Inv C σ F P) (hF : F' ≤ F) : Inv C σ F' P where
  pool := h.pool
  nodup := Multiset.nodup_of_le (add_le_add_left hF P) h.nodup
  apart a ha := h.apart a (ha.imp (Multiset.mem_of_le hF) id)
  below := h.below
  fixed a c hz := ⟨(h.fixed a c hz).1, fun ha => (h.fixed a c hz).2.1 (Multiset.mem_of_le hF ha), (h.fixed a c hz).2.2⟩
  nofree := h.nofree

theorem Inv.disj {C : Ctx} {σ : HState} {F P : Multiset Addr} (h : Inv C σ F P) {a : Addr} (ha : a ∈ F) : a ∉ P :=
  fun hp => (Multiset.disjoint_left.mp (Multiset.nodup_add.mp h.nodup).2.2) ha hp

theorem Inv.asked {C : Ctx} {σ : HState} {F P : Multiset Addr} (h : Inv C σ F P) (want : Option Addr) : Inv C (σ.asked want) F P := by
  cases want
  · exact h
  · exact ⟨h.pool, h.nodup, h.apart, h.below, h.fixed, h.nofree⟩

/-- Writing to an object that is owned. -/
theorem Inv.write {C : Ctx} {σ : HState} {F F' P : Multiset Addr} {a : Addr} {c : Cell} (h : Inv C σ F P) (ha : a ∈ F) (hF : F' ≤ F) :
    Inv C { σ with heap := σ.heap.set a c } F' P where
  pool := h.pool.frame fun b hb => by
    have : a ≠ b := fun e => h.disj ha (e ▸ hb)
    simp [List.getElem?_set, this]
  nodup := Multiset.nodup_of_le (add_le_add_left hF P) h.nodup
  apart b hb := h.apart b (hb.imp (Multiset.mem_of_le hF) id)
  below b hb := by
    have : a ≠ b := fun e => h.apart a (.inl ha) (e ▸ hb)
    simpa [List.getElem?_set, this] using h.below b hb
  fixed b d hz := by
    obtain ⟨h1, h2, h3⟩ := h.fixed b d hz
    have : a ≠ b := fun e => h2 (e ▸ ha)
    exact ⟨by simp [List.getElem?_set, this, h1], fun hb => h2 (Multiset.mem_of_le hF hb), h3⟩
  nofree := h.nofree

/-- Writing to memory of others. -/
theorem Inv.scribble {C : Ctx} {σ : HState} {F P : Multiset Addr} {a : Addr} {c : Bytes} (h : Inv C σ F P) (ha : C.B.byt a) (hl : ¬ C.lock) :
    Inv C { σ with heap := σ.heap.set a (.bytes c) } F P where
  pool := h.pool.frame fun b hb => by
    have : a ≠ b := fun e => h.apart b (.inr hb) (e ▸ ha)
    simp [List.getElem?_set, this]
  nodup := h.nodup
  apart := h.apart
  below b hb := by
    obtain ⟨d, hd⟩ := h.below b hb
    by_cases e : a = b
    · subst e
      exact ⟨c, by simp [(List.getElem?_eq_some_iff.mp hd).1]⟩
    · exact ⟨d, by simp [List.getElem?_set, e, hd]⟩
  fixed b d hz := by
    obtain ⟨h1, h2, h3, h4⟩ := h.fixed b d hz
    have : a ≠ b := fun e => hl (h4 (e ▸ ha))
    exact ⟨by simp [List.getElem?_set, this, h1], h2, h3, h4⟩
  nofree := h.nofree

/-- A new object. -/
theorem Inv.alloc {C : Ctx} {σ : HState} {F P : Multiset Addr} {c : Cell} (h : Inv C σ F P) (hF : ∀ a ∈ F, a < σ.heap.length) :
    Inv C { σ with heap := σ.heap ++ [c] } (σ.heap.length ::ₘ F) P where
  nofree := h.nofree
  pool := h.pool.frame fun b hb => by rw [List.getElem?_append_left (h.pool.inHeap b hb)]
  nodup := by
    rw [Multiset.cons_add, Multiset.nodup_cons]
    refine ⟨fun hm => ?_, h.nodup⟩
    rcases Multiset.mem_add.mp hm with hm | hm
    · exact Nat.lt_irrefl _ (hF _ hm)
    · exact Nat.lt_irrefl _ (h.pool.inHeap _ hm)
  apart a ha hb := by
    rcases ha with ha | ha
    · rcases Multiset.mem_cons.mp ha with rfl | ha
      · obtain ⟨d, hd⟩ := h.below _ hb
        exact Nat.lt_irrefl _ (List.getElem?_eq_some_iff.mp hd).1
      · exact h.apart a (.inl ha) hb
    · exact h.apart a (.inr ha) hb
  below a ha := by
    obtain ⟨d, hd⟩ := h.below a ha
    exact ⟨d, by rw [List.getElem?_append_left (List.getElem?_eq_some_iff.mp hd).1, hd]⟩
  fixed a d hz := by
    obtain ⟨h1, h2, h3, h4⟩ := h.fixed a d hz
    have hlt := (List.getElem?_eq_some_iff.mp h1).1
    refine ⟨by rw [List.getElem?_append_left hlt, h1], fun ha => ?_, h3, h4⟩
    rcases Multiset.mem_cons.mp ha with rfl | ha
    · exact Nat.lt_irrefl _ hlt
    · exact h2 ha

/-- Code turns the items `I` into `J`, or on error or panic into `K`. -/
def Tri (C : Ctx) {α : Type} (I : List Item) (x : HM α) (J : α → List Item) (K : List Item) : Prop :=
  ∀ (R : List Item) (σ : HState) (F P : Multiset Addr), OwnL C.S C.B σ.heap (I ++ R) F → Inv C σ F P →
    ∃ F' P', Inv C (x σ).1 F' P' ∧
      (∀ a, (x σ).2 = .ok a → OwnL C.S C.B (x σ).1.heap (J a ++ R) F') ∧
      ((∀ a, (x σ).2 ≠ .ok a) → OwnL C.S C.B (x σ).1.heap (K ++ R) F')

/-- Items may be seen as other ones, or dropped. -/
def Ent (C : Ctx) (I J : List Item) : Prop := ∀ h F, OwnL C.S C.B h I F → ∃ F', F' ≤ F ∧ OwnL C.S C.B h J F'

theorem Ent.refl {C : Ctx} (I : List Item) : Ent C I I := fun _ F h => ⟨F, le_rfl, h⟩

theorem Ent.trans {C : Ctx} {I J K : List Item} (h1 : Ent C I J) (h2 : Ent C J K) : Ent C I K := fun h F ho => by
  obtain ⟨F1, l1, o1⟩ := h1 h F ho
  obtain ⟨F2, l2, o2⟩ := h2 h F1 o1
  exact ⟨F2, l2.trans l1, o2⟩

theorem Ent.append {C : Ctx} {I J I' J' : List Item} (h1 : Ent C I I') (h2 : Ent C J J') : Ent C (I ++ J) (I' ++ J') := fun h F ho => by
  obtain ⟨F1, F2, rfl, o1, o2⟩ := OwnL.append_iff.mp ho
  obtain ⟨G1, l1, p1⟩ := h1 h F1 o1
  obtain ⟨G2, l2, p2⟩ := h2 h F2 o2
  exact ⟨G1 + G2, add_le_add l1 l2, p1.append p2⟩

theorem Ent.frame {C : Ctx} {I J : List Item} (h1 : Ent C I J) (R : List Item) : Ent C (I ++ R) (J ++ R) := h1.append (Ent.refl R)

theorem Ent.cons {C : Ctx} {x : Item} {I J : List Item} (h1 : Ent C I J) : Ent C (x :: I) (x :: J) := (Ent.refl [x]).append h1

theorem Ent.perm {C : Ctx} {I J : List Item} (hp : I.Perm J) : Ent C I J := fun _ F h => ⟨F, le_rfl, h.perm hp⟩

theorem Ent.dropLeft {C : Ctx} (I J : List Item) : Ent C (I ++ J) J := fun h F ho => by
  obtain ⟨F1, F2, rfl, -, o2⟩ := OwnL.append_iff.mp ho
  exact ⟨F2, Multiset.le_add_left _ _, o2⟩

theorem Ent.dropRight {C : Ctx} (I J : List Item) : Ent C (I ++ J) I := fun h F ho => by
  obtain ⟨F1, F2, rfl, o1, -⟩ := OwnL.append_iff.mp ho
  exact ⟨F1, Multiset.le_add_right _ _, o1⟩

theorem Ent.first {C : Ctx} (x : Item) (I : List Item) : Ent C (x :: I) [x] := Ent.dropRight [x] I

theorem Ent.rest {C : Ctx} (x : Item) (I : List Item) : Ent C (x :: I) I := Ent.dropLeft [x] I

theorem Ent.empty {C : Ctx} (I : List Item) : Ent C I [] := by simpa using Ent.dropLeft (C := C) I []

/-- Reordering of items. -/
macro "items" : tactic => `(tactic| (
  apply Multiset.coe_eq_coe.mp
  try simp only [List.append_eq, List.nil_append]
  simp only [← Multiset.coe_add, ← Multiset.cons_coe, ← Multiset.singleton_add, Multiset.coe_nil]
  try abel))

theorem Tri.conseq {C : Ctx} {α : Type} {I I' : List Item} {x : HM α} {J J' : α → List Item} {K K' : List Item} (h : Tri C I x J K)
    (hI : Ent C I' I) (hJ : ∀ a, Ent C (J a) (J' a)) (hK : Ent C K K') : Tri C I' x J' K' := by
  intro R σ F P ho hi
  obtain ⟨F1, l1, o1⟩ := (hI.frame R) _ _ ho
  obtain ⟨F2, P2, hi2, hok, hbad⟩ := h R σ F1 P o1 (hi.shrink l1)
  by_cases hr : ∃ a, (x σ).2 = .ok a
  · obtain ⟨a, ha⟩ := hr
    obtain ⟨F3, l3, o3⟩ := ((hJ a).frame R) _ _ (hok a ha)
    refine ⟨F3, P2, hi2.shrink l3, fun b hb => ?_, fun hn => absurd ha (hn a)⟩
    rw [ha] at hb
    cases hb
    exact o3
  · have hn : ∀ a, (x σ).2 ≠ .ok a := fun a ha => hr ⟨a, ha⟩
    obtain ⟨F3, l3, o3⟩ := (hK.frame R) _ _ (hbad hn)
    exact ⟨F3, P2, hi2.shrink l3, fun b hb => absurd hb (hn b), fun _ => o3⟩

theorem Tri.pre {C : Ctx} {α : Type} {I I' : List Item} {x : HM α} {J : α → List Item} {K : List Item} (h : Tri C I x J K)
    (hI : Ent C I' I) : Tri C I' x J K := h.conseq hI (fun _ => Ent.refl _) (Ent.refl _)

theorem Tri.frame {C : Ctx} {α : Type} {I : List Item} {x : HM α} {J : α → List Item} {K : List Item} (h : Tri C I x J K) (R : List Item) :
    Tri C (I ++ R) x (fun a => J a ++ R) (K ++ R) := by
  intro R' σ F P ho hi
  rw [List.append_assoc] at ho
  obtain ⟨F', P', hi', hok, hbad⟩ := h (R ++ R') σ F P ho hi
  exact ⟨F', P', hi', fun a ha => by simpa using hok a ha, fun hn => by simpa using hbad hn⟩

/-- The usual way to use a triple: with other items around, which may get lost on error. -/
theorem Tri.use {C : Ctx} {α : Type} {I I' R : List Item} {x : HM α} {J J' : α → List Item} {K K' : List Item} (h : Tri C I x J K)
    (hI : Ent C I' (I ++ R)) (hJ : ∀ a, Ent C (J a ++ R) (J' a)) (hK : Ent C (K ++ R) K') : Tri C I' x J' K' :=
  (h.frame R).conseq hI hJ hK

/-- An item that does not exist. -/
abbrev never : Item := (.is (.num 0), .nil)

theorem not_never {C : Ctx} {h : Heap} {I : List Item} {F : Multiset Addr} : ¬ OwnL C.S C.B h (never :: I) F := by
  intro ho
  cases ho with
  | nil ht _ => simp [Ty.nilable] at ht

theorem ent_never {C : Ctx} {I J : List Item} : Ent C (never :: I) J := fun _ _ ho => absurd ho not_never

/-- The usual way to use a triple for code that does not fail. -/
theorem Tri.sure {C : Ctx} {α : Type} {I I' R : List Item} {x : HM α} {J J' : α → List Item} {K' : List Item} (h : Tri C I x J [never])
    (hI : Ent C I' (I ++ R)) (hJ : ∀ a, Ent C (J a ++ R) (J' a)) : Tri C I' x J' K' :=
  (h.frame R).conseq hI hJ ent_never

theorem Tri.pure {C : Ctx} {α : Type} {I : List Item} {J : α → List Item} {K : List Item} {a : α} (h : Ent C I (J a)) :
    Tri C I (Pure.pure a : HM α) J K := by
  intro R σ F P ho hi
  obtain ⟨F1, l1, o1⟩ := (h.frame R) _ _ ho
  refine ⟨F1, P, hi.shrink l1, fun b hb => ?_, fun hn => absurd rfl (hn a)⟩
  cases hb
  exact o1

theorem Tri.fail {C : Ctx} {α : Type} {I : List Item} {J : α → List Item} {K : List Item} {r : Res α} (hr : ∀ a, r ≠ .ok a) (h : Ent C I K) :
    Tri C I (HM.lift r) J K := by
  intro R σ F P ho hi
  obtain ⟨F1, l1, o1⟩ := (h.frame R) _ _ ho
  exact ⟨F1, P, hi.shrink l1, fun b hb => absurd hb (hr b), fun _ => o1⟩

theorem Tri.lift {C : Ctx} {α : Type} {I : List Item} {J : α → List Item} {K : List Item} {r : Res α} (hJ : ∀ a, r = .ok a → Ent C I (J a))
    (hK : Ent C I K) : Tri C I (HM.lift r) J K := by
  cases r with
  | ok a => exact Tri.pure (hJ a rfl)
  | err e => exact Tri.fail (fun a h => nomatch h) hK
  | panic p => exact Tri.fail (fun a h => nomatch h) hK
  | diverge => exact Tri.fail (fun a h => nomatch h) hK

theorem Tri.bind {C : Ctx} {α β : Type} {I : List Item} {x : HM α} {f : α → HM β} {J : α → List Item} {J' : β → List Item} {K : List Item}
    (hx : Tri C I x J K) (hf : ∀ a, Tri C (J a) (f a) J' K) : Tri C I (x >>= f) J' K := by
  intro R σ F P ho hi
  obtain ⟨F1, P1, hi1, hok, hbad⟩ := hx R σ F P ho hi
  have he : (x >>= f) σ = HM.bind x f σ := rfl
  rw [he, HM.bind]
  rcases hr : x σ with ⟨σ1, r⟩
  rw [hr] at hi1 hok hbad
  cases r with
  | ok a => exact hf a R σ1 F1 P1 (hok a rfl) hi1
  | err e => exact ⟨F1, P1, hi1, (fun b hb => nomatch hb), fun _ => hbad (fun _ h => nomatch h)⟩
  | panic e => exact ⟨F1, P1, hi1, (fun b hb => nomatch hb), fun _ => hbad (fun _ h => nomatch h)⟩
  | diverge => exact ⟨F1, P1, hi1, (fun b hb => nomatch hb), fun _ => hbad (fun _ h => nomatch h)⟩

theorem Tri.lift_bind {C : Ctx} {α β : Type} {I : List Item} {r : Res α} {f : α → HM β} {J' : β → List Item} {K : List Item}
    (hK : Ent C I K) (hf : ∀ a, r = .ok a → Tri C I (f a) J' K) : Tri C I (HM.lift r >>= f) J' K := by
  cases r with
  | ok a => exact hf a rfl
  | err e => exact Tri.fail (r := (.err e : Res β)) (fun a h => nomatch h) hK
  | panic p => exact Tri.fail (r := (.panic p : Res β)) (fun a h => nomatch h) hK
  | diverge => exact Tri.fail (r := (.diverge : Res β)) (fun a h => nomatch h) hK

/-- Allocation of an object which can be seen as an item. -/
theorem Tri.alloc {C : Ctx} {I : List Item} {c : Cell} {ty : Ty} {val : Addr → HV} {K : List Item}
    (h : ∀ h a F R, h[a]? = some c → OwnL C.S C.B h (I ++ R) F → OwnL C.S C.B h ((ty, val a) :: R) (a ::ₘ F)) :
    Tri C I (halloc c) (fun a => [(ty, val a)]) K := by
  intro R σ F P ho hi
  have e : halloc c σ = ({ σ with heap := σ.heap ++ [c] }, .ok σ.heap.length) := by
    simp only [halloc, HState.grow_nofree hi.nofree, HState.next_nofree hi.nofree]
  rw [e]
  refine ⟨σ.heap.length ::ₘ F, P, hi.alloc ho.inHeap, fun a ha => ?_, fun hn => absurd rfl (hn _)⟩
  cases ha
  refine h _ _ _ _ (by simp) (ho.frame fun b hb => ?_)
  simp [List.getElem?_append_left (ho.inHeap b hb)]

end Vtp
