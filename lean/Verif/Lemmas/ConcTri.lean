import Verif.Lemmas.HeapTri
import Verif.Spec.Conc
/-! # Triples for code in steps: others may do things between any two steps -/

namespace Vtp.Conc
open Spec

/-- What a goroutine that owns the objects `F` may rely on: they are there, apart from each other and from what must not change. Nothing refers to buffers. -/
structure LInv (C : Ctx) (h : Heap) (F : Multiset Addr) : Prop where
  nolent : ∀ a, ¬ C.B.byt a
  nodup : F.Nodup
  inHeap : ∀ a ∈ F, a < h.length
  fixed : ∀ a c, C.Z a c → h[a]? = some c ∧ a ∉ F

theorem LInv.shrink {C : Ctx} {h : Heap} {F F' : Multiset Addr} (hi : LInv C h F) (hF : F' ≤ F) : LInv C h F' where
  nolent := hi.nolent
  nodup := Multiset.nodup_of_le hF hi.nodup
  inHeap a ha := hi.inHeap a (Multiset.mem_of_le hF ha)
  fixed a c hz := ⟨(hi.fixed a c hz).1, fun ha => (hi.fixed a c hz).2 (Multiset.mem_of_le hF ha)⟩

/-- The objects `F` are as they were. -/
def Agree (F : Multiset Addr) (h h' : Heap) : Prop := ∀ a ∈ F, h'[a]? = h[a]?

theorem Agree.refl (F : Multiset Addr) (h : Heap) : Agree F h h := fun _ _ => rfl

theorem Agree.trans {F : Multiset Addr} {h1 h2 h3 : Heap} (h12 : Agree F h1 h2) (h23 : Agree F h2 h3) : Agree F h1 h3 :=
  fun a ha => (h23 a ha).trans (h12 a ha)

theorem Agree.mono {F F' : Multiset Addr} {h h' : Heap} (ha : Agree F h h') (hF : F' ≤ F) : Agree F' h h' := fun a hm => ha a (Multiset.mem_of_le hF hm)

theorem Agree.own {S : Schema} {B : Lent} {I : List Item} {F : Multiset Addr} {h h' : Heap} (ha : Agree F h h') (ho : OwnL S B h I F) : OwnL S B h' I F :=
  ho.frame fun a hm => ha a hm

/-- The code may run on memory `h`, owning the objects `F`, whatever others do in between to memory that it does not own: it writes its own objects only, reads its own and
those that do not change, gives to pools messages that it owns; at its end there is `Q`. A message from a pool comes with the objects it consists of. The flag `lock` of the context tells whether the
code is one that gives messages to pools (`ResetVT`, `ReturnToVTPool`) or one that takes messages from them (all others); none does both. -/
def Safe (C : Ctx) {α : Type} (Q : Res α → Heap → Multiset Addr → Prop) : Prog α → Heap → Multiset Addr → Prop
  | .done r, h, F => ∀ h', Agree F h h' → LInv C h' F → Q r h' F
  | .read a k, h, F => ∀ h', Agree F h h' → LInv C h' F → ∃ c, h'[a]? = some c ∧ (a ∈ F ∨ C.Z a c) ∧ Safe C Q (k c) h' F
  | .write a c k, h, F => ∀ h', Agree F h h' → LInv C h' F → a ∈ F ∧ Safe C Q k (h'.set a c) F
  | .alloc c k, h, F => ∀ h', Agree F h h' → LInv C h' F → Safe C Q (k h'.length) (h' ++ [c h'.length]) (h'.length ::ₘ F)
  | .get _ t k, h, F => ∀ h', Agree F h h' → LInv C h' F →
      ¬ C.lock ∧ Safe C Q (k none) h' F ∧ ∀ a G, OwnL C.S C.B h' [(.msg t, .ptr a)] G → LInv C h' (G + F) → Safe C Q (k (some a)) h' (G + F)
  | .put t a k, h, F => ∀ h', Agree F h h' → LInv C h' F → C.lock ∧ ∃ G F', F = G + F' ∧ OwnL C.S C.B h' [(.msg t, .ptr a)] G ∧ Safe C Q k h' F'

section
variable {C : Ctx} {α β : Type}

/-- What others do does no harm. -/
theorem Safe.stable {Q : Res α → Heap → Multiset Addr → Prop} {x : Prog α} {h h' : Heap} {F : Multiset Addr} (hs : Safe C Q x h F) (ha : Agree F h h') :
    Safe C Q x h' F := by
  cases x <;> exact fun h'' h1 h2 => hs h'' (ha.trans h1) h2

/-- A weaker claim. -/
theorem Safe.weaken {Q Q' : Res α → Heap → Multiset Addr → Prop} (hQ : ∀ r h F, Q r h F → Q' r h F) {x : Prog α} : ∀ {h : Heap} {F : Multiset Addr}, Safe C Q x h F →
    Safe C Q' x h F := by
  induction x with
  | done r => exact fun hs h' h1 h2 => hQ _ _ _ (hs h' h1 h2)
  | read a k ih =>
    intro h F hs h' h1 h2
    obtain ⟨c, hc, hm, h3⟩ := hs h' h1 h2
    exact ⟨c, hc, hm, ih c h3⟩
  | write a c k ih => exact fun hs h' h1 h2 => ⟨(hs h' h1 h2).1, ih (hs h' h1 h2).2⟩
  | alloc c k ih => exact fun hs h' h1 h2 => ih _ (hs h' h1 h2)
  | get want t k ih => exact fun hs h' h1 h2 => ⟨(hs h' h1 h2).1, ih _ (hs h' h1 h2).2.1, fun a G ho hi => ih _ ((hs h' h1 h2).2.2 a G ho hi)⟩
  | put t a k ih =>
    intro h F hs h' h1 h2
    obtain ⟨hk, G, F', e, ho, h3⟩ := hs h' h1 h2
    exact ⟨hk, G, F', e, ho, ih h3⟩

/-- More objects do no harm. -/
theorem Safe.more {Q : Res α → Heap → Multiset Addr → Prop} {x : Prog α} (D : Multiset Addr) : ∀ {h : Heap} {F : Multiset Addr}, Safe C Q x h F →
    Safe C (fun r h F => ∃ F', F' ≤ F ∧ Q r h F') x h (F + D) := by
  have hle : ∀ F : Multiset Addr, F ≤ F + D := fun F => Multiset.le_add_right _ _
  induction x with
  | done r => exact fun {h F} hs h' h1 h2 => ⟨F, hle F, hs h' (h1.mono (hle F)) (h2.shrink (hle F))⟩
  | read a k ih =>
    intro h F hs h' h1 h2
    obtain ⟨c, hc, hm, h3⟩ := hs h' (h1.mono (hle F)) (h2.shrink (hle F))
    exact ⟨c, hc, hm.imp (fun h => Multiset.mem_of_le (hle F) h) id, ih c h3⟩
  | write a c k ih =>
    intro h F hs h' h1 h2
    obtain ⟨hm, h3⟩ := hs h' (h1.mono (hle F)) (h2.shrink (hle F))
    exact ⟨Multiset.mem_of_le (hle F) hm, ih h3⟩
  | alloc c k ih =>
    intro h F hs h' h1 h2
    have h3 := ih _ (hs h' (h1.mono (hle F)) (h2.shrink (hle F)))
    rwa [Multiset.cons_add] at h3
  | get want t k ih =>
    intro h F hs h' h1 h2
    obtain ⟨hk, h3, h4⟩ := hs h' (h1.mono (hle F)) (h2.shrink (hle F))
    refine ⟨hk, ih _ h3, fun a G ho hi => ?_⟩
    rw [← add_assoc] at hi ⊢
    exact ih _ (h4 a G ho (hi.shrink (Multiset.le_add_right _ _)))
  | put t a k ih =>
    intro h F hs h' h1 h2
    obtain ⟨hk, G, F', rfl, ho, h3⟩ := hs h' (h1.mono (hle F)) (h2.shrink (hle F))
    exact ⟨hk, G, F' + D, add_assoc _ _ _, ho, ih h3⟩

theorem Safe.bind {Q : Res α → Heap → Multiset Addr → Prop} {Q' : Res β → Heap → Multiset Addr → Prop} {x : Prog α} {f : α → Prog β}
    (hok : ∀ a h F, Q (.ok a) h F → Safe C Q' (f a) h F) (hbad : ∀ (r : Res α) (r' : Res β) h F, (∀ a, r ≠ .ok a) → (∀ b, r' ≠ .ok b) → Q r h F → Q' r' h F) :
    ∀ {h : Heap} {F : Multiset Addr}, Safe C Q x h F → Safe C Q' (x.bind f) h F := by
  induction x with
  | done r =>
    intro h F hs
    cases r with
    | ok a =>
      show Safe C Q' (f a) h F
      have key : ∀ h', Agree F h h' → LInv C h' F → Safe C Q' (f a) h' F := fun h' h1 h2 => hok a h' F (hs h' h1 h2)
      cases hx : f a <;> (rw [hx] at key; exact fun h' h1 h2 => key h' h1 h2 h' (.refl _ _) h2)
    | err e => exact fun h' h1 h2 => hbad (.err e) (.err e) h' F (fun _ h => nomatch h) (fun _ h => nomatch h) (hs h' h1 h2)
    | panic e => exact fun h' h1 h2 => hbad (.panic e) (.panic e) h' F (fun _ h => nomatch h) (fun _ h => nomatch h) (hs h' h1 h2)
    | diverge => exact fun h' h1 h2 => hbad .diverge .diverge h' F (fun _ h => nomatch h) (fun _ h => nomatch h) (hs h' h1 h2)
  | read a k ih =>
    intro h F hs h' h1 h2
    obtain ⟨c, hc, hm, h3⟩ := hs h' h1 h2
    exact ⟨c, hc, hm, ih c h3⟩
  | write a c k ih => exact fun hs h' h1 h2 => ⟨(hs h' h1 h2).1, ih (hs h' h1 h2).2⟩
  | alloc c k ih => exact fun hs h' h1 h2 => ih _ (hs h' h1 h2)
  | get want t k ih => exact fun hs h' h1 h2 => ⟨(hs h' h1 h2).1, ih _ (hs h' h1 h2).2.1, fun a G ho hi => ih _ ((hs h' h1 h2).2.2 a G ho hi)⟩
  | put t a k ih =>
    intro h F hs h' h1 h2
    obtain ⟨hk, G, F', e, ho, h3⟩ := hs h' h1 h2
    exact ⟨hk, G, F', e, ho, ih h3⟩

/-- At the end, the items are `J`, or on error or panic `K`, next to `R`. -/
def Post (C : Ctx) (J : α → List Item) (K R : List Item) : Res α → Heap → Multiset Addr → Prop := fun r h F =>
  ∃ F', F' ≤ F ∧ (∀ a, r = .ok a → OwnL C.S C.B h (J a ++ R) F') ∧ ((∀ a, r ≠ .ok a) → OwnL C.S C.B h (K ++ R) F')

/-- Code turns the items `I` into `J`, or on error or panic into `K`, whatever others do meanwhile. -/
def Tri (C : Ctx) (I : List Item) (x : Prog α) (J : α → List Item) (K : List Item) : Prop :=
  ∀ (R : List Item) (h : Heap) (F : Multiset Addr), OwnL C.S C.B h (I ++ R) F → LInv C h F → Safe C (Post C J K R) x h F

theorem Post.mono {J : α → List Item} {K R : List Item} {r : Res α} {h : Heap} {F G : Multiset Addr} (hp : Post C J K R r h F) (hG : F ≤ G) : Post C J K R r h G := by
  obtain ⟨F', l, h1, h2⟩ := hp
  exact ⟨F', l.trans hG, h1, h2⟩

theorem Post.ok {J : α → List Item} {K R : List Item} {a : α} {h : Heap} {F : Multiset Addr} (ho : OwnL C.S C.B h (J a ++ R) F) : Post C J K R (.ok a) h F :=
  ⟨F, le_rfl, fun _ hb => by cases hb; exact ho, fun hn => absurd rfl (hn a)⟩

theorem Post.bad {J : α → List Item} {K R : List Item} {r : Res α} (hr : ∀ a, r ≠ .ok a) {h : Heap} {F : Multiset Addr} (ho : OwnL C.S C.B h (K ++ R) F) :
    Post C J K R r h F := ⟨F, le_rfl, fun a ha => absurd ha (hr a), fun _ => ho⟩

theorem Post.conseq {J J' : α → List Item} {K K' R : List Item} (hJ : ∀ a, Ent C (J a) (J' a)) (hK : Ent C K K') {r : Res α} {h : Heap} {F : Multiset Addr}
    (hp : Post C J K R r h F) : Post C J' K' R r h F := by
  obtain ⟨F', hl, h1, h2⟩ := hp
  by_cases hr : ∃ a, r = .ok a
  · obtain ⟨a, rfl⟩ := hr
    obtain ⟨F3, l3, o3⟩ := ((hJ a).frame R) _ _ (h1 a rfl)
    exact (Post.ok o3).mono (l3.trans hl)
  · have hn : ∀ a, r ≠ .ok a := fun a ha => hr ⟨a, ha⟩
    obtain ⟨F3, l3, o3⟩ := (hK.frame R) _ _ (h2 hn)
    exact (Post.bad hn o3).mono (l3.trans hl)

/-- Using a triple with some of the objects. -/
theorem Tri.at {I : List Item} {x : Prog α} {J : α → List Item} {K : List Item} (ht : Tri C I x J K) {R : List Item} {h : Heap} {F G : Multiset Addr}
    (ho : OwnL C.S C.B h (I ++ R) F) (hG : F ≤ G) (hi : LInv C h G) : Safe C (Post C J K R) x h G := by
  obtain ⟨D, rfl⟩ := Multiset.le_iff_exists_add.mp hG
  exact ((ht R h F ho (hi.shrink hG)).more D).weaken fun _ _ _ ⟨F', hl, hp⟩ => hp.mono hl

theorem Tri.conseq {I I' : List Item} {x : Prog α} {J J' : α → List Item} {K K' : List Item} (h : Tri C I x J K)
    (hI : Ent C I' I) (hJ : ∀ a, Ent C (J a) (J' a)) (hK : Ent C K K') : Tri C I' x J' K' := by
  intro R hp F ho hi
  obtain ⟨F1, l1, o1⟩ := (hI.frame R) _ _ ho
  exact (h.at o1 l1 hi).weaken fun _ _ _ => Post.conseq hJ hK

theorem Tri.pre {I I' : List Item} {x : Prog α} {J : α → List Item} {K : List Item} (h : Tri C I x J K)
    (hI : Ent C I' I) : Tri C I' x J K := h.conseq hI (fun _ => Ent.refl _) (Ent.refl _)

theorem Tri.frame {I : List Item} {x : Prog α} {J : α → List Item} {K : List Item} (h : Tri C I x J K) (R : List Item) :
    Tri C (I ++ R) x (fun a => J a ++ R) (K ++ R) := by
  intro R' hp F ho hi
  rw [List.append_assoc] at ho
  exact (h (R ++ R') hp F ho hi).weaken fun r h F ⟨F', hl, h1, h2⟩ => ⟨F', hl, fun a ha => by simpa using h1 a ha, fun hn => by simpa using h2 hn⟩

/-- The usual way to use a triple: with other items around, which may get lost on error. -/
theorem Tri.use {I I' R : List Item} {x : Prog α} {J J' : α → List Item} {K K' : List Item} (h : Tri C I x J K)
    (hI : Ent C I' (I ++ R)) (hJ : ∀ a, Ent C (J a ++ R) (J' a)) (hK : Ent C (K ++ R) K') : Tri C I' x J' K' :=
  (h.frame R).conseq hI hJ hK

/-- The usual way to use a triple for code that does not fail. -/
theorem Tri.sure {I I' R : List Item} {x : Prog α} {J J' : α → List Item} {K' : List Item} (h : Tri C I x J [never])
    (hI : Ent C I' (I ++ R)) (hJ : ∀ a, Ent C (J a ++ R) (J' a)) : Tri C I' x J' K' :=
  (h.frame R).conseq hI hJ ent_never

theorem Tri.pure {I : List Item} {J : α → List Item} {K : List Item} {a : α} (h : Ent C I (J a)) :
    Tri C I (Pure.pure a : Prog α) J K := by
  intro R hp F ho hi h' h1 h2
  obtain ⟨F1, l1, o1⟩ := (h.frame R) _ _ (h1.own ho)
  exact (Post.ok o1).mono l1

theorem Tri.fail {I : List Item} {J : α → List Item} {K : List Item} {r : Res α} (hr : ∀ a, r ≠ .ok a) (h : Ent C I K) :
    Tri C I (Prog.lift r) J K := by
  intro R hp F ho hi h' h1 h2
  obtain ⟨F1, l1, o1⟩ := (h.frame R) _ _ (h1.own ho)
  exact (Post.bad hr o1).mono l1

theorem Tri.lift {I : List Item} {J : α → List Item} {K : List Item} {r : Res α} (hJ : ∀ a, r = .ok a → Ent C I (J a))
    (hK : Ent C I K) : Tri C I (Prog.lift r) J K := by
  cases r with
  | ok a => exact Tri.pure (hJ a rfl)
  | err e => exact Tri.fail (fun a h => nomatch h) hK
  | panic p => exact Tri.fail (fun a h => nomatch h) hK
  | diverge => exact Tri.fail (fun a h => nomatch h) hK

end

section
variable {C : Ctx} {α β : Type}

/-- To be safe it is enough to be so whenever what may be relied on holds. -/
theorem Safe.intro {Q : Res α → Heap → Multiset Addr → Prop} {x : Prog α} {h : Heap} {F : Multiset Addr}
    (hstab : ∀ h', Agree F h h' → LInv C h' F → Safe C Q x h' F) : Safe C Q x h F := by
  cases x <;> exact fun h' h1 h2 => hstab h' h1 h2 h' (.refl _ _) h2

theorem Tri.bind {I : List Item} {x : Prog α} {f : α → Prog β} {J : α → List Item} {J' : β → List Item} {K : List Item}
    (hx : Tri C I x J K) (hf : ∀ a, Tri C (J a) (f a) J' K) : Tri C I (x >>= f) J' K := by
  intro R h F ho hi
  refine Safe.bind (Q := Post C J K R) (fun a h F hp => ?_) (fun r r' h F hr hr' hp => ?_) (hx R h F ho hi)
  · obtain ⟨F', hl, h1, -⟩ := hp
    refine Safe.intro fun h' ha hi' => ?_
    exact (hf a).at ((ha.mono hl).own (h1 a rfl)) hl hi'
  · obtain ⟨F', hl, -, h2⟩ := hp
    exact (Post.bad hr' (h2 hr)).mono hl

theorem Tri.lift_bind {I : List Item} {r : Res α} {f : α → Prog β} {J' : β → List Item} {K : List Item}
    (hK : Ent C I K) (hf : ∀ a, r = .ok a → Tri C I (f a) J' K) : Tri C I (Prog.lift r >>= f) J' K := by
  cases r with
  | ok a => exact hf a rfl
  | err e => exact Tri.fail (r := (.err e : Res β)) (fun a h => nomatch h) hK
  | panic p => exact Tri.fail (r := (.panic p : Res β)) (fun a h => nomatch h) hK
  | diverge => exact Tri.fail (r := (.diverge : Res β)) (fun a h => nomatch h) hK

/-- Allocation of an object which can be seen as an item; the object may depend on where it is. -/
theorem Tri.allocBy {I : List Item} {c : Addr → Cell} {ty : Ty} {val : Addr → HV} {K : List Item}
    (h : ∀ h a F R, h[a]? = some (c a) → OwnL C.S C.B h (I ++ R) F → OwnL C.S C.B h ((ty, val a) :: R) (a ::ₘ F)) :
    Tri C I (Prog.alloc c .ret) (fun a => [(ty, val a)]) K := by
  intro R hp F ho hi h' h1 h2 h'' h3 h4
  refine Post.ok (h _ _ _ _ ?_ ?_)
  · rw [h3 _ (Multiset.mem_cons_self _ _)]
    simp
  · refine (h1.own ho).frame fun b hb => ?_
    rw [h3 _ (Multiset.mem_cons_of_mem hb), List.getElem?_append_left (h2.inHeap b hb)]

theorem Tri.alloc {I : List Item} {c : Cell} {ty : Ty} {val : Addr → HV} {K : List Item}
    (h : ∀ h a F R, h[a]? = some c → OwnL C.S C.B h (I ++ R) F → OwnL C.S C.B h ((ty, val a) :: R) (a ::ₘ F)) :
    Tri C I (halloc c) (fun a => [(ty, val a)]) K := Tri.allocBy (c := fun _ => c) h

end

end Vtp.Conc
