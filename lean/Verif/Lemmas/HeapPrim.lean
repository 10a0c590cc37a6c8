import Verif.Lemmas.HeapTri
import Verif.Lemmas.Schema
/-! # Triples for the primitives -/

namespace Vtp
open Spec

theorem HM.bind_ok {α β : Type} {x : HM α} {f : α → HM β} {σ σ' : HState} {a : α} (h : x σ = (σ', .ok a)) : (x >>= f) σ = f a σ' := by
  show HM.bind x f σ = _
  rw [HM.bind, h]

theorem hread_ok {a : Addr} {c : Cell} {σ : HState} (h : σ.heap[a]? = some c) : hread a σ = (σ, .ok c) := by
  rw [hread, h]

/-- A primitive judged by what it does in the given state. -/
theorem Tri.of {C : Ctx} {α : Type} {I : List Item} {x : HM α} {J : α → List Item} {K : List Item}
    (h : ∀ R σ F P, OwnL C.S C.B σ.heap (I ++ R) F → Inv C σ F P →
      (∃ σ' a F' P', x σ = (σ', .ok a) ∧ Inv C σ' F' P' ∧ OwnL C.S C.B σ'.heap (J a ++ R) F') ∨
      (∃ r, (∀ a, r ≠ .ok a) ∧ x σ = (σ, r) ∧ ∃ F', F' ≤ F ∧ OwnL C.S C.B σ.heap (K ++ R) F')) : Tri C I x J K := by
  intro R σ F P ho hi
  rcases h R σ F P ho hi with ⟨σ', a, F', P', hx, hi', ho'⟩ | ⟨r, hr, hx, F', hl, ho'⟩
  · refine ⟨F', P', by rw [hx]; exact hi', fun b hb => ?_, fun hn => absurd (by rw [hx]) (hn a)⟩
    rw [hx] at hb ⊢
    cases hb
    exact ho'
  · refine ⟨F', P, by rw [hx]; exact hi.shrink hl, fun b hb => ?_, fun _ => by rw [hx]; exact ho'⟩
    rw [hx] at hb
    exact absurd hb (hr b)

theorem zip_split {tys : List Ty} {slots : List HV} (hl : slots.length = tys.length) {i : Nat} (hi : i < tys.length) :
    ∃ A D, tys.zip slots = A ++ (tys.getD i .flat, slots.getD i .nil) :: D ∧ ∀ t v, (tys.set i t).zip (slots.set i v) = A ++ (t, v) :: D := by
  induction tys generalizing slots i with
  | nil => simp at hi
  | cons t tys ih =>
    cases slots with
    | nil => simp at hl
    | cons s slots =>
      cases i with
      | zero => exact ⟨[], tys.zip slots, by simp, by simp⟩
      | succ i =>
        obtain ⟨A, D, h1, h2⟩ := ih (slots := slots) (i := i) (by simpa using hl) (by simpa using hi)
        exact ⟨(t, s) :: A, D, by simp [h1], by simp [h2]⟩

/-- The items of an array with one element taken out. -/
theorem own_middle {S : Schema} {B : Lent} {h : Heap} {A D R : List Item} {x : Item} {F : Multiset Addr} :
    OwnL S B h (A ++ x :: D ++ R) F ↔ ∃ F1 F2, F = F1 + F2 ∧ OwnL S B h [x] F1 ∧ OwnL S B h (A ++ D ++ R) F2 := by
  have hp : (A ++ x :: D ++ R).Perm ([x] ++ (A ++ D ++ R)) := by simp
  rw [← OwnL.append_iff]
  exact ⟨OwnL.perm hp, OwnL.perm hp.symm⟩

section
variable {C : Ctx}

theorem tri_getSlot {tys : List Ty} {p : HV} {i : Nat} (hi : i < tys.length) :
    Tri C [(.obj tys, p)] (hgetSlot p i) (fun s => [(.obj (tys.set i (.is s)), p), (tys.getD i .flat, s)]) [(.obj tys, p)] := by
  apply Tri.of
  intro R σ F P ho hinv
  cases ho with
  | nil ht hI => exact .inr ⟨.panic .nilDeref, (fun _ h => nomatch h), rfl, F, le_rfl, .nil rfl hI⟩
  | obj hc hl hI =>
    rename_i a slots u e F0
    obtain ⟨A, D, hA, hset⟩ := zip_split hl hi
    refine .inl ⟨σ, slots.getD i .nil, a ::ₘ F0, P, ?_, hinv, ?_⟩
    · rw [hgetSlot, HM.bind_ok (hread_ok hc)]
      rfl
    · refine .obj hc (by simpa using hl) ?_
      have hs : slots.set i (slots.getD i .nil) = slots := by
        rw [List.getD_eq_getElem?_getD, List.getElem?_eq_getElem (hl ▸ hi)]
        simp
      have h2 := hset (.is (slots.getD i .nil)) (slots.getD i .nil)
      rw [hs] at h2
      rw [h2]
      rw [hA] at hI
      refine OwnL.perm ?_ (OwnL.is (v := slots.getD i .nil) hI)
      items

theorem tri_setSlot {tys : List Ty} {p v : HV} {i : Nat} {K : List Item} (hi : i < tys.length) (hK : p = .nil → ∀ h, OwnL C.S C.B h K 0) :
    Tri C [(.obj tys, p)] (hsetSlot p i v) (fun _ => [(.obj (tys.set i (.is v)), p)]) K := by
  apply Tri.of
  intro R σ F P ho hinv
  cases ho with
  | nil ht hI =>
    exact .inr ⟨.panic .nilDeref, (fun _ h => nomatch h), rfl, F, le_rfl, by simpa using (hK rfl σ.heap).append hI⟩
  | obj hc hl hI =>
    rename_i a slots u e F0
    obtain ⟨A, D, hA, hset⟩ := zip_split hl hi
    rw [hA] at hI
    obtain ⟨F1, F2, rfl, h1, h2⟩ := own_middle.mp hI
    have hle : a ::ₘ F2 ≤ a ::ₘ (F1 + F2) := Multiset.cons_le_cons _ (Multiset.le_add_left _ _)
    refine .inl ⟨{ σ with heap := σ.heap.set a (.msg (slots.set i v) u e) }, (), a ::ₘ F2, P, ?_, hinv.write (by simp) hle, ?_⟩
    · rw [hsetSlot, HM.bind_ok (hread_ok hc)]
      rfl
    · have hlt := (List.getElem?_eq_some_iff.mp hc).1
      refine .obj (slots := slots.set i v) (u := u) (e := e) (by simp [hlt]) (by simpa using hl) ?_
      rw [hset]
      have hn : a ∉ F2 := by
        have := (Multiset.nodup_add.mp hinv.nodup).1
        rw [Multiset.nodup_cons] at this
        exact fun hm => this.1 (Multiset.mem_add.mpr (.inr hm))
      have h3 := h2.frame (h' := σ.heap.set a (.msg (slots.set i v) u e)) fun b hb => by
        have : a ≠ b := fun e => hn (e ▸ hb)
        simp [List.getElem?_set, this]
      refine OwnL.perm ?_ (OwnL.is (v := v) h3)
      items

theorem ent_close {tys : List Ty} {p s : HV} {i : Nat} {ty : Ty} (hi : i < tys.length) :
    Ent C [(.obj (tys.set i (.is s)), p), (ty, s)] [(.obj (tys.set i ty), p)] := by
  intro h F ho
  cases ho with
  | nil ht hI => exact ⟨0, Multiset.zero_le _, .nil rfl .done⟩
  | obj hc hl hI =>
    rename_i a slots u e F0
    refine ⟨a ::ₘ F0, le_rfl, .obj hc (by simpa using hl) ?_⟩
    obtain ⟨A, D, hA, hset⟩ := zip_split (tys := tys.set i (.is s)) hl (i := i) (by simpa using hi)
    have h2 := hset ty (slots.getD i .nil)
    have hs : slots.set i (slots.getD i .nil) = slots := by
      rw [List.getD_eq_getElem?_getD, List.getElem?_eq_getElem (by rw [hl]; simpa using hi)]
      simp
    rw [List.set_set, hs] at h2
    rw [hA] at hI
    have hg : (tys.set i (Ty.is s)).getD i .flat = .is s := by
      rw [List.getD_eq_getElem?_getD, List.getElem?_set_self (by simpa using hi)]
      rfl
    rw [hg] at hI
    have hp : (A ++ (Ty.is s, slots.getD i .nil) :: D ++ [(Ty.mem, u), (ty, s)]).Perm ((Ty.is s, slots.getD i .nil) :: (ty, s) :: (A ++ D ++ [(Ty.mem, u)])) := by
      items
    have h3 : OwnL C.S C.B h ((Ty.is s, slots.getD i .nil) :: (ty, s) :: (A ++ D ++ [(Ty.mem, u)])) F0 := by
      refine OwnL.perm hp ?_
      simpa using hI
    rw [h2]
    generalize slots.getD i .nil = w at h3 ⊢
    cases h3 with
    | nil ht _ => simp [Ty.nilable] at ht
    | is hI' => exact hI'.perm (by items)

/-! ## Objects -/

theorem tri_read {β : Type} {a : Addr} {c : Cell} {I : List Item} {f : Cell → HM β} {J : β → List Item} {K : List Item}
    (h : Tri C ((.raw c, .ptr a) :: I) (f c) J K) : Tri C ((.raw c, .ptr a) :: I) (hread a >>= f) J K := by
  intro R σ F P ho hinv
  have hr : σ.heap[a]? = some c := by
    cases ho with
    | raw hc _ => exact hc
  have := h R σ F P ho hinv
  rw [HM.bind_ok (hread_ok hr)]
  exact this

theorem tri_write {a : Addr} {c c' : Cell} {K : List Item} :
    Tri C [(.raw c, .ptr a)] (hwrite a c') (fun _ => [(.raw c', .ptr a)]) K := by
  apply Tri.of
  intro R σ F P ho hinv
  cases ho with
  | raw hc hI =>
    rename_i F0
    have hI' : OwnL C.S C.B σ.heap R F0 := hI
    have hlt := (List.getElem?_eq_some_iff.mp hc).1
    have hn : a ∉ F0 := (Multiset.nodup_cons.mp (Multiset.nodup_add.mp hinv.nodup).1).1
    refine .inl ⟨{ σ with heap := σ.heap.set a c' }, (), a ::ₘ F0, P, rfl, hinv.write (by simp) le_rfl, ?_⟩
    refine .raw (by simp [hlt]) (hI'.frame fun b hb => ?_)
    have : a ≠ b := fun e => hn (e ▸ hb)
    simp [this]

theorem tri_alloc {c : Cell} {K : List Item} : Tri C [] (halloc c) (fun a => [(.raw c, .ptr a)]) K :=
  Tri.alloc (ty := .raw c) (val := .ptr) fun _ _ _ _ hc ho => .raw hc ho

/-- Opening a message. -/
theorem tri_open {α : Type} {tys : List Ty} {a : Addr} {I : List Item} {x : HM α} {J : α → List Item} {K : List Item}
    (h : ∀ slots u e, slots.length = tys.length → Tri C ((.raw (.msg slots u e), .ptr a) :: (tys.zip slots ++ (.mem, u) :: I)) x J K) :
    Tri C ((.obj tys, .ptr a) :: I) x J K := by
  intro R σ F P ho hinv
  cases ho with
  | obj hc hl hI =>
    rename_i slots u e F0
    refine h slots u e hl R σ _ P (.raw hc ?_) hinv
    simpa using hI

theorem ent_seal {tys : List Ty} {a : Addr} {slots : List HV} {u : HV} {e : Bytes} (hl : slots.length = tys.length) (I : List Item) :
    Ent C ((.raw (.msg slots u e), .ptr a) :: (tys.zip slots ++ (.mem, u) :: I)) ((.obj tys, .ptr a) :: I) := by
  intro h F ho
  cases ho with
  | raw hc hI => exact ⟨_, le_rfl, .obj hc hl hI⟩

theorem tri_openList {α : Type} {e : Ty} {a len : Nat} {I : List Item} {x : HM α} {J : α → List Item} {K : List Item}
    (h : ∀ xs, len ≤ xs.length → Tri C ((.raw (.arr xs), .ptr a) :: (xs.map (fun x => (e, x)) ++ I)) x J K) :
    Tri C ((.list e, .slice a len) :: I) x J K := by
  intro R σ F P ho hinv
  cases ho with
  | list hc hl hI =>
    rename_i xs F0
    refine h xs hl R σ _ P (.raw hc ?_) hinv
    simpa using hI

theorem ent_sealList {e : Ty} {a len : Nat} {xs : List HV} (hl : len ≤ xs.length) (I : List Item) :
    Ent C ((.raw (.arr xs), .ptr a) :: (xs.map (fun x => (e, x)) ++ I)) ((.list e, .slice a len) :: I) := by
  intro h F ho
  cases ho with
  | raw hc hI => exact ⟨_, le_rfl, .list hc hl hI⟩

theorem tri_openMap {α : Type} {e : Ty} {a : Addr} {I : List Item} {x : HM α} {J : α → List Item} {K : List Item}
    (h : ∀ es, Tri C ((.raw (.map es), .ptr a) :: (es.map (fun x => (e, x.2)) ++ I)) x J K) :
    Tri C ((.map e, .ptr a) :: I) x J K := by
  intro R σ F P ho hinv
  cases ho with
  | map hc hI =>
    rename_i xs F0
    refine h xs R σ _ P (.raw hc ?_) hinv
    simpa using hI

theorem ent_sealMap {e : Ty} {a : Addr} {es : List (Key × HV)} (I : List Item) :
    Ent C ((.raw (.map es), .ptr a) :: (es.map (fun x => (e, x.2)) ++ I)) ((.map e, .ptr a) :: I) := by
  intro h F ho
  cases ho with
  | raw hc hI => exact ⟨_, le_rfl, .map hc hI⟩

theorem tri_openWrap {α : Type} {e : Ty} {n : Nat} {a : Addr} {I : List Item} {x : HM α} {J : α → List Item} {K : List Item}
    (h : ∀ v, Tri C ((.raw (.wrap n v), .ptr a) :: (e, v) :: I) x J K) : Tri C ((.wrap n e, .ptr a) :: I) x J K := by
  intro R σ F P ho hinv
  cases ho with
  | wrap hc hI =>
    rename_i v F0
    refine h v R σ _ P (.raw hc ?_) hinv
    simpa using hI

theorem ent_sealWrap {e : Ty} {n : Nat} {a : Addr} {v : HV} (I : List Item) :
    Ent C ((.raw (.wrap n v), .ptr a) :: (e, v) :: I) ((.wrap n e, .ptr a) :: I) := by
  intro h F ho
  cases ho with
  | raw hc hI => exact ⟨_, le_rfl, .wrap hc hI⟩

/-- What a value is known to be. -/
theorem ent_is {s w : HV} {I J : List Item} (h : w = s → Ent C I J) : Ent C ((.is s, w) :: I) J := by
  intro hp F ho
  cases ho with
  | nil ht _ => simp [Ty.nilable] at ht
  | is hI => exact h rfl hp F hI

theorem tri_is {α : Type} {s w : HV} {I : List Item} {x : HM α} {J : α → List Item} {K : List Item} (h : w = s → Tri C I x J K) :
    Tri C ((.is s, w) :: I) x J K := by
  intro R σ F P ho hinv
  cases ho with
  | nil ht _ => simp [Ty.nilable] at ht
  | is hI => exact h rfl R σ F P hI hinv

theorem ent_addIs {v : HV} {I : List Item} : Ent C I ((.is v, v) :: I) := fun _ F ho => ⟨F, le_rfl, .is ho⟩

theorem ent_flatNum {n : BitVec 64} {I : List Item} : Ent C I ((.flat, .num n) :: I) := fun _ F ho => ⟨F, le_rfl, .num ho⟩

theorem ent_nil {ty : Ty} (ht : ty.nilable = true) {I : List Item} : Ent C I ((ty, .nil) :: I) := fun _ F ho => ⟨F, le_rfl, .nil ht ho⟩

/-- Items of the wrong kind do not exist. -/
theorem tri_absurd {α : Type} {ty : Ty} {v : HV} {I : List Item} {x : HM α} {J : α → List Item} {K : List Item}
    (h : ∀ h R F, ¬ OwnL C.S C.B h ((ty, v) :: R) F) : Tri C ((ty, v) :: I) x J K := fun R _ F _ ho _ => absurd ho (h _ (I ++ R) F)

theorem ent_msg {t : Nat} (hf : (C.S.msg t).foreign = false) (p : HV) (I : List Item) :
    Ent C ((.msg t, p) :: I) ((.obj (slotTys (C.S.msg t)), p) :: I) := by
  intro h F ho
  cases ho with
  | nil _ hI => exact ⟨F, le_rfl, .nil rfl hI⟩
  | foreign hf' _ _ => rw [hf] at hf'; cases hf'
  | msg _ hc hl hI => exact ⟨_, le_rfl, .obj hc (by simpa [slotTys] using hl) hI⟩

theorem ent_obj {t : Nat} (hf : (C.S.msg t).foreign = false) (p : HV) (I : List Item) :
    Ent C ((.obj (slotTys (C.S.msg t)), p) :: I) ((.msg t, p) :: I) := by
  intro h F ho
  cases ho with
  | nil _ hI => exact ⟨F, le_rfl, .nil rfl hI⟩
  | obj hc hl hI => exact ⟨_, le_rfl, .msg hf hc (by simpa [slotTys] using hl) hI⟩

end

end Vtp
