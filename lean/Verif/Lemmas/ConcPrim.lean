import Verif.Lemmas.ConcTri
import Verif.Lemmas.HeapPrim
/-! # Triples for the primitives -/

namespace Vtp.Conc
open Spec

section
variable {C : Ctx}

theorem safe_read {β : Type} {Q : Res β → Heap → Multiset Addr → Prop} {a : Addr} {c : Cell} {f : Cell → Prog β} {h : Heap} {F : Multiset Addr} (hc : h[a]? = some c) (ha : a ∈ F)
    (hs : Safe C Q (f c) h F) : Safe C Q (hread a >>= f) h F := fun _ h1 _ => ⟨c, by rw [h1 a ha]; exact hc, .inl ha, hs.stable h1⟩

theorem safe_write {Q : Res Unit → Heap → Multiset Addr → Prop} {a : Addr} {c : Cell} {h : Heap} {F : Multiset Addr} (ha : a ∈ F)
    (hs : ∀ h', Agree F h h' → LInv C h' F → ∀ h'', Agree F (h'.set a c) h'' → Q (.ok ()) h'' F) : Safe C Q (hwrite a c) h F :=
  fun h' h1 h2 => ⟨ha, fun h'' h3 _ => hs h' h1 h2 h'' h3⟩

theorem safe_pure {α : Type} {J : α → List Item} {K R : List Item} {a : α} {h : Heap} {F : Multiset Addr} (ho : OwnL C.S C.B h (J a ++ R) F) :
    Safe C (Post C J K R) (Pure.pure a : Prog α) h F := fun _ h1 _ => Post.ok (h1.own ho)

theorem safe_fail {α : Type} {J : α → List Item} {K R : List Item} {r : Res α} (hr : ∀ a, r ≠ .ok a) {h : Heap} {F G : Multiset Addr} (hG : G ≤ F) (ho : OwnL C.S C.B h (K ++ R) G) :
    Safe C (Post C J K R) (Prog.lift r) h F := fun _ h1 _ => (Post.bad hr ((h1.mono hG).own ho)).mono hG

theorem tri_getSlot {tys : List Ty} {p : HV} {i : Nat} (hi : i < tys.length) :
    Tri C [(.obj tys, p)] (hgetSlot p i) (fun s => [(.obj (tys.set i (.is s)), p), (tys.getD i .flat, s)]) [(.obj tys, p)] := by
  intro R σ F ho hinv
  cases ho with
  | nil ht hI => exact safe_fail (r := .panic .nilDeref) (fun _ h => nomatch h) le_rfl (.nil rfl hI)
  | obj hc hl hI =>
    rename_i a slots u e F0
    obtain ⟨A, D, hA, hset⟩ := zip_split hl hi
    rw [hgetSlot]
    refine safe_read hc (Multiset.mem_cons_self _ _) (safe_pure ?_)
    refine .obj hc (by simpa using hl) ?_
    have hs : slots.set i (slots.getD i .nil) = slots := by
      rw [List.getD_eq_getElem?_getD, List.getElem?_eq_getElem (hl ▸ hi)]
      simp
    have h2 := hset (.is (slots.getD i .nil)) (slots.getD i .nil)
    rw [hs] at h2
    rw [h2]
    rw [hA] at hI
    refine OwnL.perm ?_ (OwnL.is (v := slots.getD i .nil) hI)
    items

theorem tri_setSlot {tys : List Ty} {p v : HV} {i : Nat} {K : List Item} (hi : i < tys.length) (hK : p = .nil → ∀ h, OwnL C.S C.B h K 0) :
    Tri C [(.obj tys, p)] (hsetSlot p i v) (fun _ => [(.obj (tys.set i (.is v)), p)]) K := by
  intro R σ F ho hinv
  cases ho with
  | nil ht hI => exact safe_fail (r := .panic .nilDeref) (fun _ h => nomatch h) le_rfl (by simpa using (hK rfl σ).append hI)
  | obj hc hl hI =>
    rename_i a slots u e F0
    rw [hsetSlot]
    refine safe_read hc (Multiset.mem_cons_self _ _) ?_
    refine safe_write (Multiset.mem_cons_self _ _) fun h' h1 h2 h'' h3 => ?_
    replace hI := (h1.mono (Multiset.le_cons_self _ _)).own hI
    replace hc : h'[a]? = _ := (h1 a (Multiset.mem_cons_self _ _)).trans hc
    obtain ⟨A, D, hA, hset⟩ := zip_split hl hi
    rw [hA] at hI
    obtain ⟨F1, F2, rfl, o1, o2⟩ := own_middle.mp hI
    have hle : a ::ₘ F2 ≤ a ::ₘ (F1 + F2) := Multiset.cons_le_cons _ (Multiset.le_add_left _ _)
    refine Post.mono (Post.ok (F := a ::ₘ F2) ?_) hle
    have hlt := (List.getElem?_eq_some_iff.mp hc).1
    refine .obj (slots := slots.set i v) (u := u) (e := e) ?_ (by simpa using hl) ?_
    · rw [h3 a (Multiset.mem_cons_self _ _)]
      simp [hlt]
    · rw [hset]
      have hn : a ∉ F2 := fun hm => (Multiset.nodup_cons.mp h2.nodup).1 (Multiset.mem_add.mpr (.inr hm))
      have o3 := o2.frame (h' := h'') fun b hb => by
        have : a ≠ b := fun e => hn (e ▸ hb)
        rw [h3 b (Multiset.mem_of_le hle (Multiset.mem_cons_of_mem hb))]
        simp [this]
      refine OwnL.perm ?_ (OwnL.is (v := v) o3)
      items

/-! ## Objects -/

theorem tri_read {β : Type} {a : Addr} {c : Cell} {I : List Item} {f : Cell → Prog β} {J : β → List Item} {K : List Item}
    (h : Tri C ((.raw c, .ptr a) :: I) (f c) J K) : Tri C ((.raw c, .ptr a) :: I) (hread a >>= f) J K := by
  intro R σ F ho hinv
  have hr : σ[a]? = some c ∧ a ∈ F := by
    cases ho with
    | raw hc _ => exact ⟨hc, Multiset.mem_cons_self _ _⟩
  exact safe_read hr.1 hr.2 (h R σ F ho hinv)

theorem tri_write {a : Addr} {c c' : Cell} {K : List Item} :
    Tri C [(.raw c, .ptr a)] (hwrite a c') (fun _ => [(.raw c', .ptr a)]) K := by
  intro R σ F ho hinv
  cases ho with
  | raw hc hI =>
    rename_i F0
    have hI' : OwnL C.S C.B σ R F0 := hI
    refine safe_write (Multiset.mem_cons_self _ _) fun h' h1 h2 h'' h3 => ?_
    have hlt := h2.inHeap a (Multiset.mem_cons_self _ _)
    have hn : a ∉ F0 := (Multiset.nodup_cons.mp hinv.nodup).1
    refine Post.ok (.raw ?_ (hI'.frame fun b hb => ?_))
    · rw [h3 a (Multiset.mem_cons_self _ _)]
      simp [hlt]
    · have : a ≠ b := fun e => hn (e ▸ hb)
      rw [h3 b (Multiset.mem_cons_of_mem hb), ← h1 b (Multiset.mem_cons_of_mem hb)]
      simp [this]

theorem tri_alloc {c : Cell} {K : List Item} : Tri C [] (halloc c) (fun a => [(.raw c, .ptr a)]) K :=
  Tri.alloc (ty := .raw c) (val := .ptr) fun _ _ _ _ hc ho => .raw hc ho

/-- Opening a message. -/
theorem tri_open {α : Type} {tys : List Ty} {a : Addr} {I : List Item} {x : Prog α} {J : α → List Item} {K : List Item}
    (h : ∀ slots u e, slots.length = tys.length → Tri C ((.raw (.msg slots u e), .ptr a) :: (tys.zip slots ++ (.mem, u) :: I)) x J K) :
    Tri C ((.obj tys, .ptr a) :: I) x J K := by
  intro R σ F ho hinv
  cases ho with
  | obj hc hl hI =>
    rename_i slots u e F0
    refine h slots u e hl R σ _ (.raw hc ?_) hinv
    simpa using hI

theorem tri_openList {α : Type} {e : Ty} {a len : Nat} {I : List Item} {x : Prog α} {J : α → List Item} {K : List Item}
    (h : ∀ xs, len ≤ xs.length → Tri C ((.raw (.arr xs), .ptr a) :: (xs.map (fun x => (e, x)) ++ I)) x J K) :
    Tri C ((.list e, .slice a len) :: I) x J K := by
  intro R σ F ho hinv
  cases ho with
  | list hc hl hI =>
    rename_i xs F0
    refine h xs hl R σ _ (.raw hc ?_) hinv
    simpa using hI

theorem tri_openMap {α : Type} {e : Ty} {a : Addr} {I : List Item} {x : Prog α} {J : α → List Item} {K : List Item}
    (h : ∀ es, Tri C ((.raw (.map es), .ptr a) :: (es.map (fun x => (e, x.2)) ++ I)) x J K) :
    Tri C ((.map e, .ptr a) :: I) x J K := by
  intro R σ F ho hinv
  cases ho with
  | map hc hI =>
    rename_i xs F0
    refine h xs R σ _ (.raw hc ?_) hinv
    simpa using hI

theorem tri_openWrap {α : Type} {e : Ty} {n : Nat} {a : Addr} {I : List Item} {x : Prog α} {J : α → List Item} {K : List Item}
    (h : ∀ v, Tri C ((.raw (.wrap n v), .ptr a) :: (e, v) :: I) x J K) : Tri C ((.wrap n e, .ptr a) :: I) x J K := by
  intro R σ F ho hinv
  cases ho with
  | wrap hc hI =>
    rename_i v F0
    refine h v R σ _ (.raw hc ?_) hinv
    simpa using hI

theorem tri_is {α : Type} {s w : HV} {I : List Item} {x : Prog α} {J : α → List Item} {K : List Item} (h : w = s → Tri C I x J K) :
    Tri C ((.is s, w) :: I) x J K := by
  intro R σ F ho hinv
  cases ho with
  | nil ht _ => simp [Ty.nilable] at ht
  | is hI => exact h rfl R σ F hI hinv

/-- Items of the wrong kind do not exist. -/
theorem tri_absurd {α : Type} {ty : Ty} {v : HV} {I : List Item} {x : Prog α} {J : α → List Item} {K : List Item}
    (h : ∀ h R F, ¬ OwnL C.S C.B h ((ty, v) :: R) F) : Tri C ((ty, v) :: I) x J K := fun R _ F ho _ => absurd ho (h _ (I ++ R) F)

end

end Vtp.Conc
