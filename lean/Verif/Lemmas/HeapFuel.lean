import Mathlib.Algebra.BigOperators.Group.Multiset.Basic
import Mathlib.Data.Multiset.Range
import Verif.Lemmas.HeapRep
import Verif.Lemmas.Depth
import Verif.Model.Clone
import Verif.Model.Pool
/-!
# The fuel on memory

Values in unshared memory are not nested deeper than the recursion limit used for memory.
-/

namespace Vtp

open Spec

/-! ### Depth of what is in memory -/

/-- Contribution of an address. -/
def nestingAt (h : Heap) (a : Addr) : Nat := match h[a]? with
  | some c => c.nesting
  | none => 0

theorem nestingAt_pos {h : Heap} {a : Addr} {c : Cell} (hc : h[a]? = some c) : 1 ≤ nestingAt h a := by
  unfold nestingAt
  rw [hc]
  cases c <;> simp [Cell.nesting]

theorem depthList_le {n : Nat} : ∀ {vs : List Val}, (∀ v ∈ vs, v.depth ≤ n) → Val.depthList vs ≤ n
  | [], _ => by simp [Val.depthList]
  | v :: vs, h => by
    rw [Val.depthList]
    have := h v (.head _)
    have := depthList_le fun w hw => h w (.tail _ hw)
    omega

theorem depthEntries_le {n : Nat} : ∀ {es : List (Key × Val)}, (∀ e ∈ es, e.2.depth ≤ n) → Val.depthEntries es ≤ n
  | [], _ => by simp [Val.depthEntries]
  | (k, v) :: vs, h => by
    rw [Val.depthEntries]
    have := h (k, v) (.head _)
    have := depthEntries_le fun w hw => h w (.tail _ hw)
    simp only at *
    omega

theorem RepL.depth {S : Schema} {B : Bufs} {h : Heap} {I : List VItem} {F : Multiset Addr} (ho : RepL S B h I F) :
    ∀ x ∈ I, x.2.2.depth ≤ (F.map (nestingAt h)).sum + 1 := by
  induction ho with
  | done => intro x hx; cases hx
  | nil _ _ ih => intro x hx; rcases List.mem_cons.1 hx with rfl | hx; · simp [Val.depth]
                  · exact ih x hx
  | num _ ih => intro x hx; rcases List.mem_cons.1 hx with rfl | hx; · simp [Val.depth]
                · exact ih x hx
  | str _ ih => intro x hx; rcases List.mem_cons.1 hx with rfl | hx; · simp [Val.depth]
                · exact ih x hx
  | view _ _ ih => intro x hx; rcases List.mem_cons.1 hx with rfl | hx; · simp [Val.depth]
                   · exact ih x hx
  | wrapNil _ ih => intro x hx; rcases List.mem_cons.1 hx with rfl | hx; · simp [Val.depth]
                    · exact ih x hx
  | lent _ _ _ ih => intro x hx; rcases List.mem_cons.1 hx with rfl | hx; · simp [Val.depth]
                     · exact ih x hx
  | bytes _ _ _ ih =>
    intro x hx
    simp only [Multiset.map_cons, Multiset.sum_cons]
    rcases List.mem_cons.1 hx with rfl | hx
    · simp [Val.depth]
    · have := ih x hx; omega
  | mem _ _ _ ih =>
    intro x hx
    simp only [Multiset.map_cons, Multiset.sum_cons]
    rcases List.mem_cons.1 hx with rfl | hx
    · simp [Val.depth]
    · have := ih x hx; omega
  | box _ _ _ ih =>
    intro x hx
    simp only [Multiset.map_cons, Multiset.sum_cons]
    rcases List.mem_cons.1 hx with rfl | hx
    · have := ih _ (.head _); simp only at this ⊢; omega
    · have := ih x (.tail _ hx); omega
  | foreign hf hc hv hI ih =>
    intro x hx
    simp only [Multiset.map_cons, Multiset.sum_cons]
    rcases List.mem_cons.1 hx with rfl | hx
    · simp only [nestingAt, hc, Cell.nesting]; omega
    · have := ih x hx; omega
  | msg hf hc ht hI ih =>
    intro x hx
    have hp := nestingAt_pos hc
    simp only [Multiset.map_cons, Multiset.sum_cons]
    rcases List.mem_cons.1 hx with rfl | hx
    · simp only [Val.depth]
      have := depthList_le (fun v hv => by
        obtain ⟨y, hy, rfl⟩ := List.mem_map.1 hv
        exact ih y (List.mem_append_left _ hy))
      omega
    · have := ih x (List.mem_append_right _ (.tail _ hx)); omega
  | list hc hl hs hI ih =>
    rename_i ty a len xs sp I F
    intro x hx
    have hp := nestingAt_pos hc
    simp only [Multiset.map_cons, Multiset.sum_cons]
    rcases List.mem_cons.1 hx with rfl | hx
    · have hall : ∀ v ∈ xs.map (·.2), v.depth ≤ (F.map (nestingAt h)).sum + 1 := fun v hv => by
        obtain ⟨y, hy, rfl⟩ := List.mem_map.1 hv
        exact ih (ty, y) (List.mem_append_left _ (List.mem_map.2 ⟨y, hy, rfl⟩))
      simp only [Val.depth]
      have h1 : Val.depthList ((xs.map (·.2)).take len) ≤ (F.map (nestingAt h)).sum + 1 := depthList_le fun v hv => hall v (List.mem_of_mem_take hv)
      have h2 : Val.depthList sp ≤ (F.map (nestingAt h)).sum + 1 := by
        unfold SpareRep at hs
        split at hs
        · obtain ⟨k, hk⟩ := hs
          exact depthList_le fun v hv => hall v (List.mem_of_mem_drop (hk ▸ List.mem_append_left _ hv))
        · subst hs; simp [Val.depthList]
      omega
    · have := ih x (List.mem_append_right _ hx); omega
  | map hc hI ih =>
    rename_i ty a es I F
    intro x hx
    have hp := nestingAt_pos hc
    simp only [Multiset.map_cons, Multiset.sum_cons]
    rcases List.mem_cons.1 hx with rfl | hx
    · simp only [Val.depth]
      have h1 : Val.depthEntries (es.map fun e => (e.1, e.2.2)) ≤ (F.map (nestingAt h)).sum + 1 := depthEntries_le (fun v hv => by
        obtain ⟨y, hy, rfl⟩ := List.mem_map.1 hv
        exact ih (ty, y.2) (List.mem_append_left _ (List.mem_map.2 ⟨y, hy, rfl⟩)))
      omega
    · have := ih x (List.mem_append_right _ hx); omega
  | oneof hc hm hI ih =>
    intro x hx
    have hp := nestingAt_pos hc
    simp only [Multiset.map_cons, Multiset.sum_cons]
    rcases List.mem_cons.1 hx with rfl | hx
    · have := ih _ (.head _)
      simp only [Val.depth] at this ⊢
      omega
    · have := ih x (.tail _ hx); omega
  | raw hc hI ih =>
    intro x hx
    simp only [Multiset.map_cons, Multiset.sum_cons]
    rcases List.mem_cons.1 hx with rfl | hx
    · simp [Val.depth]
    · have := ih x hx; omega

theorem nesting_range (h : Heap) : ((Multiset.range h.length).map (nestingAt h)).sum = (h.map Cell.nesting).sum := by
  have : (List.range h.length).map (nestingAt h) = h.map Cell.nesting := by
    apply List.ext_getElem
    · simp
    · intro i h1 h2
      simp only [List.getElem_map, List.getElem_range]
      simp only [List.length_map, List.length_range] at h1
      simp [nestingAt, List.getElem?_eq_getElem h1]
  rw [← this]
  rfl

theorem Spec.Holds.depth {S : Schema} {B : Bufs} {σ : HState} {I : List VItem} (h : Holds S B σ I) {x : VItem} (hx : x ∈ I) : x.2.2.depth + 1 ≤ σ.fuel := by
  obtain ⟨F, h1, hg⟩ := h
  have h2 := RepL.depth h1 x hx
  have h3 : F ≤ Multiset.range σ.heap.length := (Multiset.le_iff_subset hg.nodup).2 fun a ha => Multiset.mem_range.2 (h1.inHeap a ha)
  obtain ⟨G, hG⟩ := Multiset.le_iff_exists_add.1 h3
  have h4 := nesting_range σ.heap
  rw [hG, Multiset.map_add, Multiset.sum_add] at h4
  unfold HState.fuel
  omega

/-! ### More fuel changes nothing -/

section
variable {S : Schema} {r r' : SubReset} {n : Nat} (h : Agree n r r')
include h

theorem returnWith_agree (t : Nat) {v : Val} (hv : v.depth ≤ n) : returnWith r t v = returnWith r' t v := by
  unfold returnWith
  rw [h t v hv]

theorem resetElem_agree (t : Nat) {v : Val} (hv : v.depth ≤ n) : resetElem S r t v = resetElem S r' t v := by
  unfold resetElem
  rw [h t v hv]

theorem resetElems_agree (t : Nat) : ∀ {vs : List Val}, (∀ v ∈ vs, v.depth ≤ n) → resetElems S r t vs = resetElems S r' t vs
  | [], _ => rfl
  | v :: vs, hv => by
    rw [resetElems, resetElems, resetElem_agree h t (hv v (.head _)), resetElems_agree t fun w hw => hv w (.tail _ hw)]

theorem resetField_agree (f : FieldDesc) {v : Val} (hv : v.depth ≤ n) : resetField S r f v = resetField S r' f v := by
  unfold resetField
  split_ifs <;> try rfl
  · split <;> try rfl
    rename_i xs sp
    rw [resetElems_agree h f.msg fun w hw => by
      have := depth_mem hw
      simp only [Val.depth] at hv
      omega]
  · split <;> try rfl
    rw [returnWith_agree h f.msg (by simp only [Val.depth] at hv; omega)]
  · rw [returnWith_agree h f.msg hv]

theorem resetFields_agree {slots : List Val} (hv : Val.depthList slots ≤ n) : ∀ fs, resetFields S r slots fs = resetFields S r' slots fs
  | [] => rfl
  | f :: fs => by
    rw [resetFields, resetFields, resetField_agree h f ((depth_slotOf slots f).trans hv), resetFields_agree hv fs]

end

theorem resetN_agree (S : Schema) : ∀ (n m : Nat), n ≤ m → Agree n (resetN S (n + 1)) (resetN S (m + 1)) := by
  intro n
  induction n with
  | zero =>
    intro m _ t v hv
    cases v with
    | msg s u e => simp only [Val.depth] at hv; omega
    | _ => rfl
  | succ n ih =>
    intro m hm t v hv
    cases v with
    | msg s u e =>
      obtain ⟨m', rfl⟩ : ∃ m', m = m' + 1 := ⟨m - 1, by omega⟩
      simp only [Val.depth] at hv
      have := resetFields_agree (S := S) (slots := s) (ih m' (by omega)) (by omega) (S.msg t).fields
      show (resetFields S (resetN S (n + 1)) s (S.msg t).fields >>= _) = (resetFields S (resetN S (m' + 1)) s (S.msg t).fields >>= _)
      rw [this]
    | _ => rfl

theorem resetN_eq (S : Schema) {n t : Nat} {v : Val} (h : v.depth + 1 ≤ n) : resetN S n t v = resetN S (v.depth + 1) t v := by
  obtain ⟨m, rfl⟩ : ∃ m, n = m + 1 := ⟨n - 1, by omega⟩
  exact (resetN_agree S v.depth m (by omega) t v le_rfl).symm

section
variable {E : KEnv} {r r' : SubClone} {n : Nat} (h : ∀ p, Agree n (r p) (r' p))
include h

theorem cloneSingular_agree (k : Kind) (t : Nat) (p : List Nat) {v : Val} (hv : v.depth ≤ n) : cloneSingular E r k t p v = cloneSingular E r' k t p v := by
  unfold cloneSingular
  rw [h p t v hv]

theorem cloneElems_agree (k : Kind) (t : Nat) (p : List Nat) : ∀ (i : Nat) {vs : List Val}, (∀ v ∈ vs, v.depth ≤ n) →
    cloneElems E r k t p i vs = cloneElems E r' k t p i vs
  | _, [], _ => rfl
  | i, v :: vs, hv => by
    rw [cloneElems, cloneElems, cloneSingular_agree h k t _ (hv v (.head _)), cloneElems_agree k t p (i + 1) fun w hw => hv w (.tail _ hw)]

theorem cloneEntries_agree (k : Kind) (t : Nat) (p : List Nat) : ∀ (i : Nat) {es : List (Key × Val)} (c : List (Key × Val)), (∀ e ∈ es, e.2.depth ≤ n) →
    cloneEntries E r k t p i es c = cloneEntries E r' k t p i es c
  | _, [], _, _ => rfl
  | i, (key, v) :: vs, c, hv => by
    rw [cloneEntries, cloneEntries, cloneSingular_agree h k t _ (hv (key, v) (.head _))]
    simp only [cloneEntries_agree k t p (i + 1) _ fun w hw => hv w (.tail _ hw)]

theorem cloneField_agree (f : FieldDesc) (p : List Nat) {v : Val} (hv : v.depth ≤ n) : cloneField E r f p v = cloneField E r' f p v := by
  have h1 : ∀ k t i es, v = .map es → cloneEntries E r k t p i es [] = cloneEntries E r' k t p i es [] := fun k t i es hve =>
    cloneEntries_agree h _ _ _ _ _ fun w hw => by
      have := depth_entry hw
      rw [hve, Val.depth] at hv
      omega
  have h2 : ∀ k t i xs sp, v = .list xs sp → cloneElems E r k t p i xs = cloneElems E r' k t p i xs := fun k t i xs sp hve =>
    cloneElems_agree h _ _ _ _ fun w hw => by
      have := depth_mem hw
      rw [hve, Val.depth] at hv
      omega
  unfold cloneField
  rw [cloneSingular_agree h _ _ _ hv]
  cases hm : f.map with
  | none =>
    cases v with
    | list xs sp => simp only [h2 f.kind f.msg 0 xs sp rfl]
    | _ => rfl
  | some md =>
    cases v with
    | map es => simp only [h1 md.val md.valMsg 0 es rfl]
    | _ => rfl

theorem cloneMember_agree (f : FieldDesc) (p : List Nat) {v : Val} (hv : v.depth ≤ n) : cloneMember E r f p v = cloneMember E r' f p v := by
  unfold cloneMember
  rw [h p _ v hv, cloneSingular_agree h _ _ _ hv]

theorem cloneOneof_agree (d : MsgDesc) (slot : Nat) (p : List Nat) {v : Val} (hv : v.depth ≤ n) : cloneOneof E r d slot p v = cloneOneof E r' d slot p v := by
  unfold cloneOneof
  split <;> try rfl
  split <;> try rfl
  rw [cloneMember_agree h _ _ (by simp only [Val.depth] at hv; omega)]

theorem cloneFirst_agree (d : MsgDesc) (p : List Nat) {m : List Val} (hv : Val.depthList m ≤ n) : ∀ fs s, cloneFirst E r d p m fs s = cloneFirst E r' d p m fs s
  | [], _ => rfl
  | f :: fs, s => by
    rw [cloneFirst, cloneFirst, h _ _ _ ((depth_slotOf m f).trans hv)]
    simp only [cloneFirst_agree d p hv fs]

theorem cloneSecond_agree (d : MsgDesc) (p : List Nat) {m : List Val} (hv : Val.depthList m ≤ n) : ∀ fs s, cloneSecond E r d p m fs s = cloneSecond E r' d p m fs s
  | [], _ => rfl
  | f :: fs, s => by
    rw [cloneSecond, cloneSecond, cloneOneof_agree h _ _ _ ((depth_slotOf m f).trans hv), cloneField_agree h _ _ ((depth_slotOf m f).trans hv)]
    simp only [cloneSecond_agree d p hv fs]

end

theorem cloneN_agree (E : KEnv) : ∀ (n m : Nat), n ≤ m → ∀ p, Agree n (cloneN E (n + 1) p) (cloneN E (m + 1) p) := by
  intro n
  induction n with
  | zero =>
    intro m _ p t v hv
    cases v with
    | msg s u e => simp only [Val.depth] at hv; omega
    | _ => rfl
  | succ n ih =>
    intro m hm p t v hv
    cases v with
    | msg s u e =>
      obtain ⟨m', rfl⟩ : ∃ m', m = m' + 1 := ⟨m - 1, by omega⟩
      simp only [Val.depth] at hv
      show cloneBody E (cloneN E (n + 1)) p t _ = cloneBody E (cloneN E (m' + 1)) p t _
      generalize hr : cloneN E (n + 1) = r at ih ⊢
      unfold cloneBody
      simp only [cloneFirst_agree (ih m' (by omega)) _ _ (show Val.depthList s ≤ n by omega), cloneSecond_agree (ih m' (by omega)) _ _ (show Val.depthList s ≤ n by omega)]
    | _ => rfl

theorem cloneN_eq (E : KEnv) {n t : Nat} {p : List Nat} {v : Val} (h : v.depth + 1 ≤ n) : cloneN E n p t v = cloneN E (v.depth + 1) p t v := by
  obtain ⟨m, rfl⟩ : ∃ m, n = m + 1 := ⟨n - 1, by omega⟩
  exact (cloneN_agree E v.depth m (by omega) p t v le_rfl).symm

end Vtp
