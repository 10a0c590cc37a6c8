import Verif.Lemmas.Made
import Verif.Lemmas.Schema
/-! Messages made by decoding have an encoding and read back. -/

namespace Vtp
open Spec

theorem concat_all_some {l : List (Option Bytes)} (h : ∀ x ∈ l, x ≠ none) : Spec.concat l ≠ none := by
  induction l with
  | nil => simp [Spec.concat]
  | cons x l ih =>
    have h1 := h x (by simp)
    have h2 := ih fun y hy => h y (by simp [hy])
    cases x with
    | none => exact absurd rfl h1
    | some a =>
      cases hl : Spec.concat l with
      | none => exact absurd hl h2
      | some b => simp [Spec.concat, hl]

section
variable {E : Env} {strict : Bool} {n w : Nat}

theorem record_some (hM : ∀ t b v, E.R.unmarshal t b = some v → E.R.marshal t v ≠ none)
    (ih : ∀ t v, MadeN w E.S E.R n t v → encodeN E strict n t v ≠ none) {num : Nat} {k : Kind} {t : Nat} {v : Val} (h : MadeElem E.S E.R (MadeN w E.S E.R n) k t v) :
    record E (encodeN E strict n) num k t v ≠ none := by
  have hs : k = .message → sub E (encodeN E strict n) t v ≠ none := by
    intro hk
    obtain ⟨-, h1, h2⟩ := h.2 hk
    unfold sub
    split
    · rename_i hf
      obtain ⟨b, hb⟩ := h1 hf
      exact hM _ _ _ hb
    · rename_i hf
      exact ih _ _ (h2 (by simpa using hf))
  have hg := h.1
  cases k
  case message =>
    have := hs rfl
    cases hx : sub E (encodeN E strict n) t v with
    | none => exact absurd hx this
    | some b => simp [record, hx]
  case group => exact absurd rfl hg
  all_goals simp [record]

theorem recordVal_some (hM : ∀ t b v, E.R.unmarshal t b = some v → E.R.marshal t v ≠ none) (hN : ∀ t, E.R.marshal t .nil ≠ none)
    (ih : ∀ t v, MadeN w E.S E.R n t v → encodeN E strict n t v ≠ none) {num : Nat} {md : MapDesc} {v : Val} (h : MadeVal E.S E.R (MadeN w E.S E.R n) md v) :
    record E (encodeN E strict n) num md.val md.valMsg v ≠ none := by
  rcases h with ⟨hk, rfl⟩ | h
  · have hs : sub E (encodeN E strict n) md.valMsg .nil ≠ none := by
      unfold sub
      split
      · exact hN _
      · cases n <;> simp [encodeN]
    rw [hk]
    cases hx : sub E (encodeN E strict n) md.valMsg .nil with
    | none => exact absurd hx hs
    | some b => simp [record, hx]
  · exact record_some hM ih h

theorem made_encodes (hS : schemaOK E.S = true) (hM : ∀ t b v, E.R.unmarshal t b = some v → E.R.marshal t v ≠ none) (hN : ∀ t, E.R.marshal t .nil ≠ none) :
    ∀ n t v, MadeN w E.S E.R n t v → encodeN E strict n t v ≠ none
  | 0, _, _, _ => by simp [encodeN]
  | n + 1, t, v, h => by
    have ih := made_encodes hS hM hN n
    obtain ⟨⟨s, u, e, rfl, hl, -, hs⟩, hreq⟩ := h
    have hd := schemaOK_msg hS t
    have hone : ∀ f ∈ (E.S.msg t).fields, f.oneof = true → ∀ n' x, slotOf s f = .wrap n' x → n' = f.num → record E (encodeN E strict n) f.num f.kind f.msg x ≠ none := by
      intro f hf ho n' x hx hn
      have := hs f hf
      unfold SlotMade at this
      rw [if_pos ho, hx] at this
      rcases this with this | ⟨n2, x2, he, h2⟩
      · cases this
      · cases he
        exact record_some hM ih (h2 hn)
    have hfield : ∀ f ∈ (E.S.msg t).fields, f.oneof = false → field E (encodeN E strict n) f (slotOf s f) ≠ none := by
      intro f hf ho
      have h1 := hs f hf
      have h2 := hreq s u e rfl f hf
      generalize slotOf s f = v at h1 h2
      unfold SlotMade at h1
      rw [if_neg (by simp [ho])] at h1
      unfold field
      cases hm : f.map with
      | some md =>
        simp only [hm] at h1 ⊢
        apply concat_all_some
        intro y hy
        obtain ⟨e, he, rfl⟩ := List.mem_map.1 hy
        rw [List.mem_reverse] at he
        rcases h1 with rfl | ⟨es, rfl, hes⟩
        · simp [Val.entries] at he
        · have hr := recordVal_some (num := 2) hM hN ih (hes e he)
          have hk : ∃ kb, record E (encodeN E strict n) 1 md.key 0 e.1.toVal = some kb := by
            have hkk := ((hd.fields f hf).map md hm).2.2.1
            revert hkk
            generalize md.key = k
            cases k <;> simp [mapKeyKind, record]
          obtain ⟨kb, hk⟩ := hk
          unfold entry
          rw [hk]
          cases hx : record E (encodeN E strict n) 2 md.val md.valMsg e.2 with
          | none => exact absurd hx hr
          | some b => simp
      | none =>
        simp only [hm] at h1 ⊢
        split
        · rename_i hc
          rw [if_pos hc] at h1
          split
          · split <;> simp
          · apply concat_all_some
            intro y hy
            obtain ⟨x, hx, rfl⟩ := List.mem_map.1 hy
            rcases h1 with rfl | ⟨xs, sp, rfl, hxs⟩
            · simp [Val.elems] at hx
            · exact record_some hM ih (hxs x hx)
        · rename_i hc
          rw [if_neg hc] at h1
          split
          · split
            · rename_i hv
              rw [if_neg fun hr => h2 hr hv]
              simp
            · rename_i hv
              exact record_some hM ih (h1.resolve_left hv)
          · rename_i hp
            simp only [Bool.or_eq_true, not_or, Bool.not_eq_true] at hp
            split
            · simp
            · rcases h1 with rfl | h1
              · have : f.kind ≠ .message ∧ f.kind ≠ .group := by
                  have := hp.2
                  constructor <;> intro hk <;> simp [FieldDesc.hasMessage, hk] at this
                exact record_some hM ih ⟨this.2, fun h => absurd h this.1⟩
              · exact record_some hM ih h1
    have hbody : (if strict then bodyStrict E (encodeN E strict n) (E.S.msg t) s else bodyDefault E (encodeN E strict n) (E.S.msg t) s) ≠ none := by
      have hp : (ascending (E.S.msg t).fields).Perm (E.S.msg t).fields := List.perm_insertionSort _ _
      split
      · apply concat_all_some
        intro y hy
        obtain ⟨f, hf, rfl⟩ := List.mem_map.1 hy
        rw [hp.mem_iff] at hf
        split
        · rename_i ho
          split
          · rename_i n' x hx
            split
            · rename_i hn
              exact hone f hf ho n' x hx hn
            · simp
          · simp
        · rename_i ho
          exact hfield f hf (by simpa using ho)
      · apply concat_all_some
        intro y hy
        rcases List.mem_append.1 hy with hy | hy
        · obtain ⟨f, hf, rfl⟩ := List.mem_map.1 hy
          obtain ⟨hf, ho⟩ := List.mem_filter.1 hf
          exact hfield f (hp.mem_iff.1 hf) (by simpa using ho)
        · obtain ⟨f, hf, rfl⟩ := List.mem_map.1 hy
          unfold oneof
          split
          · rename_i n' x hx
            split
            · rename_i g hg
              obtain ⟨g1, g2, g3, g4⟩ := member_some hg
              refine hone g g1 g2 n' x ?_ g4.symm
              rw [← hx, slotOf, slotOf, g3]
            · simp
          · simp
    rw [encodeN]
    dsimp only
    cases strict
    · simp only [Bool.false_eq_true, if_false] at hbody ⊢
      cases hx : bodyDefault E (encodeN E false n) (E.S.msg t) s with
      | none => exact absurd hx hbody
      | some b => simp
    · simp only [if_true] at hbody ⊢
      cases hx : bodyStrict E (encodeN E true n) (E.S.msg t) s with
      | none => exact absurd hx hbody
      | some b => simp

end

/-! ## Reading back -/

section
variable {S : Schema} {R : Runtime} {w : Nat}

theorem elem_restorable {n : Nat} (hB : RuntimeBack S R) (ih : ∀ t v, MadeN w S R n t v → RestorableG (LooseUnknown w) S R n t v) {k : Kind} {t : Nat} {v : Val}
    (h : MadeElem S R (MadeN w S R n) k t v) : RestorableElem S R (RestorableG (LooseUnknown w) S R n) k t v := by
  unfold RestorableElem
  rw [if_neg h.1]
  split
  · rename_i hk
    obtain ⟨⟨s, u, e, rfl⟩, h1, h2⟩ := h.2 hk
    split
    · rename_i hf
      obtain ⟨b, hb⟩ := h1 hf
      exact hB.decoded _ _ _ hf hb
    · rename_i hf
      simp only [Bool.not_eq_true] at hf
      rw [if_neg (by simp)]
      exact ih _ _ (h2 hf)
  · trivial

theorem made_restorable (hB : RuntimeBack S R) (hMaps : MapsOK S) : ∀ n t v, MadeN w S R n t v → RestorableG (LooseUnknown w) S R n t v
  | 0, _, _, _ => trivial
  | n + 1, t, v, h => by
    have ih := made_restorable hB hMaps n
    obtain ⟨⟨s, u, e, rfl, hl, hu1, hs⟩, -⟩ := h
    refine ⟨hu1, fun f hf => ?_⟩
    have h1 := hs f hf
    generalize slotOf s f = v at h1
    unfold SlotMade at h1
    split at h1
    · rcases h1 with rfl | ⟨n', x, rfl, hx⟩
      · trivial
      · intro hn
        exact elem_restorable hB ih (hx hn.symm)
    · cases hm : f.map with
      | some md =>
        rw [hm] at h1
        rcases h1 with rfl | ⟨es, rfl, hes⟩
        · trivial
        · intro md' hmd e he
          cases hmd
          rcases hes e he with ⟨hk, hv⟩ | h3
          · rw [hv, hk]
            unfold RestorableElem
            rw [if_neg (by decide), if_pos rfl]
            split
            · rename_i hfo
              exact hB.nil t f hf md hm hk hfo
            · rw [if_pos rfl]
              exact hMaps t f hf md hm hk
          · exact elem_restorable hB ih h3
      | none =>
        rw [hm] at h1
        simp only at h1
        split at h1
        · rcases h1 with rfl | ⟨xs, sp, rfl, hxs⟩
          · trivial
          · intro x hx
            exact elem_restorable hB ih (hxs x hx)
        · rcases h1 with rfl | h1
          · trivial
          · by_cases hk : f.kind = .message
            · obtain ⟨s', u', e', rfl⟩ := (h1.2 hk).1
              exact elem_restorable hB ih h1
            · have hE : ∀ x, RestorableElem S R (RestorableG (LooseUnknown w) S R n) f.kind f.msg x := fun x => by
                unfold RestorableElem
                rw [if_neg h1.1, if_neg hk]
                trivial
              cases v
              case nil => trivial
              case wrap => exact fun _ => hE _
              case list => exact fun _ _ => hE _
              case map => exact fun md hmd => by cases hmd
              all_goals exact hE _

end

end Vtp
