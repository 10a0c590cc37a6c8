import Verif.Lemmas.SizeVolume
import Verif.Lemmas.Clone
import Verif.Model.Pool
/-! Memory of clones, and of what goes into pools. -/

namespace Vtp
open Spec

/-- Costs of fields which are paid for by the struct field of each, if of the fields that share one only one costs anything. -/
theorem fields_budget {c : FieldDesc → Nat} : ∀ (fs : List FieldDesc) (m : List Val), fs.Pairwise (fun f g => f.slot = g.slot → c f = 0 ∨ c g = 0) →
    (∀ f ∈ fs, c f ≤ volume (slotOf m f)) → (fs.map c).sum ≤ volumes m := by
  intro fs
  induction fs with
  | nil => intro m _ _; simp
  | cons f fs ih =>
    intro m hp hc
    simp only [List.pairwise_cons] at hp
    simp only [List.map_cons, List.sum_cons]
    by_cases h0 : c f = 0
    · have := ih m hp.2 (fun g hg => hc g (by simp [hg]))
      omega
    · have h1 := volumes_set m f.slot .nil
      have h2 := ih (m.set f.slot .nil) hp.2 (fun g hg => by
        by_cases hs : f.slot = g.slot
        · rcases hp.1 g hg hs with h | h
          · exact absurd h h0
          · omega
        · have := hc g (by simp [hg])
          simpa [slotOf, List.getElem?_set_ne hs] using this)
      have h3 := hc f (by simp)
      simp only [slotOf, volume] at *
      omega

section
variable {E : KEnv} {K : Nat} (hK : 2 ≤ K) (hC : ∀ t v, volume (E.R.clone t v) ≤ K * volume v) {rec : SubClone} (hr : ∀ p t v w, rec p t v = .ok w → volume w ≤ K * volume v)
include hK hC hr

theorem le_mul_price (n : Nat) : n ≤ K * n := Nat.le_mul_of_pos_left n (by omega)

theorem cloneSingular_volume {k : Kind} {t : Nat} {p : List Nat} {v w : Val} (h : cloneSingular E rec k t p v = .ok w) : volume w ≤ K * volume v ∨ (v = .nil ∧ volume w = 1) := by
  unfold cloneSingular at h
  split at h
  · split at h
    · cases h; exact .inl (hC t v)
    · exact .inl (hr _ _ _ _ h)
  · split at h
    · cases h
      by_cases hv : v = .nil
      · subst hv; exact .inr ⟨rfl, rfl⟩
      · have h1 := volume_pos hv
        have h2 := bytes_volume v
        have h3 := le_mul_price hK hC hr (volume v)
        simp only [volume]
        omega
    · cases h; exact .inl (le_mul_price hK hC hr _)

theorem cloneElems_volume {k : Kind} {t : Nat} {p : List Nat} : ∀ {i : Nat} {xs ws : List Val}, cloneElems E rec k t p i xs = .ok ws → ws.length = xs.length ∧ volumes ws ≤ xs.length + K * volumes xs
  | _, [], ws, h => by cases h; simp [volumes]
  | i, x :: xs, ws, h => by
    rw [cloneElems] at h
    obtain ⟨w, h1, h⟩ := Res.bind_eq_ok.1 h
    obtain ⟨ws', h2, h⟩ := Res.bind_eq_ok.1 h
    cases h
    have h3 := cloneElems_volume h2
    have h4 := cloneSingular_volume hK hC hr h1
    simp only [volumes, List.length_cons, Nat.mul_add]
    omega

theorem cloneEntries_volume {k : Kind} {t : Nat} {p : List Nat} : ∀ {i : Nat} {es c c' : List (Key × Val)}, cloneEntries E rec k t p i es c = .ok c' →
    entriesVolume c' ≤ entriesVolume c + K * entriesVolume es
  | _, [], c, c', h => by cases h; omega
  | i, (key, v) :: es, c, c', h => by
    rw [cloneEntries] at h
    obtain ⟨w, h1, h⟩ := Res.bind_eq_ok.1 h
    have h2 := cloneEntries_volume h
    have h3 := mapInsert_volume c key w
    have h4 := cloneSingular_volume hK hC hr h1
    have h5 : 1 ≤ keyVolume key := by cases key <;> simp [keyVolume]
    have h6 : 2 * keyVolume key ≤ K * keyVolume key := Nat.mul_le_mul_right _ hK
    simp only [entriesVolume, Nat.mul_add]
    omega

theorem cloneField_volume {f : FieldDesc} {p : List Nat} {v w : Val} (h : cloneField E rec f p v = .ok (some w)) : volume w ≤ K * volume v := by
  unfold cloneField at h
  split at h
  · cases h
  · rename_i hn
    have hv : v ≠ .nil := fun hv => hn (by rw [hv]; rfl)
    split at h
    · split at h
      · rename_i md es _
        obtain ⟨es', h1, h⟩ := Res.bind_eq_ok.1 h
        cases h
        have := cloneEntries_volume hK hC hr h1
        simp only [volume, entriesVolume, Nat.mul_add] at *
        omega
      · rename_i xs sp _
        split at h
        · cases h
          refine Nat.le_trans ?_ (le_mul_price hK hC hr _)
          simp only [volume, volumes]; omega
        · obtain ⟨xs', h1, h⟩ := Res.bind_eq_ok.1 h
          cases h
          have := cloneElems_volume hK hC hr h1
          have : 2 * xs.length ≤ K * xs.length := Nat.mul_le_mul_right _ hK
          simp only [volume, volumes, Nat.mul_add] at *
          omega
      · cases h
    · split at h
      · cases h; exact le_mul_price hK hC hr _
      · obtain ⟨w', h1, h⟩ := Res.bind_eq_ok.1 h
        cases h
        rcases cloneSingular_volume hK hC hr h1 with h | h
        · exact h
        · exact absurd h.1 hv

theorem cloneMember_volume {f : FieldDesc} {p : List Nat} {v w : Val} (h : cloneMember E rec f p v = .ok w) : volume w ≤ K * volume v := by
  unfold cloneMember at h
  split at h
  · cases h; exact le_mul_price hK hC hr _
  · split at h
    · exact hr _ _ _ _ h
    · split at h
      · cases h; exact Nat.zero_le _
      · rename_i hn
        rcases cloneSingular_volume hK hC hr h with h | h
        · exact h
        · exact absurd (by rw [h.1]; rfl) hn

theorem cloneOneof_volume {d : MsgDesc} {slot : Nat} {p : List Nat} {v w : Val} (h : cloneOneof E rec d slot p v = .ok (some w)) : volume w ≤ K * volume v := by
  unfold cloneOneof at h
  split at h
  · cases h
  · split at h
    · obtain ⟨y, h1, h⟩ := Res.bind_eq_ok.1 h
      cases h
      have := cloneMember_volume hK hC hr h1
      simp only [volume, Nat.mul_add]
      omega
    · cases h
  · split at h
    · cases h; exact le_mul_price hK hC hr _
    · cases h
  · cases h

theorem cloneFirst_volume {d : MsgDesc} {p : List Nat} {m : List Val} : ∀ {fs : List FieldDesc} {r r' : List Val}, cloneFirst E rec d p m fs r = .ok r' →
    volumes r' ≤ volumes r + K * (fs.map fun f => volume (slotOf m f)).sum
  | [], r, r', h => by cases h; omega
  | f :: fs, r, r', h => by
    rw [cloneFirst] at h
    simp only [List.map_cons, List.sum_cons, Nat.mul_add]
    split at h
    · have h1 := cloneFirst_volume h
      have h2 := volumes_set r f.slot (slotOf m f)
      have h3 := le_mul_price hK hC hr (volume (slotOf m f))
      omega
    · obtain ⟨w, h1, h⟩ := Res.bind_eq_ok.1 h
      have h2 := cloneFirst_volume h
      have h3 := volumes_set r f.slot w
      have h4 := hr _ _ _ _ h1
      omega

theorem cloneSecond_volume {d : MsgDesc} {p : List Nat} {m : List Val} : ∀ {fs : List FieldDesc} {r r' : List Val}, cloneSecond E rec d p m fs r = .ok r' →
    volumes r' ≤ volumes r + K * (fs.map fun f => volume (slotOf m f)).sum
  | [], r, r', h => by cases h; omega
  | f :: fs, r, r', h => by
    have key : ∀ o, (∀ w, o = some w → volume w ≤ K * volume (slotOf m f)) → cloneSecond E rec d p m fs (assignTo r f.slot o) = .ok r' →
        volumes r' ≤ volumes r + K * ((f :: fs).map fun f => volume (slotOf m f)).sum := by
      intro o h1 h
      have h2 := cloneSecond_volume h
      simp only [List.map_cons, List.sum_cons, Nat.mul_add]
      cases o with
      | none => simp only [assignTo] at h2; omega
      | some w =>
        have h3 := volumes_set r f.slot w
        have h4 := h1 w rfl
        simp only [assignTo] at h2
        omega
    rw [cloneSecond] at h
    split at h
    · obtain ⟨o, h1, h⟩ := Res.bind_eq_ok.1 h
      exact key o (fun w hw => cloneOneof_volume hK hC hr (hw ▸ h1)) h
    · obtain ⟨o, h1, h⟩ := Res.bind_eq_ok.1 h
      exact key o (fun w hw => cloneField_volume hK hC hr (hw ▸ h1)) h

theorem cloneBody_volume (hS : schemaOK E.S = true) (hA : ∀ p t, volume (cloneAlloc E p t) ≤ K) {p : List Nat} {t : Nat} {v w : Val} (h : cloneBody E rec p t v = .ok w) :
    volume w ≤ K * volume v := by
  unfold cloneBody at h
  split at h
  · cases h; simp [volume]
  · rename_i m u e
    have h0 := hA p t
    split at h
    · rename_i r u' e' ha
      rw [ha] at h0
      obtain ⟨r1, h1, h⟩ := Res.bind_eq_ok.1 h
      obtain ⟨r2, h2, h⟩ := Res.bind_eq_ok.1 h
      cases h
      have h3 := cloneFirst_volume hK hC hr h1
      have h4 := cloneSecond_volume hK hC hr h2
      have h5 := fields_budget (c := fun f => volume (slotOf m f)) ((cloneSplit E.S E.direct (E.S.msg t) [] (E.S.msg t).fields).1 ++ (cloneSplit E.S E.direct (E.S.msg t) [] (E.S.msg t).fields).2) m (by
          have := cloneSplit_slots (S := E.S) (dir := E.direct) (schemaOK_msg hS t) (E.S.msg t).fields [] (fun _ h => h) (schemaOK_msg hS t).nodup
          rw [List.Nodup, List.pairwise_map] at this
          exact this.imp fun h h' => absurd h' h) (fun _ _ => Nat.le_refl _)
      simp only [List.map_append, List.sum_append] at h5
      have h6 := Nat.mul_le_mul_left K h5
      have h7 := le_mul_price hK hC hr u.length
      have h8 := le_mul_price hK hC hr e.length
      simp only [volume, Nat.mul_add] at *
      split <;> omega
    · cases h
  · cases h

end

theorem cloneN_volume {E : KEnv} (hS : schemaOK E.S = true) {K : Nat} (hK : 2 ≤ K) (hC : ∀ t v, volume (E.R.clone t v) ≤ K * volume v) (hA : ∀ p t, volume (cloneAlloc E p t) ≤ K) :
    ∀ n p t v w, cloneN E n p t v = .ok w → volume w ≤ K * volume v
  | 0, _, _, _, _, h => nomatch h
  | n + 1, _, _, _, _, h => cloneBody_volume hK hC (cloneN_volume hS hK hC hA n) hS hA h

/-! ### Reset -/

namespace Spec
/-- Memory of the messages put into pools. -/
def putsVolume (ps : Puts) : Nat := (ps.map fun p => volume p.2).sum
end Spec

theorem putsVolume_append (a b : Puts) : putsVolume (a ++ b) = putsVolume a + putsVolume b := by simp [putsVolume]

/-- The memory which resetting a field may use: of a oneof, only for the member that is set. -/
def memberCost (m : List Val) (f : FieldDesc) : Nat :=
  if f.oneof then
    match slotOf m f with
    | .wrap n x => if n = f.num then volume (.wrap n x) else 0
    | _ => 0
  else volume (slotOf m f)

theorem memberCost_sum {d : MsgDesc} (hd : MsgFacts d) (m : List Val) : (d.fields.map (memberCost m)).sum ≤ volumes m := by
  refine fields_budget _ _ ?_ (fun f _ => ?_)
  · have hn := hd.nodup
    rw [List.Nodup, List.pairwise_map] at hn
    refine List.Pairwise.imp_of_mem (fun hf hg h hs => ?_) hn
    rename_i f g
    obtain ⟨h1, h2⟩ := hd.share f hf g hg h hs
    have he : slotOf m f = slotOf m g := by simp [slotOf, hs]
    unfold memberCost
    rw [if_pos h1, if_pos h2, ← he]
    cases slotOf m f <;> simp
    rename_i n x
    by_cases hf : n = f.num
    · right; intro hg; exact absurd (hf.symm.trans hg) h
    · left; intro hf'; exact absurd hf' hf
  · unfold memberCost
    split
    · split
      · rename_i h; rw [h]; split <;> omega
      · omega
    · omega

theorem restore_volume : ∀ (saved : List (Nat × Val)) (s : List Val), volumes (restore s saved) ≤ volumes s + (saved.map fun p => volume p.2).sum
  | [], s => by simp [restore]
  | (i, v) :: saved, s => by
    have h1 := restore_volume saved (s.set i v)
    have h2 := volumes_set s i v
    simp only [restore, List.map_cons, List.sum_cons]
    omega

end Vtp
