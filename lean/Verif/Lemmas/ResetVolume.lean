import Verif.Lemmas.CloneVolume
import Verif.Lemmas.Safe
/-! Memory of reset messages and of what goes into pools, exactly. -/

namespace Vtp
open Spec

/-! ### New messages -/

theorem sum_le_costs {a b : FieldDesc → Nat} : ∀ {fs : List FieldDesc}, (∀ f ∈ fs, a f ≤ b f) → (fs.map a).sum ≤ (fs.map b).sum
  | [], _ => by simp
  | f :: fs, h => by
    have h1 := h f (by simp)
    have h2 := sum_le_costs (fs := fs) fun g hg => h g (by simp [hg])
    simp only [List.map_cons, List.sum_cons]
    omega

theorem zeroSlots_volume (n : Nat) : ∀ fs : List FieldDesc, ((List.range n).map fun i => volume (match fs.find? (fun f => f.slot == i) with | some f => zeroField f | none => .nil)).sum ≤
    (fs.map fun f => volume (zeroField f)).sum
  | [] => by
    have : ∀ l : List Nat, (l.map fun _ => 0).sum = 0 := fun l => by induction l <;> simp_all
    simp [volume]
  | f :: fs => by
    have ih := zeroSlots_volume n fs
    have e : ∀ i, volume (match (f :: fs).find? (fun f => f.slot == i) with | some f => zeroField f | none => .nil) =
        if f.slot = i then volume (zeroField f) else volume (match fs.find? (fun f => f.slot == i) with | some f => zeroField f | none => .nil) := by
      intro i
      by_cases hi : f.slot = i
      · simp [hi]
      · have hb : (f.slot == i) = false := by simpa using hi
        simp [hb, hi]
    have key : ∀ (g : Nat → Nat) (l : List Nat), l.Nodup → (l.map fun i => if f.slot = i then volume (zeroField f) else g i).sum ≤
        (if f.slot ∈ l then volume (zeroField f) else 0) + (l.map g).sum := by
      intro g l
      induction l with
      | nil => simp
      | cons i l ih =>
        intro hn
        have h := ih (List.nodup_cons.1 hn).2
        simp only [List.map_cons, List.sum_cons, List.mem_cons]
        by_cases hi : f.slot = i
        · have hl : f.slot ∉ l := by rw [hi]; exact (List.nodup_cons.1 hn).1
          rw [if_neg hl] at h
          rw [if_pos hi, if_pos (.inl hi)]
          omega
        · rw [if_neg hi]
          simp only [hi, false_or]
          omega
    have h := key (fun i => volume (match fs.find? (fun f => f.slot == i) with | some f => zeroField f | none => .nil)) (List.range n) List.nodup_range
    simp only [e, List.map_cons, List.sum_cons]
    split at h <;> omega

theorem zeroMsg_slots (S : Schema) (t : Nat) : volumes ((List.range (S.msg t).nslots).map (zeroSlot (S.msg t))) ≤ ((S.msg t).fields.map fun f => volume (zeroField f)).sum := by
  have e : ∀ l : List Nat, volumes (l.map (zeroSlot (S.msg t))) = (l.map fun i => volume (zeroSlot (S.msg t) i)).sum := by
    intro l; induction l <;> simp_all [volumes]
  rw [e]
  exact zeroSlots_volume _ _

/-- The zero of a field takes no more than any value of it. -/
theorem zeroField_least {tn : Members} {rec : Nat → Val → Bool} {d : MsgDesc} {m : List Val} {f : FieldDesc} (hf : FieldFacts d f)
    (h : (if f.oneof then oneofOK tn rec d f.slot (slotOf m f) else fieldOK rec f (slotOf m f)) = true) : volume (zeroField f) ≤ memberCost m f := by
  unfold zeroField memberCost
  by_cases ho : f.oneof = true
  · simp [ho, volume]
  · simp only [ho, if_false, Bool.false_eq_true] at h ⊢
    split
    · simp [volume]
    · rename_i hc
      simp only [Bool.false_or, Bool.or_eq_true, not_or] at hc
      unfold fieldOK at h
      generalize slotOf m f = v at *
      have h1 : 1 ≤ volume v ∨ zeroScalar f.kind = .nil := by
        split at h
        · rename_i md hm
          exact absurd (by simp [(hf.map md hm).1]) hc.1
        · rw [if_neg hc.1, if_neg hc.2] at h
          unfold scalarOK at h
          split at h
          · split at h
            · exact .inl (by simp [volume])
            · cases h
          · rename_i hk; exact .inr (by rw [hk]; rfl)
          · cases h
          · cases h
          · split at h
            · exact .inl (by simp [volume])
            · cases h
      rcases h1 with h1 | h1
      · refine Nat.le_trans ?_ h1
        cases f.kind <;> simp [zeroScalar, volume]
      · rw [h1]; simp [volume]

/-- A new message takes no more than any other. -/
theorem zeroMsg_least {S : Schema} (hS : schemaOK S = true) (hF : ∀ t, (S.msg t).foreign = true → (S.msg t).nslots = 0) {tn : Members} {k t : Nat} {v : Val} (h : wtN S tn k t v = true) :
    volume (zeroMsg S t) ≤ volume v := by
  cases k with
  | zero => cases h
  | succ k =>
    cases v with
    | msg s u e =>
      simp only [wtN, Bool.or_eq_true, Bool.and_eq_true, List.all_eq_true] at h
      have h1 := zeroMsg_slots S t
      have h2 := memberCost_sum (schemaOK_msg hS t) s
      simp only [zeroMsg, volume, List.length_nil]
      rcases h with h | h
      · rw [hF t h]; simp [volumes]; omega
      · have h3 : ((S.msg t).fields.map fun f => volume (zeroField f)).sum ≤ ((S.msg t).fields.map (memberCost s)).sum :=
          sum_le_costs fun f hf => zeroField_least ((schemaOK_msg hS t).fields f hf) (h.2 f hf)
        omega
    | _ => cases h

/-! ### Fields -/

section
variable {S : Schema} (hS : schemaOK S = true) (hF : ∀ t, (S.msg t).foreign = true → (S.msg t).nslots = 0) {rec : SubReset}
  (hr : ∀ k t v v' ps, wtN S .typedNil k t v = true → rec t v = .ok (v', ps) → volume v' + putsVolume ps ≤ volume v)
include hS hF hr

omit hS hF in
theorem returnWith_exact {k t : Nat} {v : Val} {ps : Puts} (hv : (v.isNil || wtN S .typedNil k t v) = true) (h : returnWith rec t v = .ok ps) : putsVolume ps ≤ volume v := by
  unfold returnWith at h
  split at h
  · cases h; exact Nat.zero_le _
  · rename_i hn
    obtain ⟨⟨v', ps'⟩, h1, h⟩ := Res.bind_eq_ok.1 h
    cases h
    have := hr _ _ _ _ _ (by simpa [hn] using hv) h1
    rw [putsVolume_append]
    simp only [putsVolume, List.map_cons, List.map_nil, List.sum_cons, List.sum_nil] at *
    omega

theorem resetElems_exact {k t : Nat} : ∀ {xs xs' : List Val} {ps : Puts}, (∀ x ∈ xs, (x.isNil || wtN S .typedNil k t x) = true) → resetElems S rec t xs = .ok (xs', ps) →
    volumes xs' + putsVolume ps ≤ volumes xs
  | [], _, _, _, h => by cases h; simp [volumes, putsVolume]
  | x :: xs, _, _, hv, h => by
    rw [resetElems] at h
    obtain ⟨⟨x', p1⟩, h1, h⟩ := Res.bind_eq_ok.1 h
    obtain ⟨⟨xs', p2⟩, h2, h⟩ := Res.bind_eq_ok.1 h
    cases h
    have h3 := resetElems_exact (fun x hx => hv x (by simp [hx])) h2
    have hx := hv x (by simp)
    have h4 : volume x' + putsVolume p1 ≤ volume x := by
      unfold resetElem at h1
      split at h1
      · split at h1
        · cases h1; simp [volume, putsVolume]
        · rename_i hn
          exact hr _ _ _ _ _ (by simpa [hn] using hx) h1
      · split at h1
        · cases h1
        · rename_i hn
          cases h1
          have := zeroMsg_least hS hF (v := x) (by simpa [hn] using hx)
          simpa [putsVolume] using this
    rw [putsVolume_append]
    simp only [volumes]
    omega

theorem resetField_exact {k : Nat} {d : MsgDesc} (hd : MsgFacts d) {f : FieldDesc} (hm : f ∈ d.fields) {m : List Val}
    (hv : (if f.oneof then oneofOK .typedNil (wtN S .typedNil k) d f.slot (slotOf m f) else fieldOK (wtN S .typedNil k) f (slotOf m f)) = true) {o : Option Val} {ps : Puts}
    (h : resetField S rec f (slotOf m f) = .ok (o, ps)) : (o.elim (volume (zeroField f)) volume) + putsVolume ps ≤ memberCost m f ∧ (o ≠ none → f.oneof = false) := by
  have hf := hd.fields f hm
  have h0 := zeroField_least hf hv
  unfold resetField at h
  split at h
  · rename_i hl
    have ho : f.oneof = false := by
      by_contra ho
      have := (hf.oneof (by simpa using ho)).1
      simp [FieldDesc.isList, this] at hl
    refine ⟨?_, fun _ => ho⟩
    have hc : memberCost m f = volume (slotOf m f) := by simp [memberCost, ho]
    rw [hc]
    simp only [ho, Bool.false_eq_true, if_false] at hv
    simp only [FieldDesc.isList, Bool.and_eq_true, Option.isNone_iff_eq_none] at hl
    unfold fieldOK at hv
    rw [hl.2] at hv
    simp only [hl.1, if_true] at hv
    generalize slotOf m f = v at *
    split at h
    · cases h; simp [volume, putsVolume]
    · rename_i xs sp
      split at h
      · rename_i hmsg
        obtain ⟨⟨xs', p1⟩, h2, h⟩ := Res.bind_eq_ok.1 h
        cases h
        simp only [Bool.and_eq_true, List.all_eq_true] at hv
        have h3 := resetElems_exact hS hF hr (k := k) (fun x hx => by
          have := hv.1 x hx
          simp only [FieldDesc.hasMessage, Bool.or_eq_true, beq_iff_eq] at hmsg
          rcases hmsg with hk | hk <;> rw [hk] at this <;> exact this) h2
        simp only [Option.elim_some, volume, volumes_append, List.length_nil, volumes] at *
        omega
      · cases h
        simp [volume, volumes, putsVolume]
        omega
    · cases h
  · split at h
    · rename_i ho
      have hz : volume (zeroField f) = 0 := by simp [zeroField, ho, volume]
      split at h
      · rename_i hmsg
        split at h
        · rename_i n x hw
          split at h
          · rename_i hn
            obtain ⟨p1, h2, h⟩ := Res.bind_eq_ok.1 h
            cases h
            rw [if_pos ho, hw] at hv
            have hmem : d.member f.slot n = some f := by rw [hn]; exact member_of hd hm ho
            simp only [oneofOK, hmem, Bool.and_eq_true] at hv
            have h3 := returnWith_exact hr (k := k) (by
              have := hv.1
              simp only [FieldDesc.hasMessage, Bool.or_eq_true, beq_iff_eq, Bool.and_eq_true] at hmsg
              rcases hmsg.1 with hk | hk <;> rw [hk] at this <;> exact this) h2
            have hc : memberCost m f = 1 + volume x := by simp [memberCost, ho, hw, hn, volume]
            refine ⟨?_, fun h => absurd rfl h⟩
            rw [hc]
            simp only [Option.elim_none]
            omega
          · cases h; exact ⟨by simp [putsVolume, hz], fun h => absurd rfl h⟩
        · split at h
          · cases h
          · cases h; exact ⟨by simp [putsVolume, hz], fun h => absurd rfl h⟩
        · cases h; exact ⟨by simp [putsVolume, hz], fun h => absurd rfl h⟩
      · cases h; exact ⟨by simp [putsVolume, hz], fun h => absurd rfl h⟩
    · rename_i hl ho
      refine ⟨?_, fun _ => by simpa using ho⟩
      have hc : memberCost m f = volume (slotOf m f) := by simp [memberCost, ho]
      rw [hc] at h0 ⊢
      rw [if_neg ho] at hv
      generalize slotOf m f = v at *
      split at h
      · rename_i hmsg
        split at h
        · rename_i hp
          obtain ⟨p1, h2, h⟩ := Res.bind_eq_ok.1 h
          cases h
          simp only [Bool.and_eq_true, Option.isNone_iff_eq_none] at hp
          have hcard : f.card ≠ .repeated := fun hc => hl (by simp [FieldDesc.isList, hc, hp.1])
          have hpr := hf.singMsg hcard hmsg
          have hz : volume (zeroField f) = 0 := by simp [zeroField, hpr, volume]
          have hb : (f.card == .repeated) = false := by simpa using hcard
          unfold fieldOK at hv
          rw [hp.1] at hv
          simp only [hb, Bool.false_eq_true, if_false, hpr, if_true] at hv
          have := returnWith_exact hr (k := k) (v := v) (t := f.msg) (by
            simp only [FieldDesc.hasMessage, Bool.or_eq_true, beq_iff_eq] at hmsg
            rcases hmsg with hk | hk <;> rw [hk] at hv <;> simpa [elemOK] using hv) h2
          simp only [Option.elim_none]
          omega
        · cases h; simpa [putsVolume] using h0
      · split at h
        · cases h
          by_cases hv : v = .nil
          · subst hv; simp [Val.isNil, volume, putsVolume]
          · have h2 := volume_pos hv
            have h4 : volume (if v.isNil then .nil else .str []) ≤ 1 := by split <;> simp [volume]
            simp only [Option.elim_some, putsVolume, List.map_nil, List.sum_nil]
            omega
        · cases h; simpa [putsVolume] using h0

theorem resetFields_exact {k : Nat} {d : MsgDesc} (hd : MsgFacts d) {m : List Val} : ∀ {fs : List FieldDesc} {saved : List (Nat × Val)} {ps : Puts} {r : List Val}, (∀ f ∈ fs, f ∈ d.fields) →
    (fs.map (·.num)).Nodup →
    (∀ f ∈ fs, (if f.oneof then oneofOK .typedNil (wtN S .typedNil k) d f.slot (slotOf m f) else fieldOK (wtN S .typedNil k) f (slotOf m f)) = true) →
    (∀ f ∈ fs, f.oneof = false → r.getD f.slot .nil = zeroField f) → resetFields S rec m fs = .ok (saved, ps) →
    volumes (restore r saved) + (fs.map fun f => volume (zeroField f)).sum + putsVolume ps ≤ volumes r + (fs.map (memberCost m)).sum
  | [], _, _, _, _, _, _, _, h => by cases h; simp [putsVolume, restore]
  | f :: fs, _, _, r, hf, hn, hv, hz, h => by
    rw [resetFields] at h
    obtain ⟨⟨o, p1⟩, h1, h⟩ := Res.bind_eq_ok.1 h
    obtain ⟨⟨saved, p2⟩, h2, h⟩ := Res.bind_eq_ok.1 h
    simp only [List.map_cons, List.nodup_cons, List.mem_map, not_exists, not_and] at hn
    obtain ⟨h3, h3'⟩ := resetField_exact hS hF hr hd (hf f (by simp)) (hv f (by simp)) h1
    simp only [List.map_cons, List.sum_cons]
    cases o with
    | none =>
      have h4 := resetFields_exact hd (r := r) (fun g hg => hf g (by simp [hg])) hn.2 (fun g hg => hv g (by simp [hg])) (fun g hg => hz g (by simp [hg])) h2
      cases h
      rw [putsVolume_append]
      simp only [Option.elim_none] at h3 ⊢
      omega
    | some w =>
      have ho := h3' (by simp)
      have h4 := resetFields_exact hd (r := r.set f.slot w) (fun g hg => hf g (by simp [hg])) hn.2 (fun g hg => hv g (by simp [hg])) (fun g hg hgo => by
        have hs : f.slot ≠ g.slot := fun hs => by
          have := (hd.share f (hf f (by simp)) g (hf g (by simp [hg])) (fun h => hn.1 g hg h.symm) hs).1
          rw [ho] at this; cases this
        have := hz g (by simp [hg]) hgo
        simpa [List.getElem?_set_ne hs] using this) h2
      have h5 := volumes_set r f.slot w
      rw [hz f (by simp) ho] at h5
      cases h
      rw [putsVolume_append]
      simp only [Option.elim_some, restore] at *
      omega

end

theorem resetN_exact {S : Schema} (hS : schemaOK S = true) (hF : ∀ t, (S.msg t).foreign = true → (S.msg t).nslots = 0) : ∀ n k t v v' ps, wtN S .typedNil k t v = true →
    resetN S n t v = .ok (v', ps) → volume v' + putsVolume ps ≤ volume v
  | 0, _, _, _, _, _, _, h => nomatch h
  | n + 1, 0, _, _, _, _, hv, _ => nomatch hv
  | n + 1, k + 1, t, v, v', ps, hv, h => by
    cases v with
    | msg slots u e =>
      have hd := schemaOK_msg hS t
      simp only [resetN] at h
      obtain ⟨⟨saved, p1⟩, h1, h⟩ := Res.bind_eq_ok.1 h
      cases h
      simp only [wtN, Bool.or_eq_true, Bool.and_eq_true, List.all_eq_true] at hv
      have h5 := zeroMsg_slots S t
      have h6 := memberCost_sum hd slots
      have hall : ∀ f ∈ (S.msg t).fields, (if f.oneof then oneofOK .typedNil (wtN S .typedNil k) (S.msg t) f.slot (slotOf slots f) else fieldOK (wtN S .typedNil k) f (slotOf slots f)) = true := by
        intro f hf
        rcases hv with hv | hv
        · have := (hd.fields f hf).slot
          rw [hF t hv] at this
          omega
        · exact hv.2 f hf
      have h2 := resetFields_exact hS hF (resetN_exact hS hF n) hd (r := (List.range (S.msg t).nslots).map (zeroSlot (S.msg t))) (fun _ h => h) hd.nodup hall (fun f hf ho => by
        have hs := (hd.fields f hf).slot
        have : zeroSlot (S.msg t) f.slot = zeroField f := zeroSlot_eq hd hf
        simp [hs, this]) h1
      simp only [volume, List.length_nil]
      omega
    | _ => cases h

end Vtp
