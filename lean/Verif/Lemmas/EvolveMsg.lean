import Verif.Lemmas.EvolveSlots
/-!
# An older reader passes on what it read: one message
-/

namespace Vtp
open Spec

theorem concat_mem : ∀ {l : List (Option Bytes)} {b : Bytes}, concat l = some b → ∀ x ∈ l, ∃ a, x = some a ∧ a.length ≤ b.length := by
  intro l
  induction l with
  | nil => intro b _ x hx; cases hx
  | cons y l ih =>
    intro b hb x hx
    obtain ⟨a, c, rfl, h2, rfl⟩ := concat_cons_some hb
    rcases List.mem_cons.1 hx with rfl | hx
    · exact ⟨a, rfl, by simp⟩
    · obtain ⟨a', h3, h4⟩ := ih h2 x hx
      exact ⟨a', h3, by simp; omega⟩

theorem concat_append_some : ∀ {l m : List (Option Bytes)} {a b : Bytes}, concat l = some a → concat m = some b → concat (l ++ m) = some (a ++ b) := by
  intro l
  induction l with
  | nil => intro m a b h1 h2; simp [concat] at h1; subst h1; simpa using h2
  | cons y l ih =>
    intro m a b h1 h2
    obtain ⟨a', c, rfl, h3, rfl⟩ := concat_cons_some h1
    simp [concat, ih h3 h2]

/-- The records of a message in either order: those of its fields, in some order. -/
theorem body_chunks_all {E : Env} {rE : Nat → Val → Option Bytes} {D : MsgDesc} (hD : MsgFacts D) (strict : Bool) (slots : List Val) :
    ∃ fs : List FieldDesc, fs.Perm D.fields ∧
      (if strict then bodyStrict E rE D slots else bodyDefault E rE D slots) = concat (fs.map (chunkStrict E rE slots)) := by
  obtain ⟨fs, h1, h2⟩ := body_chunks (E := E) (rE := rE) hD strict slots
  refine ⟨fs ++ D.fields.filter (fun f => !(chunkStrict E rE slots f != some [])), (h1.append_right _).trans (List.filter_append_perm _ _), ?_⟩
  rw [h2, List.map_append, ← concat_filter (_ ++ _), List.filter_append, ← concat_filter (fs.map _)]
  have : ((D.fields.filter (fun f => !(chunkStrict E rE slots f != some []))).map (chunkStrict E rE slots)).filter (fun c => c != some []) = [] := by
    rw [List.filter_eq_nil_iff]
    intro c hc
    obtain ⟨f, hf, rfl⟩ := List.mem_map.1 hc
    simpa using (List.mem_filter.1 hf).2
  rw [this, List.append_nil]

/-- All struct fields have their values once all fields are done. -/
theorem all_slots {E : Env} {rec : Nat → Val → Val} {D : MsgDesc} (hD : MsgFacts D) {slots s' : List Val} (h5 : s'.length = D.nslots)
    (h6 : ∀ f ∈ D.fields, Held slots f → slotOf s' f = backSlot E.S E.R rec D slots f.slot)
    (h7 : ∀ i, (∀ f ∈ D.fields, Held slots f → f.slot ≠ i) → s'.getD i .nil = ((List.range D.nslots).map (zeroSlot D)).getD i .nil) :
    s' = (List.range D.nslots).map (backSlot E.S E.R rec D slots) := by
  apply List.ext_getElem (by simp [h5])
  intro i hi1 hi2
  simp only [List.getElem_map, List.getElem_range]
  have hget : s'[i] = s'.getD i .nil := by rw [List.getD_eq_getElem?_getD, List.getElem?_eq_getElem hi1]; rfl
  rw [hget]
  by_cases hex : ∃ f ∈ D.fields, f.slot = i ∧ Held slots f
  · obtain ⟨f, hff, hsl, hh⟩ := hex
    rw [← hsl]; exact h6 f hff hh
  · obtain ⟨g, hg, hgs⟩ := hD.cover i (by omega)
    rw [h7 i (fun f hf hh hs => hex ⟨f, hf, hs, hh⟩), List.getD_eq_getElem?_getD, List.getElem?_map, List.getElem?_range (by omega)]
    simp only [Option.map_some, Option.getD_some]
    rw [← hgs, zeroSlot_eq hD hg, backSlot_eq hD slots hg]
    have hgo : g.oneof = true := by
      by_contra h
      exact hex ⟨g, hg, hgs, .inl (by simpa using h)⟩
    rw [hgo, if_pos rfl]
    have : zeroField g = .nil := by simp [zeroField, hgo]
    rw [this]
    unfold backOneof
    cases hsv : slotOf slots g <;> simp only
    rename_i n' x
    cases hm : D.member g.slot n' with
    | none => rfl
    | some f =>
      obtain ⟨m1, m2, m3, m4⟩ := member_some hm
      refine absurd ⟨f, m1, m3.trans hgs, .inr ⟨x, ?_⟩⟩ hex
      unfold slotOf at hsv ⊢
      rw [m3, hsv, m4]

section
variable {S S0 : Schema} {R R0 : Runtime} {rE rE0 : Nat → Val → Option Bytes} {rd0 rd1 bk : Nat → Val → Val} {okv : Nat → Val → Bool}
  {P P1 : Nat → Val → Prop} {Q Q0 : SubRel} {B : Nat} {D0 D : MsgDesc} {s : List Val}
  (hn : Shared S0 S R0 R) (hS : Older S0 S) (hD0 : MsgFacts D0) (hD : MsgFacts D) (ho : OlderMsg D0 D)
  (hok : ∀ t w, okv t w = true → ∃ s u e, w = .msg s u e) (hv : SlotsOK okv D s) (hr : ∀ f ∈ D.fields, RestorableField ⟨S, R⟩ P f (slotOf s f))

/-- The records of a field the older version does not have are unknown to it. -/
theorem dropped_unknown (ho : OlderMsg D0 D) {f : FieldDesc} (hf : f ∈ D.fields) (hk : keeps D0 f.num = false) {rs : List Rec} (hrs : ∀ r ∈ rs, r.num = f.num) :
    ∀ r ∈ rs, (∀ f ∈ D0.fields, f.num ≠ r.num) ∧ ∀ e ∈ D0.extRanges, ¬ (e.1 ≤ r.num ∧ r.num < e.2) := by
  intro r hr
  refine ⟨fun g hg h => ?_, fun e he => by rw [hrs r hr]; exact (ho.exts e he).2 f hf⟩
  have : keeps D0 f.num = true := by
    unfold keeps
    simp only [List.any_eq_true, beq_iff_eq]
    exact ⟨g, hg, h.trans (hrs r hr)⟩
  rw [hk] at this; cases this

include hn hS hD0 hD ho hok hv hr in
/-- The older version reads the fields of the newer: those it has into their places, the others as unknown fields. -/
theorem read_older (H0 : SubBack ⟨S0, R0⟩ rE rd0 okv P Q0 B) (H2 : SubBack ⟨S, R⟩ rE bk okv P Q B) : ∀ (fs : List FieldDesc) {b : Bytes},
    (∀ f ∈ fs, f ∈ D.fields) → (fs.map (·.num)).Nodup → concat (fs.map (chunkStrict ⟨S, R⟩ rE s)) = some b → b.length < B →
    ∃ rs bd, Records rs b ∧ concat ((fs.filter fun f => !keeps D0 f.num).map (chunkStrict ⟨S, R⟩ rE s)) = some bd ∧
      (∀ f0 ∈ D0.fields, upField D f0 ∈ fs → f0.card = .required → ∃ r ∈ rs, r.num = f0.num) ∧ ∀ s' u e, s'.length = D0.nslots →
      (∀ f0 ∈ D0.fields, upField D f0 ∈ fs → Held (downSlots D0 D s) f0 → slotOf s' f0 = zeroField f0) →
      ∃ s'', Steps S0 (subRel S0 R0 Q0) D0 rs (.msg s' u e) (.msg s'' (u ++ bd) e) ∧ s''.length = D0.nslots ∧
        (∀ f0 ∈ D0.fields, upField D f0 ∈ fs → Held (downSlots D0 D s) f0 → slotOf s'' f0 = backSlot S0 R0 rd0 D0 (downSlots D0 D s) f0.slot) ∧
        ∀ i, (∀ f0 ∈ D0.fields, upField D f0 ∈ fs → Held (downSlots D0 D s) f0 → f0.slot ≠ i) → s''.getD i .nil = s'.getD i .nil := by
  intro fs
  induction fs with
  | nil =>
    intro b _ _ hb _
    simp [concat] at hb
    subst hb
    exact ⟨[], [], .nil, rfl, by simp, fun s' u e hs _ => ⟨s', by rw [List.append_nil]; exact .nil, hs, by simp, fun _ _ => rfl⟩⟩
  | cons f fs ih =>
    intro b hsub hnd hb hl
    rw [List.map_cons] at hb hnd
    obtain ⟨a, c, h1, h2, rfl⟩ := concat_cons_some hb
    simp only [List.nodup_cons, List.mem_map, not_exists, not_and] at hnd
    simp at hl
    have hf := hsub f (by simp)
    obtain ⟨rs, bd, h3, h3d, h3', h4⟩ := ih (fun g hg => hsub g (by simp [hg])) hnd.2 h2 (by omega)
    by_cases hk : keeps D0 f.num = true
    · obtain ⟨f0, hf0, rfl⟩ := (keeps_iff hD ho hf).1 hk
      have ff := hD0.fields f0 hf0
      rw [← down_chunk hn (R0 := R0) rE hD0 hD ho hf0] at h1
      obtain ⟨rs1, h5, h6, h7, h8⟩ := chunk_back H0 hD0 hok (down_ok hD0 hD ho hv) (down_restorable hD0 hD ho hn hS hr) hf0 h1 (by omega)
      have hinj : ∀ g0 ∈ D0.fields, upField D g0 = upField D f0 → g0 = f0 := fun g0 hg0 h => hD0.num_inj hg0 hf0 (show (upField D g0).num = (upField D f0).num by rw [h])
      refine ⟨rs1 ++ rs, bd, h5.1.append h3, by rw [List.filter_cons_of_neg (by simp [hk])]; exact h3d, ?_, fun s' u e hs hz => ?_⟩
      · intro g0 hg0 hg hc
        rcases List.mem_cons.1 hg with hg | hg
        · obtain ⟨r, hr1, hr2⟩ := h6 (by rw [← hinj g0 hg0 hg]; exact hc); exact ⟨r, by simp [hr1], by rw [hr2, hinj g0 hg0 hg]⟩
        · obtain ⟨r, hr1, hr2⟩ := h3' g0 hg0 hg hc; exact ⟨r, by simp [hr1], hr2⟩
      by_cases hh : Held (downSlots D0 D s) f0
      · have h9 := h7 hh (.msg s' u e) ⟨s', u, e, rfl, hs⟩ (hz f0 hf0 (by simp) hh)
        have hne : ∀ g0 ∈ D0.fields, upField D g0 ∈ fs → Held (downSlots D0 D s) g0 → f0.slot ≠ g0.slot := by
          intro g hg hg1 hg2 hsl
          have hnum : f0.num ≠ g.num := fun h => hnd.1 _ hg1 h.symm
          have := hD0.share f0 hf0 g hg hnum hsl
          rcases hh with h | ⟨x, hx⟩
          · rw [this.1] at h; cases h
          rcases hg2 with h | ⟨y, hy⟩
          · rw [this.2] at h; cases h
          unfold slotOf at hx hy
          rw [hsl, hy] at hx
          injection hx with hx1
          exact hnum hx1.symm
        obtain ⟨s'', h10, h11, h12, h13⟩ := h4 (s'.set f0.slot (backSlot S0 R0 rd0 D0 (downSlots D0 D s) f0.slot)) u e (by simpa using hs) (fun g0 hg0 hg hg2 => by
          have := hz g0 hg0 (by simp [hg]) hg2
          unfold slotOf at this ⊢
          rw [← this, List.getD_eq_getElem?_getD, List.getElem?_set_ne (hne g0 hg0 hg hg2), List.getD_eq_getElem?_getD])
        refine ⟨s'', Steps.trans h9 h10, h11, ?_, ?_⟩
        · intro g0 hg0 hg hg2
          rcases List.mem_cons.1 hg with hg | hg
          · have := hinj g0 hg0 hg
            subst this
            have := h13 g0.slot (fun g' hg' hg1' hg2' h => hne g' hg' hg1' hg2' h.symm)
            unfold slotOf
            rw [this, List.getD_eq_getElem?_getD, List.getElem?_set_self (by have := ff.slot; omega)]
            rfl
          · exact h12 g0 hg0 hg hg2
        · intro i hi
          rw [h13 i (fun g0 hg0 hg hg2 => hi g0 hg0 (by simp [hg]) hg2), List.getD_eq_getElem?_getD, List.getElem?_set_ne (hi f0 hf0 (by simp) hh),
            List.getD_eq_getElem?_getD]
      · obtain ⟨s'', h10, h11, h12, h13⟩ := h4 s' u e hs (fun g0 hg0 hg => hz g0 hg0 (by simp [hg]))
        refine ⟨s'', by rw [h8 hh]; exact h10, h11, ?_, ?_⟩
        · intro g0 hg0 hg hg2
          rcases List.mem_cons.1 hg with hg | hg
          · rw [hinj g0 hg0 hg] at hg2; exact absurd hg2 hh
          · exact h12 g0 hg0 hg hg2
        · intro i hi
          exact h13 i (fun g0 hg0 hg hg2 => hi g0 hg0 (by simp [hg]) hg2)
    · have hk' : keeps D0 f.num = false := by simpa using hk
      obtain ⟨rs1, h5, _⟩ := chunk_back H2 hD hok hv hr hf h1 (by omega)
      have hnot : ∀ g0 ∈ D0.fields, upField D g0 ≠ f := fun g0 hg0 h => hk ((keeps_iff hD ho hf).2 ⟨g0, hg0, h⟩)
      refine ⟨rs1 ++ rs, a ++ bd, h5.1.append h3, ?_, ?_, fun s' u e hs hz => ?_⟩
      · rw [List.filter_cons_of_pos (by simp [hk']), List.map_cons]
        simp [concat, h1, h3d]
      · intro g0 hg0 hg hc
        rcases List.mem_cons.1 hg with hg | hg
        · exact absurd hg (hnot g0 hg0)
        · obtain ⟨r, hr1, hr2⟩ := h3' g0 hg0 hg hc; exact ⟨r, by simp [hr1], hr2⟩
      · obtain ⟨s'', h10, h11, h12, h13⟩ := h4 s' (u ++ a) e hs (fun g0 hg0 hg => hz g0 hg0 (by simp [hg]))
        refine ⟨s'', ?_, h11, ?_, ?_⟩
        · rw [List.append_assoc] at h10
          exact (unknown_steps ho.keep h5.1 (dropped_unknown ho hf hk' h5.2) u).trans h10
        · intro g0 hg0 hg hg2
          rcases List.mem_cons.1 hg with hg | hg
          · exact absurd hg (hnot g0 hg0)
          · exact h12 g0 hg0 hg hg2
        · intro i hi
          exact h13 i (fun g0 hg0 hg hg2 => hi g0 hg0 (by simp [hg]) hg2)

section second
variable {s0 : List Val} (HF : SubFwd S S0 R R0 rE rE0 rd0 rd1 bk okv P P1 B)
  (hch : ∀ f ∈ D.fields, ∃ b, chunkStrict ⟨S, R⟩ rE s f = some b ∧ b.length < B)
  (hs0 : ∀ f0 ∈ D0.fields, Shuffle (backSlot S0 R0 rd0 D0 (downSlots D0 D s) f0.slot) (slotOf s0 f0))
include hD0 hD ho hv hr HF hch hs0

/-- What the older version has in a oneof. -/
theorem fwd_oneof {f0 : FieldDesc} (hf0 : f0 ∈ D0.fields) (hoo : f0.oneof = true) :
    (slotOf s0 f0 = .nil ∧ ∀ n x, slotOf s (upField D f0) = .wrap n x → keeps D0 n = false) ∨
    ∃ g0 ∈ D0.fields, g0.oneof = true ∧ g0.slot = f0.slot ∧ ∃ x y b c, slotOf s (upField D f0) = .wrap g0.num x ∧ slotOf s0 f0 = .wrap g0.num y ∧
      elemOK isMsgVal g0.kind g0.msg y = true ∧ RestorableElem S R P1 g0.kind g0.msg y ∧
      record ⟨S, R⟩ rE g0.num g0.kind g0.msg x = some b ∧ record ⟨S0, R0⟩ rE0 g0.num g0.kind g0.msg y = some c ∧ c.Perm b ∧
      Shuffle (backElem S R bk g0.kind g0.msg x) (backElem S R rd1 g0.kind g0.msg y) := by
  have hx := hs0 f0 hf0
  have hb := backSlot_eq (E := ⟨S0, R0⟩) (rec := rd0) hD0 (downSlots D0 D s) hf0
  simp only at hb
  rw [hb, hoo, if_pos rfl, down_slot hD0 hD ho hf0, hoo] at hx
  have hvf := hv _ (upField_mem hD ho hf0)
  rw [show (upField D f0).oneof = true from hoo, if_pos rfl] at hvf
  cases hsv : slotOf s (upField D f0) <;> rw [hsv] at hx hvf <;> simp only [oneofOK, Bool.false_eq_true] at hvf
  · simp only [hide, backOneof] at hx
    exact .inl ⟨(shuffle_atom hx).1 rfl, by simp⟩
  · rename_i n x
    cases hm : D.member (upField D f0).slot n with
    | none => rw [hm] at hvf; cases hvf
    | some g =>
      rw [hm] at hvf
      simp only [Bool.and_eq_true] at hvf
      by_cases hk : keeps D0 n = true
      · obtain ⟨g0, hg0, rfl, hm0⟩ := member_down hD0 hD ho hf0 hm hk
        obtain ⟨m1, m2, m3, m4⟩ := member_some hm0
        subst m4
        simp only [hide] at hx
        rw [if_neg (by simp [hk])] at hx
        simp only [backOneof, hm0] at hx
        obtain ⟨y, hy1, hy2⟩ := shuffle_wrap hx _ _ rfl
        have hg := upField_mem hD ho hg0
        have hsg : slotOf s (upField D g0) = .wrap g0.num x := by
          rw [← hsv]; unfold slotOf; rw [(upField_share hD ho hg0 hf0).1 m3]
        obtain ⟨b, hb1, hb2⟩ := hch _ hg
        unfold chunkStrict at hb1
        rw [show (upField D g0).oneof = true from m2, if_pos rfl, hsg] at hb1
        simp only [show (upField D g0).num = g0.num from rfl, if_true] at hb1
        have hre := hr _ hg
        rw [hsg] at hre
        have hre := hre rfl
        obtain ⟨e1, e2, ⟨c, e3, e4⟩, e5, _⟩ := elem_fwd HF (R := R) (R0 := R0) (k := g0.kind) (t := g0.msg) (v := x) hvf.1 hre g0.num hb1 hb2 hy2
        exact .inr ⟨g0, hg0, m2, m3, x, y, b, c, rfl, hy1, e1, e2, hb1, e3, e4, e5⟩
      · simp only [hide] at hx
        rw [if_pos (by simpa using hk)] at hx
        refine .inl ⟨(shuffle_atom hx).1 rfl, ?_⟩
        intro n' x' h
        injection h with h1
        subst h1
        simpa using hk
  · simp at hvf

/-- What the older version has in a field outside of oneofs. -/
theorem fwd_field (hok : ∀ t w, okv t w = true → ∃ s u e, w = .msg s u e) {f0 : FieldDesc} (hf0 : f0 ∈ D0.fields) (hoo : f0.oneof = false) :
    fieldOK isMsgVal f0 (slotOf s0 f0) = true ∧ RestorableField ⟨S, R⟩ P1 f0 (slotOf s0 f0) ∧
    (∃ b c, field ⟨S, R⟩ rE f0 (slotOf s (upField D f0)) = some b ∧ field ⟨S0, R0⟩ rE0 f0 (slotOf s0 f0) = some c ∧ c.Perm b) ∧
      Shuffle (backField S R bk f0 (slotOf s (upField D f0))) (backField S R rd1 f0 (slotOf s0 f0)) := by
  have hx := hs0 f0 hf0
  have hb := backSlot_eq (E := ⟨S0, R0⟩) (rec := rd0) hD0 (downSlots D0 D s) hf0
  simp only at hb
  rw [hb, hoo, down_slot hD0 hD ho hf0, hoo, hide_false] at hx
  simp only [Bool.false_eq_true, if_false] at hx
  have hg := upField_mem hD ho hf0
  have hvf := hv _ hg
  rw [show (upField D f0).oneof = false from hoo] at hvf
  obtain ⟨b, hb1, hb2⟩ := hch _ hg
  unfold chunkStrict at hb1
  rw [show (upField D f0).oneof = false from hoo] at hb1
  simp only [Bool.false_eq_true, if_false] at hb1 hvf
  obtain ⟨e1, e2, ⟨c, e3, e4⟩, e5⟩ := field_fwd HF (R := R) (R0 := R0) (hD0.fields f0 hf0) hoo hok (v := slotOf s (upField D f0)) hvf (hr _ hg) hb1 hb2 hx
  exact ⟨e1, e2, ⟨b, c, hb1, e3, e4⟩, e5⟩

theorem fwd_ok (hok : ∀ t w, okv t w = true → ∃ s u e, w = .msg s u e) : SlotsOK isMsgVal D0 s0 := by
  intro f0 hf0
  cases hoo : f0.oneof with
  | false =>
    simp only [Bool.false_eq_true, if_false]
    exact (fwd_field hD0 hD ho hv hr HF hch hs0 hok hf0 hoo).1
  | true =>
    simp only [if_true]
    rcases fwd_oneof hD0 hD ho hv hr HF hch hs0 hf0 hoo with ⟨h1, _⟩ | ⟨g0, hg0, h1, h2, x, y, b, c, h3, h4, h5, _⟩
    · rw [h1]; rfl
    · rw [h4]
      simp only [oneofOK]
      rw [← h2, member_of hD0 hg0 h1]
      simp [h5]

theorem fwd_restorable (hok : ∀ t w, okv t w = true → ∃ s u e, w = .msg s u e) : ∀ f0 ∈ D0.fields, RestorableField ⟨S, R⟩ P1 f0 (slotOf s0 f0) := by
  intro f0 hf0
  cases hoo : f0.oneof with
  | false => exact (fwd_field hD0 hD ho hv hr HF hch hs0 hok hf0 hoo).2.1
  | true =>
    rcases fwd_oneof hD0 hD ho hv hr HF hch hs0 hf0 hoo with ⟨h1, _⟩ | ⟨g0, hg0, h1, h2, x, y, b, c, h3, h4, h5, h6, _⟩
    · rw [h1]; trivial
    · rw [h4]
      intro hnn
      rw [hD0.num_inj hf0 hg0 hnn]
      exact h6

theorem fwd_chunk (hok : ∀ t w, okv t w = true → ∃ s u e, w = .msg s u e) {f0 : FieldDesc} (hf0 : f0 ∈ D0.fields) :
    EPerm (chunkStrict ⟨S0, R0⟩ rE0 s0 f0) (chunkStrict ⟨S, R⟩ rE s (upField D f0)) := by
  unfold chunkStrict
  rw [show (upField D f0).oneof = f0.oneof from rfl]
  cases hoo : f0.oneof with
  | false =>
    simp only [Bool.false_eq_true, if_false]
    obtain ⟨_, _, ⟨b, c, h1, h2, h3⟩, _⟩ := fwd_field hD0 hD ho hv hr HF hch hs0 hok hf0 hoo
    rw [h2, show field ⟨S, R⟩ rE (upField D f0) (slotOf s (upField D f0)) = some b from h1]
    exact .both h3
  | true =>
    simp only [if_true]
    rcases fwd_oneof hD0 hD ho hv hr HF hch hs0 hf0 hoo with ⟨h1, h2⟩ | ⟨g0, hg0, h1, h2, x, y, b, c, h3, h4, h5, h6, h7, h8, h9, _⟩
    · rw [h1]
      cases hsv : slotOf s (upField D f0) <;> simp only <;> try exact .both (.refl _)
      rename_i n x
      rw [if_neg, ]
      · exact .both (.refl _)
      · rintro rfl
        have := (keeps_iff hD ho (upField_mem hD ho hf0)).2 ⟨f0, hf0, rfl⟩
        rw [h2 _ _ hsv] at this
        cases this
    · rw [h3, h4]
      simp only [show (upField D f0).num = f0.num from rfl]
      by_cases hnn : g0.num = f0.num
      · rw [if_pos hnn, if_pos hnn]
        have := hD0.num_inj hg0 hf0 hnn
        subst this
        rw [h8, show record ⟨S, R⟩ rE g0.num (upField D g0).kind (upField D g0).msg x = some b from h7]
        exact .both h9
      · rw [if_neg hnn, if_neg hnn]
        exact .both (.refl _)

include hn in
/-- The newer version reads what the older one writes. -/
theorem reread (hok : ∀ t w, okv t w = true → ∃ s u e, w = .msg s u e) (H1 : SubBack ⟨S, R⟩ rE0 rd1 isMsgVal P1 Q B) (H2 : SubBack ⟨S, R⟩ rE bk okv P Q B)
    {fs0 ds : List FieldDesc} (hfs : fs0.Perm D0.fields) {c bd : Bytes} (hc : concat (fs0.map (chunkStrict ⟨S0, R0⟩ rE0 s0)) = some c) (hcl : c.length < B)
    (hds : ∀ f, f ∈ ds ↔ f ∈ D.fields ∧ keeps D0 f.num = false) (hdn : (ds.map (·.num)).Nodup)
    (hbd : concat (ds.map (chunkStrict ⟨S, R⟩ rE s)) = some bd) (hbl : bd.length < B) :
    ∃ rs sB, Records rs (c ++ bd) ∧ Complete D rs ∧
      Steps S (subRel S R Q) D rs (.msg ((List.range D.nslots).map (zeroSlot D)) [] []) (.msg sB [] []) ∧ sB.length = D.nslots ∧
      ∀ i < D.nslots, Shuffle (backSlot S R bk D s i) (sB.getD i .nil) := by
  have hz : ∀ f ∈ D.fields, slotOf ((List.range D.nslots).map (zeroSlot D)) f = zeroField f := by
    intro f hf
    have := (hD.fields f hf).slot
    rw [slotOf, List.getD_eq_getElem?_getD, List.getElem?_map, List.getElem?_range this]
    exact zeroSlot_eq hD hf
  have hvA := up_ok hD ho (fwd_ok hD0 hD ho hv hr HF hch hs0 hok)
  have hrA := up_restorable hD ho (S := S) (R := R) (fwd_ok hD0 hD ho hv hr HF hch hs0 hok) (fwd_restorable hD0 hD ho hv hr HF hch hs0 hok)
  have hone : ∀ f0 ∈ D0.fields, f0.oneof = true → _ := fun f0 hf0 h => fwd_oneof hD0 hD ho hv hr HF hch hs0 hf0 h
  have hmA : ∀ f, f ∈ fs0.map (upField D) ↔ ∃ f0 ∈ D0.fields, upField D f0 = f := by
    intro f
    rw [List.mem_map]
    exact ⟨fun ⟨a, h1, h2⟩ => ⟨a, hfs.mem_iff.1 h1, h2⟩, fun ⟨a, h1, h2⟩ => ⟨a, hfs.mem_iff.2 h1, h2⟩⟩
  obtain ⟨rsA, a1, a2, a3⟩ := chunks_back H1 hD (fun t w h => isMsgVal_iff h) hvA hrA (fs0.map (upField D)) (b := c)
    (fun f hf => by obtain ⟨f0, h1, rfl⟩ := (hmA f).1 hf; exact upField_mem hD ho h1)
    (by
      rw [List.map_map, show ((fun f : FieldDesc => f.num) ∘ upField D) = (fun f => f.num) from rfl, (hfs.map _).nodup_iff]
      exact hD0.nodup)
    (by
      rw [List.map_map, ← hc]
      congr 1
      apply List.map_congr_left
      intro f0 hf0
      exact up_chunk hn (R := R) (R0 := R0) rE0 hD ho (hfs.mem_iff.1 hf0) s0) hcl
  obtain ⟨sA, a4, a5, a6, a7⟩ := a3 ((List.range D.nslots).map (zeroSlot D)) [] [] (by simp) (fun f hf _ => by
    obtain ⟨f0, h1, rfl⟩ := (hmA f).1 hf
    exact hz _ (upField_mem hD ho h1))
  obtain ⟨rsB, b1, b2, b3⟩ := chunks_back H2 hD hok hv hr ds (fun f hf => ((hds f).1 hf).1) hdn hbd hbl
  have hfree : ∀ f ∈ ds, Held s f → slotOf sA f = zeroField f := by
    intro f hf hh
    obtain ⟨hf1, hf2⟩ := (hds f).1 hf
    rw [← hz f hf1]
    unfold slotOf
    refine a7 f.slot (fun g hg hhg hsl => ?_)
    obtain ⟨g0, hg0, rfl⟩ := (hmA g).1 hg
    have hne : (upField D g0).num ≠ f.num := fun h => by
      have := (keeps_iff hD ho hf1).2 ⟨g0, hg0, hD.num_inj (upField_mem hD ho hg0) hf1 h⟩
      rw [hf2] at this; cases this
    have hsh := hD.share _ (upField_mem hD ho hg0) f hf1 hne hsl
    rcases hh with h | ⟨x, hx⟩
    · rw [hsh.2] at h; cases h
    rcases hhg with h | ⟨y, hy⟩
    · rw [hsh.1] at h; cases h
    rw [up_slot hD ho hg0] at hy
    rcases hone g0 hg0 hsh.1 with ⟨k1, _⟩ | ⟨h0, hh0, _, _, x', y', _, _, k3, k4, _⟩
    · rw [k1] at hy; cases hy
    · have : slotOf s (upField D g0) = slotOf s f := by unfold slotOf; rw [hsl]
      rw [this, hx] at k3
      injection k3 with k3
      have : keeps D0 f.num = true := by
        unfold keeps
        simp only [List.any_eq_true, beq_iff_eq]
        exact ⟨h0, hh0, k3.symm⟩
      rw [hf2] at this; cases this
  obtain ⟨sB, b4, b5, b6, b7⟩ := b3 sA [] [] a5 hfree
  refine ⟨rsA ++ rsB, sB, a1.append b1, ?_, a4.trans b4, b5, ?_⟩
  · intro f hf hreq
    by_cases hk : keeps D0 f.num = true
    · obtain ⟨r, hr1, hr2⟩ := a2 f ((hmA f).2 ((keeps_iff hD ho hf).1 hk)) hreq
      exact ⟨r, by simp [hr1], hr2⟩
    · obtain ⟨r, hr1, hr2⟩ := b2 f ((hds f).2 ⟨hf, by simpa using hk⟩) hreq
      exact ⟨r, by simp [hr1], hr2⟩
  · intro i hi
    by_cases ha : ∃ f ∈ ds, f.slot = i ∧ Held s f
    · obtain ⟨f, h1, rfl, h3⟩ := ha
      have := b6 f h1 h3
      simp only [slotOf] at this
      rw [this]
      exact .refl _
    rw [b7 i (fun f h1 h2 h3 => ha ⟨f, h1, h3, h2⟩)]
    by_cases hb : ∃ f0 ∈ D0.fields, (upField D f0).slot = i ∧ Held (upSlots D0 D s0) (upField D f0)
    · obtain ⟨f0, hf0, rfl, hh⟩ := hb
      have hf := upField_mem hD ho hf0
      have := a6 _ ((hmA _).2 ⟨f0, hf0, rfl⟩) hh
      simp only [slotOf] at this
      rw [this]
      have e1 := backSlot_eq (E := ⟨S, R⟩) (rec := bk) hD s hf
      have e2 := backSlot_eq (E := ⟨S, R⟩) (rec := rd1) hD (upSlots D0 D s0) hf
      simp only at e1 e2
      rw [e1, e2, up_slot hD ho hf0, show (upField D f0).oneof = f0.oneof from rfl]
      cases hoo : f0.oneof with
      | false =>
        simp only [Bool.false_eq_true, if_false]
        exact (fwd_field hD0 hD ho hv hr HF hch hs0 hok hf0 hoo).2.2.2
      | true =>
        simp only [if_true]
        have hh' : ∃ y, slotOf s0 f0 = .wrap f0.num y := by
          rcases hh with h | ⟨y, hy⟩
          · rw [show (upField D f0).oneof = true from hoo] at h; cases h
          · rw [up_slot hD ho hf0] at hy; exact ⟨y, hy⟩
        obtain ⟨y, hy⟩ := hh'
        rcases hone f0 hf0 hoo with ⟨k1, _⟩ | ⟨g0, hg0, _, _, x', y', _, _, k3, k4, _, _, _, _, _, k5⟩
        · rw [k1] at hy; cases hy
        · rw [hy] at k4
          injection k4 with k4 k4'
          subst k4'
          have := hD0.num_inj hf0 hg0 k4
          subst this
          have hmem := member_of hD hf hoo
          rw [show (upField D f0).num = f0.num from rfl] at hmem
          rw [k3, hy]
          simp only [backOneof, hmem]
          exact .wrap k5
    · have hno : ∀ f ∈ fs0.map (upField D), Held (upSlots D0 D s0) f → f.slot ≠ i := by
        intro f hf hh hs
        obtain ⟨f0, h1, rfl⟩ := (hmA f).1 hf
        exact hb ⟨f0, h1, hs, hh⟩
      obtain ⟨g, hg, rfl⟩ := hD.cover i hi
      have := hz g hg
      simp only [slotOf] at this
      rw [a7 _ hno, this]
      have hgo : g.oneof = true := by
        by_contra hgo
        simp only [Bool.not_eq_true] at hgo
        by_cases hk : keeps D0 g.num = true
        · obtain ⟨g0, h1, rfl⟩ := (keeps_iff hD ho hg).1 hk
          exact hb ⟨g0, h1, rfl, .inl hgo⟩
        · exact ha ⟨g, (hds g).2 ⟨hg, by simpa using hk⟩, rfl, .inl hgo⟩
      have e1 := backSlot_eq (E := ⟨S, R⟩) (rec := bk) hD s hg
      simp only at e1
      rw [e1, hgo, if_pos rfl, show zeroField g = .nil by simp [zeroField, hgo]]
      unfold backOneof
      cases hsv : slotOf s g <;> simp only <;> try exact .refl _
      rename_i n x
      cases hm : D.member g.slot n with
      | none => exact .refl _
      | some h =>
        exfalso
        obtain ⟨m1, m2, m3, m4⟩ := member_some hm
        subst m4
        have hsh : slotOf s h = .wrap h.num x := by
          rw [← hsv]; unfold slotOf; rw [m3]
        by_cases hk : keeps D0 h.num = true
        · obtain ⟨h0, hh0, rfl⟩ := (keeps_iff hD ho m1).1 hk
          rcases hone h0 hh0 m2 with ⟨_, k1⟩ | ⟨g0, hg0, _, _, x', y', _, _, k3, k4, _⟩
          · have := k1 _ _ hsh
            rw [hk] at this; cases this
          · refine hb ⟨h0, hh0, m3, .inr ⟨y', ?_⟩⟩
            rw [up_slot hD ho hh0, k4]
            rw [hsh] at k3
            injection k3 with k3
            rw [← k3]
        · exact ha ⟨h, (hds h).2 ⟨m1, by simpa using hk⟩, m3, .inr ⟨x, hsh⟩⟩

end second

end

end Vtp
