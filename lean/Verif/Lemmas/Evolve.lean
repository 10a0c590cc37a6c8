import Verif.Lemmas.EvolveMsg
import Verif.Props.Decode
/-!
# An older reader passes on what it read
-/

namespace Vtp
open Spec

/-- What the older version makes of a message of the newer. -/
def readOlder (E E0 : UEnv) (strict : Bool) (t : Nat) (v : Val) : Val :=
  (unmarshalVT E0 t ((encode ⟨E.S, E.R⟩ strict t v).getD []) (zeroMsg E0.S t)).1

/-- What the newer version makes of a message of the older. -/
def readNewer (E E0 : UEnv) (strict0 : Bool) (t : Nat) (x : Val) : Val :=
  (unmarshalVT E t ((encode ⟨E0.S, E0.R⟩ strict0 t x).getD []) (zeroMsg E.S t)).1

section
variable {E E0 : UEnv} (hE : PlainEnv E) (hE0 : PlainEnv E0) (hn : Shared E0.S E.S E0.R E.R) (hS : Older E0.S E.S) {B : Nat} (hB : B ≤ 2 ^ 64)
  (hF : ∀ n < B, E.A.Fits (n + 1)) (hF0 : ∀ n < B, E0.A.Fits (n + 1)) (strict strict0 : Bool)
include hE hE0 hn hS hB hF hF0

omit hE hE0 hS hB hF hF0 hn in
/-- The same runtime serves both programs. -/
theorem shared_of (hE : DecodeEnv E) (hS : Older E0.S E.S) (hR : E0.R = E.R) (hP : RuntimePerm E.R) (hQ : RuntimeStable E.S E.R) :
    Shared E0.S E.S E0.R E.R := by
  have hd : ∀ t, (E.S.msg t).foreign = true → E0.S.msg t = E.S.msg t := fun t h => by
    have := hS t
    rwa [if_pos h] at this
  rw [hR]
  refine ⟨fun t => ?_, fun _ _ _ => rfl, fun t v h hr => ?_, fun t v b x h hr hm hx => ?_⟩
  · cases h : (E.S.msg t).foreign with
    | true => rw [hd t h, h]
    | false =>
      have := hS t
      rw [if_neg (by simp [h])] at this
      exact this.1
  · obtain ⟨b, w, v', h1, h2, h3, h4⟩ := hr
    refine ⟨b, w, v', h1, h2, ?_, h4⟩
    unfold orEmpty zeroMsg at h3 ⊢
    rwa [hd t h]
  · obtain ⟨b', w, v', h1, h2, -, h4, h5⟩ := hr
    rw [h1] at hm
    cases hm
    have hw : reparse E.R t v = w := by simp [reparse, h1, h2]
    rw [hw] at hx ⊢
    obtain ⟨r1, c, w', r2, r3, r4⟩ := hQ t b w x h h2 hx
    have hwt := hE.unmarshal t b w h2
    obtain ⟨s, u, e, rfl⟩ := wtN_shape hwt
    obtain ⟨s', rfl, -⟩ := shuffle_msg hx _ _ _ rfl
    refine ⟨rfl, r1, ⟨c, r2, ?_⟩, by simpa [reparse, r2, r3] using r4⟩
    have p1 := hP t _ _ hx
    have p2 := hP t _ _ h4
    rw [h5, r2] at p1
    rw [h1] at p2
    cases hv' : E.R.marshal t v' with
    | none => rw [hv'] at p2; cases p2
    | some d =>
      rw [hv'] at p1 p2
      cases p1 with
      | both p1 => cases p2 with
        | both p2 => exact (p2.trans p1).symm

theorem pass_on : ∀ (n t : Nat) (v : Val) (b : Bytes), v.depth ≤ n → (E.S.msg t).foreign = false → encode ⟨E.S, E.R⟩ strict t v = some b → b.length < B → wtM E.S .plain t v = true →
    RestorableN E.S E.R n t v →
    DecodesN E0.S E0.R (n + 1) t b (zeroMsg E0.S t) (readOlder E E0 strict t v) ∧
    ∀ x, Shuffle (readOlder E E0 strict t v) x → isMsgVal t x = true ∧ ∃ c, encode ⟨E0.S, E0.R⟩ strict0 t x = some c ∧ c.Perm b ∧
      DecodesN E.S E.R (n + 1) t c (zeroMsg E.S t) (readNewer E E0 strict0 t x) ∧ Shuffle (backN E.S E.R n t v) (readNewer E E0 strict0 t x) := by
  have hs := hE.env.schema
  have hs0 := hE0.env.schema
  intro n
  induction n with
  | zero =>
    intro t v b hd _ _ _ hw _
    obtain ⟨s, u, e, rfl⟩ := wtN_shape hw
    simp [Val.depth] at hd
  | succ n ih =>
    intro t v b hd hft he hl hw hr
    obtain ⟨s, u, e, rfl⟩ := wtN_shape hw
    have hD := schemaOK_msg hs t
    have hD0 := schemaOK_msg hs0 t
    have hS' : ∀ {t}, (E.S.msg t).foreign = false → (E0.S.msg t).foreign = false ∧ OlderMsg (E0.S.msg t) (E.S.msg t) := fun {t} h => by
      have := hS t
      rwa [if_neg (by simp [h])] at this
    have ho := (hS' hft).2
    have he' := he
    rw [wtM_msg, hft] at hw
    simp only [Bool.false_or, Bool.and_eq_true, decide_eq_true_eq, List.all_eq_true] at hw
    simp only [Val.depth] at hd
    rw [encode_msg] at he
    have henil : ∀ (E : Env) strict t c, encode E strict t .nil = some c → c = [] := by
      intro E strict t c hc
      simpa [encode, Val.depth, encodeN] using hc.symm
    have empty : ∀ (S : Schema) (R : Runtime) t, (∀ f ∈ (S.msg t).fields, f.card ≠ .required) → DecodesN S R (n + 1) t [] (zeroMsg S t) (zeroMsg S t) :=
      fun S R t h => ⟨[], .nil, .nil, fun f hf1 hf2 => absurd hf2 (h f hf1)⟩
    have H0 : SubBack ⟨E0.S, E0.R⟩ (encode ⟨E.S, E.R⟩ strict) (readOlder E E0 strict) (wtUpTo E.S n) (RestorableN E.S E.R n) (DecodesN E0.S E0.R (n + 1)) B := by
      refine ⟨hB, ?_⟩
      intro t' w c hf' hc hlc hcond
      by_cases hnil : w = .nil
      · subst hnil
        simp only [if_true] at hcond ⊢
        rw [henil _ _ _ _ hc]
        exact empty _ _ _ hcond
      · simp only [hnil, if_false] at hcond ⊢
        simp only [wtUpTo, Bool.and_eq_true, decide_eq_true_eq] at hcond
        exact (ih t' w c hcond.1.2 (by rw [← hn.foreign]; exact hf') hc hlc hcond.1.1 hcond.2).1
    have H1 : SubBack ⟨E.S, E.R⟩ (encode ⟨E0.S, E0.R⟩ strict0) (readNewer E E0 strict0) isMsgVal
        (fun t x => ∃ c, encode ⟨E0.S, E0.R⟩ strict0 t x = some c ∧ DecodesN E.S E.R (n + 1) t c (zeroMsg E.S t) (readNewer E E0 strict0 t x))
        (DecodesN E.S E.R (n + 1)) B := by
      refine ⟨hB, ?_⟩
      intro t' w c hf' hc hlc hcond
      by_cases hnil : w = .nil
      · subst hnil
        simp only [if_true] at hcond ⊢
        rw [henil _ _ _ _ hc]
        exact empty _ _ _ hcond
      · simp only [hnil, if_false] at hcond ⊢
        obtain ⟨_, c', h1, h2⟩ := hcond
        rw [hc] at h1
        cases h1
        exact h2
    have H2 : SubBack ⟨E.S, E.R⟩ (encode ⟨E.S, E.R⟩ strict) (backN E.S E.R n) (wtUpTo E.S n) (RestorableN E.S E.R n) (DecodesN E.S E.R (n + 1)) B := by
      refine ⟨hB, ?_⟩
      intro t' w c hf' hc hlc hcond
      by_cases hnil : w = .nil
      · subst hnil
        simp only [if_true] at hcond ⊢
        rw [henil _ _ _ _ hc]
        exact empty _ _ _ hcond
      · simp only [hnil, if_false] at hcond ⊢
        simp only [wtUpTo, Bool.and_eq_true, decide_eq_true_eq] at hcond
        exact encode_back (E := ⟨E.S, E.R⟩) hs strict n t' w c hcond.1.2 hf' hc (by omega) hcond.1.1 hcond.2
    have HF : SubFwd E.S E0.S E.R E0.R (encode ⟨E.S, E.R⟩ strict) (encode ⟨E0.S, E0.R⟩ strict0) (readOlder E E0 strict) (readNewer E E0 strict0) (backN E.S E.R n)
        (wtUpTo E.S n) (RestorableN E.S E.R n)
        (fun t x => ∃ c, encode ⟨E0.S, E0.R⟩ strict0 t x = some c ∧ DecodesN E.S E.R (n + 1) t c (zeroMsg E.S t) (readNewer E E0 strict0 t x)) B := by
      refine ⟨hn, ?_, ?_⟩
      · intro t' w c hf' h1 h2 hc hlc x hx
        simp only [wtUpTo, Bool.and_eq_true, decide_eq_true_eq] at h1
        obtain ⟨k1, c', k2, k3, k4, k5⟩ := (ih t' w c h1.2 hf' hc hlc h1.1 h2).2 x hx
        exact ⟨k1, ⟨c', k2, k4⟩, ⟨c', k2, k3⟩, k5⟩
      · intro t' c hf' hc hreq x hx
        have hx := shuffle_zero hx
        subst hx
        have hc := henil _ _ _ _ hc
        subst hc
        have hreq0 : ∀ f ∈ (E0.S.msg t').fields, f.card ≠ .required := by
          intro f hf h
          obtain ⟨f', hf', hfe⟩ := (hS' hf').2.fields f hf
          refine hreq f' hf' ?_
          rw [← h, hfe]
        have hz := encode_zero (E := ⟨E0.S, E0.R⟩) (strict := strict0) hs0 t' hreq0
        have hrd : readNewer E E0 strict0 t' (zeroMsg E0.S t') = zeroMsg E.S t' := by
          unfold readNewer
          rw [hz]
          simp only [Option.getD_some]
          rw [Props.unmarshal_decodes_partial (b := []) hE hf' (hF 0 (by omega)) (zeroMsg_typed hs t') ⟨_, empty E.S E.R t' hreq⟩]
        refine ⟨rfl, ⟨[], hz, ?_⟩, ⟨[], hz, .refl _⟩, ?_⟩
        · rw [hrd]; exact empty _ _ _ hreq
        · rw [hrd]; exact .refl _
    have hok : ∀ t w, wtUpTo E.S n t w = true → ∃ s u e, w = .msg s u e := by
      intro t w h
      simp only [wtUpTo, Bool.and_eq_true] at h
      exact wtN_shape h.1
    have hv : SlotsOK (wtUpTo E.S n) (E.S.msg t) s := by
      intro f hff
      have hds : (slotOf s f).depth ≤ n := by have := depth_slotOf s f; omega
      rw [← oneofOK_agree (wtUpTo_agree E.S n) _ _ _ hds, ← fieldOK_agree (wtUpTo_agree E.S n) _ hds]
      exact hw.2 f hff
    have hrf : ∀ f ∈ (E.S.msg t).fields, RestorableField ⟨E.S, E.R⟩ (RestorableN E.S E.R n) f (slotOf s f) := hr.2
    obtain ⟨fs, hfs, hbody⟩ := body_chunks_all (E := ⟨E.S, E.R⟩) (rE := encode ⟨E.S, E.R⟩ strict) hD strict s
    simp only at he
    rw [hbody] at he
    cases hcc : concat (fs.map (chunkStrict ⟨E.S, E.R⟩ (encode ⟨E.S, E.R⟩ strict) s)) with
    | none => rw [hcc] at he; simp at he
    | some cb =>
      rw [hcc] at he
      simp only [Option.bind_some, Option.some.injEq] at he
      generalize huu : (if (E.S.msg t).keepUnknown = true then u else []) = uu at he
      subst he
      simp only [List.length_append] at hl
      have hsub : ∀ f ∈ fs, f ∈ (E.S.msg t).fields := fun f hf => hfs.mem_iff.1 hf
      have hnd : (fs.map (·.num)).Nodup := by
        rw [(hfs.map _).nodup_iff]
        exact hD.nodup
      obtain ⟨ru, hu1, hu2⟩ : ∃ ru, Records ru uu ∧ ∀ r ∈ ru, (E.S.msg t).keepUnknown = true ∧ (∀ f ∈ (E.S.msg t).fields, f.num ≠ r.num) ∧
          ∀ e ∈ (E.S.msg t).extRanges, ¬ (e.1 ≤ r.num ∧ r.num < e.2) := by
        cases hk : (E.S.msg t).keepUnknown with
        | false =>
          rw [hk] at huu
          simp only [Bool.false_eq_true, if_false] at huu
          subst huu
          exact ⟨[], .nil, by simp⟩
        | true =>
          rw [hk] at huu
          simp only [if_true] at huu
          subst huu
          obtain ⟨ru, h1, h2⟩ := hr.1 hk
          exact ⟨ru, h1, fun r hr => ⟨rfl, h2 r hr⟩⟩
      -- the older version reads
      obtain ⟨rs, bd, q1, q2, q3, q4⟩ := read_older hn hS hD0 hD ho hok hv hrf H0 H2 fs hsub hnd hcc (by omega)
      obtain ⟨s'', q5, q6, q7, q8⟩ := q4 ((List.range (E0.S.msg t).nslots).map (zeroSlot (E0.S.msg t))) [] [] (by simp) (fun f0 hf0 _ _ => zeroMsg_slot hs0 hf0)
      have hs'' := all_slots (E := ⟨E0.S, E0.R⟩) hD0 q6 (fun f0 hf0 hh => q7 f0 hf0 (hfs.mem_iff.2 (upField_mem hD ho hf0)) hh)
        (fun i hi => q8 i (fun f0 hf0 _ hh => hi f0 hf0 hh))
      simp only at hs''
      subst hs''
      have hstep0 : DecodesN E0.S E0.R (n + 1 + 1) t (cb ++ uu) (zeroMsg E0.S t)
          (.msg ((List.range (E0.S.msg t).nslots).map (backSlot E0.S E0.R (readOlder E E0 strict) (E0.S.msg t) (downSlots (E0.S.msg t) (E.S.msg t) s))) (bd ++ uu) []) := by
        refine ⟨rs ++ ru, q1.append hu1, q5.trans ?_, ?_⟩
        · refine unknown_steps ho.keep hu1 (fun r hr => ⟨fun f0 hf0 h => ?_, fun e he => (hu2 r hr).2.2 e (ho.exts e he).1⟩) _
          exact (hu2 r hr).2.1 _ (upField_mem hD ho hf0) h
        · intro f0 hf0 hreq
          obtain ⟨r, hr1, hr2⟩ := q3 f0 hf0 (hfs.mem_iff.2 (upField_mem hD ho hf0)) hreq
          exact ⟨r, by simp [hr1], hr2⟩
      have hrd : readOlder E E0 strict t (.msg s u e) =
          .msg ((List.range (E0.S.msg t).nslots).map (backSlot E0.S E0.R (readOlder E E0 strict) (E0.S.msg t) (downSlots (E0.S.msg t) (E.S.msg t) s))) (bd ++ uu) [] := by
        conv => lhs; unfold readOlder
        rw [he']
        simp only [Option.getD_some]
        rw [Props.unmarshal_decodes_partial hE0 (hS' hft).1 (hF0 _ (by simpa using hl)) (zeroMsg_typed hs0 t) ⟨_, hstep0⟩]
      rw [hrd]
      refine ⟨hstep0, ?_⟩
      intro x hx
      obtain ⟨s0, rfl, hl0, hx⟩ := shuffle_msg hx _ _ _ rfl
      refine ⟨rfl, ?_⟩
      have hsh : ∀ f0 ∈ (E0.S.msg t).fields,
          Shuffle (backSlot E0.S E0.R (readOlder E E0 strict) (E0.S.msg t) (downSlots (E0.S.msg t) (E.S.msg t) s) f0.slot) (slotOf s0 f0) := by
        intro f0 hf0
        have := hx f0.slot
        rw [List.getD_eq_getElem?_getD, List.getElem?_map, List.getElem?_range (hD0.fields f0 hf0).slot] at this
        exact this
      have hch : ∀ f ∈ (E.S.msg t).fields, ∃ b, chunkStrict ⟨E.S, E.R⟩ (encode ⟨E.S, E.R⟩ strict) s f = some b ∧ b.length < B := by
        intro f hf
        obtain ⟨a, h1, h2⟩ := concat_mem hcc _ (List.mem_map.2 ⟨f, hfs.mem_iff.2 hf, rfl⟩)
        exact ⟨a, h1, by omega⟩
      obtain ⟨fs0, hfs0, hbody0⟩ := body_chunks_all (E := ⟨E0.S, E0.R⟩) (rE := encode ⟨E0.S, E0.R⟩ strict0) hD0 strict0 s0
      -- the bytes
      have hpart : ((fs0.map (upField (E.S.msg t))) ++ fs.filter (fun f => !keeps (E0.S.msg t) f.num)).Perm fs := by
        have h1 : (fs0.map (upField (E.S.msg t))).Perm (fs.filter fun f => keeps (E0.S.msg t) f.num) := by
          apply (List.perm_ext_iff_of_nodup ?_ ?_).2
          · intro f
            rw [List.mem_map, List.mem_filter]
            constructor
            · rintro ⟨f0, h1, rfl⟩
              have := upField_mem hD ho (hfs0.mem_iff.1 h1)
              exact ⟨hfs.mem_iff.2 this, (keeps_iff hD ho this).2 ⟨f0, hfs0.mem_iff.1 h1, rfl⟩⟩
            · rintro ⟨h1, h2⟩
              obtain ⟨f0, h3, h4⟩ := (keeps_iff hD ho (hsub f h1)).1 h2
              exact ⟨f0, hfs0.mem_iff.2 h3, h4⟩
          · apply List.Nodup.of_map (fun f : FieldDesc => f.num)
            rw [List.map_map, show ((fun f : FieldDesc => f.num) ∘ upField (E.S.msg t)) = (fun f => f.num) from rfl, (hfs0.map _).nodup_iff]
            exact hD0.nodup
          · exact (List.Nodup.of_map _ hnd).filter _
        exact (h1.append_right _).trans (List.filter_append_perm _ _)
      have hE1 : EPerm (concat (fs0.map (chunkStrict ⟨E0.S, E0.R⟩ (encode ⟨E0.S, E0.R⟩ strict0) s0)))
          (concat ((fs0.map (upField (E.S.msg t))).map (chunkStrict ⟨E.S, E.R⟩ (encode ⟨E.S, E.R⟩ strict) s))) := by
        rw [List.map_map]
        exact concat_map_perm fs0 _ _ fun f0 hf0 => fwd_chunk hD0 hD ho hv hrf HF hch hsh hok (hfs0.mem_iff.1 hf0)
      have hcu : ∃ cu, concat ((fs0.map (upField (E.S.msg t))).map (chunkStrict ⟨E.S, E.R⟩ (encode ⟨E.S, E.R⟩ strict) s)) = some cu ∧ (cu ++ bd).Perm cb := by
        have h2 := EPerm.concat_perm (hpart.map (chunkStrict ⟨E.S, E.R⟩ (encode ⟨E.S, E.R⟩ strict) s))
        rw [List.map_append, concat_append, q2, hcc] at h2
        cases hcu : concat ((fs0.map (upField (E.S.msg t))).map (chunkStrict ⟨E.S, E.R⟩ (encode ⟨E.S, E.R⟩ strict) s)) with
        | none => rw [hcu] at h2; simp [optAppend] at h2; cases h2
        | some cu =>
          rw [hcu] at h2
          refine ⟨cu, rfl, ?_⟩
          simp [optAppend] at h2
          cases h2 with
          | both h => exact h
      obtain ⟨cu, hcu1, hcu2⟩ := hcu
      rw [hcu1] at hE1
      generalize hc1 : concat (fs0.map (chunkStrict ⟨E0.S, E0.R⟩ (encode ⟨E0.S, E0.R⟩ strict0) s0)) = oc at hE1
      cases hE1 with
      | @both c _ hpc =>
      have hperm : (c ++ bd).Perm cb := (hpc.append_right _).trans hcu2
      have hlen : c.length + bd.length = cb.length := by rw [← List.length_append]; exact hperm.length_eq
      have henc : encode ⟨E0.S, E0.R⟩ strict0 t (.msg s0 (bd ++ uu) []) = some (c ++ (bd ++ uu)) := by
        rw [encode_msg]
        simp only
        rw [hbody0, hc1, if_pos ho.keep]
        rfl
      refine ⟨c ++ (bd ++ uu), henc, by rw [← List.append_assoc]; exact hperm.append_right _, ?_⟩
      -- the newer version reads
      obtain ⟨rs2, sB, w1, w2, w3, w4, w5⟩ := reread hn hD0 hD ho hv hrf HF hch hsh hok H1 H2 hfs0 hc1 (by omega)
        (ds := fs.filter fun f => !keeps (E0.S.msg t) f.num)
        (fun f => by rw [List.mem_filter, hfs.mem_iff]; simp)
        (hnd.sublist (List.filter_sublist.map _)) q2 (by omega)
      have hstep : DecodesN E.S E.R (n + 1 + 1) t (c ++ (bd ++ uu)) (zeroMsg E.S t) (.msg sB uu []) := by
        refine ⟨rs2 ++ ru, by rw [← List.append_assoc]; exact w1.append hu1, w3.trans ?_, ?_⟩
        · by_cases hk : (E.S.msg t).keepUnknown = true
          · simpa using unknown_steps hk hu1 (fun r hr => (hu2 r hr).2) []
          · have : uu = [] := by rw [← huu, if_neg hk]
            subst this
            rw [records_nil hu1]
            exact .nil
        · intro f hf hreq
          obtain ⟨r, hr1, hr2⟩ := w2 f hf hreq
          exact ⟨r, by simp [hr1], hr2⟩
      have hrn : readNewer E E0 strict0 t (.msg s0 (bd ++ uu) []) = .msg sB uu [] := by
        conv => lhs; unfold readNewer
        rw [henc]
        simp only [Option.getD_some]
        rw [Props.unmarshal_decodes_partial hE hft (hF _ (by simp only [List.length_append]; omega)) (zeroMsg_typed hs t) ⟨_, hstep⟩]
      rw [hrn]
      refine ⟨hstep, ?_⟩
      simp only [backN, huu]
      apply shuffle_msgOf
      rw [List.forall₂_iff_get]
      refine ⟨by simp [w4], fun i h1 h2 => ?_⟩
      have := w5 i (by simpa using h1)
      simp only [List.get_eq_getElem, List.getElem_map, List.getElem_range]
      rw [List.getD_eq_getElem?_getD, List.getElem?_eq_getElem h2] at this
      exact this

end

end Vtp
