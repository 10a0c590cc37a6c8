import Verif.Spec.PoolHistory
import Verif.Lemmas.Pool
/-! Pools hold empty messages, whatever happens. -/

namespace Vtp
open Spec

section self
variable {S : Schema} {p : SubReuse} {q : SubReuse} (h : ∀ t v w, p t v w → q t v v)
include h

theorem reuseElem_self {k : Kind} {t : Nat} {v w : Val} (hs : ReuseElem p k t v w) : ReuseElem q k t v v := by
  unfold ReuseElem at hs ⊢
  split at hs
  · rw [if_pos (by assumption)]; exact hs.imp (fun ⟨a, b⟩ => ⟨a, a⟩) fun ⟨a, b, c⟩ => ⟨a, a, h _ _ _ c⟩
  · rw [if_neg (by assumption)]

omit h in
theorem forall₂_self {α : Type} {r r' : α → α → Prop} (h : ∀ a b, r a b → r' a a) : ∀ {l l' : List α}, List.Forall₂ r l l' → List.Forall₂ r' l l
  | _, _, .nil => .nil
  | _, _, .cons h' t => .cons (h _ _ h') (forall₂_self h t)

theorem reuseField_self (hz : ∀ t v, p t v (zeroMsg S t) → q t v (zeroMsg S t)) {d : MsgDesc} {f : FieldDesc} {v w : Val} (hs : ReuseField S p d f v w) :
    ReuseField S q d f v v := by
  unfold ReuseField at hs ⊢
  cases hm : f.map with
  | some md =>
    rw [hm] at hs
    simp only at hs ⊢
    refine hs.imp (fun ⟨a, b⟩ => ⟨a, a⟩) ?_
    rintro ⟨es, es', h1, h2, h3⟩
    exact ⟨es, es, h1, h1, forall₂_self (fun a b ⟨h4, h5⟩ => ⟨rfl, reuseElem_self h h5⟩) h3⟩
  | none =>
    rw [hm] at hs
    simp only at hs ⊢
    split at hs
    · rw [if_pos (by assumption)]
      obtain ⟨h1, h2, h3, h4, h4', h5, h6⟩ := hs
      exact ⟨h1, h1, forall₂_self (fun _ _ => reuseElem_self h) h3, .inl, id, fun a b y hy => (h5 a b y hy).imp id fun ⟨a, b⟩ => ⟨a, hz _ _ b⟩, h6⟩
    · rw [if_neg (by assumption)]
      split at hs
      · rw [if_pos (by assumption)]; simp
      · rw [if_neg (by assumption)]; exact reuseElem_self h hs

theorem reuseOneof_self {d : MsgDesc} {slot : Nat} {v w : Val} (hs : ReuseOneof p d slot v w) : ReuseOneof q d slot v v := by
  cases v with
  | wrap n x =>
    cases w with
    | wrap n' y =>
      obtain ⟨h1, f, h2, h3⟩ := hs
      exact ⟨rfl, f, h2, reuseElem_self h h3⟩
    | _ => cases hs
  | _ => rfl

end self

/-- A message that is another with memory kept for reuse is clean. -/
theorem clean_of_reuse {S : Schema} : ∀ {t : Nat} {v w : Val}, Reuse S t v w → Clean S t v := by
  have key : ∀ n t v w, Reuse S t v w → ReuseN S n t v v := by
    intro n
    induction n with
    | zero => intros; trivial
    | succ n ih =>
      intro t v w h
      have h' := reuse_iff.1 h
      show ReuseMsg S (ReuseN S n) (S.msg t) v v
      unfold ReuseMsg at h' ⊢
      split
      · rfl
      · rename_i hf
        rw [if_neg hf] at h'
        cases v <;> simp only
        cases w <;> simp only [reduceCtorEq] at h'
        obtain ⟨h1, h2, h3, h4, h5⟩ := h'
        refine ⟨trivial, trivial, h3, h3, fun f hm => ?_⟩
        have := h5 f hm
        split
        · rename_i ho
          rw [if_pos ho] at this
          exact reuseOneof_self (fun t v w h => ih t v w h) this
        · rename_i ho
          rw [if_neg ho] at this
          exact reuseField_self (fun t v w h => ih t v w h) (fun t v h => h n) this
  intro t v w h n
  exact key n t v w h

/-- Decoding with pools of empty messages and without pools. -/
theorem pooled_sim {E : UEnv} (hS : schemaOK E.S = true) (hA : E.A.Valid) (hp : ∀ t b v, E.R.unmarshalPartial t b = some v → Clean E.S t v)
    (ha : ∀ off t, (E.S.msg t).pooled = true → Blank E.S t (E.alloc off t)) {t : Nat} (hf : (E.S.msg t).foreign = false) {b : Bytes}
    (hF : E.A.Fits b.length) {m m' : Val} (hm : Reuse E.S t m m') :
    (unmarshalVT E t b m).2 = (unmarshalVT { E with S := unpool E.S } t b m').2 ∧
    Reuse E.S t (unmarshalVT E t b m).1 (unmarshalVT { E with S := unpool E.S } t b m').1 := by
  have := sim_unmarshalN (lax := false) (simEnv_reuse hS hA hp) hS (b.length + 1) (b.length + 1) 0 0 t b hf (by omega) hF ?_ m m' hm
  · change SimOut false _ _ (unmarshalVT E t b m) (unmarshalVT { E with S := unpool E.S } t b m') at this
    generalize unmarshalVT E t b m = r at this ⊢
    generalize unmarshalVT { E with S := unpool E.S } t b m' = r' at this ⊢
    obtain ⟨m1, r⟩ := r
    obtain ⟨m2, r'⟩ := r'
    simp only [SimOut] at this
    cases r with
    | ok u => obtain ⟨h, v, rfl, _⟩ := this; exact ⟨rfl, h⟩
    | err e => simp only [Bool.false_eq_true, false_or] at this; exact ⟨this.2.symm, this.1⟩
    | panic e => simp only [Bool.false_eq_true, false_or] at this; exact ⟨this.2.symm, this.1⟩
    | diverge => simp only [Bool.false_eq_true, false_or] at this; exact ⟨this.2.symm, this.1⟩
  · refine ⟨fun k s hs => rfl, fun k t _ hp => ?_⟩
    have : UEnv.fresh { E with S := unpool E.S } (0 + k) t = zeroMsg E.S t := by
      unfold UEnv.fresh
      simp only [unpool_msg]
      exact (samePlan_unpool E.S).zeroMsg t
    rw [this]
    exact ha (0 + k) t hp

/-- Messages in pools are empty and messages held are clean. -/
theorem hist_inv {E : UEnv} (hS : schemaOK E.S = true) (hL : poolsLocal E.S) (hA : E.A.Valid)
    (hp : ∀ t b v, E.R.unmarshalPartial t b = some v → Clean E.S t v) {h : Hist} (hr : Reachable E h) :
    PutsOK E.S h.pool ∧ ∀ p ∈ h.held, Clean E.S p.1 p.2 := by
  induction hr with
  | start => exact ⟨.nil, by simp⟩
  | step hr he ih =>
    obtain ⟨i1, i2⟩ := ih
    have sub : ∀ {keep : List (Nat × Val)} {l : List (Nat × Val)}, keep.Sublist l → PutsOK E.S l → PutsOK E.S keep :=
      fun hk h p hp => h p (hk.subset hp)
    have off : ∀ {h : Hist} {t : Nat} {v : Val}, PutsOK E.S h.pool → h.offers E.S t v → Blank E.S t v := by
      rintro h t v hp (ho | rfl)
      · exact (hp _ ho).2
      · exact blank_zero hS t
    cases he with
    | get hp ho hk =>
      refine ⟨sub hk i1, fun p hm => ?_⟩
      rcases List.mem_cons.1 hm with rfl | hm
      · exact clean_of_reuse (off i1 ho)
      · exact i2 p hm
    | collect keep hk => exact ⟨sub hk i1, i2⟩
    | build hv =>
      refine ⟨i1, fun p hm => ?_⟩
      rcases List.mem_cons.1 hm with rfl | hm
      · exact hv
      · exact i2 p hm
    | change l l' hh hw =>
      refine ⟨i1, fun p hm => ?_⟩
      rw [hh] at i2
      simp only [List.mem_append, List.mem_cons] at hm i2
      rcases hm with hm | rfl | hm
      · exact i2 p (.inl hm)
      · exact hw
      · exact i2 p (.inr (.inr hm))
    | @decode t v b alloc aliasing later keep l l' hh hf hF ha hk =>
      refine ⟨sub hk i1, fun p hm => ?_⟩
      rw [hh] at i2
      simp only [List.mem_append, List.mem_cons] at hm i2
      rcases hm with hm | rfl | hm
      · exact i2 p (.inl hm)
      · exact clean_of_reuse (pooled_sim (E := { E with alloc := alloc, aliasing := aliasing, later := later }) hS hA hp
          (fun o t _ => off i1 (ha o t)) hf hF (i2 (t, v) (.inr (.inl rfl)))).2
      · exact i2 p (.inr (.inr hm))
    | @reset t v v' ps hp l l' hh hr =>
      have hv := i2 (t, v) (by rw [hh]; simp)
      have : (v' = .nil ∨ Clean E.S t v') ∧ PutsOK E.S ps := by
        unfold resetVT at hr
        split at hr
        · cases hr; exact ⟨.inl rfl, .nil⟩
        · obtain ⟨h1, h2⟩ := resetN_blank hS hL _ _ _ _ _ v hp hv hr
          exact ⟨.inr (clean_of_reuse h1), h2⟩
      refine ⟨this.2.append i1, fun p hm => ?_⟩
      rw [hh] at i2
      simp only [List.mem_append, List.mem_cons] at hm i2
      rcases hm with hm | rfl | hm
      · exact i2 p (.inl hm)
      · rcases this.1 with rfl | h
        · show Clean _ _ _
          unfold Clean
          rw [reuse_iff]
          unfold ReuseMsg
          split <;> rfl
        · exact h
      · exact i2 p (.inr (.inr hm))
    | @put t v ps hp l l' hh hr =>
      have hv := i2 (t, v) (by rw [hh]; simp)
      refine ⟨PutsOK.append (returnWith_blank (resetN_blank hS hL _) (w := v) hp (.inr hv) hr) i1, fun p hm => ?_⟩
      rw [hh] at i2
      simp only [List.mem_append, List.mem_cons] at hm i2
      rcases hm with hm | hm
      · exact i2 p (.inl hm)
      · exact i2 p (.inr (.inr hm))

end Vtp

namespace Vtp
open Spec

/-- What the struct fields of an empty message can be. -/
theorem blank_slot {S : Schema} (hS : schemaOK S = true) {t : Nat} (hf : (S.msg t).foreign = false) {s : List Val} {u e : Bytes}
    (h : Blank S t (.msg s u e)) {f : FieldDesc} (hm : f ∈ (S.msg t).fields) :
    slotOf s f = zeroField f ∨ (∃ sp, slotOf s f = .list [] sp) ∨ (f.kind = .bytes ∧ slotOf s f = .str []) := by
  have ff := (schemaOK_msg hS t).fields f hm
  unfold Blank zeroMsg at h
  rw [reuse_msg hf] at h
  have h5 := h.2.2.2.2 f hm
  rw [zeroMsg_slot hS hm] at h5
  generalize slotOf s f = v at h5
  by_cases ho : f.oneof = true
  · rw [if_pos ho] at h5
    have hz : zeroField f = .nil := by simp [zeroField, ho]
    rw [hz] at h5 ⊢
    unfold ReuseOneof at h5
    split at h5
    · rename_i h6; cases h6
    · exact .inl h5
  · rw [if_neg ho] at h5
    unfold ReuseField at h5
    cases hmap : f.map with
    | some md =>
      simp only [hmap] at h5
      have : zeroField f = .nil := by simp [zeroField, (ff.map md hmap).1]
      rw [this] at h5 ⊢
      rcases h5 with ⟨h5, _⟩ | ⟨_, _, _, h5, _⟩
      · exact .inl h5
      · cases h5
    | none =>
      simp only [hmap] at h5
      by_cases hc : f.card = .repeated
      · have hz : zeroField f = .nil := by simp [zeroField, hc]
        rw [hz] at h5 ⊢
        simp only [hc, if_true] at h5
        obtain ⟨h6, -, h7, -⟩ := h5
        cases v with
        | list xs sp =>
          simp only [Val.elems] at h7
          cases h7
          exact .inr (.inl ⟨sp, rfl⟩)
        | nil => exact .inl rfl
        | _ => simp [isSlice] at h6
      · simp only [hc, if_false] at h5
        by_cases hb : f.kind = .bytes
        · simp only [hb, if_true] at h5
          rcases h5 with h5 | ⟨-, rfl, -⟩
          · exact .inl h5
          · exact .inr (.inr ⟨hb, rfl⟩)
        · simp only [hb, if_false] at h5
          unfold ReuseElem at h5
          split at h5
          · rename_i hk
            have hz : zeroField f = .nil := by simp [zeroField, ff.singMsg hc (by simpa [FieldDesc.hasMessage] using hk)]
            rw [hz] at h5 ⊢
            rcases h5 with ⟨h5, _⟩ | ⟨_, h5, _⟩
            · exact .inl h5
            · exact absurd rfl h5
          · exact .inl h5

theorem blank_noNaN {S : Schema} (hS : schemaOK S = true) {t : Nat} {v : Val} (h : Blank S t v) : NoNaN S t v := by
  intro n
  cases n with
  | zero => trivial
  | succ n =>
    cases v with
    | msg s u e =>
      intro hf f hm
      have ff := (schemaOK_msg hS t).fields f hm
      rcases blank_slot hS hf h hm with h1 | ⟨sp, h1⟩ | ⟨hk, h1⟩
      · rw [h1]
        unfold zeroField
        split
        · trivial
        · rename_i h2
          split at h2 <;> (try cases h2)
          cases hk : f.kind <;> simp [hk, zeroScalar] at h2
        · rename_i h2
          split at h2 <;> (try cases h2)
          cases hk : f.kind <;> simp [hk, zeroScalar] at h2
        · rename_i h2
          split at h2 <;> (try cases h2)
          cases hk : f.kind <;> simp [hk, zeroScalar] at h2
        · split
          · simp_all
          · rename_i h2
            cases hk : f.kind <;> simp [NoNaNElem, zeroScalar, numeric, numValue, ieee, Val.bits]
            all_goals
              have : f.hasMessage = true := by simp [FieldDesc.hasMessage, hk]
              by_cases hc : f.card = .repeated
              · simp [hc] at h2
              · simp [ff.singMsg hc this] at h2
      · rw [h1]; simp
      · rw [h1]; simp [NoNaNElem, hk, numeric]
    | _ => trivial

end Vtp

namespace Vtp
open Spec

theorem noSpareList_mem {x : Val} : ∀ {l : List Val}, noSpareList l = true → x ∈ l → noSpare x = true
  | [], _, h => by simp at h
  | y :: l, h, hx => by
    simp only [noSpareList, Bool.and_eq_true] at h
    rcases List.mem_cons.1 hx with rfl | hx
    · exact h.1
    · exact noSpareList_mem h.2 hx

theorem noSpareEntries_mem {x : Key × Val} : ∀ {l : List (Key × Val)}, noSpareEntries l = true → x ∈ l → noSpare x.2 = true
  | [], _, h => by simp at h
  | (k, y) :: l, h, hx => by
    simp only [noSpareEntries, Bool.and_eq_true] at h
    rcases List.mem_cons.1 hx with rfl | hx
    · exact h.1
    · exact noSpareEntries_mem h.2 hx

theorem noSpare_slotOf {s : List Val} (h : noSpareList s = true) (f : FieldDesc) : noSpare (slotOf s f) = true := by
  unfold slotOf
  rw [List.getD_eq_getElem?_getD]
  cases hg : s[f.slot]? with
  | none => rfl
  | some v => exact noSpareList_mem h (List.mem_of_getElem? hg)

theorem forall₂_refl_of {α : Type} {r : α → α → Prop} : ∀ {l : List α}, (∀ a ∈ l, r a a) → List.Forall₂ r l l
  | [], _ => .nil
  | a :: l, h => .cons (h a (.head _)) (forall₂_refl_of fun b hb => h b (.tail _ hb))

/-- Messages without anything beyond the lengths of slices are clean. -/
theorem clean_of_noSpare {S : Schema} {tn : Members} (hS : schemaOK S = true) : ∀ {t : Nat} {v : Val}, wtM S tn t v = true → noSpare v = true → Clean S t v := by
  have key : ∀ n t v, wtM S tn t v = true → noSpare v = true → ReuseN S n t v v := by
    intro n
    induction n with
    | zero => intros; trivial
    | succ n ih =>
      intro t v hv hn
      have el : ∀ k t x, elemOK (wtM S tn) k t x = true → noSpare x = true → ReuseElem (ReuseN S n) k t x x := by
        intro k t x hx hn
        unfold ReuseElem
        split
        · rename_i hk
          by_cases h0 : x = .nil
          · exact .inl ⟨h0, h0⟩
          · exact .inr ⟨h0, h0, ih t x ((ptrOK_of hk hx).resolve_left h0) hn⟩
        · rfl
      show ReuseMsg S (ReuseN S n) (S.msg t) v v
      unfold ReuseMsg
      split
      · rfl
      · rename_i hf
        obtain ⟨s, u, e, rfl⟩ := wtM_isMsg hv
        rw [wtM_msg] at hv
        simp only [hf, Bool.false_or, Bool.and_eq_true, List.all_eq_true, decide_eq_true_eq] at hv
        refine ⟨rfl, rfl, hv.1, hv.1, fun f hm => ?_⟩
        have hsl := hv.2 f hm
        have hns : noSpare (slotOf s f) = true := noSpare_slotOf hn f
        generalize slotOf s f = x at hsl hns
        have ff := (schemaOK_msg hS t).fields f hm
        split
        · rename_i ho
          rw [if_pos ho] at hsl
          cases x with
          | wrap n' y =>
            simp only [oneofOK] at hsl
            split at hsl
            · rename_i g hg
              simp only [Bool.and_eq_true] at hsl
              exact ⟨rfl, g, hg, el _ _ _ hsl.1 hns⟩
            · cases hsl
          | _ => rfl
        · rename_i ho
          rw [if_neg ho] at hsl
          unfold ReuseField
          unfold fieldOK at hsl
          cases hmap : f.map with
          | some md =>
            simp only [hmap] at hsl
            cases x with
            | nil => exact .inl ⟨rfl, rfl⟩
            | map es =>
              simp only [Bool.and_eq_true, List.all_eq_true] at hsl
              exact .inr ⟨es, es, rfl, rfl, forall₂_refl_of fun p hp => ⟨rfl, el _ _ _ (hsl.2 p hp).2 (noSpareEntries_mem hns hp)⟩⟩
            | _ => cases hsl
          | none =>
            simp only [hmap] at hsl
            simp only
            by_cases hc : f.card = .repeated
            · simp only [hc, beq_self_eq_true, if_true] at hsl
              rw [if_pos hc]
              cases x with
              | nil => simp [isSlice, Val.elems, spareOf]
              | list xs sp =>
                simp only [Bool.and_eq_true, List.all_eq_true] at hsl
                simp only [noSpare, Bool.and_eq_true, List.isEmpty_iff] at hns
                refine ⟨trivial, trivial, forall₂_refl_of fun p hp => el _ _ _ (hsl.1 p hp) (noSpareList_mem hns.1 hp), by simp, by simp, ?_, fun _ => hns.2⟩
                simp [spareOf, hns.2]
              | _ => cases hsl
            · rw [if_neg hc]
              split
              · simp
              · rename_i hb
                have hc' : (f.card == Card.repeated) = false := by simpa using hc
                simp only [hc', Bool.false_eq_true, if_false] at hsl
                split at hsl
                · rw [Bool.or_eq_true, isNil_iff] at hsl
                  rcases hsl with rfl | hsl
                  · simp [ReuseElem]
                  · exact el _ _ _ hsl hns
                · unfold ReuseElem
                  split
                  · rename_i hk
                    rcases hk with hk | hk <;> simp [hk, scalarOK] at hsl
                  · rfl
  intro t v hv hn n
  exact key n t v hv hn

end Vtp

namespace Vtp
open Spec

theorem unpool_wtN (S : Schema) (tn : Members) : ∀ n t v, wtN (unpool S) tn n t v = wtN S tn n t v
  | 0, _, _ => rfl
  | n + 1, t, v => by
    have : wtN (unpool S) tn n = wtN S tn n := funext fun t => funext fun v => unpool_wtN S tn n t v
    unfold wtN
    cases v <;> simp only [unpool_msg, this]
    rfl

theorem unpool_typed (S : Schema) (tn : Members) (t : Nat) (v : Val) : wtM (unpool S) tn t v = wtM S tn t v := unpool_wtN S tn _ t v

theorem unpool_ok {S : Schema} (h : schemaOK S = true) : schemaOK (unpool S) = true := by
  unfold schemaOK unpool at *
  rw [List.all_map]
  exact h

theorem unpool_env {E : UEnv} (hE : DecodeEnv E) : DecodeEnv { E with S := unpool E.S } where
  schema := unpool_ok hE.schema
  arch := hE.arch
  alloc off t := by show wtM (unpool E.S) _ _ _ = true; rw [unpool_typed]; exact hE.alloc off t
  unmarshal t b v h := by show wtM (unpool E.S) _ _ _ = true; rw [unpool_typed]; exact hE.unmarshal t b v h
  unmarshalPartial t b v h := by show wtM (unpool E.S) _ _ _ = true; rw [unpool_typed]; exact hE.unmarshalPartial t b v h
  bytesMap := by
    refine hE.bytesMap.imp id fun h => h.imp id fun h t => ?_
    have := h t
    simpa only [unpool_msg] using this

end Vtp
