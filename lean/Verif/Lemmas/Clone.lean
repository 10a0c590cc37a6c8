import Verif.Spec.Clone
import Verif.Lemmas.Alike
import Verif.Lemmas.PoolHistory
/-!
# Cloning: the clone is alike and of the same type
-/

namespace Vtp
open Spec

section
variable {E : KEnv} {tn : Members} {rec : SubClone} {n : Nat}

/-- What the recursive call does, on messages up to depth `n`. -/
def ClonesTo (E : KEnv) (tn : Members) (n : Nat) (rec : SubClone) : Prop :=
  ∀ p t v, v.depth ≤ n → (E.S.msg t).foreign = false →
    (v = .nil → rec p t v = .ok .nil) ∧
    (wtM E.S tn t v = true → ∃ w, rec p t v = .ok w ∧ wtM E.S tn t w = true ∧ Alike E.S E.R t v w)

theorem wtM_ne_nil {S : Schema} {t : Nat} {v : Val} (h : wtM S tn t v = true) : v ≠ .nil := by
  obtain ⟨s, u, e, rfl⟩ := wtM_isMsg h
  simp

theorem cloneSingular_ok (hC : RuntimeClone E.R) (hr : ClonesTo E tn n rec) {k : Kind} {t : Nat} (p : List Nat) {v : Val} (hd : v.depth ≤ n)
    (hv : elemOK (wtM E.S tn) k t v = true) :
    ∃ w, cloneSingular E rec k t p v = .ok w ∧ elemOK (wtM E.S tn) k t w = true ∧ AlikeElem (subAlike E.S E.R (Alike E.S E.R)) k t v w := by
  unfold cloneSingular AlikeElem
  by_cases hk : k = .message ∨ k = .group
  · have ho : ∀ v, elemOK (wtM E.S tn) k t v = (v.isNil || wtM E.S tn t v) := by
      intro v; rcases hk with rfl | rfl <;> rfl
    simp only [if_pos hk, ho] at hv ⊢
    by_cases hn : v = .nil
    · subst hn
      refine ⟨.nil, ?_, rfl, .inl ⟨rfl, rfl⟩⟩
      split_ifs with hf
      · rw [hC.isNil]
      · exact (hr p t .nil hd (by simpa using hf)).1 rfl
    · have hw : wtM E.S tn t v = true := by cases v <;> simp_all [Val.isNil]
      split_ifs with hf
      · obtain ⟨s, u, e, rfl⟩ := wtM_isMsg hw
        obtain ⟨s', u', e', hc⟩ := hC.isMsg t s u e
        refine ⟨_, rfl, ?_, .inr ⟨hn, by rw [hc]; simp, ?_⟩⟩
        · rw [hc, wtM_msg, hf]; simp
        · unfold subAlike
          rw [if_pos hf]
          exact ⟨hC.equal _ _, hC.marshal _ _, hC.size _ _⟩
      · have hf' : (E.S.msg t).foreign = false := by simpa using hf
        obtain ⟨w, h1, h2, h3⟩ := (hr p t v hd hf').2 hw
        refine ⟨w, h1, by simp [h2], .inr ⟨hn, wtM_ne_nil h2, ?_⟩⟩
        unfold subAlike
        rw [if_neg hf]
        exact h3
  · simp only [if_neg hk] at hv ⊢
    split_ifs with hb
    · subst hb
      exact ⟨_, rfl, rfl, rfl⟩
    · exact ⟨v, rfl, hv, rfl⟩

theorem cloneElems_ok (hC : RuntimeClone E.R) (hr : ClonesTo E tn n rec) {k : Kind} {t : Nat} (p : List Nat) : ∀ (i : Nat) (vs : List Val),
    (∀ v ∈ vs, v.depth ≤ n) → (∀ v ∈ vs, elemOK (wtM E.S tn) k t v = true) →
    ∃ ws, cloneElems E rec k t p i vs = .ok ws ∧ (∀ w ∈ ws, elemOK (wtM E.S tn) k t w = true) ∧ List.Forall₂ (AlikeElem (subAlike E.S E.R (Alike E.S E.R)) k t) vs ws := by
  intro i vs
  induction vs generalizing i with
  | nil => exact fun _ _ => ⟨[], rfl, by simp, .nil⟩
  | cons v vs ih =>
    intro hd hv
    obtain ⟨w, h1, h2, h3⟩ := cloneSingular_ok hC hr (p ++ [i]) (hd v (by simp)) (hv v (by simp))
    obtain ⟨ws, h4, h5, h6⟩ := ih (i + 1) (fun v hv => hd v (by simp [hv])) (fun x hx => hv x (by simp [hx]))
    refine ⟨w :: ws, by simp [cloneElems, h1, h4], ?_, .cons h3 h6⟩
    intro x hx
    rcases List.mem_cons.1 hx with rfl | hx
    · exact h2
    · exact h5 x hx

theorem mapInsert_fresh : ∀ {c : List (Key × Val)} {key : Key} {w : Val}, key ∉ c.map (·.1) → mapInsert c key w = c ++ [(key, w)]
  | [], _, _, _ => rfl
  | (k', v') :: c, key, w, h => by
    simp only [List.map_cons, List.mem_cons, not_or] at h
    rw [mapInsert, if_neg (fun e => h.1 e.symm), mapInsert_fresh h.2]
    rfl

theorem cloneEntries_ok (hC : RuntimeClone E.R) (hr : ClonesTo E tn n rec) {k : Kind} {t : Nat} (p : List Nat) : ∀ (i : Nat) (vs c : List (Key × Val)),
    (∀ v ∈ vs, v.2.depth ≤ n) → (∀ v ∈ vs, elemOK (wtM E.S tn) k t v.2 = true) → ((c ++ vs).map (·.1)).Nodup →
    ∃ ws, cloneEntries E rec k t p i vs c = .ok (c ++ ws) ∧ ws.map (·.1) = vs.map (·.1) ∧ (∀ w ∈ ws, elemOK (wtM E.S tn) k t w.2 = true) ∧
      List.Forall₂ (fun e e' => e.1 = e'.1 ∧ AlikeElem (subAlike E.S E.R (Alike E.S E.R)) k t e.2 e'.2) vs ws := by
  intro i vs
  induction vs generalizing i with
  | nil => exact fun c _ _ _ => ⟨[], by simp [cloneEntries], rfl, by simp, .nil⟩
  | cons v vs ih =>
    intro c hd hv hn
    obtain ⟨w, h1, h2, h3⟩ := cloneSingular_ok hC hr (p ++ [i]) (hd v (by simp)) (hv v (by simp))
    have hfresh : v.1 ∉ c.map (·.1) := by
      rw [List.map_append, List.map_cons] at hn
      intro hm
      exact List.disjoint_of_nodup_append hn hm (by simp)
    obtain ⟨ws, h4, h4', h5, h6⟩ := ih (i + 1) (c ++ [(v.1, w)]) (fun v hv => hd v (by simp [hv])) (fun x hx => hv x (by simp [hx])) (by simpa using hn)
    refine ⟨(v.1, w) :: ws, by simp [cloneEntries, h1, mapInsert_fresh hfresh, h4], by simp [h4'], ?_, .cons ⟨rfl, h3⟩ h6⟩
    intro x hx
    rcases List.mem_cons.1 hx with rfl | hx
    · exact h2
    · exact h5 x hx

/-- Empty contents of a struct field, as in a message from the pool. -/
def EmptySlot (f : FieldDesc) (z : Val) : Prop := z = zeroField f ∨ (∃ sp, z = .list [] sp) ∨ (f.kind = .bytes ∧ z = .str [] ∧ f.presence = false)

theorem scalar_elem {r : Nat → Val → Bool} {k : Kind} (hk : isScalarKind k = true) (t : Nat) (v : Val) : elemOK r k t v = scalarOK k v := by
  cases k <;> first | rfl | cases hk

theorem scalar_alike {sub : SubSame} {k : Kind} (hk : isScalarKind k = true) (t : Nat) (v : Val) : AlikeElem sub k t v v := by
  unfold AlikeElem
  unfold isScalarKind at hk
  simp only [bne_iff_ne, ne_eq, Bool.and_eq_true] at hk
  simp [hk]

theorem entries_keys {a b : List (Key × Val)} {P : Val → Val → Prop} (h : List.Forall₂ (fun e e' => e.1 = e'.1 ∧ P e.2 e'.2) a b) (f : Key → Bool)
    (ha : ∀ e ∈ a, f e.1 = true) : ∀ e ∈ b, f e.1 = true := by
  induction h with
  | nil => simp
  | cons h _ ih =>
    intro e he
    rcases List.mem_cons.1 he with rfl | he
    · rw [← h.1]; exact ha _ (by simp)
    · exact ih (fun e he => ha e (by simp [he])) e he

/-- A field handled by `cloneField`. -/
theorem cloneField_ok (hC : RuntimeClone E.R) (hr : ClonesTo E tn n rec) {d : MsgDesc} {f : FieldDesc} (ff : FieldFacts d f) (p : List Nat) {v z : Val}
    (hd : v.depth ≤ n) (hv : fieldOK (wtM E.S tn) f v = true) (hz : fieldOK (wtM E.S tn) f z = true) (he : EmptySlot f z) (ho : f.oneof = false)
    (hn : v = .nil → f.card ≠ .repeated → f.presence = false → f.kind = .bytes) :
    ∃ o, cloneField E rec f p v = .ok o ∧ fieldOK (wtM E.S tn) f (o.getD z) = true ∧ AlikeField (subAlike E.S E.R (Alike E.S E.R)) f v (o.getD z) := by
  unfold cloneField
  by_cases hnil : v = .nil
  · subst hnil
    refine ⟨none, rfl, hz, ?_⟩
    unfold AlikeField
    simp only [Option.getD_none]
    have hze : ∀ f : FieldDesc, (zeroField f).entries = [] ∧ (zeroField f).elems = [] ∧ (zeroField f).bytes = [] := by
      intro f
      unfold zeroField
      split_ifs
      · exact ⟨rfl, rfl, rfl⟩
      · cases f.kind <;> exact ⟨rfl, rfl, rfl⟩
    have hz1 : z.entries = [] ∧ z.elems = [] ∧ z.bytes = [] := by
      rcases he with rfl | ⟨sp, rfl⟩ | ⟨_, rfl, _⟩
      · exact hze f
      · exact ⟨rfl, rfl, rfl⟩
      · exact ⟨rfl, rfl, rfl⟩
    split
    · rw [hz1.1]; exact .nil
    · rename_i hm
      split_ifs with hc
      · rw [hz1.2.1]; exact .nil
      · by_cases hp : f.presence = true
        · have : z = .nil := by
            rcases he with rfl | ⟨sp, rfl⟩ | ⟨_, _, h⟩
            · simp [zeroField, hp]
            · exfalso
              have hc' : (f.card == Card.repeated) = false := by simpa using hc
              unfold fieldOK at hz
              simp only [hm, hc', hp, if_true, Bool.false_eq_true, if_false, Val.isNil, Bool.false_or] at hz
              have hl : ∀ t, wtM E.S tn t (.list [] sp) = false := by
                intro t
                by_contra h
                obtain ⟨_, _, _, h⟩ := wtM_isMsg (Bool.eq_true_of_not_eq_false h)
                cases h
              revert hz
              cases f.kind <;> simp [elemOK, scalarOK, Val.isNil, hl]
            · rw [hp] at h; cases h
          subst this
          refine ⟨fun _ => by simp, ?_⟩
          unfold AlikeElem
          split_ifs
          · exact .inl ⟨rfl, rfl⟩
          · rfl
          · rfl
        · have hp' : f.presence = false := by simpa using hp
          have hb := hn rfl hc hp'
          refine ⟨fun h => absurd h hp, ?_⟩
          unfold AlikeElem
          simp only [hb, reduceCtorEq, or_self, if_false, if_true, hz1.2.2]
          rfl
  · rw [if_neg (by cases v <;> simp_all [Val.isNil])]
    by_cases hc : f.card = .repeated
    · have hc' : (f.card == Card.repeated) = true := by simpa using hc
      simp only [hc', if_true]
      cases hm : f.map with
      | some md =>
        unfold fieldOK at hv
        rw [hm] at hv
        cases v <;> simp only [reduceCtorEq] at hv
        · exact absurd rfl hnil
        rename_i es
        simp only [Bool.and_eq_true, decide_eq_true_eq, List.all_eq_true] at hv
        have hde : ∀ e ∈ es, e.2.depth ≤ n := fun e hmem => by
          have := depth_entry hmem
          simp only [Val.depth] at hd
          omega
        obtain ⟨ws, h1, h2, h3, h4⟩ := cloneEntries_ok hC hr p 0 es [] hde (fun e hmem => (hv.2 e hmem).2) hv.1
        refine ⟨some (.map ws), by simp [h1], ?_, ?_⟩
        · unfold fieldOK
          simp only [hm, Option.getD_some, Bool.and_eq_true, decide_eq_true_eq, List.all_eq_true]
          refine ⟨by rw [h2]; exact hv.1, fun e hmem => ⟨?_, h3 e hmem⟩⟩
          exact entries_keys h4 (fun k => scalarOK md.key k.toVal) (fun e hmem => (hv.2 e hmem).1) e hmem
        · unfold AlikeField
          simp only [hm, Option.getD_some, Val.entries]
          exact h4
      | none =>
        unfold fieldOK at hv
        simp only [hm, hc', if_true] at hv
        cases v <;> simp only [reduceCtorEq, Bool.false_eq_true] at hv
        · exact absurd rfl hnil
        rename_i xs sp
        simp only [Bool.and_eq_true, List.all_eq_true] at hv
        have hok : ∀ ws : List Val, (∀ w ∈ ws, elemOK (wtM E.S tn) f.kind f.msg w = true) → fieldOK (wtM E.S tn) f (.list ws []) = true := by
          intro ws hws
          unfold fieldOK
          simp only [hm, hc', if_true, Bool.and_eq_true, List.all_eq_true]
          exact ⟨hws, by simp⟩
        by_cases hs : isScalarKind f.kind = true
        · refine ⟨some (.list xs []), by simp [hs], hok xs hv.1, ?_⟩
          unfold AlikeField
          simp only [hm, hc, if_true, Option.getD_some, Val.elems]
          exact List.forall₂_same.2 fun x _ => scalar_alike hs _ _
        · obtain ⟨ws, h1, h2, h3⟩ := cloneElems_ok hC hr p 0 xs (fun x hx => by
            have := depth_mem hx
            simp only [Val.depth] at hd
            omega) hv.1
          refine ⟨some (.list ws []), by simp [hs, h1], hok ws h2, ?_⟩
          unfold AlikeField
          simp only [hm, hc, if_true, Option.getD_some, Val.elems]
          exact h3
    · have hc' : (f.card == Card.repeated) = false := by simpa using hc
      have hm : f.map = none := by
        cases hm : f.map with
        | none => rfl
        | some md => exact absurd (ff.map md hm).1 hc
      simp only [hc', Bool.false_eq_true, if_false]
      have hve : elemOK (wtM E.S tn) f.kind f.msg v = true := by
        unfold fieldOK at hv
        simp only [hm, hc', Bool.false_eq_true, if_false] at hv
        split_ifs at hv with hp
        · cases v <;> simp_all [Val.isNil]
        · revert hv
          cases f.kind <;> simp [elemOK, scalarOK]
      have hok : ∀ w, w ≠ .nil → elemOK (wtM E.S tn) f.kind f.msg w = true → AlikeElem (subAlike E.S E.R (Alike E.S E.R)) f.kind f.msg v w →
          fieldOK (wtM E.S tn) f w = true ∧ AlikeField (subAlike E.S E.R (Alike E.S E.R)) f v w := by
        intro w hw h1 h2
        constructor
        · unfold fieldOK
          simp only [hm, hc', Bool.false_eq_true, if_false]
          split_ifs with hp
          · simp [h1]
          · have : f.hasMessage = false := by
              by_contra h
              exact hp (ff.singMsg hc (by simpa using h))
            revert h1 this
            unfold FieldDesc.hasMessage
            cases f.kind <;> simp [elemOK]
        · unfold AlikeField
          simp only [hm, if_neg hc]
          exact ⟨fun _ => ⟨fun h => absurd h hnil, fun h => absurd h hw⟩, h2⟩
      by_cases hs : isScalarKind f.kind = true
      · refine ⟨some v, by simp [hs], hok v hnil hve (scalar_alike hs _ _)⟩
      · obtain ⟨w, h1, h2, h3⟩ := cloneSingular_ok hC hr p hd hve
        have hw : w ≠ .nil := by
          unfold AlikeElem at h3
          split_ifs at h3 with a b
          · rcases h3 with h3 | h3
            · exact absurd h3.1 hnil
            · exact h3.2.1
          · rintro rfl
            simp only [cloneSingular, if_neg a, if_pos b] at h1
            cases h1
          · rw [← h3]; exact hnil
        refine ⟨some w, by simp [hs, h1], hok w hw h2 h3⟩

theorem cloneOneof_ok (hC : RuntimeClone E.R) (hr : ClonesTo E tn n rec) {d : MsgDesc} (hd : MsgFacts d) {slot : Nat} (p : List Nat) {v : Val}
    (hdep : v.depth ≤ n) (hv : oneofOK tn (wtM E.S tn) d slot v = true) :
    ∃ o, cloneOneof E rec d slot p v = .ok o ∧ oneofOK tn (wtM E.S tn) d slot (o.getD .nil) = true ∧
      AlikeOneof (subAlike E.S E.R (Alike E.S E.R)) d slot v (o.getD .nil) := by
  cases v with
  | nil => exact ⟨none, rfl, rfl, rfl⟩
  | wrapNil k => exact ⟨some (.wrapNil k), by simp [cloneOneof, (Bool.and_eq_true _ _ ▸ hv : _ ∧ _).2], hv, rfl⟩
  | wrap k x =>
    simp only [oneofOK] at hv
    cases hm : d.member slot k with
    | none => simp [hm] at hv
    | some f =>
      simp only [hm, Bool.and_eq_true, Bool.not_eq_true'] at hv
      have hx : x.depth ≤ n := by simp only [Val.depth] at hdep; omega
      obtain ⟨w, h1, h2, h3⟩ := cloneSingular_ok hC hr p hx hv.1
      have hcm : ∃ y, cloneMember E rec f p x = .ok y ∧ elemOK (wtM E.S tn) f.kind f.msg y = true ∧
          AlikeElem (subAlike E.S E.R (Alike E.S E.R)) f.kind f.msg x y := by
        unfold cloneMember
        by_cases hs : isScalarKind f.kind = true
        · exact ⟨x, by simp [hs], hv.1, scalar_alike hs _ _⟩
        · simp only [hs, Bool.false_eq_true, if_false]
          split_ifs with h4 h5
          · refine ⟨w, ?_, h2, h3⟩
            simp only [Bool.and_eq_true, Bool.not_eq_true', FieldDesc.hasMessage, Bool.or_eq_true, beq_iff_eq] at h4
            unfold cloneSingular at h1
            rw [if_pos h4.1, if_neg (by simp [h4.2])] at h1
            exact h1
          · have : x = .nil := by cases x <;> simp_all [Val.isNil]
            subst this
            refine ⟨.nil, rfl, hv.1, ?_⟩
            unfold AlikeElem
            split_ifs
            · exact .inl ⟨rfl, rfl⟩
            · rfl
            · rfl
          · exact ⟨w, h1, h2, h3⟩
      obtain ⟨y, h4, h5, h6⟩ := hcm
      refine ⟨some (.wrap k y), by simp [cloneOneof, hm, h4], ?_, ?_⟩
      · simp only [Option.getD_some, oneofOK, hm, Bool.and_eq_true, Bool.not_eq_true']
        refine ⟨h5, ?_⟩
        have := hv.2
        simp only [Bool.and_eq_false_iff, beq_eq_false_iff_ne, ne_eq] at this ⊢
        rcases this with (h | h) | h
        · exact .inl (.inl h)
        · exact .inl (.inr h)
        · by_cases hk : f.kind = .message
          · refine .inr ?_
            unfold AlikeElem at h6
            rw [if_pos (.inl hk)] at h6
            rcases h6 with h6 | h6
            · rw [h6.1] at h; cases h
            · cases y <;> simp_all [Val.isNil]
          · exact .inl (.inr hk)
      · simp only [Option.getD_some, AlikeOneof]
        exact ⟨trivial, f, hm, h6⟩
  | _ => simp [oneofOK] at hv

/-! ## The assignments -/

/-- What happens to the struct field of `f`. -/
def cloneOut (E : KEnv) (rec : SubClone) (d : MsgDesc) (p : List Nat) (m : List Val) (f : FieldDesc) : Res (Option Val) :=
  if f.oneof then cloneOneof E rec d f.slot (p ++ [f.slot]) (slotOf m f)
  else if !isReference d.proto3 f then .ok (some (slotOf m f))
  else if f.card != .repeated && f.hasMessage && (E.direct f.msg && !(E.S.msg f.msg).foreign) then do
    let w ← rec (p ++ [f.slot]) f.msg (slotOf m f)
    .ok (some w)
  else cloneField E rec f (p ++ [f.slot]) (slotOf m f)

/-- Both passes. -/
def cloneRun (E : KEnv) (rec : SubClone) (d : MsgDesc) (p : List Nat) (m : List Val) : List FieldDesc → List Val → Res (List Val)
  | [], r => .ok r
  | f :: fs, r => do
    let o ← cloneOut E rec d p m f
    cloneRun E rec d p m fs (assignTo r f.slot o)

/-- Is the field handled in the first pass? -/
def inFirst (S : Schema) (dir : Nat → Bool) (d : MsgDesc) (f : FieldDesc) : Prop :=
  f.oneof = false ∧ ((!isReference d.proto3 f) = true ∨ (f.card != .repeated && f.hasMessage && (dir f.msg && !(S.msg f.msg).foreign)) = true)

theorem cloneFirst_run (d : MsgDesc) (p : List Nat) (m : List Val) : ∀ (fs : List FieldDesc) (r : List Val), (∀ f ∈ fs, inFirst E.S E.direct d f) →
    cloneFirst E rec d p m fs r = cloneRun E rec d p m fs r := by
  intro fs
  induction fs with
  | nil => intros; rfl
  | cons f fs ih =>
    intro r h
    obtain ⟨h1, h2⟩ := h f (by simp)
    have ih := fun r => ih r fun g hg => h g (by simp [hg])
    unfold cloneFirst cloneRun cloneOut
    rw [h1]
    by_cases hr : (!isReference d.proto3 f) = true
    · simp [hr, ih, assignTo]
    · have h2 : (f.card != .repeated && f.hasMessage && (E.direct f.msg && !(E.S.msg f.msg).foreign)) = true := by
        rcases h2 with h2 | h2
        · exact absurd h2 hr
        · exact h2
      simp only [hr, h2, if_true, Bool.false_eq_true, if_false]
      cases rec (p ++ [f.slot]) f.msg (slotOf m f) <;> simp [ih, assignTo]

theorem cloneSecond_run (d : MsgDesc) (p : List Nat) (m : List Val) : ∀ (fs : List FieldDesc) (r : List Val),
    (∀ f ∈ fs, f.oneof = true ∨ ¬ inFirst E.S E.direct d f) → cloneSecond E rec d p m fs r = cloneRun E rec d p m fs r := by
  intro fs
  induction fs with
  | nil => intros; rfl
  | cons f fs ih =>
    intro r h
    have h2 := h f (by simp)
    have ih := fun r => ih r fun g hg => h g (by simp [hg])
    unfold cloneSecond cloneRun cloneOut
    by_cases h1 : f.oneof = true
    · simp only [h1, if_true]
      cases cloneOneof E rec d f.slot (p ++ [f.slot]) (slotOf m f) <;> simp [ih]
    · have h1' : f.oneof = false := by simpa using h1
      have h2 : ¬ ((!isReference d.proto3 f) = true ∨ (f.card != .repeated && f.hasMessage && (E.direct f.msg && !(E.S.msg f.msg).foreign)) = true) := by
        intro h
        rcases h2 with h2 | h2
        · exact h1 h2
        · exact h2 ⟨h1', h⟩
      simp only [not_or] at h2
      simp only [h1', h2, Bool.false_eq_true, if_false]
      cases cloneField E rec f (p ++ [f.slot]) (slotOf m f) <;> simp [ih]

theorem cloneRun_append (d : MsgDesc) (p : List Nat) (m : List Val) : ∀ (fs gs : List FieldDesc) (r : List Val),
    cloneRun E rec d p m (fs ++ gs) r = (cloneRun E rec d p m fs r).bind (cloneRun E rec d p m gs) := by
  intro fs
  induction fs with
  | nil => intros; rfl
  | cons f fs ih =>
    intro gs r
    simp only [List.cons_append, cloneRun]
    cases cloneOut E rec d p m f with
    | ok o => exact ih _ _
    | _ => rfl

theorem cloneSplit_first (S : Schema) (dir : Nat → Bool) (d : MsgDesc) : ∀ (fs : List FieldDesc) (seen : List Nat), ∀ f ∈ (cloneSplit S dir d seen fs).1, inFirst S dir d f ∧ f ∈ fs := by
  intro fs
  induction fs with
  | nil => simp [cloneSplit]
  | cons g fs ih =>
    intro seen f hf
    unfold cloneSplit at hf
    simp only at hf
    split_ifs at hf with h1 h2 h3 h4
    · have := ih _ f hf; exact ⟨this.1, by simp [this.2]⟩
    · have := ih _ f hf; exact ⟨this.1, by simp [this.2]⟩
    · rcases List.mem_cons.1 hf with rfl | hf
      · exact ⟨⟨by simpa using h1, .inl h3⟩, by simp⟩
      · have := ih _ f hf; exact ⟨this.1, by simp [this.2]⟩
    · rcases List.mem_cons.1 hf with rfl | hf
      · exact ⟨⟨by simpa using h1, .inr h4⟩, by simp⟩
      · have := ih _ f hf; exact ⟨this.1, by simp [this.2]⟩
    · have := ih _ f hf; exact ⟨this.1, by simp [this.2]⟩

theorem cloneSplit_second (S : Schema) (dir : Nat → Bool) (d : MsgDesc) : ∀ (fs : List FieldDesc) (seen : List Nat), ∀ f ∈ (cloneSplit S dir d seen fs).2,
    (f.oneof = true ∧ f.slot ∉ seen ∨ f.oneof = false ∧ ¬ inFirst S dir d f) ∧ f ∈ fs := by
  intro fs
  induction fs with
  | nil => simp [cloneSplit]
  | cons g fs ih =>
    intro seen f hf
    unfold cloneSplit at hf
    simp only at hf
    split_ifs at hf with h1 h2 h3 h4
    · have := ih _ f hf; exact ⟨this.1, by simp [this.2]⟩
    · rcases List.mem_cons.1 hf with rfl | hf
      · exact ⟨.inl ⟨h1, by simpa using h2⟩, by simp⟩
      · have := ih _ f hf
        refine ⟨?_, by simp [this.2]⟩
        rcases this.1 with h | h
        · exact .inl ⟨h.1, fun hm => h.2 (by simp [hm])⟩
        · exact .inr h
    · have := ih _ f hf; exact ⟨this.1, by simp [this.2]⟩
    · have := ih _ f hf; exact ⟨this.1, by simp [this.2]⟩
    · rcases List.mem_cons.1 hf with rfl | hf
      · exact ⟨.inr ⟨by simpa using h1, fun h => by rcases h.2 with h | h <;> contradiction⟩, by simp⟩
      · have := ih _ f hf; exact ⟨this.1, by simp [this.2]⟩

/-- Every field is in one of the passes, or shares a oneof with one that is. -/
theorem cloneSplit_cover (S : Schema) (dir : Nat → Bool) (d : MsgDesc) : ∀ (fs : List FieldDesc) (seen : List Nat), ∀ f ∈ fs,
    (f.oneof = false → f ∈ (cloneSplit S dir d seen fs).1 ++ (cloneSplit S dir d seen fs).2) ∧
    (f.oneof = true → f.slot ∈ seen ∨ ∃ g ∈ (cloneSplit S dir d seen fs).2, g.oneof = true ∧ g.slot = f.slot) := by
  intro fs
  induction fs with
  | nil => simp
  | cons g fs ih =>
    intro seen f hf
    unfold cloneSplit
    simp only
    rcases List.mem_cons.1 hf with rfl | hf
    · constructor
      · intro h
        simp only [h, Bool.false_eq_true, if_false]
        split_ifs <;> simp
      · intro h
        simp only [h, if_true]
        split_ifs with h2
        · exact .inl (by simpa using h2)
        · exact .inr ⟨f, by simp, h, rfl⟩
    · split_ifs with h1 h2 h3 h4
      · exact ih _ f hf
      · have := ih (g.slot :: seen) f hf
        refine ⟨fun h => ?_, fun h => ?_⟩
        · have := this.1 h
          simp only [List.mem_append, List.mem_cons] at this ⊢
          tauto
        · rcases this.2 h with h | ⟨k, h3, h4⟩
          · rcases List.mem_cons.1 h with h | h
            · exact .inr ⟨g, by simp, h1, h.symm⟩
            · exact .inl h
          · exact .inr ⟨k, by simp [h3], h4⟩
      · have := ih seen f hf
        refine ⟨fun h => ?_, this.2⟩
        have := this.1 h
        simp only [List.cons_append, List.mem_cons]
        exact .inr this
      · have := ih seen f hf
        refine ⟨fun h => ?_, this.2⟩
        have := this.1 h
        simp only [List.cons_append, List.mem_cons]
        exact .inr this
      · have := ih seen f hf
        refine ⟨fun h => ?_, fun h => ?_⟩
        · have := this.1 h
          simp only [List.mem_append, List.mem_cons] at this ⊢
          tauto
        · rcases this.2 h with h | ⟨k, h3, h4⟩
          · exact .inl h
          · exact .inr ⟨k, by simp [h3], h4⟩

theorem cloneSplit_slots {S : Schema} {dir : Nat → Bool} {d : MsgDesc} (hd : MsgFacts d) : ∀ (fs : List FieldDesc) (seen : List Nat), (∀ f ∈ fs, f ∈ d.fields) → (fs.map (·.num)).Nodup →
    (((cloneSplit S dir d seen fs).1 ++ (cloneSplit S dir d seen fs).2).map (·.slot)).Nodup := by
  intro fs
  induction fs with
  | nil => simp [cloneSplit]
  | cons g fs ih =>
    intro seen hm hn
    simp only [List.map_cons, List.nodup_cons] at hn
    have hm' : ∀ f ∈ fs, f ∈ d.fields := fun f hf => hm f (by simp [hf])
    have hne : ∀ f ∈ fs, f.num ≠ g.num := fun f hf h => hn.1 (by rw [← h]; exact List.mem_map_of_mem hf)
    -- the slot of `g` is not taken by the others
    have key : ∀ seen', (g.oneof = true → g.slot ∈ seen') → g.slot ∉ ((cloneSplit S dir d seen' fs).1 ++ (cloneSplit S dir d seen' fs).2).map (·.slot) := by
      intro seen' hs hmem
      obtain ⟨f, hf, hfs⟩ := List.mem_map.1 hmem
      have hff : f ∈ fs := by
        rcases List.mem_append.1 hf with hf | hf
        · exact (cloneSplit_first S dir d fs seen' f hf).2
        · exact (cloneSplit_second S dir d fs seen' f hf).2
      obtain ⟨a, b⟩ := hd.share f (hm' f hff) g (hm g (by simp)) (hne f hff) hfs
      rcases List.mem_append.1 hf with hf | hf
      · have := (cloneSplit_first S dir d fs seen' f hf).1.1
        rw [a] at this; cases this
      · rcases (cloneSplit_second S dir d fs seen' f hf).1 with h | h
        · rw [hfs] at h
          exact h.2 (hs b)
        · rw [a] at h; cases h.1
    have mid : ∀ (a b : List FieldDesc), g.slot ∉ (a ++ b).map (·.slot) → ((a ++ b).map (·.slot)).Nodup → ((a ++ g :: b).map (·.slot)).Nodup := by
      intro a b h1 h2
      rw [List.map_append, List.map_cons]
      rw [List.map_append] at h1 h2
      exact (List.nodup_middle).2 (List.nodup_cons.2 ⟨h1, h2⟩)
    unfold cloneSplit
    simp only
    split_ifs with h1 h2 h3 h4
    · exact ih seen hm' hn.2
    · exact mid _ _ (key _ fun _ => by simp) (ih _ hm' hn.2)
    · rw [List.cons_append, List.map_cons, List.nodup_cons]
      exact ⟨key _ fun h => absurd h h1, ih _ hm' hn.2⟩
    · rw [List.cons_append, List.map_cons, List.nodup_cons]
      exact ⟨key _ fun h => absurd h h1, ih _ hm' hn.2⟩
    · exact mid _ _ (key _ fun h => absurd h h1) (ih _ hm' hn.2)

/-- The effect of assignments to different struct fields. -/
theorem cloneRun_ok {d : MsgDesc} (p : List Nat) (m : List Val) : ∀ (fs : List FieldDesc) (r : List Val), (∀ f ∈ fs, f.slot < r.length) →
    (fs.map (·.slot)).Nodup → (∀ f ∈ fs, ∃ o, cloneOut E rec d p m f = .ok o) →
    ∃ r', cloneRun E rec d p m fs r = .ok r' ∧ r'.length = r.length ∧
      (∀ f ∈ fs, ∀ o, cloneOut E rec d p m f = .ok o → slotOf r' f = o.getD (slotOf r f)) ∧ (∀ g : FieldDesc, g.slot ∉ fs.map (·.slot) → slotOf r' g = slotOf r g) := by
  intro fs
  induction fs with
  | nil => exact fun r _ _ _ => ⟨r, rfl, rfl, by simp, fun _ _ => rfl⟩
  | cons f fs ih =>
    intro r hl hn ho
    simp only [List.map_cons, List.nodup_cons] at hn
    obtain ⟨o, h1⟩ := ho f (by simp)
    obtain ⟨r', h2, h3, h4, h5⟩ := ih (assignTo r f.slot o) (fun g hg => by cases o <;> simp [assignTo, hl g (by simp [hg])]) hn.2 fun g hg => ho g (by simp [hg])
    have hfs : slotOf (assignTo r f.slot o) f = o.getD (slotOf r f) := by
      cases o with
      | none => rfl
      | some w => exact slotOf_set_self r f w (hl f (by simp))
    have hgs : ∀ g : FieldDesc, g.slot ≠ f.slot → slotOf (assignTo r f.slot o) g = slotOf r g := by
      intro g hg
      cases o with
      | none => rfl
      | some w => exact slotOf_set_ne r w hg
    refine ⟨r', by simp [cloneRun, h1, h2], ?_, ?_, ?_⟩
    · rw [h3]; cases o <;> simp [assignTo]
    · intro g hg o' ho'
      rcases List.mem_cons.1 hg with rfl | hg
      · rw [h1] at ho'
        cases ho'
        rw [h5 _ hn.1, hfs]
      · have hne : g.slot ≠ f.slot := fun h => hn.1 (by rw [← h]; exact List.mem_map_of_mem hg)
        rw [h4 g hg o' ho', hgs g hne]
    · intro g hg
      simp only [List.map_cons, List.mem_cons, not_or] at hg
      rw [h5 g hg.2, hgs g hg.1]

/-- A field, whichever pass handles it. -/
theorem cloneOut_ok (hC : RuntimeClone E.R) (hr : ClonesTo E tn n rec) {d : MsgDesc} (hd : MsgFacts d) {f : FieldDesc} (hf : f ∈ d.fields) (p : List Nat)
    {m : List Val} {z : Val} (hdep : (slotOf m f).depth ≤ n)
    (hv : (if f.oneof then oneofOK tn (wtM E.S tn) d f.slot (slotOf m f) else fieldOK (wtM E.S tn) f (slotOf m f)) = true)
    (hz : (if f.oneof then oneofOK tn (wtM E.S tn) d f.slot z else fieldOK (wtM E.S tn) f z) = true) (he : EmptySlot f z) :
    ∃ o, cloneOut E rec d p m f = .ok o ∧
      (if f.oneof then oneofOK tn (wtM E.S tn) d f.slot (o.getD z) else fieldOK (wtM E.S tn) f (o.getD z)) = true ∧
      (if f.oneof then AlikeOneof (subAlike E.S E.R (Alike E.S E.R)) d f.slot (slotOf m f) (o.getD z)
        else AlikeField (subAlike E.S E.R (Alike E.S E.R)) f (slotOf m f) (o.getD z)) := by
  have ff := hd.fields f hf
  unfold cloneOut
  by_cases ho : f.oneof = true
  · simp only [ho, if_true] at hv hz ⊢
    have hzn : z = .nil := by
      rcases he with rfl | ⟨sp, rfl⟩ | ⟨_, rfl, _⟩
      · simp [zeroField, ho]
      · simp [oneofOK] at hz
      · simp [oneofOK] at hz
    subst hzn
    exact cloneOneof_ok hC hr hd _ hdep hv
  · have ho' : f.oneof = false := by simpa using ho
    simp only [ho', Bool.false_eq_true, if_false] at hv hz ⊢
    by_cases hi : (!isReference d.proto3 f) = true
    · simp only [hi, if_true]
      refine ⟨_, rfl, hv, ?_⟩
      simp only [isReference, Bool.not_eq_true', Bool.or_eq_false_iff, Bool.not_eq_false', beq_eq_false_iff_ne, ne_eq] at hi
      obtain ⟨⟨⟨⟨⟨h1, -⟩, h2⟩, h3⟩, h4⟩, h5⟩ := hi
      have hm : f.map = none := by
        cases hm : f.map with
        | none => rfl
        | some md => exact absurd (ff.map md hm).1 h4
      unfold AlikeField
      simp only [hm, if_neg h4, Option.getD_some]
      refine ⟨fun _ => by simp, scalar_alike ?_ _ _⟩
      simp only [FieldDesc.hasMessage, Bool.or_eq_false_iff, beq_eq_false_iff_ne, ne_eq] at h3
      simp [isScalarKind, h3, h5]
    · simp only [hi, Bool.false_eq_true, if_false]
      by_cases hs : (f.card != .repeated && f.hasMessage && (E.direct f.msg && !(E.S.msg f.msg).foreign)) = true
      · simp only [hs, if_true]
        simp only [Bool.and_eq_true, bne_iff_ne, ne_eq, Bool.not_eq_true'] at hs
        obtain ⟨⟨hc, hm⟩, hfor⟩ := hs
        have hp := ff.singMsg hc hm
        have hc' : (f.card == Card.repeated) = false := by simpa using hc
        have hmap : f.map = none := by
          cases hmap : f.map with
          | none => rfl
          | some md => exact absurd (ff.map md hmap).1 hc
        have hk : f.kind = .message ∨ f.kind = .group := by simpa [FieldDesc.hasMessage] using hm
        have hfo : ∀ v, fieldOK (wtM E.S tn) f v = (v.isNil || wtM E.S tn f.msg v) := by
          intro v
          unfold fieldOK
          simp only [hmap, hc', hp, Bool.false_eq_true, if_false, if_true]
          rcases hk with hk | hk <;> simp [hk, elemOK]
        have hfa : ∀ v w, AlikeField (subAlike E.S E.R (Alike E.S E.R)) f v w ↔
            ((f.presence = true → (v = .nil ↔ w = .nil)) ∧ ((v = .nil ∧ w = .nil) ∨ (v ≠ .nil ∧ w ≠ .nil ∧ subAlike E.S E.R (Alike E.S E.R) f.msg v w))) := by
          intro v w
          unfold AlikeField AlikeElem
          simp only [hmap, if_neg hc, if_pos hk]
        rw [hfo] at hv
        obtain ⟨r1, r2⟩ := hr (p ++ [f.slot]) f.msg (slotOf m f) hdep hfor.2
        by_cases hn : slotOf m f = .nil
        · refine ⟨some .nil, by rw [r1 hn]; rfl, by rw [hfo]; rfl, ?_⟩
          rw [hfa, Option.getD_some]
          exact ⟨fun _ => by simp [hn], .inl ⟨hn, rfl⟩⟩
        · have hw : wtM E.S tn f.msg (slotOf m f) = true := by
            rcases Bool.or_eq_true_iff.1 hv with h | h
            · generalize slotOf m f = v at h hn
              cases v <;> simp_all [Val.isNil]
            · exact h
          obtain ⟨w, h1, h2, h3⟩ := r2 hw
          refine ⟨some w, by rw [h1]; rfl, by rw [hfo, Option.getD_some, h2]; simp, ?_⟩
          rw [hfa, Option.getD_some]
          have hwn := wtM_ne_nil h2
          refine ⟨fun _ => by simp [hn, hwn], .inr ⟨hn, hwn, ?_⟩⟩
          unfold subAlike
          rw [if_neg (by simp [hfor])]
          exact h3
      · simp only [hs, Bool.false_eq_true, if_false]
        refine cloneField_ok hC hr ff _ hdep hv hz he ho' ?_
        intro hn hc hp
        by_contra hk
        rw [hn] at hv
        have hc' : (f.card == Card.repeated) = false := by simpa using hc
        have hmap : f.map = none := by
          cases hmap : f.map with
          | none => rfl
          | some md => exact absurd (ff.map md hmap).1 hc
        unfold fieldOK at hv
        simp only [hmap, hc', hp, Bool.false_eq_true, if_false] at hv
        revert hv hk
        cases f.kind <;> simp [scalarOK]

/-- A message from the pool or a new one: struct fields. -/
theorem alloc_slots (hS : schemaOK E.S = true) (hb : PoolsBlank E) (hk : noKeptBytes E.S) (p : List Nat) {t : Nat} (hf : (E.S.msg t).foreign = false) :
    ∃ r, cloneAlloc E p t = .msg r [] [] ∧ wtM E.S .solid t (.msg r [] []) = true ∧ ∀ f ∈ (E.S.msg t).fields, EmptySlot f (slotOf r f) := by
  have hB : Blank E.S t (cloneAlloc E p t) := by
    unfold cloneAlloc
    split_ifs with h
    · exact hb p t h
    · exact blank_zero hS t
  have ht := blank_typed hS _ t _ (Nat.le_refl _) hB
  obtain ⟨r, u, e, he⟩ := wtM_isMsg ht
  have hu : u = [] ∧ e = [] := by
    rw [he] at hB
    unfold Blank zeroMsg at hB
    rw [reuse_msg hf] at hB
    exact ⟨hB.1, hB.2.1⟩
  obtain ⟨rfl, rfl⟩ := hu
  refine ⟨r, he, by rw [← he]; exact ht, fun f hm => ?_⟩
  rw [he] at hB
  rcases blank_slot hS hf hB hm with h | h | ⟨h1, h2⟩
  · exact .inl h
  · exact .inr (.inl h)
  · by_cases hz : slotOf r f = zeroField f
    · exact .inl hz
    · refine .inr (.inr ⟨h1, h2, ?_⟩)
      by_cases hp : (E.S.msg t).pooled = true
      · have ff := (schemaOK_msg hS t).fields f hm
        by_cases ho : f.oneof = true
        · exfalso
          rw [he, wtM_msg, hf] at ht
          simp only [Bool.false_or, Bool.and_eq_true, List.all_eq_true] at ht
          have := ht.2 f hm
          simp [ho, h2, oneofOK] at this
        · by_cases hc : f.card = .repeated
          · exact (ff.rep hc).1
          · exact hk t hp f hm h1 hc (by simpa using ho)
      · exfalso
        apply hz
        unfold cloneAlloc at he
        rw [if_neg hp] at he
        unfold zeroMsg at he
        simp only [Val.msg.injEq] at he
        rw [← he.1]
        exact zeroMsg_slot hS hm

theorem clone_clones (hS : schemaOK E.S = true) (hC : RuntimeClone E.R) (hb : PoolsBlank E) (hk : noKeptBytes E.S) : ∀ n, ClonesTo E tn n (cloneN E (n + 1)) := by
  intro n
  induction n with
  | zero =>
    intro p t v hd _
    refine ⟨fun h => by subst h; rfl, fun h => ?_⟩
    obtain ⟨s, u, e, rfl⟩ := wtM_isMsg h
    simp [Val.depth] at hd
  | succ n ih =>
    intro p t v hd hf
    refine ⟨fun h => by subst h; rfl, fun h => ?_⟩
    obtain ⟨m, u, e, rfl⟩ := wtM_isMsg h
    have hdm : Val.depthList m ≤ n := by simp only [Val.depth] at hd; omega
    have hM := schemaOK_msg hS t
    obtain ⟨r, hal, hrt, hre⟩ := alloc_slots hS hb hk p hf
    have hrt : wtM E.S tn t (.msg r [] []) = true := by
      cases tn
      · exact members_weaken (by simp) (by simp) _ _ _ hrt
      · exact members_weaken (by simp) (by simp) _ _ _ hrt
      · exact hrt
    rw [wtM_msg, hf] at h hrt
    simp only [Bool.false_or, Bool.and_eq_true, decide_eq_true_eq, List.all_eq_true] at h hrt
    have hout : ∀ f ∈ (E.S.msg t).fields, _ := fun f hm => cloneOut_ok hC ih hM hm p (m := m) (z := slotOf r f)
      (by have := depth_slotOf m f; omega) (h.2 f hm) (hrt.2 f hm) (hre f hm)
    have hA := cloneSplit_first E.S E.direct (E.S.msg t) (E.S.msg t).fields []
    have hB := cloneSplit_second E.S E.direct (E.S.msg t) (E.S.msg t).fields []
    have hcov := cloneSplit_cover E.S E.direct (E.S.msg t) (E.S.msg t).fields []
    have hnd := cloneSplit_slots (S := E.S) (dir := E.direct) hM (E.S.msg t).fields [] (fun _ h => h) hM.nodup
    generalize hsp : cloneSplit E.S E.direct (E.S.msg t) [] (E.S.msg t).fields = ab at hA hB hcov hnd
    obtain ⟨a, b⟩ := ab
    have hmem : ∀ f ∈ a ++ b, f ∈ (E.S.msg t).fields := by
      intro f hm
      rcases List.mem_append.1 hm with hm | hm
      · exact (hA f hm).2
      · exact (hB f hm).2
    obtain ⟨r', h1, h2, h3, h4⟩ := cloneRun_ok (E := E) (rec := cloneN E (n + 1)) (d := E.S.msg t) p m (a ++ b) r
      (fun f hm => by rw [hrt.1]; exact (hM.fields f (hmem f hm)).slot) hnd (fun f hm => by
        obtain ⟨o, ho, -⟩ := hout f (hmem f hm)
        exact ⟨o, ho⟩)
    rw [cloneRun_append] at h1
    obtain ⟨r1, h5, h6⟩ := Res.bind_eq_ok.1 h1
    rw [← cloneFirst_run _ _ _ _ _ fun f hm => (hA f hm).1] at h5
    rw [← cloneSecond_run _ _ _ _ _ fun f hm => by
      rcases (hB f hm).1 with h | h
      · exact .inl h.1
      · exact .inr h.2] at h6
    refine ⟨.msg r' (if (E.S.msg t).keepUnknown && decide (u.length > 0) then u else []) [], ?_, ?_, ?_⟩
    · have h5' : cloneFirst E (cloneN E (n + 1)) (E.S.msg t) p m a r = .ok r1 := h5
      rw [show cloneN E (n + 1 + 1) = cloneBody E (cloneN E (n + 1)) from rfl]
      simp only [cloneBody, hal, hsp]
      refine Res.bind_eq_ok.2 ⟨r1, h5', Res.bind_eq_ok.2 ⟨r', h6, rfl⟩⟩
    · rw [wtM_msg, hf]
      simp only [Bool.false_or, Bool.and_eq_true, decide_eq_true_eq, List.all_eq_true]
      refine ⟨by rw [h2, hrt.1], fun f hm => ?_⟩
      by_cases ho : f.oneof = true
      · rcases (hcov f hm).2 ho with hs | ⟨g, hg, hgo, hgs⟩
        · simp at hs
        · have hg' : g ∈ a ++ b := List.mem_append.2 (.inr hg)
          obtain ⟨o, o1, o2, -⟩ := hout g (hmem g hg')
          have := h3 g hg' o o1
          have hsf : slotOf r' f = slotOf r' g := by unfold slotOf; rw [hgs]
          rw [if_pos ho, hsf, this]
          simp only [hgo, if_true, hgs] at o2
          exact o2
      · have hg' := (hcov f hm).1 (by simpa using ho)
        obtain ⟨o, o1, o2, -⟩ := hout f hm
        rw [h3 f hg' o o1]
        exact o2
    · rw [alike_iff]
      refine ⟨fun f hm => ?_, fun hku => ?_⟩
      · by_cases ho : f.oneof = true
        · rcases (hcov f hm).2 ho with hs | ⟨g, hg, hgo, hgs⟩
          · simp at hs
          · have hg' : g ∈ a ++ b := List.mem_append.2 (.inr hg)
            obtain ⟨o, o1, -, o2⟩ := hout g (hmem g hg')
            have := h3 g hg' o o1
            have hsf : slotOf r' f = slotOf r' g := by unfold slotOf; rw [hgs]
            have hsm : slotOf m f = slotOf m g := by unfold slotOf; rw [hgs]
            rw [if_pos ho, hsf, this, hsm]
            simp only [hgo, if_true, hgs] at o2
            exact o2
        · have hg' := (hcov f hm).1 (by simpa using ho)
          obtain ⟨o, o1, -, o2⟩ := hout f hm
          rw [h3 f hg' o o1]
          exact o2
      · rw [hku]
        cases u <;> simp

end

end Vtp
