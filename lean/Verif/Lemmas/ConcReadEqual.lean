import Verif.Lemmas.ConcReadMarshal
import Verif.Lemmas.HeapSimMsg
/-! # `EqualVT` on memory -/

namespace Vtp.Conc
open Spec

variable {S : Schema} {B : Bufs} {h : Heap} {F F1 F2 : Addr → Prop} {R : Runtime}

/-- Objects of the one or the other. -/
def Both (F1 F2 : Addr → Prop) : Addr → Prop := fun a => F1 a ∨ F2 a

theorem Gives.left {α : Type} {x : Prog α} {r : Res α} (hx : Gives (Sees B h F1) x r) : Gives (Sees B h (Both F1 F2)) x r := hx.mono (Sees.mono fun _ => .inl)

theorem Gives.right {α : Type} {x : Prog α} {r : Res α} (hx : Gives (Sees B h F2) x r) : Gives (Sees B h (Both F1 F2)) x r := hx.mono (Sees.mono fun _ => .inr)

/-- A message in memory or a new one. -/
def SrcAt (S : Schema) (B : Bufs) (h : Heap) (F : Addr → Prop) (t : Nat) (p : Src) (v : Val) : Prop :=
  (∃ x, p = .at x ∧ At S B h F (.msg t) x v) ∨ (p = .fresh ∧ v = zeroMsg S t)

theorem SrcAt.isNil {t : Nat} {p : Src} {v : Val} (hp : SrcAt S B h F t p v) : p.isNil = v.isNil := by
  rcases hp with ⟨x, rfl, hx⟩ | ⟨rfl, rfl⟩
  · exact hx.isNil (by simp)
  · rfl

theorem SrcAt.foreign {t : Nat} (hf : (S.msg t).foreign = true) {p : Src} {v : Val} (hp : SrcAt S B h F t p v) : Gives (Sees B h F) (p.foreign S t) (.ok v) := by
  rcases hp with ⟨x, rfl, hx⟩ | ⟨rfl, rfl⟩
  · exact hx.foreign hf
  · exact .pure _

theorem at_zeroField (d : MsgDesc) (f : FieldDesc) : At S B h F (fieldTy d f) (hzeroField f) (zeroField f) := by
  by_cases hc : (f.oneof || f.card == .repeated || f.presence) = true
  · simp only [hzeroField, zeroField, hc, if_true]
    exact .nil (fieldTy_nilable d f)
  · have hty : fieldTy d f = elemTy f.kind f.msg := by
      simp only [Bool.or_eq_true, not_or, Bool.not_eq_true] at hc
      simp [fieldTy, hc.1.1, hc.1.2, hc.2]
    simp only [hzeroField, zeroField, hc, Bool.false_eq_true, if_false, hty]
    refine ⟨0, by simp, ?_⟩
    cases f.kind <;> first | exact .num .done | exact .str .done | exact .nil rfl .done

theorem at_zeroSlot (d : MsgDesc) (s : Nat) : At S B h F (slotTy d s) (hzeroSlot d s) (zeroSlot d s) := by
  cases hfd : d.fields.find? (fun f => f.slot == s) with
  | none =>
    simp only [slotTy, hzeroSlot, zeroSlot, hfd]
    exact .nil rfl
  | some f =>
    simp only [slotTy, hzeroSlot, zeroSlot, hfd]
    exact at_zeroField d f

theorem At.addr {t : Nat} {a : Addr} {v : Val} (hx : At S B h F (.msg t) (.ptr a) v) : F a := by
  obtain ⟨G, hG, h1⟩ := hx
  cases h1 with
  | foreign _ _ _ _ => exact hG _ (Multiset.mem_cons_self _ _)
  | msg _ _ _ _ => exact hG _ (Multiset.mem_cons_self _ _)

/-- What the code sees of a message. -/
theorem SrcAt.msg (hS : schemaOK S = true) {t : Nat} (hf : (S.msg t).foreign = false) {p : Src} {v : Val} (hp : SrcAt S B h F t p v) (hn : v.isNil = false) :
    ∃ vs ub e, v = .msg vs ub e ∧ Gives (Sees B h F) p.unknown (.ok ub) ∧
      ∀ f ∈ (S.msg t).fields, ∃ x, Gives (Sees B h F) (p.slot S t f.slot) (.ok x) ∧ At S B h F (fieldTy (S.msg t) f) x (slotOf vs f) := by
  have hd := schemaOK_msg hS t
  rcases hp with ⟨x, rfl, hx⟩ | ⟨rfl, rfl⟩
  · rcases hx.msg hd hf with ⟨rfl, rfl⟩ | ⟨a, s, u, e, vs, uv, rfl, ha, hc, rfl, hu, hs⟩
    · simp [Val.isNil] at hn
    · exact ⟨vs, _, e, rfl, .bind_ok (gives_getUnknown hc) (hu.bytes (.inr (.inr rfl))), fun f hfm => ⟨_, gives_getSlot hc _, hs f hfm⟩⟩
  · refine ⟨_, [], [], rfl, .pure _, fun f hfm => ⟨_, .pure _, ?_⟩⟩
    have hs := (hd.fields f hfm).slot
    simp only [hzeroCell, hf, Bool.false_eq_true, if_false, slotOf]
    rw [List.getD_eq_getElem?_getD, List.getD_eq_getElem?_getD, List.getElem?_map, List.getElem?_map, List.getElem?_range hs, ← slotTy_eq hd hfm]
    exact at_zeroSlot _ _

/-! ## Comparisons -/

section
variable (hdis : ∀ a, F1 a → F2 a → False)
include hdis

theorem same_nil {t : Nat} {x y : HV} {v w : Val} (hx : At S B h F1 (.msg t) x v) (hy : At S B h F2 (.msg t) y w) : HV.same x y = (v.isNil && w.isNil) := by
  have h1 := hx.isNil (by simp)
  have h2 := hy.isNil (by simp)
  rw [← h1, ← h2]
  cases x <;> cases y <;> first | rfl | skip
  rename_i a b
  show (a == b) = false
  rw [beq_eq_false_iff_ne]
  intro e
  exact hdis a hx.addr (e ▸ hy.addr)

theorem SrcAt.same {t : Nat} {p q : Src} {v w : Val} (hp : SrcAt S B h F1 t p v) (hq : SrcAt S B h F2 t q w) : p.same q = (v.isNil && w.isNil) := by
  rcases hp with ⟨x, rfl, hx⟩ | ⟨rfl, rfl⟩
  · rcases hq with ⟨y, rfl, hy⟩ | ⟨rfl, rfl⟩
    · exact same_nil hdis hx hy
    · show false = (v.isNil && false); rw [Bool.and_false]
  · rfl

end

theorem gives_scalarEq {k : Kind} {t : Nat} (hm : k ≠ .message) (hg : k ≠ .group) (hb : k ≠ .bytes) {x y : HV} {v w : Val}
    (hx : At S B h F1 (elemTy k t) x v) (hy : At S B h F2 (elemTy k t) y w) :
    Gives (Sees B h (Both F1 F2)) (hscalarEq k x y) (.ok (scalarEq k v w)) := by
  obtain ⟨h1, h2⟩ := hx.cases_elem hm hg
  obtain ⟨h3, h4⟩ := hy.cases_elem hm hg
  unfold hscalarEq
  by_cases hk : k = .string
  · subst hk
    rw [if_pos rfl]
    exact .bind_ok h1.left (.bind_ok h3.right (.pure _))
  · rw [if_neg hk]
    have h5 := h2 (by simp [hk, hb])
    have h6 := h4 (by simp [hk, hb])
    show _ = _
    cases k <;> first | exact absurd rfl hk | simp [scalarEq, Val.bits, h5, h6]

/-- Comparison of sub-messages gives what the one on values does. -/
def RecEqual (S : Schema) (B : Bufs) (h : Heap) (F1 F2 : Addr → Prop) (rec : HSubEq) (rec' : SubEq) : Prop :=
  ∀ path t p q v w, (S.msg t).foreign = false → SrcAt S B h F1 t p v → SrcAt S B h F2 t q w → Gives (Sees B h (Both F1 F2)) (rec t p q) (rec' path t v w)

/-- No two pointers are the same. -/
abbrev apartEnv (S : Schema) (R : Runtime) : CEnv := ⟨S, R, fun _ => false⟩

variable {rec : HSubEq} {rec' : SubEq} (H : RecEqual S B h F1 F2 rec rec') (hdis : ∀ a, F1 a → F2 a → False)
include H hdis

omit hdis in
theorem gives_callEqual {path : List Nat} {t : Nat} {p q : Src} {v w : Val} (hp : SrcAt S B h F1 t p v) (hq : SrcAt S B h F2 t q w) :
    Gives (Sees B h (Both F1 F2)) (hcallEqual (apartEnv S R) rec t p q) (callEqual (apartEnv S R) rec' path t v w) := by
  unfold hcallEqual callEqual
  by_cases hf : (S.msg t).foreign = true
  · simp only [hf, if_true]
    exact .bind_ok (hp.foreign hf).left (.bind_ok (hq.foreign hf).right (.pure _))
  · simp only [hf, Bool.false_eq_true, if_false]
    exact H path t p q v w (by simpa using hf) hp hq

omit H hdis in
theorem SrcAt.orNew {t : Nat} {x : HV} {v : Val} (hx : At S B h F (.msg t) x v) :
    SrcAt S B h F t (if x.isNil then .fresh else .at x) (if v.isNil then zeroMsg S t else v) := by
  rw [hx.isNil (by simp)]
  cases v.isNil with
  | true => exact .inr ⟨rfl, rfl⟩
  | false => exact .inl ⟨x, rfl, hx⟩

theorem gives_compareCall (nullable : Bool) {path : List Nat} {t : Nat} {x y : HV} {v w : Val} (hx : At S B h F1 (.msg t) x v) (hy : At S B h F2 (.msg t) y w) :
    Gives (Sees B h (Both F1 F2)) (hcompareCall (apartEnv S R) rec nullable t x y) (compareCall (apartEnv S R) rec' nullable path t v w) := by
  unfold hcompareCall compareCall
  cases nullable with
  | true => exact gives_callEqual H (.inl ⟨x, rfl, hx⟩) (.inl ⟨y, rfl, hy⟩)
  | false =>
    simp only [Bool.false_eq_true, if_false, same_nil hdis hx hy, CEnv.ptrEq, Bool.false_and, Bool.or_false]
    split
    · exact .pure _
    · exact gives_callEqual H (.orNew hx) (.orNew hy)

/-- Elements, wrapped values and fields without presence. -/
theorem gives_compareKind {path : List Nat} {k : Kind} {t : Nat} {x y : HV} {v w : Val} (hx : At S B h F1 (elemTy k t) x v) (hy : At S B h F2 (elemTy k t) y w) :
    Gives (Sees B h (Both F1 F2)) (hcompareKind (apartEnv S R) rec false k t x y) (compareKind (apartEnv S R) rec' false path k t v w) := by
  cases k
  case message => exact gives_compareCall H hdis false hx hy
  case group => exact gives_compareCall H hdis false hx hy
  case bytes => exact .bind_ok (hx.bytes (.inr (.inl rfl))).left (.bind_ok (hy.bytes (.inr (.inl rfl))).right (.pure _))
  all_goals exact gives_scalarEq (t := t) (by decide) (by decide) (by decide) hx hy

omit hdis H in
theorem gives_boxEq {k : Kind} {x y : HV} {v w : Val} (hm : k ≠ .message) (hg : k ≠ .group) (hb : k ≠ .bytes) (hx : At S B h F1 .box x v) (hy : At S B h F2 .box y w) :
    Gives (Sees B h (Both F1 F2)) (hcompareScalar true k x y) (compareScalar true k v w) := by
  have h1 := hx.isNil (by simp)
  have h2 := hy.isNil (by simp)
  have hty : elemTy k 0 = .flat := by cases k <;> simp_all [elemTy]
  unfold hcompareScalar compareScalar
  simp only [if_true, h1, h2]
  split
  · exact .pure _
  · split
    · split
      · exact .pure _
      · rename_i hv hw
        rcases hx.box with ⟨rfl, rfl⟩ | ⟨a, x', rfl, hc, hv', hx'⟩
        · simp [Val.isNil] at hv
        rcases hy.box with ⟨rfl, rfl⟩ | ⟨b, y', rfl, hc', hw', hy'⟩
        · simp [Val.isNil] at hw
        simp only [deref, hv', hw', Bool.false_eq_true, if_false]
        refine .bind_ok (Gives.left (.bind_ok (.read hc) (.pure _))) (.bind_ok (Gives.right (.bind_ok (.read hc') (.pure _))) ?_)
        exact gives_scalarEq (t := 0) hm hg hb (hty ▸ hx') (hty ▸ hy')
    · exact .pure _

omit H hdis in
theorem gives_allIdx {Z : Addr → Cell → Prop} {α : Type} {g : Nat → Prog Bool} {g' : Nat → α → Res Bool} {l : List α}
    (hg : ∀ i (hi : i < l.length), Gives Z (g i) (g' i l[i])) : ∀ n i, i + n = l.length → Gives Z (hallIdx g i n) (allIdx g' i (l.drop i)) := by
  intro n
  induction n with
  | zero => intro i hi; rw [List.drop_eq_nil_of_le (by omega)]; exact .pure _
  | succ n ih =>
    intro i hi
    rw [List.drop_eq_getElem_cons (by omega)]
    refine .bind (hg i (by omega)) fun b _ => ?_
    split
    · exact ih (i + 1) (by omega)
    · exact .pure _

omit H hdis in
theorem gives_allOf {Z : Addr → Cell → Prop} {α : Type} {g : α → Prog Bool} {g' : α → Res Bool} : ∀ {l : List α}, (∀ a ∈ l, Gives Z (g a) (g' a)) →
    Gives Z (hallOf g l) (allRes g' l)
  | [], _ => .pure _
  | a :: l, hg => by
    refine .bind (hg a (List.mem_cons_self ..)) fun b _ => ?_
    split
    · exact gives_allOf fun b hb => hg b (List.mem_cons_of_mem _ hb)
    · exact .pure _

omit H hdis in
theorem At.mapGet {ty : Ty} {x : HV} {v : Val} (hx : At S B h F (.map ty) x v) (k : Key) :
    (mapGet v k = none ∧ Gives (Sees B h F) (hmapGet x k) (.ok none)) ∨
      ∃ y w, mapGet v k = some w ∧ Gives (Sees B h F) (hmapGet x k) (.ok (some y)) ∧ At S B h F ty y w := by
  rcases hx.map with ⟨rfl, rfl⟩ | ⟨a, es, rfl, ha, hc, rfl, hI⟩
  · exact .inl ⟨rfl, .pure _⟩
  · have h1 : Gives (Sees B h F) (hmapGet (.ptr a) k) (.ok ((es.find? fun e => decide (e.1 = k)).map (·.2.1))) := by
      refine .bind_ok (.read hc) ?_
      show _ = _
      rw [List.find?_map, Option.map_map]
      rfl
    have h2 : Vtp.mapGet (.map (es.map fun e => (e.1, e.2.2))) k = (es.find? fun e => decide (e.1 = k)).map (·.2.2) := by
      unfold Vtp.mapGet
      simp only [Val.entries]
      rw [List.find?_map, Option.map_map]
      rfl
    rw [h2]
    cases hf : es.find? fun e => decide (e.1 = k) with
    | none => rw [hf] at h1; exact .inl ⟨rfl, h1⟩
    | some e => rw [hf] at h1; exact .inr ⟨_, _, rfl, h1, hI e (List.mem_of_find?_eq_some hf)⟩

omit H hdis in
/-- `nullable` and presence are the same for singular fields outside of oneofs. -/
theorem nullable_presence {d : MsgDesc} {f : FieldDesc} (hf : FieldFacts d f) (hr : f.card ≠ .repeated) (ho : f.oneof = false) : d.nullable f = f.presence := by
  unfold MsgDesc.nullable
  by_cases hm : f.hasMessage = true
  · simp [hm, hf.singMsg hr hm]
  · by_cases hs : f.synthetic = true
    · simp [hs, (hf.synth hs).2]
    · by_cases hp : d.proto3 = true
      · simp [hm, hs, hp, hf.implicit hr hp ho (by simpa using hs) (by simpa using hm)]
      · simp [hp, ho, hf.proto2 hr (by simpa using hp)]

theorem gives_compareField {d : MsgDesc} {f : FieldDesc} (hf : FieldFacts d f) (ho : f.oneof = false) {path : List Nat} {x y : HV} {v w : Val}
    (hx : At S B h F1 (valTy false f) x v) (hy : At S B h F2 (valTy false f) y w) :
    Gives (Sees B h (Both F1 F2)) (hcompareField (apartEnv S R) rec f (d.nullable f) x y) (compareField (apartEnv S R) rec' path f (d.nullable f) v w) := by
  have hi : FieldIs d false f := ⟨hf, fun hc => by cases hc⟩
  unfold hcompareField compareField
  by_cases hr : f.card = .repeated
  · have hr' : (f.card == .repeated) = true := by simp [hr]
    simp only [hr', if_true]
    refine .bind_ok (gives_fieldLen hi hr hx).left (.bind_ok (gives_fieldLen hi hr hy).right ?_)
    by_cases hl : f.len v = f.len w
    · simp only [hl, ne_eq, not_true, if_false]
      cases hm : f.map with
      | some md =>
        rw [valTy_map hi hm] at hx hy
        have hl' : f.len w = v.entries.length := by rw [← hl]; simp [FieldDesc.len, hm]
        rw [hl']
        refine gives_allIdx (l := v.entries) (fun i hi => ?_) _ 0 (by omega)
        obtain ⟨x', h1, h2⟩ := hx.entryAt i hi
        refine .bind_ok h1.left ?_
        rcases hy.mapGet v.entries[i].1 with ⟨e, h3⟩ | ⟨y', w', e, h3, h4⟩
        · simp only [e]
          exact .bind_ok h3.right (.pure _)
        · simp only [e]
          exact .bind_ok h3.right (gives_compareKind H hdis h2 h4)
      | none =>
        rw [valTy_list hi hr hm] at hx hy
        have hl' : f.len w = v.elems.length := by rw [← hl]; simp [FieldDesc.len, hm]
        have hl'' : w.elems.length = v.elems.length := by rw [← hl']; simp [FieldDesc.len, hm]
        rw [hl']
        refine gives_allIdx (l := v.elems) (fun i hi => ?_) _ 0 (by omega)
        obtain ⟨x', h1, h2⟩ := hx.index i hi
        obtain ⟨y', h3, h4⟩ := hy.index i (by omega)
        have : indexVal w i = .ok w.elems[i] := by
          unfold indexVal
          rw [List.getElem?_eq_getElem (by omega)]
        rw [this]
        exact .bind_ok h1.left (.bind_ok h3.right (gives_compareKind H hdis h2 h4))
    · simp only [hl, ne_eq, not_false_iff, if_true]
      exact .pure _
  · have hr' : (f.card == .repeated) = false := by simp [hr]
    simp only [hr', Bool.false_eq_true, if_false]
    have hnp := nullable_presence hf hr ho
    by_cases hm : f.hasMessage = true
    · rw [valTy_msg hi hr hm] at hx hy
      simp only [FieldDesc.hasMessage, Bool.or_eq_true, beq_iff_eq] at hm
      rcases hm with hm | hm <;> rw [hm] <;> exact gives_compareCall H hdis _ hx hy
    · simp only [FieldDesc.hasMessage, Bool.or_eq_true, beq_iff_eq, not_or] at hm
      rw [valTy_single hi hr] at hx hy
      by_cases hb : f.kind = .bytes
      · simp only [isBoxed, hb, isScalarKind, bne_self_eq_false, Bool.and_false, Bool.false_eq_true, if_false] at hx hy
        rw [hb]
        refine .bind_ok (hx.bytes (.inr (.inl rfl))).left (.bind_ok (hy.bytes (.inr (.inl rfl))).right ?_)
        rw [hx.isNil (by simp [elemTy]), hy.isNil (by simp [elemTy])]
        exact .pure _
      · have hbx : isBoxed false f = f.presence := by
          simp [isBoxed, isScalarKind, hm.1, hm.2, hb]
        have hck : ∀ n, hcompareKind (apartEnv S R) rec n f.kind f.msg x y = hcompareScalar n f.kind x y := by
          intro n
          revert hm hb
          cases f.kind <;> intro hm hb <;> first | rfl | exact absurd rfl hb | exact absurd rfl hm.1 | exact absurd rfl hm.2
        have hck' : ∀ n, compareKind (apartEnv S R) rec' n path f.kind f.msg v w = compareScalar n f.kind v w := by
          intro n
          revert hm hb
          cases f.kind <;> intro hm hb <;> first | rfl | exact absurd rfl hb | exact absurd rfl hm.1 | exact absurd rfl hm.2
        rw [hnp, hck, hck']
        rw [hbx] at hx hy
        cases hp : f.presence with
        | true =>
          simp only [hp, if_true] at hx hy
          exact gives_boxEq hm.1 hm.2 hb hx hy
        | false =>
          simp only [hp, Bool.false_eq_true, if_false] at hx hy
          exact gives_scalarEq hm.1 hm.2 hb hx hy

theorem gives_compareOneof {d : MsgDesc} (hd : MsgFacts d) {path : List Nat} {slot : Nat} {x y : HV} {v w : Val}
    (hx : At S B h F1 (.oneof d slot) x v) (hy : At S B h F2 (.oneof d slot) y w) :
    Gives (Sees B h (Both F1 F2)) (hcompareOneof (apartEnv S R) rec d slot x y) (compareOneof (apartEnv S R) rec' path d slot v w) := by
  have h1 := hx.isNil (by simp)
  have h2 := hy.isNil (by simp)
  unfold hcompareOneof compareOneof
  simp only [h1, h2]
  rcases hx.oneof with ⟨rfl, rfl⟩ | ⟨m, rfl, rfl⟩ | ⟨a, m, x', v', f, rfl, ha, hc, rfl, hm, hx'⟩
  · cases w <;> exact .pure _
  · rcases hy.oneof with ⟨rfl, rfl⟩ | ⟨m', rfl, rfl⟩ | ⟨b, m', y', w', g, rfl, hb, hc', rfl, hm', hy'⟩
    · exact .pure _
    · simp only [Val.isNil, Bool.not_false, Bool.and_true, Bool.false_eq_true, if_false, if_true]
      refine .bind_ok (.pure _) ?_
      cases d.member slot m with
      | none => exact .lift _
      | some f => exact .pure _
    · simp only [Val.isNil, Bool.not_false, Bool.and_true, Bool.false_eq_true, if_false, if_true]
      refine .bind_ok (.pure _) ?_
      cases d.member slot m with
      | none => exact .lift _
      | some f => exact .pure _
  · rcases hy.oneof with ⟨rfl, rfl⟩ | ⟨m', rfl, rfl⟩ | ⟨b, m', y', w', g, rfl, hb, hc', rfl, hm', hy'⟩
    · exact .pure _
    · simp only [Val.isNil, Bool.not_false, Bool.and_true, Bool.false_eq_true, if_false, if_true]
      refine .bind_ok (Gives.left (.bind_ok (.read hc) (.pure _))) ?_
      simp only [hm]
      exact .pure _
    · simp only [Val.isNil, Bool.not_false, Bool.and_true, Bool.false_eq_true, if_false, if_true]
      refine .bind_ok (Gives.left (.bind_ok (.read hc) (.pure _))) ?_
      simp only [hm, hwrapperEqual, wrapperEqual]
      refine .bind_ok (Gives.right (.read hc')) ?_
      simp only
      by_cases he : m' = f.num
      · have hab : ¬ a = b := fun e => hdis a ha (e ▸ hb)
        simp only [he, ne_eq, not_true, if_false, hab, CEnv.ptrEq, Val.isNil, Bool.false_and, Bool.or_false, Bool.false_eq_true]
        refine .bind_ok (Gives.left (.read hc)) ?_
        have hfg : g = f := by
          obtain ⟨-, h3, -⟩ := member_is hd hm
          rw [he, h3, hm] at hm'
          exact (Option.some.inj hm').symm
        rw [hfg] at hy'
        exact gives_compareKind H hdis hx' hy'
      · simp only [he, ne_eq, not_false_iff, if_true]
        exact .pure _

omit H in
theorem gives_equalN (hS : schemaOK S = true) : ∀ n, RecEqual S B h F1 F2 (hequalN (apartEnv S R) n) (equalN (apartEnv S R) n) := by
  intro n
  induction n with
  | zero => intro path t p q v w _ _ _; exact .lift _
  | succ n ih =>
    intro path t p q v w hf hp hq
    have hd := schemaOK_msg hS t
    unfold hequalN equalN
    rw [hp.same hdis hq, hp.isNil, hq.isNil]
    simp only [CEnv.ptrEq, Bool.false_and, Bool.or_false]
    cases hv : v.isNil with
    | true =>
      have : v = .nil := by cases v <;> first | rfl | simp [Val.isNil] at hv
      subst this
      cases hw : w.isNil with
      | true => exact .pure _
      | false => cases w <;> first | exact .pure _ | simp [Val.isNil] at hw
    | false =>
      obtain ⟨vs, ub, e, rfl, hu, hs⟩ := hp.msg hS hf hv
      cases hw : w.isNil with
      | true =>
        have : w = .nil := by cases w <;> first | rfl | simp [Val.isNil] at hw
        subst this
        exact .pure _
      | false =>
        obtain ⟨ws, ub', e', rfl, hu', hs'⟩ := hq.msg hS hf hw
        simp only [Bool.false_and, Bool.or_false, Bool.false_eq_true, if_false]
        unfold hequalBody equalBody
        refine .bind (gives_allOf fun f hfm => ?_) fun b _ => ?_
        · have hfm' : f ∈ (S.msg t).fields ∧ f.oneof = true := oneofFirst_mem hfm
          obtain ⟨x, h1, h2⟩ := hs f hfm'.1
          obtain ⟨y, h3, h4⟩ := hs' f hfm'.1
          rw [fieldTy, if_pos hfm'.2] at h2 h4
          exact .bind_ok h1.left (.bind_ok h3.right (gives_compareOneof ih hdis hd h2 h4))
        · split
          · refine .bind (gives_allOf fun f hfm => ?_) fun b _ => ?_
            · rw [List.mem_filter, sortFields, List.mem_insertionSort] at hfm
              have ho : f.oneof = false := by simpa using hfm.2
              obtain ⟨x, h1, h2⟩ := hs f hfm.1
              obtain ⟨y, h3, h4⟩ := hs' f hfm.1
              rw [fieldTy_valTy ho] at h2 h4
              exact .bind_ok h1.left (.bind_ok h3.right (gives_compareField ih hdis (hd.fields f hfm.1) ho h2 h4))
            · split
              · split
                · exact .bind_ok hu.left (.bind_ok hu'.right (.pure _))
                · exact .pure _
              · exact .pure _
          · exact .pure _
where
  oneofFirst_mem {seen : List Nat} {fs : List FieldDesc} {f : FieldDesc} (hf : f ∈ oneofFirst seen (sortFields fs)) : f ∈ fs ∧ f.oneof = true := by
    have : ∀ (l : List FieldDesc) seen, f ∈ oneofFirst seen l → f ∈ l ∧ f.oneof = true := by
      intro l
      induction l with
      | nil => intro seen hm; simp [oneofFirst] at hm
      | cons g l ih =>
        intro seen hm
        unfold oneofFirst at hm
        split at hm
        · rename_i ho
          split at hm
          · exact ⟨List.mem_cons_of_mem _ (ih _ hm).1, (ih _ hm).2⟩
          · rcases List.mem_cons.mp hm with rfl | hm
            · exact ⟨List.mem_cons_self .., ho⟩
            · exact ⟨List.mem_cons_of_mem _ (ih _ hm).1, (ih _ hm).2⟩
        · exact ⟨List.mem_cons_of_mem _ (ih _ hm).1, (ih _ hm).2⟩
    obtain ⟨h1, h2⟩ := this _ _ hf
    rw [sortFields, List.mem_insertionSort] at h1
    exact ⟨h1, h2⟩

end Vtp.Conc
