import Verif.Lemmas.HeapSimMsg
/-! # Decoding in memory and decoding of values: maps and the loops -/

namespace Vtp
open Spec

/-- Code on memory and its result on values; what it makes is `item`. -/
def HSimRes (S : Schema) (B : Bufs) {α β : Type} (rel : α → β → Prop) (item : α → β → VItem) (x : HM α) (r : Res β) (R : List VItem) (σ : HState) : Prop :=
  match r with
  | .ok b => ∃ σ' a, x σ = (σ', .ok a) ∧ rel a b ∧ Holds S B σ' (item a b :: R)
  | .err e => ∃ σ', x σ = (σ', .err e) ∧ Holds S B σ' R
  | .panic e => ∃ σ', x σ = (σ', .panic e) ∧ Holds S B σ' R
  | .diverge => ∃ σ', x σ = (σ', .diverge) ∧ Holds S B σ' R

section
variable {S : Schema} {B : Bufs} {σ : HState} {R : List VItem} {t : Nat} {p : HV} {f : FieldDesc}
variable {E : HEnv} {later : Bytes}

theorem HSimRes.lift {α β γ : Type} {rel : α → β → Prop} {item : α → β → VItem} {r : Res γ} {x : γ → HM α} {u : γ → Res β} (h : Holds S B σ R)
    (hk : ∀ c, r = .ok c → HSimRes S B rel item (x c) (u c) R σ) : HSimRes S B rel item (HM.lift r >>= x) (r >>= u) R σ := by
  cases r with
  | ok c => exact hk c rfl
  | err e => exact ⟨σ, rfl, h⟩
  | panic e => exact ⟨σ, rfl, h⟩
  | diverge => exact ⟨σ, rfl, h⟩

theorem HSimRes.run {α β : Type} {rel : α → β → Prop} {item : α → β → VItem} {x x' : HM α} {r : Res β} {σ σ' : HState}
    (h : HSimRes S B rel item x r R σ') (hx : x' σ = x σ') : HSimRes S B rel item x' r R σ := by
  unfold HSimRes at *
  rw [hx]
  exact h

/-- A map value of type `ty`. -/
abbrev SimItem (S : Schema) (B : Bufs) (ty : Ty) (x : HM (HV × Nat)) (r : Res (Val × Nat)) (R : List VItem) (σ : HState) : Prop :=
  HSimRes S B (fun a b => a.2 = b.2) (fun a b => (ty, a.1, b.1)) x r R σ

theorem simItem_num {n : BitVec 64} {i : Nat} (h : Holds S B σ R) : SimItem S B .flat (pure (.num n, i)) (.ok (.num n, i)) R σ :=
  ⟨σ, _, rfl, rfl, h.addNum⟩

theorem Spec.Holds.elemBits {k : Kind} {x : HV} {v : Val} (hk : fieldTy.isScalar k = true) (h : Holds S B σ ((elemTy k t, x, v) :: R)) : x.bits = v.bits := by
  rw [elemTy_flat hk] at h
  obtain ⟨F, h1, -⟩ := h
  cases h1 <;> rfl

variable (hE : HSimEnv S B E later)
variable {hrec : HSubDec} {rec : SubDec} (H : HRecSim S B hrec rec)
include hE H

theorem mapItem_sim {k : Kind} {d : Bytes} {base i : Nat} {old : BitVec 64} {oldv : Val} (hold : fieldTy.isScalar k = true → old = oldv.bits)
    (h : Holds S B σ R) : SimItem S B (elemTy k t) (hmapItem E hrec k t d base i old) (mapItem (E.toU later) rec k t d base i oldv) R σ := by
  have hA : (E.toU later).A = E.A := rfl
  have hal : (E.toU later).aliasing = E.aliasing := rfl
  unfold hmapItem mapItem
  cases k with
  | string =>
    simp only [hA]
    refine HSimRes.lift h fun c _ => HSimRes.lift h fun b _ => ?_
    exact ⟨σ, _, rfl, rfl, string_sim hE _ _ h⟩
  | bytes =>
    simp only [hA, hal]
    refine HSimRes.lift h fun c _ => HSimRes.lift h fun c' _ => ?_
    split
    · exact ⟨σ, rfl, h⟩
    · refine HSimRes.lift h fun b _ => ?_
      obtain ⟨σ', v, h1, h2⟩ := newBytes_sim hE (base + c'.1) b h
      exact ⟨σ', _, HM.bind_ok h1, rfl, h2⟩
  | message =>
    simp only [hA]
    refine HSimRes.lift h fun c _ => HSimRes.lift h fun b _ => ?_
    obtain ⟨σ1, x, h1, h2⟩ := new_sim t h
    obtain ⟨h3, h4⟩ := decodeMessage_sim hE H (off := base + c.1) (b := b) _ _ _ h2
    have hS : (E.toU later).S = S := hE.schema
    rw [hS]
    rcases hx : hdecodeMessage E hrec (base + c.1) t b (.ptr x) σ1 with ⟨σ2, r⟩
    rcases hy : decodeMessage (E.toU later) rec (base + c.1) t b (zeroMsg S t) with ⟨x', r'⟩
    rw [hx, hy] at h3 h4
    simp only at h3 h4
    subst h3
    have hrun : ∀ (y : HM (HV × Nat)), ((do let v ← hnew E.S t; hdecodeMessage E hrec (base + c.1) t b v; pure (v, c.2)) : HM (HV × Nat)) σ
        = (hdecodeMessage E hrec (base + c.1) t b (.ptr x) >>= fun _ => pure (.ptr x, c.2)) σ1 := by
      intro _
      rw [hE.schema, HM.bind_ok h1]
    cases r with
    | ok u =>
      refine ⟨σ2, (.ptr x, c.2), ?_, rfl, h4⟩
      rw [hrun (pure (.nil, 0)), HM.bind_ok hx]
      rfl
    | err e =>
      refine ⟨σ2, ?_, h4.tail⟩
      rw [hrun (pure (.nil, 0))]
      simp only [Bind.bind, HM.bind, hx]
    | panic e =>
      refine ⟨σ2, ?_, h4.tail⟩
      rw [hrun (pure (.nil, 0))]
      simp only [Bind.bind, HM.bind, hx]
    | diverge =>
      refine ⟨σ2, ?_, h4.tail⟩
      rw [hrun (pure (.nil, 0))]
      simp only [Bind.bind, HM.bind, hx]
  | group => exact ⟨σ, rfl, h⟩
  | _ =>
    have hb := hold rfl
    subst hb
    simp only [hA]
    refine HSimRes.lift h fun c _ => ?_
    exact simItem_num h

omit hE H in
/-- Keys do not depend on the rest of the surroundings. -/
theorem mapItem_key {U U' : UEnv} {r r' : SubDec} {k : Kind} {t : Nat} {d : Bytes} {base i : Nat} {old : Val} (hk : mapKeyKind k = true) (hA : U.A = U'.A)
    (h1 : U.aliasing = false) (h2 : U'.aliasing = false) : mapItem U r k t d base i old = mapItem U' r' k t d base i old := by
  cases k <;> simp_all [mapKeyKind, mapItem, UEnv.keep]

theorem entryLoop_sim {md : MapDesc} (hkey : mapKeyKind md.key = true) {d : Bytes} {base post : Nat} : ∀ (n i : Nat) (key : Val) (x : HV) (v : Val) (σ : HState),
    Holds S B σ ((elemTy md.val md.valMsg, x, v) :: R) →
    HSimRes S B (fun a b => a.1 = b.1) (fun a b => (elemTy md.val md.valMsg, a.2, b.2)) (hentryLoop E hrec md d base post n i key x)
      (entryLoop (E.toU later) rec md d base post n i key v) R σ
  | 0, _, _, _, _, σ, h => ⟨σ, rfl, h.tail⟩
  | n + 1, i, key, x, v, σ, h => by
    unfold hentryLoop entryLoop
    by_cases hi : i < post
    · simp only [hi, if_true]
      refine HSimRes.lift h.tail fun c _ => ?_
      obtain ⟨wire, j⟩ := c
      simp only
      by_cases h1 : (wire >>> 3).setWidth 32 = (1 : BitVec 32)
      · simp only [h1, if_true]
        have hkey' := mapItem_key (U := ⟨E.S, E.R, E.A, false, [], fun _ _ => .nil⟩) (U' := { E.toU later with aliasing := false })
          (r := fun _ _ _ => UM.lift (.panic .typeConfusion)) (r' := rec) (t := 0) (d := d) (base := base) (i := j) (old := key) hkey rfl rfl rfl
        rw [hkey']
        refine HSimRes.lift h.tail fun c _ => ?_
        exact entryLoop_sim hkey n _ _ _ _ σ h
      · simp only [h1, if_false]
        by_cases h2 : (wire >>> 3).setWidth 32 = (2 : BitVec 32)
        · simp only [h2, if_true]
          have h3 := mapItem_sim hE H (k := md.val) (t := md.valMsg) (d := d) (base := base) (i := j) (old := x.bits) (oldv := v) (σ := σ) (R := R)
            (fun hs => h.elemBits hs) h.tail
          cases hr : mapItem (E.toU later) rec md.val md.valMsg d base j v with
          | ok c =>
            rw [hr] at h3
            obtain ⟨σ', a, h4, h5, h6⟩ := h3
            have h7 := entryLoop_sim hkey (base := base) (d := d) (post := post) n a.2 key a.1 c.1 σ' h6
            rw [h5] at h7
            exact HSimRes.run h7 (by rw [HM.bind_ok h4, ← h5])
          | err e =>
            rw [hr] at h3
            obtain ⟨σ', h4, h5⟩ := h3
            exact ⟨σ', by simp only [Bind.bind, HM.bind, h4], h5⟩
          | panic e =>
            rw [hr] at h3
            obtain ⟨σ', h4, h5⟩ := h3
            exact ⟨σ', by simp only [Bind.bind, HM.bind, h4], h5⟩
          | diverge =>
            rw [hr] at h3
            obtain ⟨σ', h4, h5⟩ := h3
            exact ⟨σ', by simp only [Bind.bind, HM.bind, h4], h5⟩
        · simp only [h2, if_false]
          refine HSimRes.lift h.tail fun c _ => ?_
          exact entryLoop_sim hkey n _ _ _ _ σ h
    · simp only [hi, if_false]
      exact ⟨σ, _, rfl, rfl, h⟩

omit hE H in
theorem Spec.Holds.openMap {e : Ty} {s : HV} {v : Val} (h : Holds S B σ ((.map e, s, v) :: R)) :
    (s = .nil ∧ v = .nil ∧ Holds S B σ R) ∨ ∃ (a : Addr) (es : List (Key × HV × Val)), s = .ptr a ∧ v = .map (es.map fun e => (e.1, e.2.2)) ∧
      Holds S B σ (rawItem (.map (es.map fun e => (e.1, e.2.1))) a :: (es.map (fun x => (e, x.2)) ++ R)) := by
  obtain ⟨F, h1, hg⟩ := h
  cases h1 with
  | nil _ hI => exact .inl ⟨rfl, rfl, F, hI, hg⟩
  | map hc hI => exact .inr ⟨_, _, rfl, rfl, _, .raw hc hI, hg⟩

omit hE H in
theorem Spec.Holds.sealMap {e : Ty} {a : Addr} {es : List (Key × HV × Val)}
    (h : Holds S B σ (rawItem (.map (es.map fun e => (e.1, e.2.1))) a :: (es.map (fun x => (e, x.2)) ++ R))) :
    Holds S B σ ((.map e, .ptr a, .map (es.map fun e => (e.1, e.2.2))) :: R) := by
  obtain ⟨F, h1, hg⟩ := h
  cases h1 with
  | raw hc hI => exact ⟨_, .map hc hI, hg⟩

omit hE H in
theorem insert_both (e : Ty) (k : Key) (x : HV) (v : Val) : ∀ es : List (Key × HV × Val), ∃ (es' : List (Key × HV × Val)) (D : List VItem),
    es'.map (fun e => (e.1, e.2.1)) = hmapInsert (es.map fun e => (e.1, e.2.1)) k x ∧
    es'.map (fun e => (e.1, e.2.2)) = mapInsert (es.map fun e => (e.1, e.2.2)) k v ∧
    ((e, x, v) :: es.map (fun y => (e, y.2))).Perm (D ++ es'.map (fun y => (e, y.2)))
  | [] => ⟨[(k, x, v)], [], rfl, rfl, List.Perm.refl _⟩
  | (k', x', v') :: es => by
    by_cases hk : k' = k
    · subst hk
      refine ⟨(k', x, v) :: es, [(e, x', v')], by simp [hmapInsert], by simp [mapInsert], ?_⟩
      exact List.Perm.swap _ _ _
    · obtain ⟨es', D, h1, h2, h3⟩ := insert_both e k x v es
      refine ⟨(k', x', v') :: es', D, ?_, ?_, ?_⟩
      · simp [hmapInsert, hk, ← h1]
      · simp [mapInsert, hk, ← h2]
      · simp only [List.map_cons]
        refine List.Perm.trans (List.Perm.swap _ _ _) ?_
        exact List.Perm.trans (List.Perm.cons _ h3) List.perm_middle.symm

omit hE H in
theorem mapPut_sim {e : Ty} {s x : HV} {es : List (Key × Val)} {k : Key} {v : Val} (h : Holds S B σ ((.map e, s, .map es) :: (e, x, v) :: R)) :
    ∃ σ', hmapPut s k x σ = (σ', .ok ()) ∧ Holds S B σ' ((.map e, s, .map (mapInsert es k v)) :: R) := by
  rcases h.openMap with ⟨rfl, h2, -⟩ | ⟨a, es, rfl, h2, h'⟩
  · cases h2
  · cases h2
    obtain ⟨es', D, h3, h4, h5⟩ := insert_both e k x v es
    refine ⟨{ σ with heap := σ.heap.set a (.map (hmapInsert (es.map fun e => (e.1, e.2.1)) k x)) }, ?_, ?_⟩
    · unfold hmapPut
      simp only
      rw [HM.bind_ok (hread_ok h'.read)]
      rfl
    · have h6 := h'.write (.map (hmapInsert (es.map fun e => (e.1, e.2.1)) k x))
      rw [← h4]
      refine Holds.sealMap ?_
      rw [h3]
      have h7 : (es.map (fun y => (e, y.2)) ++ (e, x, v) :: R).Perm (D ++ (es'.map (fun y => (e, y.2)) ++ R)) := by
        refine List.Perm.trans List.perm_middle ?_
        rw [← List.append_assoc]
        exact List.Perm.append_right _ h5
      exact Holds.dropLeft (I := D) ((h6.perm (List.Perm.cons _ h7)).perm List.perm_middle.symm)

/-- A map field. -/
theorem mapEntry_sim {md : MapDesc} {d : Bytes} {base i post : Nat} (hf : (S.msg t).foreign = false) (hd : MsgFacts (S.msg t)) (hm : f ∈ (S.msg t).fields)
    (hmap : f.map = some md) :
    SimU S B t p (hmapEntry E hrec f md d base i post p) (mapEntry (E.toU later) rec f md d base i post) := by
  intro m R σ h
  have hfm := (hd.fields f hm).map md hmap
  have ho : f.oneof = false := by
    cases ho : f.oneof with
    | false => rfl
    | true => have := ((hd.fields f hm).oneof ho).1; rw [hfm.1] at this; cases this
  have hty : fieldTy (S.msg t) f = .map (elemTy md.val md.valMsg) := by simp [fieldTy, ho, hfm.1, hmap]
  rcases h.openSlot hf hd hm with ⟨rfl, rfl⟩ | ⟨O, s, sv, rfl, rfl, hO, h'⟩
  · exact ⟨rfl, h⟩
  rw [hty] at h'
  -- the map
  obtain ⟨σ1, s1, es, h1, h2, h3⟩ : ∃ σ1 s1 es, hmakeMap (.ptr O.a) f.slot σ = (σ1, .ok s1) ∧ (if sv.isNil then .map [] else sv) = .map es ∧
      Holds S B σ1 (rawItem (O.cell s1) O.a :: (.map (elemTy md.val md.valMsg), s1, .map es) :: (O.rest ++ R)) := by
    rcases h'.swap.openMap with ⟨rfl, rfl, h2⟩ | ⟨a, es, rfl, rfl, -⟩
    · have h3 := h2.alloc (.map [])
      refine ⟨{ σ.grow (Cell.map []) with heap := (σ.grow (Cell.map [])).heap.set O.a (O.cell (.ptr σ.next)) },
        .ptr σ.next, [], ?_, rfl, ?_⟩
      · unfold hmakeMap
        rw [HM.bind_ok (hO.hget h'.read)]
        show (halloc (.map []) >>= fun a => hsetSlot (.ptr O.a) f.slot (.ptr a) >>= fun _ => pure (HV.ptr a)) σ = _
        rw [HM.bind_ok (halloc_ok _ _), HM.bind_ok (hO.hset h3.swap.read _)]
        rfl
      · have h4 := (h3.swap.write (O.cell (.ptr σ.next))).swap
        exact (Holds.sealMap (es := []) h4).swap
    · refine ⟨σ, .ptr a, _, ?_, rfl, h'⟩
      unfold hmakeMap
      rw [HM.bind_ok (hO.hget h'.read)]
      rfl
  unfold hmapEntry mapEntry
  rw [HM.bind_ok h1, UM.bind_ok (hO.get sv)]
  simp only [h2]
  rw [UM.bind_ok (hO.set sv (.map es))]
  have h4 := entryLoop_sim hE H hfm.2.2.1 (d := d) (base := base) (post := post) (d.length + 1) i (zeroScalar md.key) _ _ σ1 (h3.addZeroScalar md.val md.valMsg)
  have hclose : ∀ σ', Holds S B σ' (rawItem (O.cell s1) O.a :: (.map (elemTy md.val md.valMsg), s1, .map es) :: (O.rest ++ R)) →
      Holds S B σ' ((.msg t, .ptr O.a, O.val (.map es)) :: R) := fun σ' h => Holds.closeSlot hf hO (hty ▸ h)
  cases hr : entryLoop (E.toU later) rec md d base post (d.length + 1) i (zeroScalar md.key) (zeroScalar md.val) with
  | ok c =>
    rw [hr] at h4
    obtain ⟨σ2, a, h5, h6, h7⟩ := h4
    rw [HM.bind_ok h5, UM.bind_ok (show UM.lift (.ok c) (O.val (.map es)) = (O.val (.map es), .ok c) from rfl)]
    have h8 : Holds S B σ2 ((.map (elemTy md.val md.valMsg), s1, .map es) :: (elemTy md.val md.valMsg, a.2, c.2) :: rawItem (O.cell s1) O.a :: (O.rest ++ R)) :=
      h7.perm (List.Perm.trans (List.Perm.cons _ (List.Perm.swap _ _ _)) (List.Perm.swap _ _ _))
    obtain ⟨σ3, h9, h10⟩ := mapPut_sim (k := toKey c.1) h8
    simp only [h6]
    rw [h9]
    simp only [mapPut]
    rw [hO.set]
    exact ⟨rfl, Holds.closeSlot hf hO (hty ▸ h10.swap)⟩
  | err e =>
    rw [hr] at h4
    obtain ⟨σ', h5, h6⟩ := h4
    have : ∀ k : Val × HV → HM Unit, (hentryLoop E hrec md d base post (d.length + 1) i (zeroScalar md.key) (hzeroScalar md.val) >>= k) σ1 = (σ', .err e) := by
      intro k
      simp only [Bind.bind, HM.bind, h5]
    rw [this]
    exact ⟨rfl, hclose _ h6⟩
  | panic e =>
    rw [hr] at h4
    obtain ⟨σ', h5, h6⟩ := h4
    have : ∀ k : Val × HV → HM Unit, (hentryLoop E hrec md d base post (d.length + 1) i (zeroScalar md.key) (hzeroScalar md.val) >>= k) σ1 = (σ', .panic e) := by
      intro k
      simp only [Bind.bind, HM.bind, h5]
    rw [this]
    exact ⟨rfl, hclose _ h6⟩
  | diverge =>
    rw [hr] at h4
    obtain ⟨σ', h5, h6⟩ := h4
    have : ∀ k : Val × HV → HM Unit, (hentryLoop E hrec md d base post (d.length + 1) i (zeroScalar md.key) (hzeroScalar md.val) >>= k) σ1 = (σ', .diverge) := by
      intro k
      simp only [Bind.bind, HM.bind, h5]
    rw [this]
    exact ⟨rfl, hclose _ h6⟩

/-! ## Groups, numbers, packed lists -/

theorem groupLoop_sim {wire : BitVec 64} {d : Bytes} {base start : Nat} (hf : (S.msg t).foreign = false) (hd : MsgFacts (S.msg t)) (hm : f ∈ (S.msg t).fields)
    (hk : f.kind = .group) : ∀ n i : Nat,
    SimU S B t p (hgroupLoop E hrec f wire d base start p n i) (groupLoop (E.toU later) rec f wire d base start n i)
  | 0, _ => SimU.lift _
  | n + 1, i => by
    have hA : (E.toU later).A = E.A := rfl
    unfold hgroupLoop groupLoop
    refine SimU.lift_bind fun c _ => ?_
    obtain ⟨-, j⟩ := c
    simp only
    split
    · refine SimU.lift_bind fun b _ => ?_
      intro m R σ h
      have ho : f.oneof = false := by
        cases ho : f.oneof with
        | false => rfl
        | true => exact absurd hk ((hd.fields f hm).oneof ho).2.2.2
      have hc : f.card ≠ .repeated := fun hc => ((hd.fields f hm).rep hc).2.1 hk
      have hty : fieldTy (S.msg t) f = .msg f.msg := by simp [fieldTy, ho, hc, hk, fieldTy.isScalar, elemTy]
      rcases h.openSlot hf hd hm with ⟨rfl, rfl⟩ | ⟨O, s, sv, rfl, rfl, hO, h'⟩
      · exact ⟨rfl, h⟩
      rw [HM.bind_ok (hO.hget h'.read), UM.bind_ok (hO.get sv)]
      rw [hty] at h'
      obtain ⟨h4, h5⟩ := decodeMessage_sim hE H (off := base + start) (b := b) _ _ _ h'.swap
      have h7 := Holds.closeSlot hf hO (hty ▸ h5.swap)
      rcases hx : hdecodeMessage E hrec (base + start) f.msg b s σ with ⟨σ2, r⟩
      rcases hy : decodeMessage (E.toU later) rec (base + start) f.msg b sv with ⟨x', r'⟩
      rw [hx, hy] at h4
      rw [hy, hx] at h7
      simp only at h4 h7 ⊢
      subst h4
      rw [UM.bind_ok (hO.set sv x')]
      cases r with
      | ok u => 
        rw [HM.bind_ok hx]
        exact ⟨rfl, h7⟩
      | err e =>
        have : ∀ k : Unit → HM Nat, (hdecodeMessage E hrec (base + start) f.msg b s >>= k) σ = (σ2, .err e) := by
          intro k; simp only [Bind.bind, HM.bind, hx]
        rw [this]
        exact ⟨rfl, h7⟩
      | panic e =>
        have : ∀ k : Unit → HM Nat, (hdecodeMessage E hrec (base + start) f.msg b s >>= k) σ = (σ2, .panic e) := by
          intro k; simp only [Bind.bind, HM.bind, hx]
        rw [this]
        exact ⟨rfl, h7⟩
      | diverge =>
        have : ∀ k : Unit → HM Nat, (hdecodeMessage E hrec (base + start) f.msg b s >>= k) σ = (σ2, .diverge) := by
          intro k; simp only [Bind.bind, HM.bind, hx]
        rw [this]
        exact ⟨rfl, h7⟩
    · refine SimU.lift_bind fun b _ => ?_
      simp only [hA]
      refine SimU.lift_bind fun k _ => ?_
      split
      · exact SimU.lift _
      · exact groupLoop_sim hf hd hm hk n _

omit hE H in
theorem scalar_direct {A : Arch} {k : Kind} {b : Bytes} {i : Nat} {v : BitVec 64} (h : direct A k b i = some v) : fieldTy.isScalar k = true := by
  cases k <;> first | rfl | cases h

omit hE H in
theorem direct_sim {proto3 : Bool} {b : Bytes} {i : Nat} (hf : (S.msg t).foreign = false) (hd : MsgFacts (S.msg t)) (hm : f ∈ (S.msg t).fields)
    (h3 : proto3 = true → (S.msg t).proto3 = true) :
    SimU S B t p (hdirect E f proto3 b i p) (if !f.oneof && f.card != .repeated && proto3 && !f.synthetic then
      match direct E.A f.kind b i with
      | some v => setSlot f.slot (.num v)
      | none => pure ()
      else pure ()) := by
  unfold hdirect
  split
  · rename_i hc
    cases hv : direct E.A f.kind b i with
    | none => exact SimU.pure ()
    | some v =>
      intro m R σ h
      simp only [Bool.and_eq_true, Bool.not_eq_true', bne_iff_ne, ne_eq] at hc
      obtain ⟨⟨⟨ho, hr⟩, hp⟩, hs⟩ := hc
      have hk := scalar_direct hv
      have hpres := (hd.fields f hm).implicit hr (h3 hp) ho hs (scalar_noMsg hk)
      have hty : fieldTy (S.msg t) f = .flat := by simp [fieldTy, ho, hr, hpres, elemTy_flat hk]
      exact put_sim hf hd hm (hty ▸ h.addNum.swap)
  · exact SimU.pure ()

omit hE H in
theorem num_sim {proto3 : Bool} {b : Bytes} {i : Nat} (hf : (S.msg t).foreign = false) (hd : MsgFacts (S.msg t)) (hm : f ∈ (S.msg t).fields)
    (h3 : proto3 = true → (S.msg t).proto3 = true) (hk : fieldTy.isScalar f.kind = true) :
    SimU S B t p (hdirect E f proto3 b i p >>= fun _ => HM.lift (readNum E.A f.kind b i) >>= fun c => hstore E (S.msg t) f p (.num c.1) >>= fun _ => pure c.2)
      ((if !f.oneof && f.card != .repeated && proto3 && !f.synthetic then
      match direct E.A f.kind b i with
      | some v => setSlot f.slot (.num v)
      | none => pure ()
      else pure ()) >>= fun _ => UM.lift (readNum E.A f.kind b i) >>= fun c => store f (.num c.1) >>= fun _ => pure c.2) := by
  refine SimU.bind (direct_sim hf hd hm h3) fun _ => SimU.lift_bind fun c _ => SimU.bind ?_ fun _ => SimU.pure _
  intro m R σ h
  exact store_sim (x := .num c.1) hf hd hm hk (fun e => by cases e) m R σ h.addNum.swap

theorem fieldItem_sim {proto3 : Bool} {wire : BitVec 64} {b : Bytes} {base i : Nat} (hf : (S.msg t).foreign = false) (hd : MsgFacts (S.msg t))
    (hm : f ∈ (S.msg t).fields) (h3 : proto3 = true → (S.msg t).proto3 = true) :
    SimU S B t p (hfieldItem E hrec (S.msg t) f proto3 wire b base i p) (fieldItem (E.toU later) rec (S.msg t) f proto3 wire b base i) := by
  have hA : (E.toU later).A = E.A := rfl
  unfold hfieldItem fieldItem
  simp only [hA]
  have hnum := num_sim (E := E) (B := B) (p := p) (b := b) (i := i) hf hd hm h3
  cases hk : f.kind with
  | string =>
    simp only
    refine SimU.lift_bind fun c _ => SimU.lift_bind fun s _ => SimU.bind ?_ fun _ => SimU.pure _
    intro m R σ h
    exact store_sim hf hd hm (by rw [hk]; rfl) (string_solid E _ _) m R σ (string_sim hE _ _ h).swap
  | bytes =>
    simp only
    refine SimU.lift_bind fun c _ => SimU.lift_bind fun s _ => SimU.bind ?_ fun _ => SimU.pure _
    exact storeBytes_sim hE hf hd hm hk
  | group => exact groupLoop_sim hE H hf hd hm hk _ _
  | message =>
    simp only
    refine SimU.lift_bind fun c _ => ?_
    unfold hsubItem
    cases hmap : f.map with
    | some md =>
      simp only
      exact SimU.bind (mapEntry_sim hE H hf hd hm hmap) fun _ => SimU.pure _
    | none =>
      simp only
      rw [HM.bind_assoc]
      exact SimU.lift_bind fun s _ => SimU.bind (messageItem_sim hE H hf hd hm hk hmap) fun _ => SimU.pure _
  | _ =>
    have h := hnum (by rw [hk]; rfl)
    simp only
    rw [← hk]
    by_cases hc : (!f.oneof && f.card != .repeated && proto3 && !f.synthetic) = true
    · simp only [hc, if_true] at h ⊢
      cases hv : direct E.A f.kind b i with
      | none =>
        simp only [hv] at h ⊢
        exact h
      | some v =>
        simp only [hv] at h ⊢
        exact h
    · simp only [hc, Bool.false_eq_true, if_false] at h ⊢
      exact h

theorem packedLoop_sim {wire : BitVec 64} {b : Bytes} {base post : Nat} (hf : (S.msg t).foreign = false) (hd : MsgFacts (S.msg t))
    (hm : f ∈ (S.msg t).fields) : ∀ n i : Nat,
    SimU S B t p (hpackedLoop E hrec (S.msg t) f wire b base post p n i) (packedLoop (E.toU later) rec (S.msg t) f wire b base post n i)
  | 0, _ => SimU.lift _
  | n + 1, i => by
    unfold hpackedLoop packedLoop
    split
    · exact SimU.bind (fieldItem_sim hE H hf hd hm (fun h => by cases h)) fun j => packedLoop_sim hf hd hm n j
    · exact SimU.pure _

omit hE H in
theorem prealloc_sim {count : Nat} (hf : (S.msg t).foreign = false) (hd : MsgFacts (S.msg t)) (hm : f ∈ (S.msg t).fields)
    (hty : count ≠ 0 → fieldTy (S.msg t) f = .list .flat) : SimU S B t p (hprealloc (S.msg t) f count p) (prealloc f count) := by
  intro m R σ h
  unfold hprealloc prealloc
  by_cases hc : count ≠ 0
  · have hty := hty hc
    rw [if_pos hc, if_pos hc]
    rcases h.openSlot hf hd hm with ⟨rfl, rfl⟩ | ⟨O, s, sv, rfl, rfl, hO, h'⟩
    · exact ⟨rfl, h⟩
    rw [HM.bind_ok (hO.hget h'.read), UM.bind_ok (hO.get sv)]
    rw [hty] at h'
    have hmake : ∀ {R}, Holds S B σ R → ∃ σ' s', hmakeSlice count σ = (σ', .ok s') ∧ Holds S B σ' ((.list .flat, s', .list [] []) :: R) := by
      intro R hR
      refine ⟨_, _, rfl, ?_⟩
      have h1 := (Holds.addNils (ty := .flat) rfl count hR).alloc (.arr (List.replicate count .nil))
      have h2 := Holds.sealList (e := .flat) (len := 0) (xs := List.replicate count (.nil, .nil)) (sp := []) (by simp) (by simp [SpareRep, Ty.keeps]) (by simpa using h1)
      simpa using h2
    have hset : ∃ σ', (hmakeSlice count >>= fun s => hsetSlot (.ptr O.a) f.slot s) σ = (σ', .ok ()) ∧
        Holds S B σ' ((.msg t, .ptr O.a, O.val (.list [] [])) :: R) := by
      obtain ⟨σ1, s1, h1, h2⟩ := hmake h'.drop2
      obtain ⟨σ2, h3, h4⟩ := set_sim (f := f) hf hO (hty ▸ h2.swap)
      exact ⟨σ2, by rw [HM.bind_ok h1, h3], h4⟩
    obtain ⟨σ2, h8, h9⟩ := hset
    rcases h'.swap.openList with ⟨rfl, rfl, -⟩ | ⟨a, len, xs, sp, rfl, rfl, hl, hsp, h2⟩
    · rw [HM.bind_ok (show hlenCap .nil σ = (σ, .ok (0, 0)) from rfl)]
      have hpos : 0 < count := Nat.pos_of_ne_zero hc
      simp only [hpos, implies_true, and_self, if_true]
      rw [h8]
      rw [if_pos (by rfl), hO.set]
      exact ⟨rfl, h9⟩
    · have hlc : hlenCap (.slice a len) σ = (σ, .ok (len, xs.length)) := by
        unfold hlenCap
        simp only
        rw [HM.bind_ok (hread_ok h2.read)]
        simp only [List.length_map]
        rfl
      rw [HM.bind_ok hlc]
      simp only
      have hsp' : sp = [] := by simpa [SpareRep, Ty.keeps] using hsp
      subst hsp'
      by_cases hlen : len = 0
      · subst hlen
        have hel : (Val.list ((xs.map (·.2)).take 0) []).elems = [] := rfl
        rw [if_pos hel, hO.set]
        by_cases hcap : (S.msg t).pooled = true → xs.length < count
        · rw [if_pos ⟨rfl, hcap⟩, h8]
          exact ⟨rfl, h9⟩
        · rw [if_neg (fun h => hcap h.2)]
          refine ⟨rfl, ?_⟩
          have := Holds.closeSlot hf hO (hty ▸ h')
          simp only [List.take_zero] at this
          exact this
      · have hel : (Val.list ((xs.map (·.2)).take len) []).elems ≠ [] := by
          simp only [Val.elems]
          intro h0
          have := congrArg List.length h0
          simp only [List.length_take, List.length_map, List.length_nil] at this
          omega
        rw [if_neg hel, if_neg (fun h => hlen h.1)]
        exact ⟨rfl, h⟩
  · rw [if_neg hc, if_neg hc]
    exact ⟨rfl, h⟩

omit hE H in
theorem elementCount_scalar {k : Kind} {b : Bytes} (h : elementCount k b ≠ 0) : fieldTy.isScalar k = true := by
  cases k <;> first | rfl | exact absurd rfl h

theorem fieldCase_sim {wire : BitVec 64} {b : Bytes} {base i : Nat} (hf : (S.msg t).foreign = false) (hd : MsgFacts (S.msg t))
    (hm : f ∈ (S.msg t).fields) :
    SimU S B t p (hfieldCase E hrec (S.msg t) f wire b base i p) (fieldCase (E.toU later) rec (S.msg t) f wire b base i) := by
  have hA : (E.toU later).A = E.A := rfl
  unfold hfieldCase fieldCase
  simp only [hA]
  by_cases hl : (f.isList && protoWireType f.kind != 2) = true
  · simp only [hl, if_true]
    by_cases h1 : (wire &&& 7).toNat = protoWireType f.kind
    · simp only [h1, if_true]
      exact fieldItem_sim hE H hf hd hm (fun h => by cases h)
    · simp only [h1, if_false]
      by_cases h2 : (wire &&& 7).toNat = 2
      · simp only [h2, if_true]
        refine SimU.lift_bind fun c _ => SimU.lift_bind fun s _ => SimU.bind ?_ fun _ => packedLoop_sim hE H hf hd hm _ _
        refine prealloc_sim hf hd hm fun hc => ?_
        have hk := elementCount_scalar hc
        simp only [Bool.and_eq_true] at hl
        have hrep : f.card = .repeated ∧ f.map = none := by
          have := hl.1
          simpa [FieldDesc.isList] using this
        have ho : f.oneof = false := by
          cases ho : f.oneof with
          | false => rfl
          | true => have := ((hd.fields f hm).oneof ho).1; rw [hrep.1] at this; cases this
        simp [fieldTy, ho, hrep.1, hrep.2, elemTy_flat hk]
      · simp only [h2, if_false]
        exact SimU.lift _
  · simp only [hl, Bool.false_eq_true, if_false]
    split
    · exact SimU.lift _
    · exact fieldItem_sim hE H hf hd hm (fun h => h)

omit H in
theorem runtimePartial_sim {b : Bytes} (hf : (S.msg t).foreign = false) (hb : ExtRecord E.A (S.msg t) b) :
    SimU S B t p (hruntimePartial E t b p) (runtimePartial (E.toU later) t b) := by
  intro m R σ h
  rw [hruntimePartial.eq_def]
  unfold runtimePartial
  rcases h.openMsg hf with ⟨rfl, rfl, -⟩ | ⟨a, its, u, uv, e, rfl, rfl, ht, h'⟩
  · exact ⟨rfl, h⟩
  simp only [HEnv.toU]
  rw [HM.bind_ok (hread_ok h'.read)]
  simp only
  cases hv : E.R.unmarshalPartial t b with
  | none => exact ⟨rfl, h⟩
  | some v =>
    obtain ⟨s, u', e', hz, rfl⟩ := hE.ext t b v hb hv
    obtain rfl : (List.range (S.msg t).nslots).map (zeroSlot (S.msg t)) = s := by
      unfold zeroMsg at hz
      injection hz
    simp only [hE.schema]
    have h1 : Holds S B { σ with heap := σ.heap.set a (.msg ((List.range (S.msg t).nslots).map (hzeroSlot (S.msg t))) .nil e') }
        ((.msg t, .ptr a, .msg ((List.range (S.msg t).nslots).map (zeroSlot (S.msg t))) [] e') :: R) := by
      have h2 := h'.write (.msg ((List.range (S.msg t).nslots).map (hzeroSlot (S.msg t))) .nil e')
      have h3 := ((h2.perm (J := (its ++ [(.mem, u, uv)]) ++ rawItem (.msg ((List.range (S.msg t).nslots).map (hzeroSlot (S.msg t))) .nil e') a :: R)
        (by rw [List.append_assoc]; exact List.perm_middle.symm.trans (List.Perm.append_left _ (List.Perm.swap _ _ _)))).dropLeft.addNil (ty := .mem) rfl).addZeroSlots (S.msg t)
          (List.range (S.msg t).nslots)
      have h4 := Holds.sealMsg (t := t) (its := (List.range (S.msg t).nslots).map (fun s => (slotTy (S.msg t) s, hzeroSlot (S.msg t) s, zeroSlot (S.msg t) s)))
        (u := .nil) (uv := .nil) (e := e') (R := R) (a := a) hf (by rw [List.map_map]; rfl) (by
          rw [List.map_map]
          exact h3.perm ((List.Perm.append_left _ (List.Perm.swap _ _ _)).trans List.perm_middle))
      rw [List.map_map] at h4
      exact h4
    exact appendUnknown_sim (E := E) (b := u') hf _ _ _ h1

omit H in
theorem unknownCase_sim {wire : BitVec 64} {k : Nat} {b : Bytes} {i : Nat} (hf : (S.msg t).foreign = false) (hw : decodeVarint 64 b i = .ok (wire, k))
    (hno : (S.msg t).fields.find? (fun f => f.num == ((wire >>> 3).setWidth 32 : BitVec 32).toNat) = none) :
    SimU S B t p (hunknownCase E t ((wire >>> 3).setWidth 32 : BitVec 32).toNat b i p)
      (unknownCase (E.toU later) t ((wire >>> 3).setWidth 32 : BitVec 32).toNat b i) := by
  have hA : (E.toU later).A = E.A := rfl
  have hS : (E.toU later).S = S := hE.schema
  unfold hunknownCase unknownCase hkeepUnknown
  simp only [hA, hS, hE.schema]
  refine SimU.lift_bind fun j hj => ?_
  split
  · rename_i hx
    refine SimU.lift_bind fun s hs => SimU.bind (runtimePartial_sim hE hf ⟨b, i, j, k, wire, hw, hj, hs, ?_, ?_⟩) fun _ => SimU.pure _
    · intro f hfm
      simpa using List.find?_eq_none.1 hno f hfm
    · obtain ⟨r, hr, h⟩ := List.any_eq_true.1 hx
      exact ⟨r, hr, by simpa using h⟩
  · refine SimU.lift_bind fun s _ => ?_
    split
    · exact SimU.bind (appendUnknown_sim hf) fun _ => SimU.pure _
    · exact SimU.bind (SimU.pure _) fun _ => SimU.pure _

theorem recordStep_sim {b : Bytes} {base i : Nat} {has : List (BitVec 64)} (hf : (S.msg t).foreign = false) (hd : MsgFacts (S.msg t)) :
    SimU S B t p (hrecordStep E hrec t b base i has p) (recordStep (E.toU later) rec t b base i has) := by
  have hS : (E.toU later).S = S := hE.schema
  unfold hrecordStep recordStep
  simp only [hS, hE.schema]
  refine SimU.lift_bind fun c hc => ?_
  obtain ⟨wire, j⟩ := c
  simp only
  split
  · exact SimU.lift _
  · split
    · exact SimU.lift _
    · cases hfd : (S.msg t).fields.find? (fun f => f.num == ((wire >>> 3).setWidth 32 : BitVec 32).toNat) with
      | some f =>
        simp only
        exact SimU.bind (fieldCase_sim hE H hf hd (List.mem_of_find?_eq_some hfd)) fun j => SimU.lift_bind fun has _ => SimU.pure _
      | none =>
        simp only
        exact SimU.bind (unknownCase_sim hE hf hc hfd) fun j => SimU.pure _

theorem recordLoop_sim {b : Bytes} {base : Nat} (hf : (S.msg t).foreign = false) (hd : MsgFacts (S.msg t)) : ∀ (n i : Nat) (has : List (BitVec 64)),
    SimU S B t p (hrecordLoop E hrec t b base p n i has) (recordLoop (E.toU later) rec t b base n i has)
  | 0, _, _ => SimU.lift _
  | n + 1, i, has => by
    unfold hrecordLoop recordLoop
    split
    · exact SimU.bind (recordStep_sim hE H hf hd) fun c => recordLoop_sim hf hd n _ _
    · exact SimU.pure _

theorem unmarshalBody_sim : HRecSim S B (hunmarshalBody E hrec) (unmarshalBody (E.toU later) rec) := by
  intro base t b p hf
  have hS : (E.toU later).S = S := hE.schema
  have hd : MsgFacts (S.msg t) := schemaOK_msg hE.ok t
  unfold hunmarshalBody unmarshalBody
  simp only [hS, hE.schema]
  refine SimU.bind (recordLoop_sim hE H hf hd _ _ _) fun c => SimU.lift_bind fun _ _ => ?_
  split
  · exact SimU.lift _
  · exact SimU.pure _

omit H in
theorem unmarshalN_sim : ∀ n, HRecSim S B (hunmarshalN E n) (unmarshalN (E.toU later) n)
  | 0 => fun _ _ _ _ _ => SimU.lift _
  | n + 1 => unmarshalBody_sim hE (unmarshalN_sim n)

omit H in
theorem unmarshalVT_sim {b : Bytes} (hf : (S.msg t).foreign = false) : SimU S B t p (hunmarshalVT E t b p) (unmarshalVT (E.toU later) t b) :=
  unmarshalN_sim hE _ _ _ _ _ hf

end

end Vtp
