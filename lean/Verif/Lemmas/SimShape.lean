import Verif.Lemmas.SimEq
import Verif.Spec.Shape
/-! Runs of the aliasing decoder whose buffer is overwritten differently. -/

namespace Vtp
open Spec

theorem blanks_eq (vs : List Val) : blanks vs = vs.map blank := by
  induction vs with
  | nil => rfl
  | cons v vs ih => simp [blanks, ih]

theorem blankEntries_eq (es : List (Key × Val)) : blankEntries es = es.map fun e => (e.1, blank e.2) := by
  induction es with
  | nil => rfl
  | cons e es ih => obtain ⟨k, v⟩ := e; simp [blankEntries, ih]

theorem blank_isNil (v : Val) : (blank v).isNil = v.isNil := by cases v <;> rfl

theorem blank_mapInsert (es : List (Key × Val)) (k : Key) (v : Val) :
    blankEntries (mapInsert es k v) = mapInsert (blankEntries es) k (blank v) := by
  induction es with
  | nil => rfl
  | cons e es ih =>
    obtain ⟨k', v'⟩ := e
    simp only [mapInsert, blankEntries]
    split <;> simp [blankEntries, ih]

/-- Equal up to the contents of strings. -/
def SameShape (v v' : Val) : Prop := blank v = blank v'

def VRel.shape : VRel := ⟨fun _ => SameShape, fun _ _ => SameShape, fun b b' => b.length = b'.length⟩

theorem VRel.shape_scal {v v' : Val} (h : VRel.shape.scal v v') : SameShape v v' := by
  rcases h with rfl | ⟨b, b', rfl, rfl, h⟩
  · rfl
  · simp only [SameShape, blank, Val.str.injEq]
    rw [show b.length = b'.length from h]

theorem VRel.shape_elem {k : Kind} {t : Nat} {v v' : Val} (h : VRel.shape.elem k t v v') : SameShape v v' := by
  unfold VRel.elem at h
  split at h
  · rcases h with ⟨rfl, rfl⟩ | h
    · rfl
    · exact h
  · exact VRel.shape_scal h

theorem SameShape.msg {s u e} {v : Val} (h : SameShape (.msg s u e) v) : ∃ s', v = .msg s' u e ∧ s.map blank = s'.map blank := by
  cases v <;> simp_all [SameShape, blank, blanks_eq]

theorem SameShape.cases_list {xs sp} {v : Val} (h : SameShape (.list xs sp) v) :
    ∃ xs' sp', v = .list xs' sp' ∧ xs.map blank = xs'.map blank ∧ sp.map blank = sp'.map blank := by
  cases v <;> simp_all [SameShape, blank, blanks_eq]

theorem SameShape.cases_map {es} {v : Val} (h : SameShape (.map es) v) : ∃ es', v = .map es' ∧ blankEntries es = blankEntries es' := by
  cases v <;> simp_all [SameShape, blank]

theorem SameShape.cases_wrap {n x} {v : Val} (h : SameShape (.wrap n x) v) : ∃ x', v = .wrap n x' ∧ SameShape x x' := by
  cases v <;> simp_all [SameShape, blank]

theorem getD_blank {s s' : List Val} (h : s.map blank = s'.map blank) (i : Nat) : SameShape (s.getD i .nil) (s'.getD i .nil) := by
  have : (s.map blank)[i]? = (s'.map blank)[i]? := by rw [h]
  simp only [List.getElem?_map] at this
  simp only [List.getD_eq_getElem?_getD]
  cases h1 : s[i]? <;> cases h2 : s'[i]? <;> simp_all [SameShape]

theorem simEnv_shape {E E' : UEnv} (h : SameCode E E') (hA : E.A.Valid) : SimEnv VRel.shape E E' where
  schema := by rw [h.schema]; exact SamePlan.refl _
  runtime := h.runtime
  arch := h.arch
  valid := hA
  make := h.make
  nil := by intro t m m' hm; rw [← blank_isNil m, ← blank_isNil m', show blank m = blank m' from hm]
  zero _ := rfl
  rt _ _ _ _ _ := rfl
  part t b := by
    have : runtimePartial E' t b = runtimePartial E t b := by unfold runtimePartial; rw [h.runtime]
    rw [this]
    intro m m' hm
    have hm : SameShape m m' := hm
    unfold runtimePartial
    cases m with
    | msg s u e =>
      obtain ⟨s', rfl, hs⟩ := hm.msg
      cases hr : E.R.unmarshalPartial t b with
      | some v => exact ⟨rfl, (), rfl, trivial⟩
      | none => exact .inr ⟨hm, rfl⟩
    | _ =>
      cases m' with
      | msg s u e => simp [SameShape, blank] at hm
      | _ => first | exact .inr ⟨hm, rfl⟩ | simp [SameShape, blank] at hm
  get t _ f _ := by
    intro m m' hm
    have hm : SameShape m m' := hm
    unfold getSlot
    cases m with
    | msg s u e =>
      obtain ⟨s', rfl, hs⟩ := hm.msg
      exact ⟨hm, _, rfl, getD_blank hs _⟩
    | _ =>
      cases m' with
      | msg s u e => simp [SameShape, blank] at hm
      | _ => first | exact .inr ⟨hm, rfl⟩ | simp [SameShape, blank] at hm
  set t _ f _ v v' hv := by
    intro m m' hm
    have hm : SameShape m m' := hm
    unfold setSlot
    cases m with
    | msg s u e =>
      obtain ⟨s', rfl, hs⟩ := hm.msg
      refine ⟨?_, _, rfl, trivial⟩
      show blank _ = blank _
      simp only [blank, blanks_eq, List.map_set, hs, show blank v = blank v' from hv]
    | _ =>
      cases m' with
      | msg s u e => simp [SameShape, blank] at hm
      | _ => first | exact .inr ⟨hm, rfl⟩ | simp [SameShape, blank] at hm
  unk t _ b := by
    intro m m' hm
    have hm : SameShape m m' := hm
    unfold appendUnknown
    cases m with
    | msg s u e =>
      obtain ⟨s', rfl, hs⟩ := hm.msg
      refine ⟨?_, _, rfl, trivial⟩
      show blank _ = blank _
      simp only [blank, blanks_eq, hs]
    | _ =>
      cases m' with
      | msg s u e => simp [SameShape, blank] at hm
      | _ => first | exact .inr ⟨hm, rfl⟩ | simp [SameShape, blank] at hm
  num _ _ _ _ _ _ _ := rfl
  str _ _ _ _ _ _ b b' hb := by
    show blank _ = blank _
    simp only [blank]
    rw [show b.length = b'.length from hb]
  wrap _ f _ _ v v' hv := by
    show blank _ = blank _
    simp only [blank, show blank v = blank v' from VRel.shape_elem hv]
  append _ f _ _ _ _ s s' hs v v' hv := by
    have hs : SameShape s s' := hs
    have hv := VRel.shape_scal hv
    unfold appendVal
    cases s with
    | nil =>
      cases s' <;> simp [SameShape, blank] at hs
      refine ⟨_, rfl, ?_⟩
      show blank _ = blank _
      simp [blank, blanks_eq, show blank v = blank v' from hv]
    | list xs sp =>
      obtain ⟨xs', sp', rfl, h1, h2⟩ := hs.cases_list
      refine ⟨_, rfl, ?_⟩
      show blank _ = blank _
      simp [blank, blanks_eq, h1, show blank v = blank v' from hv, List.map_tail, h2]
    | _ =>
      cases s' with
      | nil => simp [SameShape, blank] at hs
      | list => simp [SameShape, blank] at hs
      | _ => exact .inr rfl
  elems _ f _ _ s s' hs := by
    have hs : SameShape s s' := hs
    cases s with
    | list xs sp =>
      obtain ⟨xs', sp', rfl, h1, h2⟩ := hs.cases_list
      simp only [Val.elems]
      rw [← List.map_eq_nil_iff (f := blank), h1, List.map_eq_nil_iff]
    | _ =>
      cases s' with
      | list => simp [SameShape, blank] at hs
      | _ => simp [Val.elems]
  empty _ _ _ _ := rfl
  map _ f _ md _ s s' hs := by
    have hs : SameShape s s' := hs
    have hn : s.isNil = s'.isNil := by rw [← blank_isNil s, ← blank_isNil s', show blank s = blank s' from hs]
    have hs2 : SameShape (if s.isNil then .map [] else s) (if s'.isNil then .map [] else s') := by
      rw [← hn]; split
      · rfl
      · exact hs
    refine ⟨hs2, ?_⟩
    generalize (if s.isNil then Val.map [] else s) = a at hs2
    generalize (if s'.isNil then Val.map [] else s') = a' at hs2
    cases a with
    | map es =>
      obtain ⟨es', rfl, he⟩ := hs2.cases_map
      refine .inl ⟨es, es', rfl, rfl, fun k v v' hv => ?_⟩
      show blank _ = blank _
      simp only [blank, blank_mapInsert, he, show blank v = blank v' from VRel.shape_elem hv]
    | _ =>
      refine .inr fun k v v' => ?_
      cases a' with
      | map => simp [SameShape, blank] at hs2
      | _ => exact Sim.lift (.inr rfl)
  sub t f _ _ _ s s' hs off off' ha := by
    have hs : SameShape s s' := hs
    have hn : SameShape (newSub E (E.S.msg t) off f.msg) (newSub E' (E.S.msg t) off' f.msg) := by
      unfold newSub
      rw [h.schema]
      split
      · rename_i hp
        simp only [Bool.and_eq_true] at hp
        rw [← UEnv.fresh_pooled (E := E') (by rw [h.schema]; exact hp.2)]; exact ha hp.2
      · rfl
    refine ⟨?_, ?_, ?_⟩
    · unfold subTarget
      rw [h.schema]
      split
      · cases s with
        | wrap n x =>
          obtain ⟨x', rfl, hx⟩ := hs.cases_wrap
          simp only
          split
          · exact ⟨_, rfl, hx⟩
          · exact ⟨_, rfl, hn⟩
        | wrapNil n =>
          cases s' <;> simp [SameShape, blank] at hs
          subst hs
          simp only
          split
          · exact .inr rfl
          · exact ⟨_, rfl, hn⟩
        | _ =>
          cases s' with
          | wrap => simp [SameShape, blank] at hs
          | wrapNil => simp [SameShape, blank] at hs
          | _ => exact ⟨_, rfl, hn⟩
      · split
        · cases s with
          | nil =>
            cases s' <;> simp [SameShape, blank] at hs
            exact ⟨_, rfl, rfl⟩
          | list xs sp =>
            obtain ⟨xs', sp', rfl, h1, h2⟩ := hs.cases_list
            simp only
            split
            · cases sp with
              | nil =>
                cases sp' with
                | nil => exact ⟨_, rfl, rfl⟩
                | cons => simp at h2
              | cons y sp =>
                cases sp' with
                | nil => simp at h2
                | cons y' sp' =>
                  simp only [List.map_cons, List.cons.injEq] at h2
                  refine ⟨_, rfl, ?_⟩
                  rw [← blank_isNil y, h2.1, blank_isNil y']
                  split
                  · rfl
                  · exact h2.1
            · exact ⟨_, rfl, rfl⟩
          | _ =>
            cases s' with
            | nil => simp [SameShape, blank] at hs
            | list => simp [SameShape, blank] at hs
            | _ => exact .inr rfl
        · refine ⟨_, rfl, ?_⟩
          rw [← blank_isNil s, show blank s = blank s' from hs, blank_isNil s']
          split
          · exact hn
          · exact hs
    · intro x x' hx
      have hx : SameShape x x' := hx
      show blank _ = blank _
      unfold subAssign
      split
      · simp only [blank, show blank x = blank x' from hx]
      · split
        · cases s with
          | list xs sp =>
            obtain ⟨xs', sp', rfl, h1, h2⟩ := hs.cases_list
            simp [blank, blanks_eq, h1, show blank x = blank x' from hx, List.map_tail, h2]
          | _ =>
            cases s' with
            | list => simp [SameShape, blank] at hs
            | _ => simp [blank, blanks_eq, show blank x = blank x' from hx]
        · exact hx
    · unfold holds
      cases s with
      | wrap n x =>
        obtain ⟨x', rfl, hx⟩ := hs.cases_wrap
        rfl
      | _ =>
        cases s' with
        | wrap => simp [SameShape, blank] at hs
        | _ => rfl

end Vtp
