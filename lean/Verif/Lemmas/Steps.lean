import Verif.Lemmas.DecodeMsg
/-! What a sequence of records does to one field. -/

namespace Vtp
open Spec

/-- A message with as many struct fields as the descriptor says. -/
def Sized (D : MsgDesc) (m : Val) : Prop := ∃ s u e, m = .msg s u e ∧ s.length = D.nslots

theorem Typed.sized {S : Schema} {t : Nat} {m : Val} (hf : (S.msg t).foreign = false) (h : Typed S t m) : Sized (S.msg t) m := by
  obtain ⟨s, u, e, rfl⟩ := h.nonnil
  exact ⟨s, u, e, rfl, ((typed_iff hf s u e).1 h).1⟩

section
variable {S : Schema} {sub : SubRel} {D : MsgDesc} {f : FieldDesc} {m m' : Val}

theorem Sized.put (h : Sized D m) (f : FieldDesc) (v : Val) : Sized D (put m f v) := by
  obtain ⟨s, u, e, rfl, h⟩ := h
  exact ⟨_, _, _, rfl, by simpa using h⟩

theorem Sized.get_put (h : Sized D m) (hf : f.slot < D.nslots) (v : Val) : Spec.get (Spec.put m f v) f = v := by
  obtain ⟨s, u, e, rfl, h⟩ := h
  exact Vtp.get_put (by omega) v

theorem get_put_other {g : FieldDesc} (h : g.slot ≠ f.slot) (v : Val) : get (put m g v) f = get m f := by
  cases m <;> simp only [Spec.put, Spec.get]
  rw [List.getD_eq_getElem?_getD, List.getD_eq_getElem?_getD, List.getElem?_set_ne h]

theorem get_addUnknown (b : Bytes) : get (addUnknown m b) f = get m f := by cases m <;> rfl

theorem Spec.Step.sized {r : Rec} (h : Step S sub D r m m') (hm : Sized D m) : Sized D m' := by
  cases h
  case unknown =>
    obtain ⟨s, u, e, rfl, h⟩ := hm
    split
    · exact ⟨_, _, _, rfl, h⟩
    · exact ⟨_, _, _, rfl, h⟩
  all_goals exact hm.put _ _

/-- Records of other fields, unless they share the oneof, leave a field alone. -/
theorem Spec.Step.other {r : Rec} (h : Step S sub D r m m') (hf : ∀ g ∈ D.fields, g.num = r.num → g.slot ≠ f.slot) : get m' f = get m f := by
  cases h
  case unknown =>
    split
    · exact get_addUnknown _
    · rfl
  case scalar g _ _ _ h _ _ _ => exact get_put_other (hf g h rfl) _
  case member g _ _ _ h _ _ => exact get_put_other (hf g h rfl) _
  case element g _ _ _ h _ _ _ => exact get_put_other (hf g h rfl) _
  case packed g _ _ _ h _ _ _ _ => exact get_put_other (hf g h rfl) _
  case message g _ _ _ h _ _ _ _ => exact get_put_other (hf g h rfl) _
  case memberMessage g _ _ _ h _ _ _ => exact get_put_other (hf g h rfl) _
  case elementMessage g _ _ _ h _ _ _ _ => exact get_put_other (hf g h rfl) _
  case entry g _ _ _ _ _ h _ _ => exact get_put_other (hf g h rfl) _

theorem Spec.Steps.sized {rs : List Rec} (h : Steps S sub D rs m m') (hm : Sized D m) : Sized D m' := by
  induction h with
  | nil => exact hm
  | cons h _ ih => exact ih (h.sized hm)

theorem Spec.Steps.other {rs : List Rec} (h : Steps S sub D rs m m') (hf : ∀ r ∈ rs, ∀ g ∈ D.fields, g.num = r.num → g.slot ≠ f.slot) : get m' f = get m f := by
  induction h with
  | nil => rfl
  | @cons r rs m m1 m2 h _ ih =>
    rw [ih fun q hq => hf q (List.mem_cons_of_mem _ hq), h.other (hf r List.mem_cons_self)]

theorem Spec.Steps.append {rs1 rs2 : List Rec} (h : Steps S sub D (rs1 ++ rs2) m m') : ∃ m1, Steps S sub D rs1 m m1 ∧ Steps S sub D rs2 m1 m' := by
  induction rs1 generalizing m with
  | nil => exact ⟨m, .nil, h⟩
  | cons r rs ih =>
    cases h with
    | cons h1 h2 =>
      obtain ⟨m1, h3, h4⟩ := ih h2
      exact ⟨m1, .cons h1 h3, h4⟩

theorem Spec.Steps.trans {rs1 rs2 : List Rec} {m1 : Val} (h1 : Steps S sub D rs1 m m1) (h2 : Steps S sub D rs2 m1 m') : Steps S sub D (rs1 ++ rs2) m m' := by
  induction h1 with
  | nil => exact h2
  | cons h _ ih => exact .cons h (ih h2)

/-- A field that is not in a oneof has its struct field for itself. -/
theorem slot_own (hM : MsgFacts D) (hf : f ∈ D.fields) (ho : f.oneof = false) {g : FieldDesc} (hg : g ∈ D.fields) (hn : g.num ≠ f.num) : g.slot ≠ f.slot := by
  intro h
  have := (hM.share g hg f hf hn h).2
  rw [ho] at this
  cases this

theorem Spec.Step.other' (hM : MsgFacts D) (hf : f ∈ D.fields) (ho : f.oneof = false) {r : Rec} (h : Step S sub D r m m') (hn : r.num ≠ f.num) :
    get m' f = get m f :=
  h.other fun _ hg e => slot_own hM hf ho hg (e ▸ hn)

/-! ## Singular scalars -/

theorem Spec.Step.scalar_get (hM : MsgFacts D) (hm : Sized D m) (hf : f ∈ D.fields) (ho : f.oneof = false) (hc : f.card ≠ .repeated) (hk : f.kind ≠ .message)
    {r : Rec} (h : Step S sub D r m m') (hn : r.num = f.num) : scalarValue f.kind r.payload = some (get m' f) := by
  cases h
  case scalar g p raw v hg h1 h2 h3 =>
    cases hM.num_inj hg hf hn
    rw [hm.get_put (hM.fields _ hf).slot]; exact h3
  case member g p raw v hg h1 h2 => cases hM.num_inj hg hf hn; rw [ho] at h1; cases h1
  case element g p raw v hg h1 h2 h3 => cases hM.num_inj hg hf hn; exact absurd h1 hc
  case packed g b raw vs hg h1 h2 h3 h4 => cases hM.num_inj hg hf hn; exact absurd h1 hc
  case message g b raw x hg h1 h2 h3 h4 => cases hM.num_inj hg hf hn; exact absurd h3 hk
  case memberMessage g b raw x hg h1 h2 h3 => cases hM.num_inj hg hf hn; rw [ho] at h1; cases h1
  case elementMessage g b raw x hg h1 h2 h3 h4 => cases hM.num_inj hg hf hn; exact absurd h1 hc
  case entry g md b raw v k hg h1 h2 => cases hM.num_inj hg hf hn; exact absurd ((hM.fields _ hf).map _ h1).1 hc
  case unknown h1 h2 => exact absurd hn.symm (h1 f hf)

theorem Spec.Steps.last_scalar (hM : MsgFacts D) (hm : Sized D m) (hf : f ∈ D.fields) (ho : f.oneof = false) (hc : f.card ≠ .repeated) (hk : f.kind ≠ .message)
    {rs1 rs2 : List Rec} {r : Rec} (h : Steps S sub D (rs1 ++ r :: rs2) m m') (hn : r.num = f.num) (hl : ∀ q ∈ rs2, q.num ≠ f.num) :
    scalarValue f.kind r.payload = some (get m' f) := by
  obtain ⟨m1, h1, h2⟩ := h.append
  cases h2 with
  | cons h2 h3 =>
    rw [h3.other fun q hq g hg e => slot_own hM hf ho hg (e ▸ hl q hq)]
    exact h2.scalar_get hM (h1.sized hm) hf ho hc hk hn

/-! ## Lists -/

theorem extend_nil (v : Val) : extend v [] = v := by cases v <;> simp [extend]

theorem extend_append (v : Val) (xs ys : List Val) : extend (extend v xs) ys = extend v (xs ++ ys) := by
  cases v <;> simp only [extend] <;> first
    | (by_cases h : xs = []
       · subst h; simp
       · simp [h])
    | simp [List.append_assoc, List.drop_drop, Nat.add_comm]

theorem Spec.Steps.elements (hM : MsgFacts D) (hm : Sized D m) (hf : f ∈ D.fields) (hc : f.card = .repeated) (hmap : f.map = none)
    {rs : List Rec} (h : Steps S sub D rs m m') : ∃ xs, Elements S sub f rs xs ∧ get m' f = extend (get m f) xs := by
  have ho : f.oneof = false := by
    cases hc' : f.oneof with
    | false => rfl
    | true => have := ((hM.fields f hf).oneof hc').1; rw [hc] at this; cases this
  have hslot := (hM.fields f hf).slot
  induction h with
  | nil => exact ⟨[], .nil, (extend_nil _).symm⟩
  | @cons r rs m m1 m2 h1 hrest ih =>
    obtain ⟨xs, e1, e2⟩ := ih (h1.sized hm)
    by_cases hn : r.num = f.num
    · cases h1
      case scalar g p raw v hg h1 h2 h3 => cases hM.num_inj hg hf hn; exact absurd hc h2
      case member g p raw v hg h1 h2 => cases hM.num_inj hg hf hn; rw [ho] at h1; cases h1
      case element g p raw v hg h1 h2 h3 =>
        cases hM.num_inj hg hf hn
        exact ⟨v :: xs, .element h3 e1, by rw [e2, hm.get_put hslot, extend_append]; rfl⟩
      case packed g b raw vs hg h1 h2 h3 h4 =>
        cases hM.num_inj hg hf hn
        exact ⟨vs ++ xs, .packed h3 h4 e1, by rw [e2, hm.get_put hslot, extend_append]⟩
      case message g b raw x hg h1 h2 h3 h4 => cases hM.num_inj hg hf hn; exact absurd hc h2
      case memberMessage g b raw x hg h1 h2 h3 => cases hM.num_inj hg hf hn; rw [ho] at h1; cases h1
      case elementMessage g b raw x hg h1 h2 h3 h4 =>
        cases hM.num_inj hg hf hn
        exact ⟨x :: xs, .message h3 h4 e1, by rw [e2, hm.get_put hslot, extend_append]; rfl⟩
      case entry g md b raw v k hg h1 h2 => cases hM.num_inj hg hf hn; rw [hmap] at h1; cases h1
      case unknown h1 h2 => exact absurd hn.symm (h1 f hf)
    · exact ⟨xs, .other hn e1, by rw [e2, h1.other' hM hf ho hn]⟩

/-! ## Maps -/

theorem lookup_insert (es : List (Key × Val)) (k k' : Key) (v : Val) : lookup (insertEntry es k v) k' = if k' = k then some v else lookup es k' := by
  unfold insertEntry lookup
  split
  · rename_i h
    induction es with
    | nil => simp at h
    | cons e es ih =>
      by_cases he : e.1 = k
      · by_cases hk : k' = k
        · subst hk; subst he; simp
        · have h1 : ¬ k = k' := fun c => hk c.symm
          have h2 : ¬ e.1 = k' := by rw [he]; exact h1
          simp only [List.map_cons, he, if_true, List.find?_cons, beq_eq_false_iff_ne.2 h1]
          simp only [beq_eq_false_iff_ne.2 hk, hk, if_false]
          by_cases ha : (es.any fun e => e.1 == k) = true
          · have := ih ha
            simp only [hk, if_false] at this
            exact this
          · have : es.map (fun e => if e.1 = k then (k, v) else e) = es := by
              refine (List.map_congr_left (g := id) fun x hx => ?_).trans (List.map_id _)
              have : x.1 ≠ k := by
                intro c
                exact ha (List.any_eq_true.2 ⟨x, hx, by simp [c]⟩)
              simp [this]
            rw [this]
      · have ha : (es.any fun e => e.1 == k) = true := by
          simp only [List.any_cons, Bool.or_eq_true, beq_iff_eq, he, false_or] at h
          exact h
        simp only [List.map_cons, he, if_false, List.find?_cons]
        by_cases hk : e.1 = k'
        · have h1 : ¬ k' = k := by rw [← hk]; exact he
          simp [hk, h1]
        · simp only [beq_eq_false_iff_ne.2 hk]
          exact ih ha
  · rename_i h
    rw [List.find?_append]
    by_cases hk : k' = k
    · subst hk
      have : es.find? (fun e => e.1 == k') = none := by
        rw [List.find?_eq_none]
        intro x hx c
        exact h (List.any_eq_true.2 ⟨x, hx, c⟩)
      simp [this]
    · have h1 : ¬ k = k' := fun c => hk c.symm
      simp [hk, h1]

theorem Spec.Steps.entries (hM : MsgFacts D) (hm : Sized D m) (hf : f ∈ D.fields) {md : MapDesc} (hmap : f.map = some md)
    {rs : List Rec} (h : Steps S sub D rs m m') :
    ∃ es, MapEntries S sub f md rs es ∧ (get m' f).entries = es.foldl (fun acc e => insertEntry acc e.1 e.2) (get m f).entries ∧ (es = [] → get m' f = get m f) ∧
      (es ≠ [] → ∃ l, get m' f = .map l) := by
  have hmf := (hM.fields f hf).map md hmap
  have ho : f.oneof = false := by
    cases hc' : f.oneof with
    | false => rfl
    | true => have := ((hM.fields f hf).oneof hc').1; rw [hmf.1] at this; cases this
  have hslot := (hM.fields f hf).slot
  induction h with
  | nil => exact ⟨[], .nil, rfl, fun _ => rfl, fun c => absurd rfl c⟩
  | @cons r rs m m1 m2 h1 hrest ih =>
    obtain ⟨es, e1, e2, e3, e4⟩ := ih (h1.sized hm)
    by_cases hn : r.num = f.num
    · cases h1
      case scalar g p raw v hg h1 h2 h3 => cases hM.num_inj hg hf hn; exact absurd hmf.1 h2
      case member g p raw v hg h1 h2 => cases hM.num_inj hg hf hn; rw [ho] at h1; cases h1
      case element g p raw v hg h1 h2 h3 => cases hM.num_inj hg hf hn; rw [hmap] at h2; cases h2
      case packed g b raw vs hg h1 h2 h3 h4 => cases hM.num_inj hg hf hn; rw [hmap] at h2; cases h2
      case message g b raw x hg h1 h2 h3 h4 => cases hM.num_inj hg hf hn; exact absurd hmf.1 h2
      case memberMessage g b raw x hg h1 h2 h3 => cases hM.num_inj hg hf hn; rw [ho] at h1; cases h1
      case elementMessage g b raw x hg h1 h2 h3 h4 => cases hM.num_inj hg hf hn; rw [hmap] at h2; cases h2
      case entry g md' b raw v k hg h1 h2 =>
        cases hM.num_inj hg hf hn
        rw [hmap] at h1
        cases h1
        refine ⟨(k, v) :: es, .entry h2 e1, ?_, fun c => (List.cons_ne_nil _ _ c).elim, fun _ => ?_⟩
        · rw [e2, hm.get_put hslot]; rfl
        · by_cases he : es = []
          · exact ⟨_, by rw [e3 he, hm.get_put hslot]⟩
          · exact e4 he
      case unknown h1 h2 => exact absurd hn.symm (h1 f hf)
    · rw [h1.other' hM hf ho hn] at e2 e3
      exact ⟨es, .other hn e1, e2, e3, e4⟩

/-! ## Singular messages -/

theorem Spec.Steps.message (hM : MsgFacts D) (hm : Sized D m) (hf : f ∈ D.fields) (ho : f.oneof = false) (hc : f.card ≠ .repeated) (hk : f.kind = .message)
    (hcat : ∀ a b v v1 v2, sub f.msg a v v1 → sub f.msg b v1 v2 → sub f.msg (a ++ b) v v2) (hnn : ∀ b v v', v ≠ .nil → sub f.msg b v v' → v' ≠ .nil)
    {rs : List Rec} (h : Steps S sub D rs m m') :
    (payloads f rs = [] ∧ get m' f = get m f) ∨
    ∃ bs : List Bytes, bs ≠ [] ∧ payloads f rs = bs.map .len ∧ sub f.msg bs.flatten (if get m f = .nil then zeroMsg S f.msg else get m f) (get m' f) := by
  have hslot := (hM.fields f hf).slot
  induction h with
  | nil => exact .inl ⟨rfl, rfl⟩
  | @cons r rs m m1 m2 h1 hrest ih =>
    replace ih := ih (h1.sized hm)
    by_cases hn : r.num = f.num
    · right
      have hp : payloads f (r :: rs) = r.payload :: payloads f rs := by simp [payloads, hn]
      cases h1
      case scalar g p raw v hg h1 h2 h3 =>
        cases hM.num_inj hg hf hn
        rw [hk] at h3
        cases p <;> simp [scalarValue, wireType] at h3
      case member g p raw v hg h1 h2 => cases hM.num_inj hg hf hn; rw [ho] at h1; cases h1
      case element g p raw v hg h1 h2 h3 => cases hM.num_inj hg hf hn; exact absurd h1 hc
      case packed g b raw vs hg h1 h2 h3 h4 => cases hM.num_inj hg hf hn; exact absurd h1 hc
      case message g b raw x hg h1 h2 h3 h4 =>
        cases hM.num_inj hg hf hn
        have hx := hnn _ _ _ (by split <;> [exact fun c => nomatch c; assumption]) h4
        rw [hm.get_put hslot, if_neg hx] at ih
        rcases ih with ⟨i1, i2⟩ | ⟨bs, i1, i2, i3⟩
        · refine ⟨[b], by simp, by rw [hp, i1]; rfl, ?_⟩
          rw [i2]
          simpa using h4
        · refine ⟨b :: bs, by simp, by rw [hp, i2]; rfl, ?_⟩
          exact hcat _ _ _ _ _ h4 i3
      case memberMessage g b raw x hg h1 h2 h3 => cases hM.num_inj hg hf hn; rw [ho] at h1; cases h1
      case elementMessage g b raw x hg h1 h2 h3 h4 => cases hM.num_inj hg hf hn; exact absurd h1 hc
      case entry g md b raw v k hg h1 h2 => cases hM.num_inj hg hf hn; exact absurd ((hM.fields _ hf).map _ h1).1 hc
      case unknown h1 h2 => exact absurd hn.symm (h1 f hf)
    · have hp : payloads f (r :: rs) = payloads f rs := by simp [payloads, hn]
      rw [hp]
      rw [h1.other' hM hf ho hn] at ih
      exact ih

/-! ## Oneofs -/

theorem Spec.Steps.last_member (hM : MsgFacts D) (hm : Sized D m) (hf : f ∈ D.fields) (ho : f.oneof = true)
    {rs1 rs2 : List Rec} {r : Rec} (h : Steps S sub D (rs1 ++ r :: rs2) m m') (hn : r.num = f.num)
    (hl : ∀ q ∈ rs2, ∀ g ∈ D.fields, g.num = q.num → g.slot ≠ f.slot) :
    ∃ m1 x, Steps S sub D rs1 m m1 ∧ get m' f = .wrap f.num x ∧
      (scalarValue f.kind r.payload = some x ∨ f.kind = .message ∧ ∃ b, r.payload = .len b ∧ sub f.msg b (heldOrNew S f (get m1 f)) x) := by
  obtain ⟨m1, h1, h2⟩ := h.append
  have hslot := (hM.fields f hf).slot
  have hm1 := h1.sized hm
  cases h2 with
  | cons h2 h3 =>
    rw [h3.other hl]
    have hc : f.card ≠ .repeated := by rw [((hM.fields f hf).oneof ho).1]; exact fun h => nomatch h
    cases h2
    case scalar g p raw v hg h1 h2 h3 => cases hM.num_inj hg hf hn; rw [ho] at h1; cases h1
    case member g p raw v hg e1 e2 =>
      cases hM.num_inj hg hf hn
      exact ⟨m1, v, h1, hm1.get_put hslot _, .inl e2⟩
    case element g p raw v hg h1 h2 h3 => cases hM.num_inj hg hf hn; exact absurd h1 hc
    case packed g b raw vs hg h1 h2 h3 h4 => cases hM.num_inj hg hf hn; exact absurd h1 hc
    case message g b raw x hg h1 h2 h3 h4 => cases hM.num_inj hg hf hn; rw [ho] at h1; cases h1
    case memberMessage g b raw x hg e1 e2 e3 =>
      cases hM.num_inj hg hf hn
      exact ⟨m1, x, h1, hm1.get_put hslot _, .inr ⟨e2, b, rfl, e3⟩⟩
    case elementMessage g b raw x hg h1 h2 h3 h4 => cases hM.num_inj hg hf hn; exact absurd h1 hc
    case entry g md b raw v k hg h1 h2 => cases hM.num_inj hg hf hn; exact absurd ((hM.fields _ hf).map _ h1).1 hc
    case unknown e1 e2 => exact absurd hn.symm (e1 f hf)

/-! ## Unknown fields -/

theorem unknownOf_put (v : Val) : unknownOf (put m f v) = unknownOf m := by cases m <;> rfl

theorem Spec.Steps.unknown (hm : Sized D m) {rs : List Rec} (h : Steps S sub D rs m m') :
    unknownOf m' = unknownOf m ++ if D.keepUnknown then ((rs.filter fun r => !known D r).map (·.raw)).flatten else [] := by
  induction h with
  | nil => cases D.keepUnknown <;> simp
  | @cons r rs m m1 m2 h1 hrest ih =>
    rw [ih (h1.sized hm)]
    rcases h1.known with ⟨f, hf, hn⟩ | ⟨hno, _, rfl⟩
    · have hk : known D r = true := List.any_eq_true.2 ⟨f, hf, by simp [hn]⟩
      have : unknownOf m1 = unknownOf m := by
        cases h1
        case unknown h1 _ => exact absurd hn (h1 f hf)
        all_goals exact unknownOf_put _
      rw [this]
      simp [hk]
    · have hk : known D r = false := by
        rw [known, List.any_eq_false]
        intro f hf
        simpa using hno f hf
      obtain ⟨s, u, e, rfl, _⟩ := hm
      cases hkeep : D.keepUnknown <;> simp [hk, addUnknown, unknownOf]

theorem get_setUnknown (u : Bytes) : get (setUnknown m u) f = get m f := by cases m <;> rfl
theorem put_setUnknown (u : Bytes) (v : Val) : put (setUnknown m u) f v = setUnknown (put m f v) u := by cases m <;> rfl

theorem Spec.Step.setUnknown {r : Rec} (h : Step S sub D r m m') (hk : Spec.known D r = true) (u : Bytes) : Step S sub D r (setUnknown m u) (setUnknown m' u) := by
  cases h
  case scalar g p raw v hg h1 h2 h3 => rw [← put_setUnknown]; exact .scalar hg h1 h2 h3
  case member g p raw v hg h1 h2 => rw [← put_setUnknown]; exact .member hg h1 h2
  case element g p raw v hg h1 h2 h3 => rw [← put_setUnknown, ← get_setUnknown u]; exact .element hg h1 h2 h3
  case packed g b raw vs hg h1 h2 h3 h4 => rw [← put_setUnknown, ← get_setUnknown u]; exact .packed hg h1 h2 h3 h4
  case message g b raw x hg h1 h2 h3 h4 => rw [← put_setUnknown]; exact .message hg h1 h2 h3 (by rw [get_setUnknown]; exact h4)
  case memberMessage g b raw x hg h1 h2 h3 => rw [← put_setUnknown]; exact .memberMessage hg h1 h2 (by rw [get_setUnknown]; exact h3)
  case elementMessage g b raw x hg h1 h2 h3 h4 => rw [← put_setUnknown, ← get_setUnknown u]; exact .elementMessage hg h1 h2 h3 h4
  case entry g md b raw v k hg h1 h2 => rw [← put_setUnknown, ← get_setUnknown u]; exact .entry hg h1 h2
  case unknown h1 h2 =>
    exfalso
    obtain ⟨f, hf, hn⟩ := List.any_eq_true.1 hk
    exact h1 f hf (by simpa using hn)

/-- Leaving out the unknown records changes the unknown fields only. -/
theorem Spec.Steps.drop_unknown {rs : List Rec} (h : Steps S sub D rs m m') (u : Bytes) :
    Steps S sub D (rs.filter (known D)) (Spec.setUnknown m u) (Spec.setUnknown m' u) := by
  induction h with
  | nil => exact .nil
  | @cons r rs m m1 m2 h1 hrest ih =>
    cases hk : known D r with
    | true => rw [List.filter_cons_of_pos hk]; exact .cons (h1.setUnknown hk u) ih
    | false =>
      rw [List.filter_cons_of_neg (by simp [hk])]
      rcases h1.known with ⟨f, hf, hn⟩ | ⟨hno, _, rfl⟩
      · have : known D r = true := List.any_eq_true.2 ⟨f, hf, by simp [hn]⟩
        rw [hk] at this; cases this
      · have : Spec.setUnknown (if D.keepUnknown then addUnknown m r.raw else m) u = Spec.setUnknown m u := by
          split
          · cases m <;> rfl
          · rfl
        rw [this] at ih
        exact ih

/-! ## Concatenation -/

theorem Spec.Records.append {rs1 rs2 : List Rec} {a b : Bytes} (h1 : Records rs1 a) (h2 : Records rs2 b) : Records (rs1 ++ rs2) (a ++ b) := by
  induction h1 with
  | nil => exact h2
  | cons h _ ih => rw [List.append_assoc]; exact .cons h ih

theorem decodesN_append {S : Schema} {R : Runtime} {n t : Nat} {a b : Bytes} {v v1 v2 : Val} (h1 : DecodesN S R n t a v v1) (h2 : DecodesN S R n t b v1 v2) :
    DecodesN S R n t (a ++ b) v v2 := by
  cases n with
  | zero => exact h1.elim
  | succ n =>
    obtain ⟨rs1, r1, s1, c1⟩ := h1
    obtain ⟨rs2, r2, s2, c2⟩ := h2
    refine ⟨rs1 ++ rs2, r1.append r2, s1.trans s2, fun f hf hc => ?_⟩
    obtain ⟨r, hr, hn⟩ := c1 f hf hc
    exact ⟨r, by simp [hr], hn⟩

theorem put_nonnil (h : m ≠ .nil) (f : FieldDesc) (v : Val) : put m f v ≠ .nil := by
  cases m <;> first | exact h | (intro c; cases c)

theorem addUnknown_nonnil (h : m ≠ .nil) (b : Bytes) : addUnknown m b ≠ .nil := by
  cases m <;> first | exact h | (intro c; cases c)

theorem Spec.Steps.nonnil {rs : List Rec} (h : Steps S sub D rs m m') (hv : m ≠ .nil) : m' ≠ .nil := by
  induction h with
  | nil => exact hv
  | cons h1 _ ih =>
    refine ih ?_
    cases h1
    case unknown =>
      split
      · exact addUnknown_nonnil hv _
      · exact hv
    all_goals exact put_nonnil hv _ _

theorem decodesN_nonnil {S : Schema} {R : Runtime} {n t : Nat} {a : Bytes} {v v1 : Val} (hv : v ≠ .nil) (h : DecodesN S R n t a v v1) : v1 ≠ .nil := by
  cases n with
  | zero => exact h.elim
  | succ n =>
    obtain ⟨rs, _, s, _⟩ := h
    exact s.nonnil hv

theorem setUnknown_self (hm : Sized D m) : setUnknown m (unknownOf m) = m := by
  obtain ⟨s, u, e, rfl, _⟩ := hm
  rfl

theorem setUnknown_twice (m : Val) (u w : Bytes) : setUnknown (setUnknown m u) w = setUnknown m w := by cases m <;> rfl

theorem firstMissing_known (rs : List Rec) : firstMissing ((rs.filter (known D)).map (·.num)) D.fields = firstMissing (rs.map (·.num)) D.fields := by
  unfold firstMissing
  rw [← List.head?_filter, ← List.head?_filter]
  congr 1
  refine List.filter_congr fun f hf => ?_
  have : ((rs.filter (known D)).map (·.num)).contains f.num = (rs.map (·.num)).contains f.num := by
    rw [Bool.eq_iff_iff]
    simp only [List.contains_iff_mem, List.mem_map, List.mem_filter]
    constructor
    · rintro ⟨r, ⟨h1, _⟩, h2⟩; exact ⟨r, h1, h2⟩
    · rintro ⟨r, h1, h2⟩; exact ⟨r, ⟨h1, List.any_eq_true.2 ⟨f, hf, by simp [h2]⟩⟩, h2⟩
  rw [this]

end

section
variable {E : UEnv} {t : Nat} {m m' : Val}

/-- The outcome on valid records. -/
theorem unmarshal_run (hE : PlainEnv E) (hf : (E.S.msg t).foreign = false) (hm : Typed E.S t m) {rs : List Rec} {b : Bytes} (hF : E.A.Fits b.length)
    (hrs : Records rs b) {q : Nat} (hst : Steps E.S (subRel E.S E.R (DecodesN E.S E.R q)) (E.S.msg t) rs m m') :
    unmarshalVT E t b m = (m', match firstMissing (rs.map (·.num)) (E.S.msg t).fields with
      | none => .ok ()
      | some f => .err (.requiredNotSet f.num)) :=
  unmarshalBody_run hE hf hF (safe_unmarshalN hE.env b.length hF b.length (by omega)) (unmarshalN_run hE q b.length hF) 0 hm hrs hst

end

/-! ## Packed payloads are unambiguous -/

theorem Spec.Leb.append_inj {a b x y : Bytes} (ha : Leb a) (hb : Leb b) (h : a ++ x = b ++ y) : a = b ∧ x = y := by
  induction ha generalizing b with
  | last c hc =>
    cases hb with
    | last d hd => simp at h; exact ⟨by rw [h.1], h.2⟩
    | more d ds hd _ =>
      simp at h
      rw [h.1] at hc
      have h1 : d.toNat < 128 := hc
      have h2 : 128 ≤ d.toNat := hd
      omega
  | more c cs hc _ ih =>
    cases hb with
    | last d hd =>
      simp at h
      rw [h.1] at hc
      have h1 : d.toNat < 128 := hd
      have h2 : 128 ≤ d.toNat := hc
      omega
    | more d ds hd hds =>
      simp at h
      obtain ⟨e1, e2⟩ := ih hds h.2
      exact ⟨by rw [h.1, e1], e2⟩

theorem packed_unique {k : Kind} {b : Bytes} {vs ws : List Val} (h : Packed k b vs) (h' : Packed k b ws) : vs = ws := by
  induction h generalizing ws with
  | nil =>
    generalize hb : ([] : Bytes) = b at h'
    cases h' with
    | nil => rfl
    | @cons p bs rest v vs hp hv _ =>
      exfalso
      have : bs = [] := by simpa using (List.append_eq_nil_iff.1 hb.symm).1
      subst this
      cases hp with
      | varint h => have := h.shape.length_pos; simp at this
      | i64 h => simp at h
      | i32 h => simp at h
  | @cons p bs rest v vs hp hv _ ih =>
    generalize hb : bs ++ rest = b at h'
    cases h' with
    | nil =>
      exfalso
      have : bs = [] := by simpa using (List.append_eq_nil_iff.1 hb).1
      subst this
      cases hp with
      | varint h => have := h.shape.length_pos; simp at this
      | i64 h => simp at h
      | i32 h => simp at h
    | @cons p' bs' rest' w ws hp' hw h'' =>
      have hwt : wireType k = 0 ∨ wireType k = 1 ∨ wireType k = 5 ∨ (wireType k ≠ 0 ∧ wireType k ≠ 1 ∧ wireType k ≠ 5) := by omega
      have key : p = p' ∧ rest = rest' := by
        cases hp <;> cases hp' <;> simp only [scalarValue] at hv hw <;> (try (split at hv <;> split at hw <;> (try omega) <;> (try cases hv) <;> (try cases hw)))
        · rename_i hx _ hx' _ _
          obtain ⟨e1, e2⟩ := hx.shape.append_inj hx'.shape hb
          refine ⟨?_, e2⟩
          rw [← hx.value, ← hx'.value, e1]
        · rename_i hl hl' _ _
          obtain ⟨e1, e2⟩ := List.append_inj hb (by omega)
          exact ⟨by rw [e1], e2⟩
        · rename_i hl hl' _ _
          obtain ⟨e1, e2⟩ := List.append_inj hb (by omega)
          exact ⟨by rw [e1], e2⟩
      obtain ⟨rfl, rfl⟩ := key
      rw [hv] at hw
      cases hw
      rw [ih h'']

theorem elements_unique {S : Schema} {sub sub' : SubRel} {f : FieldDesc} (hk : numeric f.kind = true) {rs : List Rec} {xs ys : List Val}
    (h : Elements S sub f rs xs) (h' : Elements S sub' f rs ys) : xs = ys := by
  have hwt : wireType f.kind ≠ 2 := by cases hkk : f.kind <;> simp [hkk, numeric] at hk <;> simp [wireType]
  have hlen : ∀ b v, scalarValue f.kind (.len b) ≠ some v := by
    intro b v
    cases hkk : f.kind <;> simp [hkk, numeric] at hk <;> simp [scalarValue]
  have hmsg : f.kind ≠ .message := by intro c; rw [c] at hk; cases hk
  induction h generalizing ys with
  | nil => cases h'; rfl
  | other hn _ ih =>
    cases h' with
    | other _ h' => exact ih h'
    | element _ _ => exact absurd rfl hn
    | packed _ _ _ => exact absurd rfl hn
    | message _ _ _ => exact absurd rfl hn
  | element hv _ ih =>
    cases h' with
    | other hn _ => exact absurd rfl hn
    | element hv' h' => rw [hv] at hv'; cases hv'; rw [ih h']
    | packed _ _ _ => exact absurd hv (hlen _ _)
    | message h1 _ _ => exact absurd h1 hmsg
  | packed _ hp _ ih =>
    cases h' with
    | other hn _ => exact absurd rfl hn
    | element hv' h' => exact absurd hv' (hlen _ _)
    | packed _ hp' h' => rw [packed_unique hp hp', ih h']
    | message h1 _ _ => exact absurd h1 hmsg
  | message h1 _ _ => exact absurd h1 hmsg

end Vtp
