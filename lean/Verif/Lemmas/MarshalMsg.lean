import Verif.Lemmas.MarshalField
/-!
# Order of fields, and the top-level marshalling theorem
-/

namespace Vtp
open Spec

/-- The fields at which a oneof is met first when going through the list. -/
def firsts : List Nat → List FieldDesc → List FieldDesc
  | _, [] => []
  | seen, f :: fs =>
    if f.oneof then
      if seen.contains f.slot then firsts seen fs else f :: firsts (f.slot :: seen) fs
    else firsts seen fs

theorem firsts_mem {f : FieldDesc} : ∀ (fs : List FieldDesc) (seen : List Nat), f ∈ firsts seen fs →
    f ∈ fs ∧ f.oneof = true ∧ f.slot ∉ seen := by
  intro fs
  induction fs with
  | nil => intro seen h; simp [firsts] at h
  | cons g fs ih =>
    intro seen h
    rw [firsts] at h
    split at h
    · rename_i ho
      split at h
      · have := ih seen h; exact ⟨by simp [this.1], this.2⟩
      · rename_i hc
        rcases List.mem_cons.1 h with rfl | h
        · exact ⟨by simp, ho, by simpa using hc⟩
        · have := ih _ h
          exact ⟨by simp [this.1], this.2.1, fun hs => this.2.2 (by simp [hs])⟩
    · have := ih seen h; exact ⟨by simp [this.1], this.2⟩

theorem firsts_slots_nodup : ∀ (fs : List FieldDesc) (seen : List Nat), ((firsts seen fs).map (·.slot)).Nodup := by
  intro fs
  induction fs with
  | nil => intro seen; simp [firsts]
  | cons g fs ih =>
    intro seen
    rw [firsts]
    split
    · split
      · exact ih seen
      · rw [List.map_cons, List.nodup_cons]
        refine ⟨?_, ih _⟩
        intro h
        obtain ⟨f, hf, he⟩ := List.mem_map.1 h
        exact (firsts_mem fs _ hf).2.2 (by simp [he])
    · exact ih seen

theorem firsts_cover {f : FieldDesc} : ∀ (fs : List FieldDesc) (seen : List Nat), f ∈ fs → f.oneof = true → f.slot ∉ seen →
    f.slot ∈ (firsts seen fs).map (·.slot) := by
  intro fs
  induction fs with
  | nil => intro seen h; simp at h
  | cons g fs ih =>
    intro seen h ho hs
    rw [firsts]
    rcases List.mem_cons.1 h with rfl | h
    · rw [if_pos ho, if_neg (by simpa using hs)]; simp
    · split
      · split
        · exact ih seen h ho hs
        · by_cases he : f.slot = g.slot
          · rw [List.map_cons, he]; simp
          · rw [List.map_cons, List.mem_cons]
            right
            exact ih _ h ho (by simp [he, hs])
      · exact ih seen h ho hs

theorem firsts_slots_iff (fs : List FieldDesc) (s : Nat) :
    s ∈ (firsts [] fs).map (·.slot) ↔ ∃ f ∈ fs, f.oneof = true ∧ f.slot = s := by
  constructor
  · intro h
    obtain ⟨f, hf, he⟩ := List.mem_map.1 h
    have := firsts_mem fs [] hf
    exact ⟨f, this.1, this.2.1, he⟩
  · rintro ⟨f, hf, ho, rfl⟩
    exact firsts_cover fs [] hf ho (by simp)

/-- Going through a permutation of the fields meets the same oneofs. -/
theorem firsts_perm {fs gs : List FieldDesc} (h : fs.Perm gs) :
    ((firsts [] fs).map (·.slot)).Perm ((firsts [] gs).map (·.slot)) := by
  rw [List.perm_ext_iff_of_nodup (firsts_slots_nodup _ _) (firsts_slots_nodup _ _)]
  intro s
  rw [firsts_slots_iff, firsts_slots_iff]
  constructor
  · rintro ⟨f, hf, r⟩; exact ⟨f, h.mem_iff.1 hf, r⟩
  · rintro ⟨f, hf, r⟩; exact ⟨f, h.mem_iff.2 hf, r⟩

theorem sizeFields_eq (E : Env) (rS : Nat → Val → Nat) (d : MsgDesc) (slots : List Val) : ∀ (fs : List FieldDesc) (seen : List Nat),
    sizeFields E rS d slots seen fs =
      ((fs.filter (fun f => !f.oneof)).map fun f => sizeField E rS false f (slotOf slots f)).sum +
      (((firsts seen fs).map (·.slot)).map fun s => sizeOneof E rS d s (slots.getD s .nil)).sum := by
  intro fs
  induction fs with
  | nil => intro seen; simp [sizeFields, firsts]
  | cons f fs ih =>
    intro seen
    rw [sizeFields, firsts]
    cases ho : f.oneof
    · simp [ho, ih]; omega
    · by_cases hs : f.slot ∈ seen
      · simp [ho, hs, ih]
      · simp [ho, hs, ih, slotOf]; omega

theorem marshalOneofs_eq (E : Env) (rM : Nat → Val → Bytes → Res (Bytes × Nat)) (d : MsgDesc) (slots : List Val) :
    ∀ (fs : List FieldDesc) (seen : List Nat),
    marshalOneofs E rM d slots seen fs = Writer.each (fun f => marshalOneof E rM d f.slot (slotOf slots f)) (firsts seen fs) := by
  intro fs
  induction fs with
  | nil => intro seen; rfl
  | cons f fs ih =>
    intro seen
    rw [marshalOneofs, firsts]
    cases ho : f.oneof
    · simp [ih]
    · by_cases hs : f.slot ∈ seen
      · simp [hs, ih]
      · simp [hs, ih, Writer.each]

theorem each_filter {α : Type} (p : α → Bool) (w : α → Writer) (l : List α) :
    Writer.each (fun a => if p a then Writer.skip else w a) l = Writer.each w (l.filter (fun a => !p a)) := by
  induction l with
  | nil => rfl
  | cons a as ih =>
    rw [Writer.each, ih]
    cases h : p a
    · simp [h, Writer.each]
    · simp only [if_true, List.filter_cons, h, Bool.not_true, Bool.false_eq_true, if_false]
      funext s
      simp [Writer.seq, Writer.skip]

theorem ascending_perm (fs : List FieldDesc) : (ascending fs).Perm fs := List.perm_insertionSort _ _

theorem ascending_sorted (fs : List FieldDesc) : (ascending fs).Pairwise (fun a b => a.num ≤ b.num) := by
  have : Std.Total (α := FieldDesc) (fun a b => a.num ≤ b.num) := ⟨fun a b => Nat.le_total _ _⟩
  have : IsTrans FieldDesc (fun a b => a.num ≤ b.num) := ⟨fun _ _ _ => Nat.le_trans⟩
  exact List.pairwise_insertionSort _ _

/-- With distinct numbers the order is strict. -/
theorem ascending_strict {fs : List FieldDesc} (h : (fs.map (·.num)).Nodup) :
    (ascending fs).Pairwise (fun a b => a.num < b.num) := by
  have h1 := ascending_sorted fs
  have h2 : ((ascending fs).map (·.num)).Nodup := ((ascending_perm fs).map _).nodup_iff.2 h
  rw [List.nodup_iff_pairwise_ne, List.pairwise_map] at h2
  exact (h1.and h2).imp (fun ⟨a, b⟩ => by omega)

/-- In a strictly descending list, a oneof is met first at its highest member. -/
theorem firsts_descending : ∀ (l : List FieldDesc) (seen : List Nat), l.Pairwise (fun a b => b.num < a.num) →
    firsts seen l = l.filter (fun f => f.oneof && !seen.contains f.slot &&
      l.all fun g => !(g.oneof && g.slot == f.slot) || decide (g.num ≤ f.num)) := by
  intro l
  induction l with
  | nil => intro seen _; rfl
  | cons f fs ih =>
    intro seen hp
    rw [List.pairwise_cons] at hp
    rw [firsts]
    -- the tail of the filter
    have tail : ∀ seen', (∀ g ∈ fs, (g.oneof && !seen'.contains g.slot) =
          (g.oneof && !seen.contains g.slot && (!(f.oneof && f.slot == g.slot) || decide (f.num ≤ g.num)))) →
        firsts seen' fs = fs.filter (fun f' => f'.oneof && !seen.contains f'.slot &&
          (f :: fs).all fun g => !(g.oneof && g.slot == f'.slot) || decide (g.num ≤ f'.num)) := by
      intro seen' hse
      rw [ih seen' hp.2]
      apply List.filter_congr
      intro g hg
      rw [hse g hg, List.all_cons]
      simp [Bool.and_assoc]
    rw [List.filter_cons]
    cases ho : f.oneof
    · simp only [Bool.false_and, Bool.false_eq_true, if_false]
      apply tail
      intro g hg
      simp [ho]
    · simp only [if_true, Bool.true_and]
      by_cases hs : f.slot ∈ seen
      · have : seen.contains f.slot = true := by simpa using hs
        simp only [this, if_true, Bool.not_true, Bool.false_and, Bool.false_eq_true, if_false]
        apply tail
        intro g hg
        by_cases he : f.slot = g.slot
        · rw [← he]; simp [hs]
        · simp [he]
      · have : seen.contains f.slot = false := by simpa using hs
        have hall : ((f :: fs).all fun g => !(g.oneof && g.slot == f.slot) || decide (g.num ≤ f.num)) = true := by
          rw [List.all_eq_true]
          intro g hg
          rcases List.mem_cons.1 hg with rfl | hg
          · simp
          · have := hp.1 g hg
            have h3 : g.num ≤ f.num := by omega
            simp [h3]
        simp only [this, Bool.false_eq_true, if_false, Bool.not_false, Bool.true_and, hall, if_true]
        congr 1
        apply tail
        intro g hg
        have h3 := hp.1 g hg
        have h4 : ¬ f.num ≤ g.num := by omega
        by_cases he : f.slot = g.slot
        · simp [he, ho, h4]
        · have he' : g.slot ≠ f.slot := fun e => he e.symm
          simp [he, he']

theorem firsts_oneofLast {fs : List FieldDesc} (h : (fs.map (·.num)).Nodup) :
    (firsts [] (ascending fs).reverse).reverse = oneofLast fs := by
  have hd : (ascending fs).reverse.Pairwise (fun a b => b.num < a.num) := by
    rw [List.pairwise_reverse]; exact ascending_strict h
  rw [firsts_descending _ _ hd, ← List.filter_reverse, List.reverse_reverse, oneofLast]
  apply List.filter_congr
  intro f _
  simp only [List.contains_nil, Bool.not_false, Bool.and_true]
  congr 1
  rw [Bool.eq_iff_iff, List.all_eq_true, List.all_eq_true]
  have hm : ∀ g, g ∈ (ascending fs).reverse ↔ g ∈ fs := by
    intro g; rw [List.mem_reverse, (ascending_perm fs).mem_iff]
  constructor <;> intro hh g hg
  · exact hh g ((hm g).2 hg)
  · exact hh g ((hm g).1 hg)

theorem sum_perm {l m : List Nat} (h : l.Perm m) : l.sum = m.sum := h.sum_nat

theorem sum_filter {α : Type} (p : α → Bool) (h : α → Nat) (l : List α) (hz : ∀ a ∈ l, p a = false → h a = 0) :
    (l.map h).sum = ((l.filter p).map h).sum := by
  induction l with
  | nil => rfl
  | cons a as ih =>
    have i := ih (fun b hb => hz b (by simp [hb]))
    rw [List.map_cons, List.sum_cons, i, List.filter_cons]
    cases hp : p a
    · rw [hz a (by simp) hp]; simp
    · simp

/-! ### Strict order -/

/-- The field is the member its oneof holds. -/
def selected (slots : List Val) (f : FieldDesc) : Bool :=
  f.oneof && match slotOf slots f with
    | .wrap n _ => n == f.num
    | _ => false

/-- The oneof holds a known member. -/
def populated (d : MsgDesc) (slots : List Val) (s : Nat) : Bool :=
  match slots.getD s .nil with
  | .wrap n _ => (d.member s n).isSome
  | _ => false

theorem selected_wrap {slots : List Val} {f : FieldDesc} (h : selected slots f = true) :
    f.oneof = true ∧ ∃ x, slotOf slots f = .wrap f.num x := by
  unfold selected at h
  rw [Bool.and_eq_true] at h
  refine ⟨h.1, ?_⟩
  have h2 := h.2
  cases hv : slotOf slots f <;> rw [hv] at h2 <;> simp at h2
  rename_i n x
  exact ⟨x, by rw [h2]⟩

/-- The selected members are, by slot, the populated oneofs. -/
theorem selected_slots {d : MsgDesc} (hd : MsgFacts d) (slots : List Val) {fs : List FieldDesc} (hp : fs.Perm d.fields) :
    ((fs.filter (selected slots)).map (·.slot)).Perm (((firsts [] fs).map (·.slot)).filter (populated d slots)) := by
  have hnd : ((fs.filter (selected slots)).map (·.slot)).Nodup := by
    have h1 : (fs.map (·.num)).Nodup := (hp.map _).nodup_iff.2 hd.nodup
    have h2 : fs.Nodup := List.Nodup.of_map _ h1
    refine List.Nodup.map_on ?_ (h2.filter _)
    intro a ha b hb he
    obtain ⟨ha1, ha2⟩ := List.mem_filter.1 ha
    obtain ⟨hb1, hb2⟩ := List.mem_filter.1 hb
    obtain ⟨_, x, hx⟩ := selected_wrap ha2
    obtain ⟨_, y, hy⟩ := selected_wrap hb2
    unfold slotOf at hx hy
    rw [he, hy] at hx
    simp only [Val.wrap.injEq] at hx
    exact (hd.num_inj (hp.mem_iff.1 ha1) (hp.mem_iff.1 hb1) hx.1.symm)
  rw [List.perm_ext_iff_of_nodup hnd ((firsts_slots_nodup fs []).filter _)]
  intro s
  rw [List.mem_filter, firsts_slots_iff]
  constructor
  · intro h
    obtain ⟨f, hf, rfl⟩ := List.mem_map.1 h
    obtain ⟨hf1, hf2⟩ := List.mem_filter.1 hf
    obtain ⟨ho, x, hx⟩ := selected_wrap hf2
    refine ⟨⟨f, hf1, ho, rfl⟩, ?_⟩
    unfold slotOf at hx
    simp only [populated, hx]
    rw [member_of hd (hp.mem_iff.1 hf1) ho]; rfl
  · rintro ⟨_, hpop⟩
    unfold populated at hpop
    cases hv : slots.getD s .nil <;> rw [hv] at hpop <;> simp at hpop
    rename_i n x
    obtain ⟨f, hmem⟩ := Option.isSome_iff_exists.1 hpop
    obtain ⟨h1, h2, h3, h4⟩ := member_some hmem
    rw [List.mem_map]
    refine ⟨f, List.mem_filter.2 ⟨hp.mem_iff.2 h1, ?_⟩, h3⟩
    unfold selected slotOf
    rw [h3, hv, h2]
    simp [h4]

section
variable {E : Env} {okv : Nat → Val → Bool} {rM : Nat → Val → Bytes → Res (Bytes × Nat)}
  {rE : Nat → Val → Option Bytes} {rS : Nat → Val → Nat}

/-- Size of one field in strict order. -/
def strictSize (E : Env) (rS : Nat → Val → Nat) (slots : List Val) (f : FieldDesc) : Nat :=
  if f.oneof then
    match slotOf slots f with
    | .wrap n x => if n == f.num then sizeField E rS true f x else 0
    | _ => 0
  else sizeField E rS false f (slotOf slots f)

theorem strictSize_sum {d : MsgDesc} (hd : MsgFacts d) (slots : List Val) {fs : List FieldDesc} (hp : fs.Perm d.fields) :
    (fs.map (strictSize E rS slots)).sum = sizeFields E rS d slots [] d.fields := by
  have split : (fs.map (strictSize E rS slots)).sum =
      ((fs.filter (fun f => !f.oneof)).map (strictSize E rS slots)).sum +
      ((fs.filter (fun f => f.oneof)).map (strictSize E rS slots)).sum := by
    clear hp
    induction fs with
    | nil => rfl
    | cons a as ih => cases h : a.oneof <;> simp [h, ih] <;> omega
  rw [split, sizeFields_eq]
  congr 1
  · have : ((fs.filter (fun f => !f.oneof)).map (strictSize E rS slots)) =
        (fs.filter (fun f => !f.oneof)).map fun f => sizeField E rS false f (slotOf slots f) := by
      apply List.map_congr_left
      intro f hf
      have := (List.mem_filter.1 hf).2
      simp at this
      simp [strictSize, this]
    rw [this]
    exact sum_perm ((hp.filter _).map _)
  · -- oneofs
    rw [sum_filter (selected slots)]
    · rw [List.filter_filter]
      have e1 : (fs.filter fun f => selected slots f && f.oneof) = fs.filter (selected slots) := by
        apply List.filter_congr
        intro f _
        unfold selected
        cases f.oneof <;> simp
      rw [e1]
      have e2 : (fs.filter (selected slots)).map (strictSize E rS slots) =
          ((fs.filter (selected slots)).map (·.slot)).map fun s => sizeOneof E rS d s (slots.getD s .nil) := by
        rw [List.map_map]
        apply List.map_congr_left
        intro f hf
        obtain ⟨hf1, hf2⟩ := List.mem_filter.1 hf
        obtain ⟨ho, x, hx⟩ := selected_wrap hf2
        have hx' := hx
        unfold slotOf at hx'
        simp only [Function.comp, strictSize, ho, if_true, hx, beq_self_eq_true, sizeOneof, hx']
        rw [member_of hd (hp.mem_iff.1 hf1) ho]
      rw [e2, sum_perm ((selected_slots hd slots hp).map _)]
      rw [← sum_filter (populated d slots)]
      · exact sum_perm ((firsts_perm hp).map _)
      · intro s _ hs
        unfold populated at hs
        unfold sizeOneof
        cases hv : slots.getD s .nil <;> rw [hv] at hs <;> simp at hs ⊢
        rw [hs]
    · intro f hf hs
      have ho := (List.mem_filter.1 hf).2
      unfold selected at hs
      rw [ho] at hs
      simp only [strictSize, ho, if_true]
      cases hv : slotOf slots f <;> rw [hv] at hs <;> simp at hs ⊢
      simp [hs]

theorem runs_strictField (hR : RuntimeEnc E.R) (H : SubRuns E okv rM rE rS) (hrN : ∀ t, rE t .nil = some []) {d : MsgDesc} (hd : MsgFacts d)
    (slots : List Val) (f : FieldDesc) (hf : f ∈ d.fields)
    (hv : (if f.oneof then oneofOK .plain okv d f.slot (slotOf slots f) else fieldOK okv f (slotOf slots f)) = true) :
    Runs (marshalStrictField E rM slots f)
      (if f.oneof then
        match slotOf slots f with
        | .wrap n x => if n = f.num then record E rE f.num f.kind f.msg x else some []
        | _ => some []
      else field E rE f (slotOf slots f)) (strictSize E rS slots f) := by
  unfold marshalStrictField strictSize
  cases ho : f.oneof
  · rw [ho] at hv
    simp only [Bool.false_eq_true, if_false] at hv ⊢
    exact runs_field hR H (hd.fields f hf) _ hv
  · rw [ho] at hv
    simp only [if_true] at hv ⊢
    cases hs : slotOf slots f <;> rw [hs] at hv <;> simp [oneofOK] at hv ⊢
    case nil => exact Runs.skip
    case wrap n x =>
      by_cases hn : n = f.num
      · subst hn
        rw [member_of hd hf ho] at hv
        simp only [if_true]
        exact Runs.call (RunsSized.runSized (runs_member hR H hrN (hd.fields f hf) ho x (by simpa using hv)))
      · simp only [hn, if_false]
        exact Runs.skip

/-- The body of the marshalling method. -/
theorem runs_body (strict : Bool) (hR : RuntimeEnc E.R) (H : SubRuns E okv rM rE rS) (hrN : ∀ t, rE t .nil = some [])
    {d : MsgDesc} (hd : MsgFacts d) (slots : List Val) (unk : Bytes)
    (hv : ∀ f ∈ d.fields, (if f.oneof then oneofOK .plain okv d f.slot (slotOf slots f) else fieldOK okv f (slotOf slots f)) = true) :
    Runs (marshalBody E rM strict d slots unk)
      (optAppend (if strict then bodyStrict E rE d slots else bodyDefault E rE d slots)
        (some (if d.keepUnknown then unk else [])))
      (sizeFields E rS d slots [] d.fields + (if d.keepUnknown then unk.length else 0)) := by
  have hp := ascending_perm d.fields
  unfold marshalBody
  have hu : Runs (if d.keepUnknown then Writer.copy unk else Writer.skip) (some (if d.keepUnknown then unk else []))
      (if d.keepUnknown then unk.length else 0) := by
    cases d.keepUnknown
    · exact Runs.skip
    · exact Runs.copy unk
  rw [Nat.add_comm]
  apply Runs.seq hu
  cases strict
  · simp only [Bool.false_eq_true, if_false]
    rw [marshalOneofs_eq, each_filter, List.filter_reverse]
    have h1 := Runs.each (f := fun f => marshalOneof E rM d f.slot (slotOf slots f))
      (e := fun f => oneof E rE d f.slot (slotOf slots f)) (n := fun f => sizeOneof E rS d f.slot (slotOf slots f))
      (firsts [] (sortFields d.fields).reverse) (by
        intro f hf
        obtain ⟨h1, h2, _⟩ := firsts_mem _ _ hf
        have hm : f ∈ d.fields := hp.mem_iff.1 (List.mem_reverse.1 h1)
        have := hv f hm
        rw [h2] at this
        exact runs_oneof hR H hrN hd f.slot _ this)
    have h2 := Runs.eachReverse (f := fun f => marshalField E rM false f (slotOf slots f))
      (e := fun f => field E rE f (slotOf slots f)) (n := fun f => sizeField E rS false f (slotOf slots f))
      ((sortFields d.fields).filter (fun f => !f.oneof)) (by
        intro f hf
        obtain ⟨h1, h2⟩ := List.mem_filter.1 hf
        have hm : f ∈ d.fields := hp.mem_iff.1 h1
        have := hv f hm
        simp at h2
        rw [h2] at this
        exact runs_field hR H (hd.fields f hm) _ this)
    refine (h1.seq h2).cast ?_ ?_
    · rw [bodyDefault, concat_append, ← firsts_oneofLast hd.nodup]
      rfl
    · rw [sizeFields_eq, Nat.add_comm]
      congr 1
      · exact sum_perm ((hp.filter _).map _)
      · have : (firsts [] (sortFields d.fields).reverse).map (fun f => sizeOneof E rS d f.slot (slotOf slots f)) =
          ((firsts [] (sortFields d.fields).reverse).map (·.slot)).map fun s => sizeOneof E rS d s (slots.getD s .nil) := by
          rw [List.map_map]; rfl
        rw [this]
        exact sum_perm ((firsts_perm ((List.reverse_perm _).trans hp)).map _)
  · simp only [if_true]
    have h := Runs.eachReverse (f := marshalStrictField E rM slots) (n := strictSize E rS slots) (sortFields d.fields)
      (fun f hf => runs_strictField hR H hrN hd slots f (hp.mem_iff.1 hf) (hv f (hp.mem_iff.1 hf)))
    refine h.cast rfl ?_
    exact strictSize_sum hd slots hp

end

theorem sizeN_nil (E : Env) (n t : Nat) : sizeN E n t .nil = 0 := by cases n <;> rfl
theorem encodeN_nil (E : Env) (s : Bool) (n t : Nat) : encodeN E s n t .nil = some [] := by cases n <;> rfl

/-- Marshalling a well-typed (or nil) message runs as specified, for any depth. -/
theorem runs_message (E : Env) (strict : Bool) (hS : schemaOK E.S = true) (hR : RuntimeEnc E.R) : ∀ (n t : Nat) (v : Val),
    (v.isNil || wtN E.S .plain n t v) = true → (E.S.msg t).foreign = false →
    RunsSized (marshalToSizedN E strict n t v) (encodeN E strict n t v) (sizeN E n t v) := by
  intro n
  have hskip : ∀ (f : Bytes → Res (Bytes × Nat)), (∀ b, f b = .ok (b, 0)) → RunsSized f (some []) 0 := by
    intro f hf
    exact ⟨rfl, fun buf => ⟨fun _ => by simp [hf], fun h => by omega⟩⟩
  induction n with
  | zero => intro t v _ _; exact hskip _ (fun b => rfl)
  | succ n ih =>
    intro t v hv hf
    cases v with
    | msg slots unk ext =>
      have hd := schemaOK_msg hS t
      simp only [Val.isNil, Bool.false_or, wtN, hf, Bool.and_eq_true, List.all_eq_true] at hv
      have H : SubRuns E (wtN E.S .plain n) (marshalToSizedN E strict n) (encodeN E strict n) (sizeN E n) :=
        ⟨ih, sizeN_nil E n⟩
      have h := RunsSized.runSized (runs_body strict hR H (encodeN_nil E strict n) hd slots unk hv.2)
      rw [encodeN]
      cases strict <;> exact h
    | nil => exact hskip _ (fun b => rfl)
    | _ => simp [Val.isNil, wtN] at hv

end Vtp
