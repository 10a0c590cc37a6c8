import Verif.Lemmas.ConcReadSize
/-! # `MarshalVT` on memory -/

namespace Vtp.Conc
open Spec

variable {S : Schema} {B : Bufs} {h : Heap} {F : Addr → Prop} {R : Runtime} {n : Nat}

/-- A writer which reads memory does what one on values does. -/
def WGives (Z : Addr → Cell → Prop) (w : HWriter) (u : Writer) : Prop := ∀ s, Gives Z (w s) (u s)

section
variable {Z : Addr → Cell → Prop}

theorem WGives.lift (u : Writer) : WGives Z (HWriter.lift u) u := fun _ => .lift _

theorem WGives.seq {w w' : HWriter} {u u' : Writer} (h1 : WGives Z w u) (h2 : WGives Z w' u') : WGives Z (HWriter.seq w w') (Writer.seq u u') :=
  fun s => .bind (h1 s) fun s' _ => h2 s'

theorem WGives.call {w : Bytes → Prog (Bytes × Nat)} {u : Bytes → Res (Bytes × Nat)} (h1 : ∀ b, Gives Z (w b) (u b)) : WGives Z (HWriter.call w) (Writer.call u) := by
  intro s
  unfold HWriter.call Writer.call
  split
  · exact .bind (h1 _) fun a _ => .pure _
  · exact .lift _

theorem WGives.measured {w : HWriter} {u : Writer} (h1 : WGives Z w u) : WGives Z (HWriter.measured w) (Writer.measured u) :=
  fun s => .bind (h1 s) fun _ _ => .lift _

theorem WGives.each {α : Type} {w : α → HWriter} {u : α → Writer} : ∀ {l : List α}, (∀ a ∈ l, WGives Z (w a) (u a)) → WGives Z (HWriter.each w l) (Writer.each u l)
  | [], _ => .lift _
  | a :: l, h1 => .seq (h1 a (List.mem_cons_self ..)) (.each fun b hb => h1 b (List.mem_cons_of_mem _ hb))

/-- Reading something first. -/
theorem WGives.bind_ok {α : Type} {x : Prog α} {a : α} {w : α → HWriter} {u : Writer} (hx : Gives Z x (.ok a)) (hw : WGives Z (w a) u) :
    WGives Z (fun s => do let a ← x; w a s) u := fun s => .bind_ok hx (hw s)

theorem WGives.runSized {w : HWriter} {u : Writer} (h1 : WGives Z w u) (b : Bytes) : Gives Z (hrunSized w b) (runSized u b) := .bind (h1 _) fun _ _ => .pure _

end

theorem wgives_down {ty : Ty} {x : HV} {v : Val} (hx : At S B h F (.list ty) x v) {g : HV → HWriter} {g' : Val → Writer}
    (hg : ∀ e ∈ v.elems, ∀ y, At S B h F ty y e → WGives (Sees B h F) (g y) (g' e)) :
    ∀ n, n ≤ v.elems.length → WGives (Sees B h F) (HWriter.down g x n) (Writer.each g' (v.elems.take n).reverse) := by
  intro n
  induction n with
  | zero => intro _; exact .lift _
  | succ n ih =>
    intro hn s
    obtain ⟨y, h1, h2⟩ := hx.index n (by omega)
    rw [List.take_succ_eq_append_getElem (by omega), List.reverse_append]
    exact .bind_ok h1 (.bind (hg _ (List.getElem_mem _) y h2 s) fun s' _ => ih (by omega) s')

theorem wgives_all {ty : Ty} {x : HV} {v : Val} (hx : At S B h F (.list ty) x v) {g : HV → HWriter} {g' : Val → Writer}
    (hg : ∀ e ∈ v.elems, ∀ y, At S B h F ty y e → WGives (Sees B h F) (g y) (g' e)) :
    WGives (Sees B h F) (fun s => do let c ← hlen x; HWriter.down g x c s) (Writer.each g' v.elems.reverse) := by
  refine .bind_ok hx.len ?_
  have := wgives_down hx hg v.elems.length (Nat.le_refl _)
  rwa [List.take_length] at this

theorem wgives_entries {ty : Ty} {x : HV} {v : Val} (hx : At S B h F (.map ty) x v) {g : Key → HV → HWriter} {g' : Key × Val → Writer}
    (hg : ∀ e ∈ v.entries, ∀ y, At S B h F ty y e.2 → WGives (Sees B h F) (g e.1 y) (g' e)) :
    ∀ n i, i + n = v.entries.length → WGives (Sees B h F) (HWriter.entries g x i n) (Writer.each g' (v.entries.drop i)) := by
  intro n
  induction n with
  | zero => intro i hi; rw [List.drop_eq_nil_of_le (by omega)]; exact .lift _
  | succ n ih =>
    intro i hi s
    obtain ⟨y, h1, h2⟩ := hx.entryAt i (by omega)
    rw [List.drop_eq_getElem_cons (by omega)]
    exact .bind_ok h1 (.bind (hg _ (List.getElem_mem _) y h2 s) fun s' _ => ih (i + 1) (by omega) s')

theorem marshalScalar_ext {k : Kind} {v w : Val} (h1 : (k = .string ∨ k = .bytes) → v.bytes = w.bytes) (h2 : ¬ (k = .string ∨ k = .bytes) → v.bits = w.bits) :
    marshalScalar k v = marshalScalar k w := by
  cases k <;> first | simp [marshalScalar, wireVarint, h2 (by decide)] | simp [marshalScalar, h1 (by decide)]

theorem wgives_scalar {k : Kind} {t : Nat} {x : HV} {v : Val} (hm : k ≠ .message) (hg : k ≠ .group) (hx : At S B h F (elemTy k t) x v) :
    WGives (Sees B h F) (hmarshalScalar k x) (marshalScalar k v) := by
  intro s
  obtain ⟨h1, h2⟩ := hx.cases_elem hm hg
  unfold hmarshalScalar
  by_cases hk : k = .string ∨ k = .bytes
  · rw [if_pos hk]
    refine .bind_ok h1 ?_
    rw [marshalScalar_ext (v := v) (w := .str v.bytes) (fun _ => rfl) (fun hc => absurd hk hc)]
    exact .lift _
  · rw [if_neg hk, marshalScalar_ext (v := v) (w := .num x.bits) (fun hc => absurd hc hk) (fun hc => (h2 hc).symm)]
    exact .lift _

theorem gives_nums {k : Kind} {t : Nat} (hm : k ≠ .message) (hg : k ≠ .group) (hk : ¬ (k = .string ∨ k = .bytes)) {x : HV} {v : Val} (hx : At S B h F (.list (elemTy k t)) x v) :
    ∀ n i, i + n = v.elems.length → Gives (Sees B h F) (hnums k x i n) (.ok ((v.elems.drop i).map (wireVarint k))) := by
  intro n
  induction n with
  | zero => intro i hi; rw [List.drop_eq_nil_of_le (by omega)]; exact .pure _
  | succ n ih =>
    intro i hi
    obtain ⟨y, h1, h2⟩ := hx.index i (by omega)
    rw [List.drop_eq_getElem_cons (by omega), List.map_cons]
    refine .bind_ok h1 (.bind_ok (ih (i + 1) (by omega)) ?_)
    have h3 := (h2.cases_elem hm hg).2 hk
    have : wireVarint k (.num y.bits) = wireVarint k v.elems[i] := by
      cases k <;> simp [wireVarint, Val.bits, h3]
    rw [this]
    exact .pure _

/-- A method of sub-messages gives what the one on values does. -/
def RecMarshal (S : Schema) (B : Bufs) (h : Heap) (F : Addr → Prop) (n : Nat) (rec : HSubMarshal) (rec' : Nat → Val → Bytes → Res (Bytes × Nat)) : Prop :=
  ∀ t x v, (S.msg t).foreign = false → At S B h F (.msg t) x v → v.depth < n → ∀ b, Gives (Sees B h F) (rec t x b) (rec' t v b)

variable {rec : HSubMarshal} {rec' : Nat → Val → Bytes → Res (Bytes × Nat)} (H : RecMarshal S B h F n rec rec')
include H

theorem wgives_sub {t : Nat} {x : HV} {v : Val} (hx : At S B h F (.msg t) x v) (hv : v.depth < n) :
    WGives (Sees B h F) (hmarshalSub ⟨S, R⟩ rec t x) (marshalSub ⟨S, R⟩ rec' t v) := by
  unfold hmarshalSub marshalSub
  by_cases hf : (S.msg t).foreign = true
  · simp only [hf, if_true]
    intro s
    exact .bind_ok (hx.foreign hf) (.lift _)
  · simp only [hf, Bool.false_eq_true, if_false]
    exact .call (H t x v (by simpa using hf) hx hv)

theorem wgives_entry {num wt : Nat} {md : MapDesc} (hg : md.val ≠ .group) {k : Key} {x : HV} {v : Val} (hx : At S B h F (elemTy md.val md.valMsg) x v) (hv : v.depth < n) :
    WGives (Sees B h F) (hmarshalEntry ⟨S, R⟩ rec num wt md k x) (marshalEntry ⟨S, R⟩ rec' num wt md (k, v)) := by
  unfold hmarshalEntry marshalEntry
  refine .seq (.measured (.seq ?_ (.seq (.lift _) (.seq (.lift _) (.lift _))))) (.lift _)
  by_cases hm : md.val = .message
  · simp only [hm, if_true] at hx ⊢
    exact .measured (wgives_sub H hx hv)
  · rw [if_neg hm]
    have := wgives_scalar hm hg hx
    revert this
    cases hk : md.val <;> simp_all

section
variable {d : MsgDesc} {o : Bool} {f : FieldDesc} (hf : FieldIs d o f) {x : HV} {v : Val} (hx : At S B h F (valTy o f) x v)
  (hn : isBoxed o f = true → v.isNil = false) {k : Kind} (hk : f.kind = k) (hm : k ≠ .message) (hg : k ≠ .group)
include hf hx hn hk hm hg

omit H in
theorem wgives_single (hr : f.card ≠ .repeated) (num wt : Nat) :
    WGives (Sees B h F) (fun s => do
      match ← hpresent o f x with
      | some y => HWriter.seq (hmarshalScalar k y) (HWriter.lift (Writer.key num wt)) s
      | none => HWriter.lift Writer.skip s)
      (if (!o && !(f.hasMessage || (!o && f.presence)) && isZeroVal k v) = true then Writer.skip else Writer.seq (marshalScalar k v) (Writer.key num wt)) := by
  subst hk
  obtain ⟨y, h1, h2⟩ := gives_present hf hr hm hg hx hn
  intro s
  refine .bind_ok h2 ?_
  by_cases hc : (!o && !(f.hasMessage || (!o && f.presence)) && isZeroVal f.kind v) = true
  · simp only [hc, if_true]; exact .lift _
  · simp only [hc, Bool.false_eq_true, if_false]
    exact WGives.seq (wgives_scalar hm hg h1) (.lift _) s

end

theorem wgives_fieldBody {d : MsgDesc} {o : Bool} {f : FieldDesc} (hf : FieldIs d o f) {x : HV} {v : Val} (hx : At S B h F (valTy o f) x v)
    (hn : isBoxed o f = true → v.isNil = false) (hv : v.depth < n) :
    WGives (Sees B h F) (hmarshalFieldBody ⟨S, R⟩ rec o f x) (marshalFieldBody ⟨S, R⟩ rec' o f v) := by
  have hel : ∀ e ∈ v.elems, e.depth < n := fun e he => lt_of_le_of_lt (depth_elems he) hv
  unfold hmarshalFieldBody marshalFieldBody
  cases hk : f.kind <;> simp only
  case group =>
    have hr : f.card ≠ .repeated := fun hr => (hf.facts.rep hr).2.1 hk
    rw [valTy_msg hf hr (by simp [FieldDesc.hasMessage, hk])] at hx
    exact .seq (.lift _) (.seq (wgives_sub H hx hv) (.lift _))
  case message =>
    cases hm : f.map with
    | some md =>
      rw [valTy_map hf hm] at hx
      refine .bind_ok hx.mapLen ?_
      exact wgives_entries hx (fun e he y hy => wgives_entry (k := e.1) H (hf.facts.map md hm).2.2.2 hy (lt_of_le_of_lt (depth_entries he) hv)) _ 0 (by omega)
    | none =>
      simp only
      by_cases hr : f.card = .repeated
      · have hr' : (f.card == .repeated) = true := by simp [hr]
        rw [valTy_list hf hr hm, hk] at hx
        simp only [hr', if_true]
        exact wgives_all hx fun e he y hy => .seq (.measured (wgives_sub H hy (hel e he))) (.lift _)
      · have hr' : (f.card == .repeated) = false := by simp [hr]
        rw [valTy_msg hf hr (by simp [FieldDesc.hasMessage, hk])] at hx
        simp only [hr', Bool.false_eq_true, if_false]
        exact .seq (.measured (wgives_sub H hx hv)) (.lift _)
  all_goals
    by_cases hp : f.packed = true
    · have hr := (hf.facts.packed hp).1
      have hr' : (f.card == .repeated) = true := by simp [hr]
      have hl := at_list hf hx hk (by decide) hr
      simp only [hp, hr', if_true]
      first
      | exact wgives_all hl fun e he y hy => .seq (wgives_scalar (by decide) (by decide) hy) (.lift _)
      | refine .bind_ok hl.len (.seq ?_ (.seq (.lift _) (.lift _)))
        have h1 := wgives_down hl (fun e he y hy => wgives_scalar (by decide) (by decide) hy) _ (Nat.le_refl _)
        rwa [List.take_length] at h1
      | intro s
        refine .bind_ok hl.len (.bind_ok (gives_sumElems hl (fun e he y hy => gives_sizeScalar (by decide) (by decide) hy) _ 0 (by omega))
          (.bind_ok (gives_nums (by decide) (by decide) (by decide) hl _ 0 (by omega)) ?_))
        exact .lift _
    · simp only [hp, Bool.false_eq_true, if_false]
      by_cases hr : f.card = .repeated
      · have hr' : (f.card == .repeated) = true := by simp [hr]
        have hl := at_list hf hx hk (by decide) hr
        simp only [hr', if_true]
        exact wgives_all hl fun e he y hy => .seq (wgives_scalar (by decide) (by decide) hy) (.lift _)
      · have hr' : (f.card == .repeated) = false := by simp [hr]
        simp only [hr', Bool.false_eq_true, if_false]
        exact wgives_single hf hx hn hk (by decide) (by decide) hr _ _

theorem wgives_field {d : MsgDesc} {o : Bool} {f : FieldDesc} (hf : FieldIs d o f) {x : HV} {v : Val} (hx : At S B h F (valTy o f) x v) (hv : v.depth < n) :
    WGives (Sees B h F) (hmarshalField ⟨S, R⟩ rec o f x) (marshalField ⟨S, R⟩ rec' o f v) := by
  unfold hmarshalField marshalField
  by_cases hr : f.card = .repeated
  · have hr' : (f.card == .repeated) = true := by simp [hr]
    simp only [hr', if_true]
    intro s
    refine .bind_ok (gives_fieldLen hf hr hx) ?_
    split
    · refine wgives_fieldBody H hf hx (fun hb => ?_) hv s
      simp [isBoxed, (hf.facts.rep hr).1] at hb
    · exact .lift _
  · have hr' : (f.card == .repeated) = false := by simp [hr]
    have hnil : x.isNil = v.isNil := hx.isNil (by
      rw [valTy_single hf hr]
      intro c
      split
      · simp
      · cases f.kind <;> simp [elemTy])
    simp only [hr', Bool.false_eq_true, if_false, hnil]
    by_cases hnu : (f.hasMessage || !o && f.presence) = true
    · simp only [hnu, if_true]
      cases hvn : v.isNil with
      | false =>
        simp only [Bool.not_false, if_true, Bool.false_eq_true, if_false, ite_self]
        exact wgives_fieldBody H hf hx (fun _ => hvn) hv
      | true =>
        simp only [Bool.not_true, Bool.false_eq_true, if_false, if_true]
        repeat' split
        all_goals exact .lift _
    · simp only [hnu, Bool.false_eq_true, if_false]
      refine wgives_fieldBody H hf hx (fun hb => ?_) hv
      simp only [isBoxed, Bool.and_eq_true] at hb
      simp [hb.1.1, hb.1.2] at hnu

theorem wgives_oneof {d : MsgDesc} (hd : MsgFacts d) {slot : Nat} {x : HV} {v : Val} (hx : At S B h F (.oneof d slot) x v) (hv : v.depth < n) :
    WGives (Sees B h F) (hmarshalOneof ⟨S, R⟩ rec d slot x) (marshalOneof ⟨S, R⟩ rec' d slot v) := by
  rcases hx.oneof with ⟨rfl, rfl⟩ | ⟨m, rfl, rfl⟩ | ⟨a, m, y, w, f, rfl, ha, hc, rfl, hm, hy⟩
  · exact .lift _
  · exact .call fun _ => .lift _
  · intro s
    refine .bind_ok (.read hc) ?_
    simp only [hm, marshalOneof]
    rw [Val.depth] at hv
    exact WGives.call (WGives.runSized (wgives_field H (member_is hd hm).1 hy (by omega))) s

theorem wgives_strictField {t : Nat} (hd : MsgFacts (S.msg t)) {a : Addr} {vs : List Val} (hm : MsgAt S B h F t a vs) (hv : Val.depthList vs < n)
    {f : FieldDesc} (hfm : f ∈ (S.msg t).fields) : WGives (Sees B h F) (hmarshalStrictField ⟨S, R⟩ rec (.ptr a) f) (marshalStrictField ⟨S, R⟩ rec' vs f) := by
  obtain ⟨x, h1, h2⟩ := hm.slot hfm
  have hsd : (slotOf vs f).depth < n := lt_of_le_of_lt (depth_slotOf vs f) hv
  unfold hmarshalStrictField marshalStrictField
  refine .bind_ok h1 ?_
  by_cases ho : f.oneof = true
  · simp only [ho, if_true]
    rw [fieldTy, if_pos ho] at h2
    rcases h2.oneof with ⟨rfl, e2⟩ | ⟨m, rfl, e2⟩ | ⟨b, m, y, w, g, rfl, ha, hc, e2, hm, hy⟩
    · rw [e2]; exact .lift _
    · rw [e2]
      intro s
      simp only
      split
      · exact WGives.call (fun _ => .lift _) s
      · exact .lift _
    · rw [e2] at hsd ⊢
      rw [Val.depth] at hsd
      intro s
      refine .bind_ok (.read hc) ?_
      simp only
      by_cases he : (m == f.num) = true
      · simp only [he, if_true]
        obtain ⟨hg1, hg2, hg3⟩ := member_is hd hm
        have hgf : g = f := by
          have hgm : g ∈ (S.msg t).fields := List.mem_of_find?_eq_some hm
          exact List.inj_on_of_nodup_map hd.nodup hgm hfm (by rw [hg2]; simpa using he)
        subst hgf
        exact WGives.call (WGives.runSized (wgives_field H hg1 hy (by omega))) s
      · simp only [he, Bool.false_eq_true, if_false]; exact .lift _
  · simp only [ho, Bool.false_eq_true, if_false]
    rw [fieldTy_valTy (by simpa using ho)] at h2
    exact wgives_field H ⟨hd.fields f hfm, fun hc => by cases hc⟩ h2 hsd

theorem wgives_oneofs {t : Nat} (hd : MsgFacts (S.msg t)) {a : Addr} {vs : List Val} (hm : MsgAt S B h F t a vs) (hv : Val.depthList vs < n) :
    ∀ (fs : List FieldDesc) (seen : List Nat), (∀ f ∈ fs, f ∈ (S.msg t).fields) →
      WGives (Sees B h F) (hmarshalOneofs ⟨S, R⟩ rec (S.msg t) (.ptr a) seen fs) (marshalOneofs ⟨S, R⟩ rec' (S.msg t) vs seen fs) := by
  intro fs
  induction fs with
  | nil => intro seen _; exact .lift _
  | cons f fs ih =>
    intro seen hfs
    have ih' := fun seen => ih seen (fun g hg => hfs g (List.mem_cons_of_mem _ hg))
    have hfm := hfs f (List.mem_cons_self ..)
    obtain ⟨x, h1, h2⟩ := hm.slot hfm
    have hsd : (slotOf vs f).depth < n := lt_of_le_of_lt (depth_slotOf vs f) hv
    unfold hmarshalOneofs marshalOneofs
    by_cases ho : f.oneof = true
    · rw [if_pos ho, if_pos ho]
      split
      · exact ih' _
      · have h3 : At S B h F (.oneof (S.msg t) f.slot) x (slotOf vs f) := by rw [fieldTy, if_pos ho] at h2; exact h2
        exact .seq (.bind_ok h1 (wgives_oneof H hd h3 hsd)) (ih' _)
    · rw [if_neg ho, if_neg ho]
      exact ih' _

theorem wgives_other {t : Nat} (hd : MsgFacts (S.msg t)) {a : Addr} {vs : List Val} (hm : MsgAt S B h F t a vs) (hv : Val.depthList vs < n)
    {f : FieldDesc} (hfm : f ∈ (S.msg t).fields) :
    WGives (Sees B h F) (hmarshalOther ⟨S, R⟩ rec (.ptr a) f) (if f.oneof then Writer.skip else marshalField ⟨S, R⟩ rec' false f (slotOf vs f)) := by
  obtain ⟨x, h1, h2⟩ := hm.slot hfm
  unfold hmarshalOther
  by_cases ho : f.oneof = true
  · rw [if_pos ho, if_pos ho]; exact .lift _
  · rw [if_neg ho, if_neg ho]
    rw [fieldTy_valTy (by simpa using ho)] at h2
    exact .bind_ok h1 (wgives_field H ⟨hd.fields f hfm, fun hc => by cases hc⟩ h2 (lt_of_le_of_lt (depth_slotOf vs f) hv))

omit H in
theorem mem_sortFields {fs : List FieldDesc} {f : FieldDesc} (hf : f ∈ (sortFields fs).reverse) : f ∈ fs := by
  rw [List.mem_reverse, sortFields, List.mem_insertionSort] at hf
  exact hf

theorem wgives_body (strict : Bool) {t : Nat} (hd : MsgFacts (S.msg t)) {a : Addr} {s : List HV} {u uv : _} {e : Bytes} {vs : List Val} (hc : Sees B h F a (.msg s u e))
    (hs : ∀ f ∈ (S.msg t).fields, At S B h F (fieldTy (S.msg t) f) (s.getD f.slot .nil) (slotOf vs f)) (hu : At S B h F .mem u uv) (hv : Val.depthList vs < n) :
    WGives (Sees B h F) (hmarshalBody ⟨S, R⟩ rec strict (S.msg t) (.ptr a)) (marshalBody ⟨S, R⟩ rec' strict (S.msg t) vs uv.bytes) := by
  have hm : MsgAt S B h F t a vs := ⟨s, u, e, hc, hs⟩
  unfold hmarshalBody marshalBody
  refine .seq ?_ ?_
  · split
    · exact .bind_ok (gives_getUnknown hc) (.bind_ok (hu.bytes (.inr (.inr rfl))) (.lift _))
    · exact .lift _
  · cases strict with
    | true =>
      simp only [if_true]
      exact .each fun f hf => wgives_strictField H hd hm hv (mem_sortFields hf)
    | false =>
      simp only [Bool.false_eq_true, if_false]
      exact .seq (wgives_oneofs H hd hm hv _ [] fun f hf => mem_sortFields hf) (.each fun f hf => wgives_other H hd hm hv (mem_sortFields hf))

omit H in
theorem gives_marshalToSizedN (hS : schemaOK S = true) (strict : Bool) : ∀ n, RecMarshal S B h F n (hmarshalToSizedN ⟨S, R⟩ strict n) (marshalToSizedN ⟨S, R⟩ strict n) := by
  intro n
  induction n with
  | zero => intro t x v _ _ hv; omega
  | succ n ih =>
    intro t x v hf hx hv b
    rcases hx.msg (schemaOK_msg hS t) hf with ⟨rfl, rfl⟩ | ⟨a, s, u, e, vs, uv, rfl, ha, hc, rfl, hu, hs⟩
    · exact .pure _
    · unfold hmarshalToSizedN marshalToSizedN
      simp only [HV.isNil, Bool.false_eq_true, if_false]
      rw [Val.depth] at hv
      exact WGives.runSized (wgives_body ih strict (schemaOK_msg hS t) hc hs hu (by omega)) b

omit H in
theorem gives_marshalVT (hS : schemaOK S = true) (strict : Bool) {t : Nat} (hf : (S.msg t).foreign = false) {x : HV} {v : Val} (hx : At S B h F (.msg t) x v) (hv : v.depth < n) :
    Gives (Sees B h F) (hmarshalVT ⟨S, R⟩ strict n t x) (marshalVT ⟨S, R⟩ strict t v) := by
  have h1 := gives_sizeN (R := R) hS n t x v hf hx hv
  have h2 := fun b => gives_marshalToSizedN (R := R) hS strict n t x v hf hx hv b
  rw [sizeN_eq _ (by omega)] at h1
  simp only [marshalToSizedN_eq ⟨S, R⟩ strict (Nat.le_of_lt hv)] at h2
  rcases hx.msg (schemaOK_msg hS t) hf with ⟨rfl, rfl⟩ | ⟨a, s, u, e, vs, uv, rfl, ha, hc, rfl, hu, hs⟩
  · exact .pure _
  · unfold hmarshalVT marshalVT
    simp only [HV.isNil, Bool.false_eq_true, if_false]
    refine .bind_ok h1 (.bind (h2 _) fun r _ => ?_)
    obtain ⟨b, c⟩ := r
    simp only
    split
    · exact .pure _
    · exact .lift _

end Vtp.Conc
