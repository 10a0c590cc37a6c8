import Verif.Lemmas.GoURecord
/-! Running the printed `UnmarshalVT`. -/

namespace Vtp.GoU
open Spec

theorem toInt_pos {n : BitVec 32} (h : 0 < n.toInt) : n.toInt = n.toNat := by
  rw [BitVec.toInt_eq_toNat_cond] at h ⊢
  split
  · rfl
  · rename_i hc; rw [if_neg hc] at h; have := n.isLt; omega

theorem find_perm {fs gs : List FieldDesc} (h : fs.Perm gs) (hn : (gs.map (·.num)).Nodup) (k : Nat) :
    fs.find? (fun f => f.num == k) = gs.find? (fun f => f.num == k) := by
  have huniq : ∀ f ∈ gs, ∀ g ∈ gs, f.num = g.num → f = g := fun f hf g hg e => List.inj_on_of_nodup_map hn hf hg e
  rcases hf : fs.find? (fun f => f.num == k) with _ | f
  · have h0 := List.find?_eq_none.1 hf
    rw [hf]
    exact (List.find?_eq_none.2 fun x hx => h0 x (h.mem_iff.2 hx)).symm
  · rcases hg : gs.find? (fun f => f.num == k) with _ | g
    · exfalso
      rw [List.find?_eq_none] at hg
      have h1 := List.find?_some hf
      exact hg f (h.mem_iff.1 (List.mem_of_find?_eq_some hf)) h1
    · have h1 := List.find?_some hf
      have h2 := List.find?_some hg
      simp only [beq_iff_eq] at h1 h2
      rw [hf, hg]
      exact congrArg some (huniq f (h.mem_iff.1 (List.mem_of_find?_eq_some hf)) g (List.mem_of_find?_eq_some hg) (by omega))

section
variable {C : Ctx} {self : Nat} {K : List Id} {G : GenCfg} {E : UEnv} {rec : SubDec}

/-- What one record does after its tag has been read. -/
def byNumber (E : UEnv) (rec : SubDec) (t : Nat) (b : Bytes) (base i : Nat) (has : List (BitVec 64)) (wire : BitVec 64) (num j : Nat) (fs : List FieldDesc) :
    UM (Nat × List (BitVec 64)) :=
  match fs.find? (fun f => f.num == num) with
  | some f => do
    let j ← fieldCase E rec (E.S.msg t) f wire b base j
    let has ← UM.lift (markField (E.S.msg t) f has)
    pure (j, has)
  | none => do
    let j ← unknownCase E t num b i
    pure (j, has)

/-- The `switch`. -/
theorem run_cases (hg : Good G E C rec) {t : Nat} (hf : (E.S.msg t).foreign = false) {wire : BitVec 64} (hw : (wire &&& 7).toNat ≠ 4)
    {pre : List (Id × V)} (hp : ∀ p ∈ pre, p.1 ≠ .hasFields) {has : List (BitVec 64)}
    (hl : has.length = (noFields (E.S.msg t)).length) (hs : Std C (pre ++ top C (E.S.msg t) has)) (hfw : find pre .wire = .ok (.num .uint64 wire))
    (hft : find pre .wireType = .ok (.int ((wire &&& 7).toNat : Int))) {i j : Nat} (hi : i ≤ C.dAtA.length) (hj : j ≤ C.dAtA.length)
    (hpre : find (pre ++ top C (E.S.msg t) has) .preIndex = .ok (.int i)) {num : BitVec 32}
    (hnum : find (pre ++ top C (E.S.msg t) has) .fieldNum = .ok (.num .int32 num)) (hn : 0 < num.toInt) {m : Val} (hm : Typed E.S t m) :
    ∀ fs : List FieldDesc, (∀ f ∈ fs, f ∈ (E.S.msg t).fields) →
      exec C t (Emit.cases G E.S (E.S.msg t) fs) ⟨pre ++ top C (E.S.msg t) has, j⟩ m =
      ((byNumber E rec t C.dAtA C.base i has wire num.toNat j fs m).1, (byNumber E rec t C.dAtA C.base i has wire num.toNat j fs m).2 >>= fun q =>
        .ok (⟨pre ++ top C (E.S.msg t) q.2, (q.1 : Int)⟩, .next)) := by
  intro fs
  induction fs with
  | nil =>
    intro _
    rw [Emit.cases, exec, Ends.scope (ends_unknown hg hs hi hpre hnum hn m)]
    unfold byNumber
    simp only [List.find?_nil]
    rw [UM.bind_def]
    rcases unknownCase E t num.toNat C.dAtA i m with ⟨m', _ | _ | _ | _⟩ <;> rfl
  | cons f fs ih =>
    intro hfs
    have hcase : exec C t (Emit.cases G E.S (E.S.msg t) (f :: fs)) ⟨pre ++ top C (E.S.msg t) has, j⟩ m =
        if f.num = num.toNat then inScope ⟨pre ++ top C (E.S.msg t) has, j⟩ (exec C t (Emit.field G E.S (E.S.msg t) f) ⟨pre ++ top C (E.S.msg t) has, j⟩) m
        else exec C t (Emit.cases G E.S (E.S.msg t) fs) ⟨pre ++ top C (E.S.msg t) has, j⟩ m := by
      rw [Emit.cases, exec, UM.bind_def, UM.lift, St.look, if_neg (by decide), hnum]
      simp only
      rw [UM.bind_def, UM.lift, show asInt (.num .int32 num) = .ok num.toInt from rfl]
      simp only
      rw [toInt_pos hn]
      by_cases hc : f.num = num.toNat
      · rw [if_pos hc, if_pos (by omega)]
      · rw [if_neg hc, if_neg (by omega)]
    rw [hcase]
    unfold byNumber
    rw [List.find?_cons]
    by_cases hc : f.num = num.toNat
    · rw [if_pos hc]
      simp only [hc, beq_self_eq_true]
      exact run_field hg hf (hfs f (by simp)) hw hp hl hs hfw hft hj hm
    · rw [if_neg hc, ih (fun g hg => hfs g (by simp [hg]))]
      simp only [beq_eq_false_iff_ne.2 hc]
      rfl

/-- One record. -/
theorem run_record (hg : Good G E C rec) {t : Nat} (hf : (E.S.msg t).foreign = false) {has : List (BitVec 64)}
    (hl : has.length = (noFields (E.S.msg t)).length) {i : Nat} (hi : i ≤ C.dAtA.length) {m : Val} (hm : Typed E.S t m) :
    inScope ⟨top C (E.S.msg t) has, i⟩ (exec C t (Emit.recordBody G E.S (E.S.msg t)) ⟨top C (E.S.msg t) has, i⟩) m =
    ((recordStep E rec t C.dAtA C.base i has m).1, (recordStep E rec t C.dAtA C.base i has m).2 >>= fun q =>
      .ok (⟨top C (E.S.msg t) q.2, (q.1 : Int)⟩, .next)) := by
  have hS := schemaOK_msg hg.env.schema t
  have hs := std_top hg (E.S.msg t) has
  have hv := decodeVarint_all 64 C.dAtA i
  rw [inScope_def, Emit.recordBody, exec_seq, exec_define (by decide) eval_index, andThen_next, exec_seq, exec_decl (by decide), andThen_next, exec_seq,
    show zero (.num .uint64) = .num .uint64 0 from rfl,
    run_varint (hs.cons (by decide) _) (by decide) (by decide) (by decide) (by decide) .uint64 0 i]
  have hdv : decodeVarintLoop NTy.uint64.width C.dAtA 11 0 i 0 = decodeVarint 64 C.dAtA i := rfl
  rw [hdv]
  unfold recordStep
  rw [UM.bind_def, UM.lift]
  rcases hq : decodeVarint 64 C.dAtA i with ⟨wire, j⟩ | _ | _ | _
  · rw [hq] at hv
    obtain ⟨h1, h2⟩ := hv
    simp only at h1 h2
    simp only [Res.bind_ok]
    set num : BitVec 32 := (wire >>> 3).setWidth 32 with hnum
    let p1 : List (Id × V) := [(.wire, .num .uint64 wire), (.preIndex, .int (i : Int))]
    let p2 : List (Id × V) := (.fieldNum, .num .int32 num) :: p1
    let p3 : List (Id × V) := (.wireType, .int ((wire &&& 7).toNat : Int)) :: p2
    change (match andThen (m, .ok (⟨p1 ++ top C (E.S.msg t) has, (j : Int)⟩, .next)) _ with
      | (m', .ok (st', c)) => (m', Res.ok (st'.leave _, c))
      | (m', .err e) => (m', .err e)
      | (m', .panic p) => (m', .panic p)
      | (m', .diverge) => (m', .diverge)) = _
    have e1 := eval_num32 (C := C) (vs := p1 ++ top C (E.S.msg t) has) (i := (j : Int)) (m := m) (w := wire) rfl
    have e2 := eval_wireType (C := C) (vs := p2 ++ top C (E.S.msg t) has) (i := (j : Int)) (m := m) (w := wire) hs.arch hs.fits rfl
    rw [andThen_next, exec_seq, exec_define (by decide) e1, andThen_next, exec_seq,
      show ((.fieldNum, V.num .int32 ((wire >>> 3).setWidth 32)) :: (p1 ++ top C (E.S.msg t) has)) = p2 ++ top C (E.S.msg t) has from rfl,
      exec_define (by decide) e2, andThen_next,
      show ((.wireType, V.int ((wire &&& 7).toNat : Int)) :: (p2 ++ top C (E.S.msg t) has)) = p3 ++ top C (E.S.msg t) has from rfl, exec_seq,
      exec_check (cond_wireType (op := .eq) (C := C) (vs := p3 ++ top C (E.S.msg t) has) (i := (j : Int)) (m := m) (n := 4) rfl).1]
    by_cases h4 : (wire &&& 7).toNat = 4
    · simp only [h4, decide_true, if_true, andThen_err]
      rfl
    simp only [h4, decide_false, Bool.false_eq_true, if_false, andThen_next]
    have hc0 : evalCond C ⟨p3 ++ top C (E.S.msg t) has, (j : Int)⟩ m (.bin .le (Emit.var .fieldNum) (.lit 0)) = .ok (decide (num.toInt ≤ 0)) := by
      refine evalCond_of ?_
      rw [eval_bin (v := .num .int32 num) ((eval_var (x := .fieldNum) (by decide)).trans rfl) eval_lit]
      rfl
    rw [exec_seq, exec_check hc0]
    by_cases h0 : num.toInt ≤ 0
    · simp only [h0, decide_true, if_true, andThen_err]
      rfl
    simp only [h0, decide_false, Bool.false_eq_true, if_false, andThen_next]
    have hst : Std C (p3 ++ top C (E.S.msg t) has) := ⟨hs.fits, hs.arch, hs.fuel, hs.l⟩
    rw [exec, run_cases (G := G) hg hf h4 (pre := p3) (by simp [p3, p2, p1]) hl hst rfl rfl hi h2 rfl rfl (by omega) hm _
      (fun f hf => (Go.messageFields_perm _).mem_iff.1 hf)]
    unfold byNumber
    rw [find_perm (Go.messageFields_perm _) hS.nodup]
    have hleave : ∀ (h : List (BitVec 64)) (k : Int), (⟨p3 ++ top C (E.S.msg t) h, k⟩ : St).leave ⟨top C (E.S.msg t) has, i⟩ = ⟨top C (E.S.msg t) h, k⟩ :=
      fun h k => leave_append p3 (top C (E.S.msg t) h) k _ (top_length _ _ _)
    have hend : ∀ r : Val × Res (Nat × List (BitVec 64)), (match (r.1, r.2 >>= fun q => Res.ok ((⟨p3 ++ top C (E.S.msg t) q.2, (q.1 : Int)⟩ : St), Ctrl.next)) with
        | (m', .ok (st', c)) => (m', Res.ok (st'.leave ⟨top C (E.S.msg t) has, i⟩, c))
        | (m', .err e) => (m', .err e)
        | (m', .panic p) => (m', .panic p)
        | (m', .diverge) => (m', .diverge)) = (r.1, r.2 >>= fun q => Res.ok ((⟨top C (E.S.msg t) q.2, (q.1 : Int)⟩ : St), Ctrl.next)) := by
      rintro ⟨m', ⟨q1, q2⟩ | _ | _ | _⟩
      · simp only [Res.bind_ok]
        rw [hleave]
      all_goals rfl
    exact hend _
  all_goals rfl

/-- The loop over the records. -/
theorem run_records (hg : Good G E C rec) {t : Nat} (hf : (E.S.msg t).foreign = false) :
    ∀ (n k i : Nat) (has : List (BitVec 64)) (m : Val), i ≤ C.dAtA.length → C.dAtA.length - i < n → C.dAtA.length - i < k →
      has.length = (noFields (E.S.msg t)).length → Typed E.S t m →
      iter (fun st => condU C st (.bin .lt Emit.iNdEx (Emit.var .l))) (fun st => inScope st (exec C t (Emit.recordBody G E.S (E.S.msg t)) st))
        (exec C t .skip) k ⟨top C (E.S.msg t) has, i⟩ m =
      ((recordLoop E rec t C.dAtA C.base n i has m).1, (recordLoop E rec t C.dAtA C.base n i has m).2 >>= fun q =>
        .ok (⟨top C (E.S.msg t) q.2, (q.1 : Int)⟩, .next)) := by
  intro n
  induction n with
  | zero => intro k i has m hi h1; exfalso; omega
  | succ n ih =>
    intro k i has m hi h1 h2 hl hm
    obtain ⟨k, rfl⟩ : ∃ k', k = k' + 1 := ⟨k - 1, by omega⟩
    have hcond : condU C ⟨top C (E.S.msg t) has, i⟩ (.bin .lt Emit.iNdEx (Emit.var .l)) m = (m, .ok (decide (i < C.dAtA.length))) :=
      cond_before (by decide) (by simp [top, find])
    rw [recordLoop]
    by_cases hlt : i < C.dAtA.length
    · rw [if_pos hlt, iter_body (X := recordStep E rec t C.dAtA C.base i has) (fun q => ⟨top C (E.S.msg t) q.2, (q.1 : Int)⟩) (by rw [hcond]; simp [hlt]) (run_record hg hf hl hi hm)]
      rw [UM.bind_def, UM.bind_def]
      have hsafe := safe_recordStep hg.env hg.safe hg.fits' hf C.base hi hl m hm
      rcases hq : recordStep E rec t C.dAtA C.base i has m with ⟨m', ⟨j, has'⟩ | _ | _ | _⟩
      · rw [hq] at hsafe
        obtain ⟨g1, g2, g3, g4⟩ := hsafe
        simp only at g2 g3 g4
        exact ih k j has' m' g3 (by omega) (by omega) g4 g1
      all_goals rfl
    · rw [if_neg hlt, iter_done (by rw [hcond]; simp [hlt])]
      rfl

/-- The checks for required fields. -/
theorem run_checkRequired {d : MsgDesc} {has : List (BitVec 64)} (hl : has.length = (noFields d).length) (i : Int) (m : Val) :
    ∀ fs : List FieldDesc, (∀ f ∈ fs, f ∈ d.fields) →
    exec C self (Emit.checkRequired d fs) ⟨top C d has, i⟩ m = (m, checkRequired d has fs >>= fun _ => .ok (⟨top C d has, i⟩, .next)) := by
  intro fs
  induction fs with
  | nil => intro _; rw [Emit.checkRequired, exec_skip]; rfl
  | cons f fs ih =>
    intro hfs
    have ih := ih (fun g hg => hfs g (by simp [hg]))
    rw [Emit.checkRequired, checkRequired, exec_seq]
    by_cases hc : (f.card == .required) = true
    · rw [if_pos hc, if_pos hc]
      simp only
      have hb := bit_lt (hfs f (by simp)) hc
      rw [← hl] at hb
      have hd := required_pos (hfs f (by simp)) hc
      have hmod : d.required.idxOf f.num % 64 < 64 := Nat.mod_lt _ (by omega)
      generalize d.required.idxOf f.num / 64 = k at *
      generalize d.required.idxOf f.num % 64 = b at *
      rw [List.getElem?_eq_getElem hb]
      simp only
      have he : eval C ⟨top C d has, i⟩ m (.conv (.num .uint64) (.lit (2 ^ b))) = .ok (.num .uint64 ((1 : BitVec 64) <<< b)) := by
        rw [eval_conv eval_lit, ← one_shl b hmod]
        rfl
      have hr : eval C ⟨top C d has, i⟩ m (.pl (.has k)) = .ok (.num .uint64 has[k]) := by
        rw [eval, readPlace, St.look, if_neg (by decide), find_has hd]
        simp only [Res.bind_ok, List.getElem?_eq_getElem hb]
      have ha : eval C ⟨top C d has, i⟩ m (.bin .and (.pl (.has k)) (.conv (.num .uint64) (.lit (2 ^ b)))) = .ok (.num .uint64 (has[k] &&& (1 : BitVec 64) <<< b)) := by
        rw [eval_bin hr he]
        rfl
      have hcnd : evalCond C ⟨top C d has, i⟩ m (.bin .eq (.bin .and (.pl (.has k)) (.conv (.num .uint64) (.lit (2 ^ b)))) (.lit 0)) =
          .ok (decide (has[k] &&& (1 : BitVec 64) <<< b = 0)) := by
        refine evalCond_of ?_
        rw [eval_bin ha eval_lit]
        generalize has[k] &&& (1 : BitVec 64) <<< b = w
        have : equal (.num .uint64 w) (.const 0) = .ok (decide ((w.toNat : Int) = ((0 : Nat) : Int))) := rfl
        simp only [binV, this, Res.bind_ok]
        congr 2
        refine decide_eq_decide.2 ?_
        rw [← BitVec.toNat_inj]
        simp
      rw [exec_check hcnd]
      by_cases hz : has[k] &&& (1 : BitVec 64) <<< b = 0
      · simp only [hz, decide_true, if_true]
        rfl
      · simp only [hz, decide_false, Bool.false_eq_true, if_false, andThen_next]
        exact ih
    · rw [if_neg hc, if_neg hc, exec_skip, andThen_next]
      exact ih

theorem checkRequired_filter (d : MsgDesc) (has : List (BitVec 64)) : ∀ fs : List FieldDesc,
    checkRequired d has fs = checkRequired d has (fs.filter fun f => f.card == .required) := by
  intro fs
  induction fs with
  | nil => rfl
  | cons f fs ih =>
    rw [List.filter_cons]
    by_cases hc : (f.card == .required) = true
    · rw [if_pos hc, checkRequired, checkRequired, if_pos hc, if_pos hc]
      simp only
      rw [ih]
    · rw [if_neg hc, checkRequired, if_neg hc, ih]

/-- `unmarshalBody` with the required fields checked in the order of the printed code. -/
def bodyIn (G : GenCfg) (E : UEnv) (rec : SubDec) : SubDec := fun base t b => do
  let (i, has) ← recordLoop E rec t b base (b.length + 1) 0 (noFields (E.S.msg t))
  UM.lift (checkRequired (E.S.msg t) has (Go.Emit.messageFields G.toGenCfg (E.S.msg t)))
  if i > b.length then UM.lift (.err .unexpectedEOF) else pure ()

/-- `unmarshalN` with the required fields checked in the order of the printed code. -/
def decodeIn (G : GenCfg) (E : UEnv) : Nat → SubDec
  | 0 => fun _ _ _ => UM.lift .diverge
  | n + 1 => bodyIn G E (decodeIn G E n)

theorem safe_bodyIn {t : Nat} (hE : DecodeEnv E) {rec : SubDec} {d : Bytes} (hr : RecSafe E rec d.length) (hF : E.A.Fits d.length)
    (hf : (E.S.msg t).foreign = false) (base : Nat) :
    Safe (Typed E.S t) (bodyIn G E rec base t d) (fun _ => True) := by
  unfold bodyIn
  refine (safe_recordLoop hE hr hF hf base (d.length + 1) 0 _ (by omega) (by omega) rfl).bind ?_
  rintro ⟨i, has⟩ ⟨h1, h2⟩
  simp only at h1 h2 ⊢
  refine (Safe.lift (checkRequired_all h2 _ fun f hf => (Go.messageFields_perm _).mem_iff.1 hf)).bind fun _ _ => ?_
  rw [if_neg (by omega)]
  exact Safe.pure trivial

theorem safe_decodeIn (hE : DecodeEnv E) : ∀ n off t b, (E.S.msg t).foreign = false → b.length < n → E.A.Fits b.length →
    Safe (Typed E.S t) (decodeIn G E n off t b) (fun _ => True) := by
  intro n
  induction n with
  | zero => intro off t b _ hb; exfalso; omega
  | succ n ih =>
    intro off t b hf hb hF
    exact safe_bodyIn hE (fun off t b' hf hb' => ih off t b' hf (by omega) (by unfold Arch.Fits at hF ⊢; omega)) hF hf off

/-- The printed method. -/
theorem run_method (hg : Good G E C rec) {t : Nat} (hf : (E.S.msg t).foreign = false) {m : Val} (hm : Typed E.S t m) :
    run C t (Emit.method G E.S t) m = bodyIn G E rec C.base t C.dAtA m := by
  have hA : C.A.Valid := by rw [hg.link.A]; exact hg.env.arch
  have hF := hg.fits
  have hsafe := safe_recordLoop hg.env hg.safe hg.fits' hf C.base (C.dAtA.length + 1) 0 (noFields (E.S.msg t)) (by omega) (by omega) rfl m hm
  have hhead : ∀ rest : Stmt, exec C t ((if (E.S.msg t).required.length > 0 then .decl .hasFields (.words (1 + ((E.S.msg t).required.length - 1) / 64)) else .skip) ;;
      .define .l .lenData ;; .define .iNdEx (.lit 0) ;; rest) ⟨[], 0⟩ m = exec C t rest ⟨top C (E.S.msg t) (noFields (E.S.msg t)), ((0 : Nat) : Int)⟩ m := by
    intro rest
    have hl : ∀ vs : List (Id × V), exec C t (.define .l .lenData ;; .define .iNdEx (.lit 0) ;; rest) ⟨vs, 0⟩ m = exec C t rest ⟨(.l, .int C.dAtA.length) :: vs, ((0 : Nat) : Int)⟩ m := by
      intro vs
      rw [exec_seq, exec_define (v := .int C.dAtA.length) (by decide) (by rw [eval]), andThen_next, exec_seq]
      have : exec C t (.define .iNdEx (.lit 0)) ⟨(.l, .int C.dAtA.length) :: vs, 0⟩ m = (m, .ok (⟨(.l, .int C.dAtA.length) :: vs, ((0 : Nat) : Int)⟩, .next)) := by
        rw [exec, UM.bind_def, evalU, eval]
        rfl
      rw [this, andThen_next]
    unfold top noFields
    rw [exec_seq]
    split
    · rw [exec_decl (by decide), andThen_next, hl]
      rfl
    · rw [exec_skip, andThen_next, hl]
  rw [run, UM.bind_def, Emit.method]
  simp only
  rw [hhead, exec_seq, exec_loop, inScope_def, run_records hg hf (C.dAtA.length + 1) C.fuel 0 _ m (by omega) (by omega) (by have := hg.fuel; omega) rfl hm]
  unfold bodyIn
  rw [UM.bind_def]
  rcases hq : recordLoop E rec t C.dAtA C.base (C.dAtA.length + 1) 0 (noFields (E.S.msg t)) m with ⟨m', ⟨j, has⟩ | _ | _ | _⟩
  · rw [hq] at hsafe
    obtain ⟨_, g1, g2⟩ := hsafe
    simp only at g1 g2
    simp only [Res.bind_ok, andThen_next]
    rw [leave_eq (top C (E.S.msg t) has) _ _ (top_length _ _ _), exec_seq, run_checkRequired g2 _ _ _ (fun f hf => (Go.messageFields_perm _).mem_iff.1 hf),
      UM.bind_def, UM.lift]
    rcases checkRequired (E.S.msg t) has (Go.Emit.messageFields G.toGenCfg (E.S.msg t)) with _ | _ | _ | _
    · simp only [Res.bind_ok, andThen_next]
      have hc : evalCond C ⟨top C (E.S.msg t) has, (j : Int)⟩ m' (.bin .gt Emit.iNdEx (Emit.var .l)) = .ok (decide (j > C.dAtA.length)) := by
        refine evalCond_of ?_
        rw [eval_bin (v := .int (j : Int)) (w := .int (C.dAtA.length : Int)) eval_index ((eval_var (by decide)).trans (by simp [top, find]))]
        simp [binV, asInt]
      rw [exec_seq, exec_check hc]
      by_cases hgt : j > C.dAtA.length
      · simp only [hgt, decide_true, if_true]
        rfl
      · simp only [hgt, decide_false, Bool.false_eq_true, if_false, andThen_next]
        rfl
    all_goals rfl
  all_goals rfl

/-- What the printed methods need: the environment, and settings of the generator that fit it. -/
structure PrintEnv (G : GenCfg) (E : UEnv) : Prop where
  env : DecodeEnv E
  gen : G.toGenCfg.OK E.S
  aliasing : G.aliasing = E.aliasing

/-- The printed methods called on each other and the decoder. -/
theorem methodN_eq (h : PrintEnv G E) {fuel : Nat} : ∀ n off t b m, (E.S.msg t).foreign = false → b.length < n → E.A.Fits b.length → b.length + 11 ≤ fuel →
    Typed E.S t m → methodN G E fuel n off t b m = decodeIn G E n off t b m := by
  intro n
  induction n with
  | zero => intro off t b m _ hb; exfalso; omega
  | succ n ih =>
    intro off t b m hf hb hF hfuel hm
    rw [methodN, decodeIn]
    have hlt : ∀ b' : Bytes, b'.length < b.length → E.A.Fits b'.length := by
      intro b' hb'
      unfold Arch.Fits at hF ⊢; omega
    have hg : Good G E { S := E.S, R := E.R, A := E.A, later := E.later, alloc := E.alloc, base := off, dAtA := b, fuel := fuel, method := methodN G E fuel n } (decodeIn G E n) :=
      ⟨h.env, ⟨rfl, rfl, rfl, rfl, rfl, h.aliasing⟩, h.gen, fun off t b' m hf hb' hm => ih off t b' m hf (by simp only at hb'; omega) (hlt _ hb') (by simp only at hb'; omega) hm,
        fun off t b' hf hb' => safe_decodeIn h.env n off t b' hf (by simp only at hb'; omega) (hlt _ hb'), hF, by simp only; omega⟩
    exact run_method hg hf hm

end

end Vtp.GoU
