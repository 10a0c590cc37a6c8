import Verif.Lemmas.GoUPacked
import Verif.Lemmas.EmitSize
/-! Running the printed loop over the records of a message. -/

namespace Vtp.GoU
open Spec

section
variable {C : Ctx} {self : Nat} {K : List Id} {G : GenCfg} {E : UEnv} {rec : SubDec}

theorem cond_wireType {op : BinOp} {vs : List (Id × V)} {i : Int} {m : Val} {w n : Nat} (h : find vs .wireType = .ok (.int w)) :
    evalCond C ⟨vs, i⟩ m (.bin .eq (Emit.var .wireType) (.lit n)) = .ok (decide (w = n)) ∧
    evalCond C ⟨vs, i⟩ m (.bin .ne (Emit.var .wireType) (.lit n)) = .ok (decide (w ≠ n)) := by
  have e : equal (.int (w : Int)) (.const n) = .ok (decide (w = n)) := by
    have : equal (.int (w : Int)) (.const n) = .ok (decide ((w : Int) = (n : Int))) := rfl
    rw [this]
    congr 1
    exact decide_eq_decide.2 (by omega)
  constructor <;> refine evalCond_of ?_ <;> rw [eval_bin ((eval_var (by decide)).trans h) eval_lit] <;> simp only [binV, e, Res.bind_ok]
  congr 2
  by_cases hw : w = n <;> simp [hw]

/-- The statements of `field` before `markField`. -/
def fieldBody (G : GenCfg) (S : Schema) (d : MsgDesc) (f : FieldDesc) : Stmt :=
  let wt := protoWireType f.kind
  if f.isList && wt != 2 then
    .ite (.bin .eq (Emit.var .wireType) (.lit wt)) (Emit.fieldItem G S d f false)
      (.ite (.bin .eq (Emit.var .wireType) (.lit 2)) (Emit.packedItem G S d f) (.ret (.wrongWireType f.num)))
  else
    Emit.when (.bin .ne (Emit.var .wireType) (.lit wt)) (.ret (.wrongWireType f.num)) ;;
    Emit.fieldItem G S d f d.proto3

theorem field_eq (G : GenCfg) (S : Schema) (d : MsgDesc) (f : FieldDesc) : Emit.field G S d f = (fieldBody G S d f ;; Emit.markField d f) := rfl

theorem ends_fieldBody (hg : Good G E C rec) {t : Nat} (hf : (E.S.msg t).foreign = false) {f : FieldDesc} (h : f ∈ (E.S.msg t).fields)
    {wire : BitVec 64} (hw : (wire &&& 7).toNat ≠ 4) {vs : List (Id × V)} (hs : Std C vs) (hfw : find vs .wire = .ok (.num .uint64 wire))
    (hft : find vs .wireType = .ok (.int ((wire &&& 7).toNat : Int))) {i : Nat} (hi : i ≤ C.dAtA.length) {m : Val} (hm : Typed E.S t m) :
    Ends [.hasFields] vs (fieldCase E rec (E.S.msg t) f wire C.dAtA C.base i m) (exec C self (fieldBody G E.S (E.S.msg t) f) ⟨vs, i⟩ m) := by
  have hS := schemaOK_msg hg.env.schema t
  have hc := fun n => cond_wireType (C := C) (op := .eq) (i := (i : Int)) (m := m) (n := n) hft
  unfold fieldCase fieldBody
  simp only
  by_cases hl : (f.isList && protoWireType f.kind != 2) = true
  · rw [if_pos hl, if_pos hl, exec_ite (hc _).1]
    simp only [Bool.and_eq_true, bne_iff_ne, ne_eq] at hl
    by_cases h1 : (wire &&& 7).toNat = protoWireType f.kind
    · simp only [h1, decide_true, if_true]
      exact .of_eq ((ends_fieldItem hg hf h false hw hs hfw hi hm).scope)
    · simp only [h1, decide_false, Bool.false_eq_true, if_false]
      have hk : numeric f.kind = true := by
        have hr := hl.1
        simp only [FieldDesc.isList, Bool.and_eq_true, beq_iff_eq] at hr
        have := ((hS.fields f h).rep hr.1)
        revert this
        have h2 := hl.2
        revert h2
        cases f.kind <;> simp [numeric, protoWireType]
      have hin : Ends [.hasFields] vs ((if (wire &&& 7).toNat = 2 then (do
            let (i, post) ← UM.lift (readSpan E.A E.A.bits C.dAtA i)
            let s ← UM.lift (slice C.dAtA i post)
            prealloc f (elementCount f.kind s)
            packedLoop E rec (E.S.msg t) f wire C.dAtA C.base post (C.dAtA.length + 1) i)
          else UM.lift (.err (.wrongWireType f.num)) : UM Nat) m)
          (exec C self (.ite (.bin .eq (Emit.var .wireType) (.lit 2)) (Emit.packedItem G E.S (E.S.msg t) f) (.ret (.wrongWireType f.num))) ⟨vs, i⟩ m) := by
        rw [exec_ite (hc 2).1]
        by_cases h2 : (wire &&& 7).toNat = 2
        · simp only [h2, decide_true, if_true]
          exact .of_eq ((ends_packed hg hf h hl.1 hk hw hs hfw i hm).scope)
        · simp only [h2, decide_false, Bool.false_eq_true, if_false]
          exact .of_eq rfl
      exact .of_eq hin.scope
  · rw [if_neg hl, if_neg hl, exec_seq, exec_check (hc _).2]
    by_cases h1 : (wire &&& 7).toNat = protoWireType f.kind
    · simp only [h1, ne_eq, not_true, decide_false, Bool.false_eq_true, if_false, andThen_next]
      exact ends_fieldItem hg hf h _ hw hs hfw hi hm
    · simp only [h1, ne_eq, not_false_iff, decide_true, if_true, andThen_err]
      exact .of_eq rfl

/-- The variables of the method. -/
def top (C : Ctx) (d : MsgDesc) (has : List (BitVec 64)) : List (Id × V) :=
  (.l, .int C.dAtA.length) :: if d.required.length > 0 then [(.hasFields, .words has)] else []

theorem top_length (d : MsgDesc) (has has' : List (BitVec 64)) : (top C d has).length = (top C d has').length := by
  unfold top; split <;> rfl

theorem find_has {d : MsgDesc} (hd : d.required.length > 0) (has : List (BitVec 64)) : find (top C d has) .hasFields = .ok (.words has) := by
  simp [top, hd, find]

theorem put_has {d : MsgDesc} (hd : d.required.length > 0) (has has' : List (BitVec 64)) : put (top C d has) .hasFields (.words has') = top C d has' := by
  simp [top, hd, put]

theorem std_top (hg : Good G E C rec) (d : MsgDesc) (has : List (BitVec 64)) : Std C (top C d has) :=
  ⟨hg.fits, by rw [hg.link.A]; exact hg.env.arch, by have := hg.fuel; omega, by simp [top, find]⟩

theorem required_pos {d : MsgDesc} {f : FieldDesc} (h : f ∈ d.fields) (hc : (f.card == .required) = true) : d.required.length > 0 :=
  List.length_pos_of_mem (required_mem h hc)

theorem one_shl (b : Nat) (hb : b < 64) : BitVec.ofNat 64 (2 ^ b) = (1 : BitVec 64) <<< b := by
  refine BitVec.eq_of_toNat_eq ?_
  simp [BitVec.toNat_shiftLeft, Nat.shiftLeft_eq]

/-- Setting the bit of a required field. -/
theorem run_mark {d : MsgDesc} {f : FieldDesc} (h : f ∈ d.fields) {pre : List (Id × V)} (hp : ∀ p ∈ pre, p.1 ≠ .hasFields) {has : List (BitVec 64)}
    (hl : has.length = (noFields d).length) (i : Int) (m : Val) :
    exec C self (Emit.markField d f) ⟨pre ++ top C d has, i⟩ m =
    (m, markField d f has >>= fun has' => .ok (⟨pre ++ top C d has', i⟩, .next)) := by
  unfold Emit.markField markField
  by_cases hc : (f.card == .required) = true
  · rw [if_pos hc, if_pos hc]
    simp only
    have hb := bit_lt h hc
    rw [← hl] at hb
    have hd := required_pos h hc
    have hmod : d.required.idxOf f.num % 64 < 64 := Nat.mod_lt _ (by omega)
    generalize d.required.idxOf f.num / 64 = k at *
    generalize d.required.idxOf f.num % 64 = b at *
    rw [List.getElem?_eq_getElem hb]
    simp only [Res.bind_ok]
    have hfind : find (pre ++ top C d has) .hasFields = .ok (.words has) := by rw [find_append _ _ _ hp, find_has hd]
    have he : eval C ⟨pre ++ top C d has, i⟩ m (.conv (.num .uint64) (.lit (2 ^ b))) = .ok (.num .uint64 ((1 : BitVec 64) <<< b)) := by
      rw [eval_conv eval_lit, ← one_shl b hmod]
      rfl
    have hr : readPlace ⟨pre ++ top C d has, i⟩ m (.has k) = .ok (.num .uint64 has[k]) := by
      rw [readPlace, St.look, if_neg (by decide), hfind]
      simp only [Res.bind_ok, List.getElem?_eq_getElem hb]
    have ho : orV C.A (.num .uint64 has[k]) (.num .uint64 ((1 : BitVec 64) <<< b)) = .ok (.num .uint64 (has[k] ||| (1 : BitVec 64) <<< b)) := rfl
    have hwr : writePlace C ⟨pre ++ top C d has, i⟩ (.has k) (.num .uint64 (has[k] ||| (1 : BitVec 64) <<< b)) m =
        (m, .ok ⟨pre ++ top C d (has.set k (has[k] ||| (1 : BitVec 64) <<< b)), i⟩) := by
      rw [writePlace, UM.bind_def, UM.lift, St.look, if_neg (by decide), hfind]
      simp only
      have hset : St.set ⟨pre ++ top C d has, i⟩ .hasFields (.words (has.set k (has[k] ||| (1 : BitVec 64) <<< b))) =
          .ok ⟨pre ++ top C d (has.set k (has[k] ||| (1 : BitVec 64) <<< b)), i⟩ := by
        have : St.set ⟨pre ++ top C d has, i⟩ .hasFields (.words (has.set k (has[k] ||| (1 : BitVec 64) <<< b))) =
            .ok ⟨put (pre ++ top C d has) .hasFields (.words (has.set k (has[k] ||| (1 : BitVec 64) <<< b))), i⟩ := rfl
        rw [this, put_append _ _ _ _ hp, put_has hd]
      rw [if_pos hb, hset]
      rfl
    rw [exec, UM.bind_def, evalU, he]
    simp only
    rw [UM.bind_def, readU, hr]
    simp only
    rw [UM.bind_def, UM.lift, ho]
    simp only
    rw [UM.bind_def, hwr]
    rfl
  · rw [if_neg hc, if_neg hc, exec_skip]
    rfl

/-- A case of the `switch`. -/
theorem run_field (hg : Good G E C rec) {t : Nat} (hf : (E.S.msg t).foreign = false) {f : FieldDesc} (h : f ∈ (E.S.msg t).fields)
    {wire : BitVec 64} (hw : (wire &&& 7).toNat ≠ 4) {pre : List (Id × V)} (hp : ∀ p ∈ pre, p.1 ≠ .hasFields) {has : List (BitVec 64)}
    (hl : has.length = (noFields (E.S.msg t)).length) (hs : Std C (pre ++ top C (E.S.msg t) has)) (hfw : find pre .wire = .ok (.num .uint64 wire))
    (hft : find pre .wireType = .ok (.int ((wire &&& 7).toNat : Int))) {i : Nat} (hi : i ≤ C.dAtA.length) {m : Val} (hm : Typed E.S t m) :
    let r := (fieldCase E rec (E.S.msg t) f wire C.dAtA C.base i >>= fun j => UM.lift (markField (E.S.msg t) f has) >>= fun has => pure (j, has) : UM _) m
    inScope ⟨pre ++ top C (E.S.msg t) has, i⟩ (exec C self (Emit.field G E.S (E.S.msg t) f) ⟨pre ++ top C (E.S.msg t) has, i⟩) m =
    (r.1, r.2 >>= fun q => .ok (⟨pre ++ top C (E.S.msg t) q.2, (q.1 : Int)⟩, .next)) := by
  have hfind : ∀ {vs : List (Id × V)} {x : Id} {v : V} (us : List (Id × V)), find vs x = .ok v → find (vs ++ us) x = .ok v := by
    intro vs x v us
    induction vs with
    | nil => intro h; simp [find, confused] at h
    | cons p vs ih =>
      obtain ⟨y, w⟩ := p
      simp only [List.cons_append, find]
      split
      · exact id
      · exact ih
  obtain ⟨ext, hext, he⟩ := ends_fieldBody (self := self) hg hf h hw hs (hfind _ hfw) (hfind _ hft) hi hm
  simp only
  rw [inScope_def, field_eq, exec_seq, he, UM.bind_def]
  rcases fieldCase E rec (E.S.msg t) f wire C.dAtA C.base i m with ⟨m', j | _ | _ | _⟩
  · simp only [Res.bind_ok, andThen_next]
    rw [← List.append_assoc, run_mark h (by
      intro p hp'
      rcases List.mem_append.1 hp' with hp' | hp'
      · have := hext p hp'; simpa using this
      · exact hp p hp') hl, UM.bind_def, UM.lift]
    rcases markField (E.S.msg t) f has with has' | _ | _ | _
    · simp only [Res.bind_ok]
      rw [List.append_assoc, leave_append ext (pre ++ top C (E.S.msg t) has') _ _ (by simp [top_length (C := C) (E.S.msg t) has has'])]
      rfl
    all_goals rfl
  all_goals rfl

theorem eval_rangeCond {vs : List (Id × V)} {i : Int} {m : Val} {num : BitVec 32} (h : find vs .fieldNum = .ok (.num .int32 num)) (hn : 0 < num.toInt) (r : Nat × Nat) :
    eval C ⟨vs, i⟩ m (Emit.rangeCond r) = .ok (.bool (decide (r.1 ≤ num.toNat) && decide (num.toNat < r.2))) := by
  have hi : num.toInt = num.toNat := by
    rw [BitVec.toInt_eq_toNat_cond] at hn ⊢
    split
    · rfl
    · rename_i hc; rw [if_neg hc] at hn; have := num.isLt; omega
  have h1 : eval C ⟨vs, i⟩ m (.bin .ge (Emit.var .fieldNum) (.lit r.1)) = .ok (.bool (decide (num.toInt ≥ (r.1 : Int)))) := by
    rw [eval_bin ((eval_var (by decide)).trans h) eval_lit]
    rfl
  have h2 : eval C ⟨vs, i⟩ m (.bin .lt (Emit.var .fieldNum) (.lit r.2)) = .ok (.bool (decide (num.toInt < (r.2 : Int)))) := by
    rw [eval_bin ((eval_var (by decide)).trans h) eval_lit]
    rfl
  rw [Emit.rangeCond, eval_land h1 h2, hi]
  simp

theorem eval_ranges {vs : List (Id × V)} {i : Int} {m : Val} {num : BitVec 32} (h : find vs .fieldNum = .ok (.num .int32 num)) (hn : 0 < num.toInt) :
    ∀ (rs : List (Nat × Nat)) (e : Expr) (x : Bool), eval C ⟨vs, i⟩ m e = .ok (.bool x) →
      eval C ⟨vs, i⟩ m (rs.foldl (fun e r => .lor e (Emit.rangeCond r)) e) =
        .ok (.bool (x || rs.any fun r => decide (r.1 ≤ num.toNat) && decide (num.toNat < r.2))) := by
  intro rs
  induction rs with
  | nil => intro e x he; simpa using he
  | cons r rs ih =>
    intro e x he
    rw [List.foldl_cons, ih _ _ (eval_lor he (eval_rangeCond h hn r)), List.any_cons, Bool.or_assoc]

/-- The `default` case. -/
theorem ends_unknown (hg : Good G E C rec) {t : Nat} {vs : List (Id × V)} (hs : Std C vs) {i j : Nat} (hi : i ≤ C.dAtA.length)
    (hpre : find vs .preIndex = .ok (.int i)) {num : BitVec 32} (hnum : find vs .fieldNum = .ok (.num .int32 num)) (hn : 0 < num.toInt) (m : Val) :
    Ends [.hasFields] vs (unknownCase E t num.toNat C.dAtA i m) (exec C t (Emit.unknownCase (E.S.msg t)) ⟨vs, j⟩ m) := by
  have hall := skipAt_all hs.arch hs.fits hi (limit := C.dAtA.length)
  unfold Emit.unknownCase unknownCase
  simp only
  rw [exec_seq, exec_assign_index ((eval_var (by decide)).trans hpre), andThen_next, exec_assoc, ← hg.link.A]
  refine Ends.bind (X := UM.lift (skipAt C.A C.dAtA i C.dAtA.length)) _ (run_skipAt hs hi m ?_) ?_
  · intro n
    exact (eval_var (by decide)).trans (by simpa [find] using hs.l)
  intro k hk
  simp only [UM.lift] at hk ⊢
  rw [hk] at hall
  obtain ⟨h1, h2⟩ := hall
  refine Ends.dropN [(.err, .err none), (.skippy, .int ((k - i : Nat) : Int))] (by simp) ?_
  simp only [List.cons_append, List.nil_append]
  have hback := add_back hs.arch hs.fits (i := i) (j := k) (by omega) h2
  have hnext : ∀ (e : Option Err) (m : Val), eval C ⟨(.err, .err e) :: (.skippy, .int ((k - i : Nat) : Int)) :: vs, (i : Int)⟩ m (.bin .add Emit.iNdEx (Emit.var .skippy)) = .ok (.int (k : Int)) := by
    intro e m
    rw [eval_next (n := ((k - i : Nat) : Int)) (by simp [find]), hback]
  have hadd : ∀ (e : Option Err) (m : Val), exec C t (.addAssign .iNdEx (Emit.var .skippy)) ⟨(.err, .err e) :: (.skippy, .int ((k - i : Nat) : Int)) :: vs, (i : Int)⟩ m =
      (m, .ok (⟨(.err, .err e) :: (.skippy, .int ((k - i : Nat) : Int)) :: vs, (k : Int)⟩, .next)) := by
    intro e m
    rw [exec_addIndex_var (n := ((k - i : Nat) : Int)) (by decide) (by simp [find]), hback]
  have hslice := slice_all (d := C.dAtA) (i := i) (j := k) (by omega) h2
  have hkeep : ∀ m, Ends [.hasFields] ((.err, .err none) :: (.skippy, .int ((k - i : Nat) : Int)) :: vs)
      ((UM.lift (slice C.dAtA i k) >>= fun s => if (E.S.msg t).keepUnknown then appendUnknown s >>= fun _ => pure k else pure k : UM Nat) m)
      (exec C t ((if (E.S.msg t).keepUnknown then .unknown Emit.iNdEx (.bin .add Emit.iNdEx (Emit.var .skippy)) else .skip) ;; .addAssign .iNdEx (Emit.var .skippy))
        ⟨(.err, .err none) :: (.skippy, .int ((k - i : Nat) : Int)) :: vs, (i : Int)⟩ m) := by
    intro m
    rw [hslice, UM.lift_ok_bind, exec_seq]
    cases (E.S.msg t).keepUnknown
    · simp only [Bool.false_eq_true, if_false]
      rw [exec_skip, andThen_next, hadd]
      exact .of_eq rfl
    · simp only [if_true]
      rw [um_then]
      have : exec C t (.unknown Emit.iNdEx (.bin .add Emit.iNdEx (Emit.var .skippy))) ⟨(.err, .err none) :: (.skippy, .int ((k - i : Nat) : Int)) :: vs, (i : Int)⟩ m =
          ((appendUnknown ((C.dAtA.drop i).take (k - i)) m).1, (appendUnknown ((C.dAtA.drop i).take (k - i)) m).2 >>= fun _ =>
            .ok (⟨(.err, .err none) :: (.skippy, .int ((k - i : Nat) : Int)) :: vs, (i : Int)⟩, .next)) := by
        rw [exec, UM.bind_def, spanU_ok (a := i) (b := k) eval_index (hnext _ _) (by omega) h2]
        simp only
        rw [um_then]
        rfl
      rw [this]
      rcases appendUnknown ((C.dAtA.drop i).take (k - i)) m with ⟨m', _ | _ | _ | _⟩
      · simp only [Res.bind_ok, andThen_next]
        rw [hadd]
        exact .of_eq rfl
      all_goals exact .of_eq rfl
  have hrange : ∀ r rs, (E.S.msg t).extRanges = r :: rs →
      evalCond C ⟨(.err, .err none) :: (.skippy, .int ((k - i : Nat) : Int)) :: vs, (i : Int)⟩ m (rs.foldl (fun e r => .lor e (Emit.rangeCond r)) (Emit.rangeCond r)) =
        .ok ((E.S.msg t).extRanges.any fun r => decide (r.1 ≤ num.toNat) && decide (num.toNat < r.2)) := by
    intro r rs hr
    have hfn : find ((.err, .err none) :: (.skippy, .int ((k - i : Nat) : Int)) :: vs) .fieldNum = .ok (.num .int32 num) := by simpa [find] using hnum
    rw [hr, List.any_cons]
    exact evalCond_of (eval_ranges hfn hn rs _ _ (eval_rangeCond hfn hn r))
  rcases hr : (E.S.msg t).extRanges with _ | ⟨r, rs⟩
  · rw [List.any_nil, if_neg (by decide)]
    exact hkeep m
  · rw [exec_ite (hrange r rs hr), hr]
    by_cases hc : ((r :: rs).any fun r => decide (r.1 ≤ num.toNat) && decide (num.toNat < r.2)) = true
    · simp only [hc, if_true]
      refine .of_eq (Ends.scope (K := [.hasFields]) ?_)
      rw [hslice]
      rw [UM.lift_ok_bind, um_then, exec_seq]
      have hrt : exec C t (.runtime Emit.iNdEx (.bin .add Emit.iNdEx (Emit.var .skippy))) ⟨(.err, .err none) :: (.skippy, .int ((k - i : Nat) : Int)) :: vs, (i : Int)⟩ m =
          ((protoPartial C.R t ((C.dAtA.drop i).take (k - i)) m).1, (protoPartial C.R t ((C.dAtA.drop i).take (k - i)) m).2 >>= fun e =>
            .ok (⟨(.err, .err e) :: (.skippy, .int ((k - i : Nat) : Int)) :: vs, (i : Int)⟩, .next)) := by
        rw [exec, UM.bind_def, spanU_ok (a := i) (b := k) eval_index (hnext _ _) (by omega) h2]
        simp only
        rw [UM.bind_def, show C.now i (k - i) = (C.dAtA.drop i).take (k - i) from rfl]
        rcases protoPartial C.R t ((C.dAtA.drop i).take (k - i)) m with ⟨m', _ | _ | _ | _⟩ <;> rfl
      rw [hrt, hg.link.R]
      generalize (C.dAtA.drop i).take (k - i) = s
      unfold runtimePartial protoPartial
      cases m with
      | msg sl u e =>
        simp only
        cases E.R.unmarshalPartial t s with
        | none =>
          simp only [Res.bind_ok, andThen_next]
          rw [exec_seq, exec_checkErr (e := some .foreign) (by simp [find])]
          exact .of_eq rfl
        | some m' =>
          simp only [Res.bind_ok, andThen_next]
          rw [exec_seq, exec_checkErr (e := none) (by simp [find])]
          simp only [andThen_next]
          rw [hadd]
          exact .of_eq rfl
      | _ => exact .of_eq rfl
    · simp only [hc, Bool.false_eq_true, if_false]
      exact .of_eq (hkeep m).scope

end

end Vtp.GoU
