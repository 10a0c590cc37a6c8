import Verif.Lemmas.GoUField
/-! Running the printed statements for packed lists. -/

namespace Vtp.GoU
open Spec

section
variable {C : Ctx} {self : Nat} {K : List Id} {G : GenCfg} {E : UEnv} {rec : SubDec}

theorem cond_lt128 {vs : List (Id × V)} {i : Int} {m : Val} {b : UInt8} :
    evalCond C ⟨(.integer, .byte b) :: vs, i⟩ m (.bin .lt (Emit.var .integer) (.lit 128)) = .ok (decide (b < 128)) := by
  refine evalCond_of ?_
  rw [eval_bin (eval_var_head (by decide)) eval_lit]
  have hb : decide (b < 128) = decide ((b.toNat : Int) < ((128 : Nat) : Int)) := by
    refine decide_eq_decide.2 ?_
    rw [UInt8.lt_iff_toNat_lt, show (128 : UInt8).toNat = 128 from rfl]
    omega
  rw [hb]
  rfl

/-- Counting the last bytes of the elements. -/
theorem run_count (hA : C.A.Valid) (hF : C.A.Fits C.dAtA.length) {vs : List (Id × V)} {i : Int} {m : Val} : ∀ (bs : Bytes) (c : Nat), c + bs.length ≤ C.dAtA.length →
    rangeLoop (exec C self (Emit.when (.bin .lt (Emit.var .integer) (.lit 128)) (.inc .count))) .integer bs ⟨(.count, .int (c : Int)) :: vs, i⟩ m =
    (m, .ok (⟨(.count, .int ((c + bs.countP (· < 128) : Nat) : Int)) :: vs, i⟩, .next)) := by
  intro bs
  induction bs with
  | nil => intro c _; rfl
  | cons b bs ih =>
    intro c hc
    simp only [List.length_cons] at hc
    rw [rangeLoop, UM.bind_def, UM.lift, St.decl, if_neg (by decide)]
    simp only
    have hstep : inScope ⟨(.count, .int (c : Int)) :: vs, i⟩ (exec C self (Emit.when (.bin .lt (Emit.var .integer) (.lit 128)) (.inc .count))
        ⟨(.integer, .byte b) :: (.count, .int (c : Int)) :: vs, i⟩) m =
        (m, .ok (⟨(.count, .int ((c + (if b < 128 then 1 else 0) : Nat) : Int)) :: vs, i⟩, .next)) := by
      rw [inScope_def]
      by_cases hb : b < 128
      · rw [exec_when_true (by rw [cond_lt128]; simp [hb]), inScope_def]
        have hinc : exec C self (.inc .count) ⟨(.integer, .byte b) :: (.count, .int (c : Int)) :: vs, i⟩ m =
            (m, .ok (⟨(.integer, .byte b) :: (.count, .int ((c + 1 : Nat) : Int)) :: vs, i⟩, .next)) := by
          have hw : C.A.wrap ((c : Int) + 1) = ((c + 1 : Nat) : Int) := by
            unfold Arch.Fits at hF
            have e : (c : Int) + 1 = ((c + 1 : Nat) : Int) := by omega
            rw [e, Arch.wrap_small hA _ (by omega) (by omega)]
          have : binV C.A .add (.int (c : Int)) (.const 1) = .ok (.int (C.A.wrap ((c : Int) + 1))) := rfl
          rw [exec, UM.bind_def, UM.lift, St.look, if_neg (by decide)]
          simp only [find, reduceCtorEq, if_false, if_true]
          rw [UM.bind_def, UM.lift, this]
          simp only
          rw [hw, UM.bind_def, UM.lift, St.set, if_neg (by decide)]
          simp only [put, reduceCtorEq, if_false, if_true]
          rfl
        rw [hinc]
        simp only
        rw [leave_eq ((.integer, .byte b) :: (.count, .int ((c + 1 : Nat) : Int)) :: vs) _ _ (by simp), leave_cons _ ((.count, .int ((c + 1 : Nat) : Int)) :: vs) _ _ (by simp)]
        simp [hb]
      · rw [exec_when_false (by rw [cond_lt128]; simp [hb])]
        simp only
        rw [leave_cons _ ((.count, .int (c : Int)) :: vs) _ _ (by simp)]
        simp [hb]
    rw [UM.bind_def, hstep]
    simp only
    rw [ih _ (by split <;> omega)]
    by_cases hb : b < 128
    · rw [List.countP_cons, if_pos hb, if_pos (by simp [hb]), show c + 1 + bs.countP (· < 128) = c + (bs.countP (· < 128) + 1) by omega]
    · rw [List.countP_cons, if_neg hb, if_neg (by simp [hb])]
      rfl

/-- `elementCount`. -/
theorem run_elementCount (hA : C.A.Valid) (hF : C.A.Fits C.dAtA.length) (k : Kind) {vs : List (Id × V)} {j p : Nat} (h2 : j ≤ p) (h3 : p ≤ C.dAtA.length)
    (hpost : find vs .postIndex = .ok (.int p)) (hlen : find vs .packedLen = .ok (.int ((p : Int) - j))) (m : Val) :
    ∃ ext, (∀ q ∈ ext, q.1 = .elementCount ∨ q.1 = .count) ∧ find (ext ++ vs) .elementCount = .ok (.int (elementCount k ((C.dAtA.drop j).take (p - j)) : Nat)) ∧
      exec C self (Emit.elementCount k) ⟨vs, j⟩ m = (m, .ok (⟨ext ++ vs, j⟩, .next)) := by
  have hl : ((C.dAtA.drop j).take (p - j)).length = p - j := by simp; omega
  have hzero : ∀ rest : Stmt, exec C self (.decl .elementCount .int ;; rest) ⟨vs, j⟩ m = exec C self rest ⟨(.elementCount, .int 0) :: vs, j⟩ m := by
    intro rest
    rw [exec_seq, exec_decl (by decide), andThen_next]
    rfl
  have hcount : ∃ ext, (∀ q ∈ ext, q.1 = .elementCount ∨ q.1 = .count) ∧ find (ext ++ vs) .elementCount = .ok (.int (((C.dAtA.drop j).take (p - j)).countP (· < 128) : Nat)) ∧
      exec C self (.decl .elementCount .int ;; .decl .count .int ;;
        .range .integer Emit.iNdEx (Emit.var .postIndex) (Emit.when (.bin .lt (Emit.var .integer) (.lit 128)) (.inc .count)) ;;
        .assign (.id .elementCount) (Emit.var .count)) ⟨vs, j⟩ m = (m, .ok (⟨ext ++ vs, j⟩, .next)) := by
    refine ⟨[(.count, .int (((C.dAtA.drop j).take (p - j)).countP (· < 128) : Nat)), (.elementCount, .int (((C.dAtA.drop j).take (p - j)).countP (· < 128) : Nat))], by simp, by simp [find], ?_⟩
    rw [hzero, exec_seq, exec_decl (by decide), andThen_next, exec_seq]
    have hr : exec C self (.range .integer Emit.iNdEx (Emit.var .postIndex) (Emit.when (.bin .lt (Emit.var .integer) (.lit 128)) (.inc .count)))
        ⟨(.count, zero .int) :: (.elementCount, .int 0) :: vs, j⟩ m =
        (m, .ok (⟨(.count, .int (((C.dAtA.drop j).take (p - j)).countP (· < 128) : Nat)) :: (.elementCount, .int 0) :: vs, j⟩, .next)) := by
      rw [exec, UM.bind_def, spanU_ok (a := j) (b := p) eval_index (by rw [eval_var (by decide)]; simpa [find] using hpost) h2 h3]
      simp only
      have := run_count (self := self) hA hF (vs := (.elementCount, .int 0) :: vs) (i := (j : Int)) (m := m) ((C.dAtA.drop j).take (p - j)) 0 (by omega)
      simpa [zero, Ctx.now] using this
    rw [hr, andThen_next, exec_assign_id (by decide) (eval_var_head (by decide))]
    simp [put]
  have hdiv : ∀ n, 0 < n → ∃ ext, (∀ q ∈ ext, q.1 = .elementCount ∨ q.1 = .count) ∧ find (ext ++ vs) .elementCount = .ok (.int (((C.dAtA.drop j).take (p - j)).length / n : Nat)) ∧
      exec C self (.decl .elementCount .int ;; .assign (.id .elementCount) (.bin .div (Emit.var .packedLen) (.lit n))) ⟨vs, j⟩ m = (m, .ok (⟨ext ++ vs, j⟩, .next)) := by
    intro n hn
    refine ⟨[(.elementCount, .int (((C.dAtA.drop j).take (p - j)).length / n : Nat))], by simp, by simp [find], ?_⟩
    have he : eval C ⟨(.elementCount, .int 0) :: vs, j⟩ m (.bin .div (Emit.var .packedLen) (.lit n)) = .ok (.int (((C.dAtA.drop j).take (p - j)).length / n : Nat)) := by
      rw [eval_bin ((eval_var (by decide)).trans (by simpa [find] using hlen)) eval_lit]
      simp only [binV]
      rw [if_neg (by omega), hl]
      congr 2
      rw [show ((p : Int) - j) = ((p - j : Nat) : Int) by omega, Int.tdiv_eq_ediv_of_nonneg (by omega)]
      rfl
    rw [hzero, exec_assign_id (by decide) he]
    simp [put]
  cases k <;> unfold Emit.elementCount elementCount <;> simp only <;>
    first
    | exact hcount
    | exact hdiv 8 (by omega)
    | exact hdiv 4 (by omega)
    | skip
  case bool =>
    refine ⟨[(.elementCount, .int (((C.dAtA.drop j).take (p - j)).length : Nat))], by simp, by simp [find], ?_⟩
    rw [hzero, exec_assign_id (v := .int ((p : Int) - j)) (by decide) ((eval_var (by decide)).trans (by simpa [find] using hlen)), hl, show ((p : Int) - j) = ((p - j : Nat) : Int) by omega]
    simp [put]
  all_goals
    refine ⟨[(.elementCount, .int 0)], by simp, by simp [find], ?_⟩
    rw [hzero, exec_skip]
    rfl

theorem eval_len {s : Nat} {st : St} {sl : List Val} {u e : Bytes} :
    eval C st (.msg sl u e) (.len (.pl (.field s))) = .ok (.int ((sl.getD s .nil).elems.length : Nat)) := by
  rw [eval, eval, readPlace]
  rfl

theorem eval_cap {s : Nat} {st : St} {sl : List Val} {u e : Bytes} {xs : List Val} (h : sl.getD s .nil = .list xs [] ∨ sl.getD s .nil = .nil ∧ xs = []) :
    eval C st (.msg sl u e) (.cap (.pl (.field s))) = .ok (.int (xs.length : Nat)) := by
  rw [eval, eval, readPlace, GoU.slotOf, getSlot]
  rcases h with h | ⟨h, rfl⟩ <;> rw [h] <;> simp

/-- The allocation of a slice. -/
theorem run_allocSlice (d : MsgDesc) {f : FieldDesc} {vs : List (Id × V)} {i : Int} {n : Nat} (hc : find vs .elementCount = .ok (.int n))
    {sl : List Val} {u e : Bytes} {xs : List Val} (h : sl.getD f.slot .nil = .list xs [] ∨ sl.getD f.slot .nil = .nil ∧ xs = []) :
    exec C self (Emit.allocSlice d f) ⟨vs, i⟩ (.msg sl u e) = ((prealloc f n (.msg sl u e)).1, .ok (⟨vs, i⟩, .next)) := by
  have hel : (sl.getD f.slot .nil).elems = xs := by
    rcases h with h | ⟨h, rfl⟩ <;> rw [h] <;> rfl
  have h1 : eval C ⟨vs, i⟩ (.msg sl u e) (.bin .ne (Emit.var .elementCount) (.lit 0)) = .ok (.bool (decide (n ≠ 0))) := by
    rw [eval_bin ((eval_var (by decide)).trans hc) eval_lit]
    simp [binV, equal, asInt]
  have h2 : eval C ⟨vs, i⟩ (.msg sl u e) (.bin .eq (.len (.pl (.field f.slot))) (.lit 0)) = .ok (.bool (decide (xs = []))) := by
    rw [eval_bin eval_len eval_lit, hel]
    simp [binV, equal, asInt]
  have h3 : eval C ⟨vs, i⟩ (.msg sl u e) (.bin .lt (.cap (.pl (.field f.slot))) (Emit.var .elementCount)) = .ok (.bool (decide (xs.length < n))) := by
    rw [eval_bin (eval_cap h) ((eval_var (by decide)).trans hc)]
    simp [binV, asInt]
  have hcond : evalCond C ⟨vs, i⟩ (.msg sl u e)
      (if d.pooled then .land (.land (.bin .ne (Emit.var .elementCount) (.lit 0)) (.bin .eq (.len (.pl (.field f.slot))) (.lit 0)))
          (.bin .lt (.cap (.pl (.field f.slot))) (Emit.var .elementCount))
        else .land (.bin .ne (Emit.var .elementCount) (.lit 0)) (.bin .eq (.len (.pl (.field f.slot))) (.lit 0))) = .ok (decide (n ≠ 0 ∧ xs = [])) := by
    refine evalCond_of ?_
    split
    · rw [eval_land (eval_land h1 h2) h3]
      congr 2
      by_cases ha : n = 0 <;> by_cases hb : xs = [] <;> simp [ha, hb] <;> omega
    · rw [eval_land h1 h2]
      congr 2
      by_cases ha : n = 0 <;> by_cases hb : xs = [] <;> simp [ha, hb]
  unfold Emit.allocSlice
  simp only
  have hpre : (prealloc f n (.msg sl u e)).1 = if n ≠ 0 ∧ xs = [] then .msg (sl.set f.slot (.list [] [])) u e else .msg sl u e := by
    unfold prealloc
    by_cases ha : n = 0
    · rw [if_neg (by simp [ha]), if_neg (by simp [ha])]; rfl
    · rw [if_pos ha, UM.bind_def]
      simp only [getSlot]
      rw [hel]
      by_cases hb : xs = []
      · rw [if_pos hb, if_pos ⟨ha, hb⟩]; rfl
      · rw [if_neg hb, if_neg (by simp [hb])]; rfl
  rw [hpre]
  by_cases hd : n ≠ 0 ∧ xs = []
  · rw [exec_when_true (by rw [hcond]; simp [hd.1, hd.2]), inScope_def, exec_assign_field (v := .val (.list [] [])) (w := .list [] [])]
    · simp only
      rw [leave_eq vs _ _ rfl, if_pos hd]
    · rw [eval, (eval_var (by decide)).trans hc]
      simp
    · rfl
  · rw [exec_when_false (by rw [hcond, decide_eq_false hd]), if_neg hd]

/-- The loop over packed elements. -/
theorem run_packed (hg : Good G E C rec) {t : Nat} (hf : (E.S.msg t).foreign = false) {f : FieldDesc} (h : f ∈ (E.S.msg t).fields)
    {wire : BitVec 64} (hw : (wire &&& 7).toNat ≠ 4) {vs : List (Id × V)} (hs : Std C vs) (hfw : find vs .wire = .ok (.num .uint64 wire))
    {post : Nat} (hpost : find vs .postIndex = .ok (.int post)) :
    ∀ (n k i : Nat) (m : Val), i ≤ C.dAtA.length → C.dAtA.length - i < n → C.dAtA.length - i < k → Typed E.S t m →
      iter (fun st => condU C st (.bin .lt Emit.iNdEx (Emit.var .postIndex))) (fun st => inScope st (exec C self (Emit.fieldItem G E.S (E.S.msg t) f false) st))
        (exec C self .skip) k ⟨vs, i⟩ m =
      ((packedLoop E rec (E.S.msg t) f wire C.dAtA C.base post n i m).1,
        (packedLoop E rec (E.S.msg t) f wire C.dAtA C.base post n i m).2 >>= fun j => .ok (⟨vs, (j : Int)⟩, .next)) := by
  intro n
  induction n with
  | zero => intro k i m hi h1; exfalso; omega
  | succ n ih =>
    intro k i m hi h1 h2 hm
    obtain ⟨k, rfl⟩ : ∃ k', k = k' + 1 := ⟨k - 1, by omega⟩
    have hcond : condU C ⟨vs, i⟩ (.bin .lt Emit.iNdEx (Emit.var .postIndex)) m = (m, .ok (decide (i < post))) := cond_before (by decide) hpost
    rw [packedLoop]
    by_cases hlt : i < post
    · rw [if_pos hlt]
      have hb := (ends_fieldItem (self := self) hg hf h false hw hs hfw hi hm).scope (i := (i : Int))
      rw [iter_body (X := fieldItem E rec (E.S.msg t) f false wire C.dAtA C.base i) (fun j => ⟨vs, (j : Int)⟩) (by rw [hcond]; simp [hlt]) hb]
      rw [UM.bind_def, UM.bind_def]
      have hsafe := safe_fieldItem hg.env hg.safe hg.fits' hf h (p3 := false) (by simp) hw C.base hi m hm
      rcases hq : fieldItem E rec (E.S.msg t) f false wire C.dAtA C.base i m with ⟨m', _ | _ | _ | _⟩
      · rw [hq] at hsafe
        simp only [Res.All] at hsafe
        exact ih k _ m' hsafe.2.2 (by omega) (by omega) hsafe.1
      all_goals rfl
    · rw [if_neg hlt, iter_done (by rw [hcond]; simp [hlt])]
      rfl

/-- The branch for packed lists. -/
theorem ends_packed (hg : Good G E C rec) {t : Nat} (hf : (E.S.msg t).foreign = false) {f : FieldDesc} (h : f ∈ (E.S.msg t).fields)
    (hl : f.isList = true) (hk : numeric f.kind = true) {wire : BitVec 64} (hw : (wire &&& 7).toNat ≠ 4) {vs : List (Id × V)} (hs : Std C vs)
    (hfw : find vs .wire = .ok (.num .uint64 wire)) (i : Nat) {m : Val} (hm : Typed E.S t m) :
    Ends [.hasFields] vs ((UM.lift (readSpan E.A E.A.bits C.dAtA i) >>= fun r => UM.lift (slice C.dAtA r.1 r.2) >>= fun s =>
        prealloc f (elementCount f.kind s) >>= fun _ => packedLoop E rec (E.S.msg t) f wire C.dAtA C.base r.2 (C.dAtA.length + 1) r.1 : UM Nat) m)
      (exec C self (Emit.packedItem G E.S (E.S.msg t) f) ⟨vs, i⟩ m) := by
  have hS := schemaOK_msg hg.env.schema t
  have hlen := run_intLen (self := self) hs (len := .packedLen) (post := .postIndex) (by simp [Plain]) (by simp [Plain]) i m
  have hall := readSpan_all hs.arch C.A.bits hs.fits i
  rw [← hg.link.A, Emit.packedItem]
  refine Ends.bind _ (X := UM.lift (readSpan C.A C.A.bits C.dAtA i)) hlen ?_
  rintro ⟨j, p⟩ hjp
  simp only [UM.lift] at hjp ⊢
  rw [hjp] at hall
  obtain ⟨h1, h2, h3⟩ := hall
  simp only at h1 h2 h3
  refine Ends.dropN [(.postIndex, .int (p : Int)), (.packedLen, .int ((p : Int) - j))] (by simp) ?_
  simp only [List.cons_append, List.nil_append]
  set vs1 : List (Id × V) := (.postIndex, .int (p : Int)) :: (.packedLen, .int ((p : Int) - j)) :: vs with hvs1
  obtain ⟨ext, hext, hcnt, hrun⟩ := run_elementCount (self := self) hs.arch hs.fits f.kind (vs := vs1) h2 h3 (by simp [hvs1, find]) (by simp [hvs1, find]) m
  have hstd : Std C (ext ++ vs1) := by
    refine ⟨hs.fits, hs.arch, hs.fuel, ?_⟩
    rw [find_append _ _ _ (by rintro q hq; rcases hext q hq with h | h <;> rw [h] <;> decide)]
    simpa [hvs1, find] using hs.l
  have hne : ∀ x : Id, x ≠ .elementCount → x ≠ .count → find (ext ++ vs1) x = find vs1 x := by
    intro x hx1 hx2
    exact find_append _ _ _ (by rintro q hq hc; rcases hext q hq with h | h <;> rw [h] at hc <;> simp [← hc] at hx1 hx2)
  have hslice := slice_all h2 h3
  rw [exec_seq, hrun, andThen_next, exec_seq]
  refine Ends.dropN ext (by intro q hq; rcases hext q hq with h | h <;> simp [h]) ?_
  obtain ⟨sl, u, e, rfl⟩ := hm.nonnil
  obtain ⟨hlen', hslots⟩ := (typed_iff hf sl u e).1 hm
  have hsk : slotOK E.S (E.S.msg t) f (sl.getD f.slot .nil) = true := hslots f h
  simp only [FieldDesc.isList, Bool.and_eq_true, Option.isNone_iff_eq_none] at hl
  have ho : f.oneof = false := by
    cases hc : f.oneof
    · rfl
    · have := ((hS.fields f h).oneof hc).1; rw [this] at hl; simp at hl
  obtain ⟨xs, hxs⟩ : ∃ xs, sl.getD f.slot .nil = .list xs [] ∨ sl.getD f.slot .nil = .nil ∧ xs = [] := by
    simp only [slotOK, ho, Bool.false_eq_true, if_false, fieldOK, hl.1, hl.2, if_true, hasMessage_of_numeric hk] at hsk
    generalize sl.getD f.slot .nil = s at hsk
    cases s <;> simp at hsk ⊢
    exact hsk.2
  have hsp := safe_prealloc hS hf h (by simp [FieldDesc.isList, hl.1, hl.2]) (elementCount f.kind ((C.dAtA.drop j).take (p - j))) (.msg sl u e) hm
  have hpok : (prealloc f (elementCount f.kind ((C.dAtA.drop j).take (p - j))) (.msg sl u e)).2 = .ok () := by
    rcases hq : (prealloc f (elementCount f.kind ((C.dAtA.drop j).take (p - j))) (.msg sl u e)).2 with _ | e | _ | _
    · rfl
    · exfalso
      unfold prealloc at hq
      split at hq
      · rw [UM.bind_def] at hq
        simp only [getSlot] at hq
        split at hq
        · simp [setSlot] at hq
        · cases hq
      · cases hq
    · rw [hq] at hsp; exact hsp.2.elim
    · rw [hq] at hsp; exact hsp.2.elim
  rw [run_allocSlice (E.S.msg t) hcnt hxs, andThen_next, hslice]
  have hmod : ((UM.lift (.ok ((C.dAtA.drop j).take (p - j))) >>= fun s => prealloc f (elementCount f.kind s) >>= fun _ =>
      packedLoop E rec (E.S.msg t) f wire C.dAtA C.base p (C.dAtA.length + 1) j : UM Nat) (.msg sl u e)) =
      packedLoop E rec (E.S.msg t) f wire C.dAtA C.base p (C.dAtA.length + 1) j (prealloc f (elementCount f.kind ((C.dAtA.drop j).take (p - j))) (.msg sl u e)).1 := by
    rw [UM.lift_ok_bind, UM.bind_def]
    rcases hq : prealloc f (elementCount f.kind ((C.dAtA.drop j).take (p - j))) (.msg sl u e) with ⟨m', r⟩
    rw [hq] at hpok
    simp only at hpok
    subst hpok
    rfl
  refine Ends.of_eq ?_
  change _ = (((UM.lift (.ok ((C.dAtA.drop j).take (p - j))) >>= fun s => prealloc f (elementCount f.kind s) >>= fun _ =>
      packedLoop E rec (E.S.msg t) f wire C.dAtA C.base p (C.dAtA.length + 1) j : UM Nat) (.msg sl u e)).1, _ >>= _)
  rw [hmod, exec_loop, inScope_def, run_packed hg hf h hw hstd (by rw [hne _ (by decide) (by decide)]; simpa [hvs1, find] using hfw)
    (post := p) (by rw [hne _ (by decide) (by decide)]; simp [hvs1, find]) (C.dAtA.length + 1) C.fuel j _ (by omega) (by omega) (by have := hg.fuel; omega) hsp.1]
  rcases packedLoop E rec (E.S.msg t) f wire C.dAtA C.base p (C.dAtA.length + 1) j (prealloc f (elementCount f.kind ((C.dAtA.drop j).take (p - j))) (.msg sl u e)).1 with ⟨m', _ | _ | _ | _⟩
  · simp only [Res.bind_ok]
    rw [leave_eq (ext ++ vs1) _ _ rfl]
  all_goals rfl

end

end Vtp.GoU
