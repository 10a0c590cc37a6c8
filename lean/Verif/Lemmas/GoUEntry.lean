import Verif.Lemmas.GoUSkip
/-! Running the printed loop over a map entry. -/

namespace Vtp.GoU
open Spec

section
variable {C : Ctx} {self : Nat} {G : GenCfg} {E : UEnv} {rec : SubDec} {m : Val}

theorem toInt_eq_lit (v : BitVec 32) (n : Nat) (hn : n < 2 ^ 31) : v.toInt = (n : Int) ↔ v = BitVec.ofNat 32 n := by
  have h : (BitVec.ofNat 32 n).toInt = n := by
    rw [BitVec.toInt_eq_toNat_of_lt] <;> simp <;> omega
  constructor
  · intro hv; exact BitVec.eq_of_toInt_eq (by rw [hv, h])
  · rintro rfl; exact h

theorem cond_fieldNum {vs : List (Id × V)} {i : Int} {v : BitVec 32} {n : Nat} (hn : n < 2 ^ 31) (h : find vs .fieldNum = .ok (.num .int32 v)) :
    evalCond C ⟨vs, i⟩ m (.bin .eq (Emit.var .fieldNum) (.lit n)) = .ok (decide (v = BitVec.ofNat 32 n)) := by
  refine evalCond_of ?_
  rw [eval_bin ((eval_var (by decide)).trans h) eval_lit]
  simp only [binV, equal, asInt, NTy.signed, if_true, Res.bind_ok]
  congr 2
  exact decide_eq_decide.2 (toInt_eq_lit v n hn)

/-- A branch of an `if` that ends normally, in a block around it. -/
theorem scope_scope {x : UM (St × Ctrl)} {ext mid vs : List (Id × V)} {j : Int} {r : Val × Res Unit} {st1 st2 : St}
    (hx : x m = (r.1, r.2 >>= fun _ => .ok (⟨ext ++ (mid ++ vs), j⟩, .next)))
    (h1 : st1.vars.length = (mid ++ vs).length) (h2 : st2.vars.length = vs.length) :
    inScope st2 (inScope st1 x) m = (r.1, r.2 >>= fun _ => .ok (⟨vs, j⟩, .next)) := by
  rw [inScope_def, inScope_def, hx]
  rcases r with ⟨m', _ | _ | _ | _⟩
  · simp only [Res.bind_ok]
    rw [leave_append _ _ _ _ h1, leave_append _ _ _ _ h2]
  all_goals rfl

/-- The loop over a map entry. -/
theorem run_entries (hE : DecodeEnv E) (hL : Link G E C) (hG : G.toGenCfg.OK E.S) (hrec : RecAgrees E C.method rec C.dAtA.length) (hr : RecSafe E rec C.dAtA.length)
    {f : FieldDesc} {md : MapDesc} (hk : mapKeyKind md.key = true) (hv : md.val ≠ .group) (hb : md.val = .bytes → E.A.bits = 64 ∨ E.aliasing = true)
    {vs : List (Id × V)} (h : Std C vs) {post : Nat} (hpl : post ≤ C.dAtA.length) (hp : find vs .postIndex = .ok (.int post)) :
    ∀ (n k i : Nat) (kv vv : V) (key val : Val), i ≤ C.dAtA.length → C.dAtA.length - i < n → C.dAtA.length - i < k →
      Rep C true md.key kv key → Rep C false md.val vv val →
      ∃ (kv' vv' : V) (j : Nat), (∀ r, entryLoop E rec md C.dAtA C.base post n i key val = .ok r → Rep C true md.key kv' r.1 ∧ Rep C false md.val vv' r.2) ∧
        iter (fun st => condU C st (.bin .lt Emit.iNdEx (Emit.var .postIndex))) (fun st => inScope st (exec C self (Emit.entryBody G f md) st)) (exec C self .skip) k
          ⟨(.mapvalue, vv) :: (.mapkey, kv) :: vs, i⟩ m =
        (m, entryLoop E rec md C.dAtA C.base post n i key val >>= fun _ => .ok (⟨(.mapvalue, vv') :: (.mapkey, kv') :: vs, j⟩, .next)) := by
  intro n
  induction n with
  | zero => intro k i kv vv key val hi h1; exfalso; omega
  | succ n ih =>
    intro k i kv vv key val hi h1 h2 hkv hvv
    obtain ⟨k, rfl⟩ : ∃ k', k = k' + 1 := ⟨k - 1, by omega⟩
    have hcond : condU C ⟨(.mapvalue, vv) :: (.mapkey, kv) :: vs, i⟩ (.bin .lt Emit.iNdEx (Emit.var .postIndex)) m = (m, .ok (decide (i < post))) :=
      cond_before (by decide) (by simpa [find] using hp)
    rw [entryLoop]
    by_cases hlt : i < post
    swap
    · rw [if_neg hlt]
      refine ⟨kv, vv, i, by rintro r ⟨⟩; exact ⟨hkv, hvv⟩, ?_⟩
      rw [iter_done (by rw [hcond]; simp [hlt])]
      rfl
    rw [if_pos hlt]
    have hcond' : condU C ⟨(.mapvalue, vv) :: (.mapkey, kv) :: vs, i⟩ (.bin .lt Emit.iNdEx (Emit.var .postIndex)) m = (m, .ok true) := by
      rw [hcond]; simp [hlt]
    -- the statements before the branch
    have hh : Std C ((.wire, zero (.num .uint64)) :: (.entryPreIndex, .int i) :: (.mapvalue, vv) :: (.mapkey, kv) :: vs) :=
      (((h.cons (by decide) _).cons (by decide) _).cons (by decide) _).cons (by decide) _
    have hh2 : Std C ((.entryPreIndex, .int i) :: (.mapvalue, vv) :: (.mapkey, kv) :: vs) :=
      ((h.cons (by decide) _).cons (by decide) _).cons (by decide) _
    have hbody : ∀ st, exec C self (Emit.entryBody G f md) ⟨(.mapvalue, vv) :: (.mapkey, kv) :: vs, i⟩ m = st →
        st = andThen (m, Vtp.decodeVarint 64 C.dAtA i >>= fun r =>
          .ok (⟨(.wire, .num .uint64 r.1) :: (.entryPreIndex, .int i) :: (.mapvalue, vv) :: (.mapkey, kv) :: vs, (r.2 : Int)⟩, .next))
          (exec C self (.define .fieldNum (.conv (.num .int32) (.bin .shr (Emit.var .wire) (.lit 3))) ;;
            .ite (.bin .eq (Emit.var .fieldNum) (.lit 1)) (Emit.mapField G .mapkey md.key 0 (G.unique f))
              (.ite (.bin .eq (Emit.var .fieldNum) (.lit 2)) (Emit.mapField G .mapvalue md.val md.valMsg (G.unique f))
                (.assign (.id .iNdEx) (Emit.var .entryPreIndex) ;;
                 Emit.skipHead ;;
                 Emit.when (.bin .gt (.bin .add Emit.iNdEx (Emit.var .skippy)) (Emit.var .postIndex)) (.ret .unexpectedEOF) ;;
                 .addAssign .iNdEx (Emit.var .skippy))))) := by
      rintro st rfl
      rw [Emit.entryBody, exec_seq, exec_define (by decide) eval_index, andThen_next, exec_seq, exec_decl (by decide), andThen_next, exec_seq]
      rw [show zero (.num .uint64) = V.num .uint64 0 from rfl, run_varint hh2 (by decide) (by decide) (by decide) (by decide) .uint64 0 i m]
      rfl
    have hbody := hbody _ rfl
    have hall := decodeVarint_all 64 C.dAtA i
    cases hd : Vtp.decodeVarint 64 C.dAtA i with
    | err e =>
      rw [hd] at hbody
      refine ⟨kv, vv, 0, (by rintro r ⟨⟩), ?_⟩
      rw [iter_body (X := UM.lift (.err e : Res St)) (fun a => a) hcond' (by rw [inScope_def, hbody]; rfl)]
      rfl
    | panic e => rw [hd] at hall; exact hall.elim
    | diverge => rw [hd] at hall; exact hall.elim
    | ok q =>
    obtain ⟨wire, j⟩ := q
    rw [hd] at hall hbody
    simp only [Res.All] at hall
    simp only [Res.bind_ok, andThen_next] at hbody ⊢
    rw [exec_seq, exec_define (by decide) (eval_num32 (w := wire) (by simp [find])), andThen_next] at hbody
    set num : BitVec 32 := (wire >>> 3).setWidth 32 with hnum
    set vs' : List (Id × V) := (.fieldNum, .num .int32 num) :: (.wire, .num .uint64 wire) :: (.entryPreIndex, .int i) :: (.mapvalue, vv) :: (.mapkey, kv) :: vs with hvs
    let pre : List (Id × V) := [(.fieldNum, .num .int32 num), (.wire, .num .uint64 wire), (.entryPreIndex, .int i)]
    have hpre : pre.length = 3 := rfl
    have hstd : Std C vs' := ((hh2.cons (by decide) _).cons (by decide) _)
    rw [exec_ite (cond_fieldNum (v := num) (n := 1) (by omega) (by simp [hvs, find]))] at hbody
    by_cases hn1 : num = 1
    · have e1 : num = BitVec.ofNat 32 1 := hn1
      rw [if_pos hn1]
      simp only [e1, decide_true, if_true] at hbody
      obtain ⟨ext, v, hrep, hrun⟩ := reads_mapField (self := self) (m := m) (x := .mapkey) (asKey := true) hE hL hG hrec hstd (.inl rfl) (G.unique f)
        (mapKeyKind_scalar hk).2.1 (fun _ => hk) 0 hall.2 (v0 := kv) (old := key) (by simp [hvs, find]) hkv
      simp only [if_true] at hrep hrun
      have hal := mapItem_key_all hE rec (d := C.dAtA) (by rw [← hL.A]; exact h.fits) hk C.base hall.2 key
      cases hq : Vtp.mapItem { E with aliasing := false } rec md.key 0 C.dAtA C.base j key with
      | panic e => rw [hq] at hal; exact hal.elim
      | diverge => rw [hq] at hal; exact hal.elim
      | err e =>
        refine ⟨kv, vv, 0, (by rintro r ⟨⟩), ?_⟩
        rw [iter_body (X := UM.lift (.err e : Res St)) (fun a => a) hcond' (by rw [inScope_def, hbody, inScope_def, hrun, hq]; rfl)]
        rfl
      | ok r =>
        obtain ⟨key', j'⟩ := r
        rw [hq] at hal hrun
        simp only [Res.All] at hal
        simp only [Res.bind_ok] at hrun ⊢
        have hput : put vs' .mapkey v = pre ++ ((.mapvalue, vv) :: (.mapkey, v) :: vs) := by
          simp [hvs, put, pre]
        rw [hput] at hrun
        obtain ⟨kv', vv', j'', hh3, hh4⟩ := ih k j' v vv key' val hal.2.1 (by omega) (by omega) (hrep _ hq) hvv
        refine ⟨kv', vv', j'', hh3, ?_⟩
        rw [iter_body (X := UM.lift (.ok ())) (fun _ => ⟨(.mapvalue, vv) :: (.mapkey, v) :: vs, (j' : Int)⟩) hcond' ?_]
        · exact hh4
        · rw [inScope_def, hbody, inScope_def, hrun]
          simp only
          rw [leave_append _ _ _ _ (by simp [hvs, hpre]; try omega), leave_append _ _ _ _ (by simp)]
          rfl
    rw [if_neg hn1]
    have e1 : ¬num = BitVec.ofNat 32 1 := hn1
    simp only [e1, decide_false, Bool.false_eq_true, if_false] at hbody
    rw [inScope_def, exec_ite (cond_fieldNum (v := num) (n := 2) (by omega) (by simp [hvs, find]))] at hbody
    by_cases hn2 : num = 2
    · have e2 : num = BitVec.ofNat 32 2 := hn2
      rw [if_pos hn2]
      simp only [e2, decide_true, if_true] at hbody
      obtain ⟨ext, v, hrep, hrun⟩ := reads_mapField (self := self) (m := m) (x := .mapvalue) (asKey := false) hE hL hG hrec hstd (.inr rfl) (G.unique f)
        hv (fun hc => by cases hc) md.valMsg hall.2 (v0 := vv) (old := val) (by simp [hvs, find]) hvv
      simp only [Bool.false_eq_true, if_false] at hrep hrun
      have hal := mapItem_all hE hr (by rw [← hL.A]; exact h.fits) hv hb md.valMsg C.base hall.2 val
      cases hq : Vtp.mapItem E rec md.val md.valMsg C.dAtA C.base j val with
      | panic e => rw [hq] at hal; exact hal.elim
      | diverge => rw [hq] at hal; exact hal.elim
      | err e =>
        refine ⟨kv, vv, 0, (by rintro r ⟨⟩), ?_⟩
        rw [iter_body (X := UM.lift (.err e : Res St)) (fun a => a) hcond' (by rw [inScope_def, hbody, inScope_def, hrun, hq]; rfl)]
        rfl
      | ok r =>
        obtain ⟨val', j'⟩ := r
        rw [hq] at hal hrun
        simp only [Res.All] at hal
        simp only [Res.bind_ok] at hrun ⊢
        have hput : put vs' .mapvalue v = pre ++ ((.mapvalue, v) :: (.mapkey, kv) :: vs) := by
          simp [hvs, put, pre]
        rw [hput] at hrun
        obtain ⟨kv', vv', j'', hh3, hh4⟩ := ih k j' kv v key val' hal.2.1 (by omega) (by omega) hkv (hrep _ hq)
        refine ⟨kv', vv', j'', hh3, ?_⟩
        rw [iter_body (X := UM.lift (.ok ())) (fun _ => ⟨(.mapvalue, v) :: (.mapkey, kv) :: vs, (j' : Int)⟩) hcond' ?_]
        · exact hh4
        · rw [inScope_def, hbody, inScope_def, hrun]
          simp only
          rw [leave_append ext _ _ _ (by simp [hvs, hpre]; try omega), leave_eq (pre ++ ((.mapvalue, v) :: (.mapkey, kv) :: vs)) _ _ (by simp [hvs, hpre]; try omega), leave_append pre _ _ _ (by simp)]
          rfl
    rw [if_neg hn2]
    have e2 : ¬num = BitVec.ofNat 32 2 := hn2
    simp only [e2, decide_false, Bool.false_eq_true, if_false] at hbody
    have hal := skipAt_all (limit := post) h.arch h.fits hi
    have hskip := run_skipAt (self := self) (lim := Emit.var .postIndex) (limit := post) hstd hi m (by intro n; rw [eval_var (by decide)]; simpa [hvs, find] using hp)
    have hrun : exec C self (.assign (.id .iNdEx) (Emit.var .entryPreIndex) ;; Emit.skipHead ;;
                 Emit.when (.bin .gt (.bin .add Emit.iNdEx (Emit.var .skippy)) (Emit.var .postIndex)) (.ret .unexpectedEOF) ;;
                 .addAssign .iNdEx (Emit.var .skippy)) ⟨vs', (j : Int)⟩ m =
        (m, skipAt C.A C.dAtA i post >>= fun j => .ok (⟨[(.err, .err none), (.skippy, .int ((j - i : Nat) : Int))] ++ vs', (j : Int)⟩, .next)) := by
      rw [exec_seq, exec_assign_index (j := i) (by rw [eval_var (by decide)]; simp [hvs, find]), andThen_next, exec_assoc, exec_seq, hskip]
      cases hs : skipAt C.A C.dAtA i post with
      | err e => rfl
      | panic e => rfl
      | diverge => rfl
      | ok j' =>
        rw [hs] at hal
        simp only [Res.All] at hal
        simp only [Res.bind_ok, andThen_next]
        rw [exec_addIndex_var (n := ((j' - i : Nat) : Int)) (by decide) (by simp [find]), add_back h.arch h.fits (by omega) (by omega)]
        rfl
    rw [← hL.A]
    cases hs : skipAt C.A C.dAtA i post with
    | panic e => rw [hs] at hal; exact hal.elim
    | diverge => rw [hs] at hal; exact hal.elim
    | err e =>
      refine ⟨kv, vv, 0, (by rintro r ⟨⟩), ?_⟩
      rw [iter_body (X := UM.lift (.err e : Res St)) (fun a => a) hcond' (by rw [inScope_def, hbody, inScope_def, hrun, hs]; rfl)]
      rfl
    | ok j' =>
      rw [hs] at hal hrun
      simp only [Res.All] at hal
      simp only [Res.bind_ok] at hrun ⊢
      obtain ⟨kv', vv', j'', hh3, hh4⟩ := ih k j' kv vv key val (by omega) (by omega) (by omega) hkv hvv
      refine ⟨kv', vv', j'', hh3, ?_⟩
      rw [iter_body (X := UM.lift (.ok ())) (fun _ => ⟨(.mapvalue, vv) :: (.mapkey, kv) :: vs, (j' : Int)⟩) hcond' ?_]
      · exact hh4
      · rw [inScope_def, hbody, inScope_def, hrun]
        simp only
        rw [leave_append [(.err, .err none), (.skippy, .int ((j' - i : Nat) : Int))] _ _ _ (by simp [hvs, hpre]; try omega), leave_eq vs' _ _ (by simp [hvs, hpre]; try omega),
          show vs' = pre ++ ((.mapvalue, vv) :: (.mapkey, kv) :: vs) from rfl,
          leave_append pre _ _ _ (by simp)]
        rfl

end

end Vtp.GoU
