import Verif.Lemmas.GoUEntry
/-! Running the printed statements for one value of a field. -/

namespace Vtp.GoU
open Spec

/-- What the printed code runs in is what the decoder runs in. -/
structure Good (G : GenCfg) (E : UEnv) (C : Ctx) (rec : SubDec) : Prop where
  env : DecodeEnv E
  link : Link G E C
  gen : G.toGenCfg.OK E.S
  agrees : RecAgrees E C.method rec C.dAtA.length
  safe : RecSafe E rec C.dAtA.length
  fits : C.A.Fits C.dAtA.length
  fuel : C.dAtA.length + 11 ≤ C.fuel

section
variable {C : Ctx} {self : Nat} {K : List Id} {G : GenCfg} {E : UEnv} {rec : SubDec}

theorem Good.fits' (hg : Good G E C rec) : E.A.Fits C.dAtA.length := by rw [← hg.link.A]; exact hg.fits

/-- The zero values of the key and value variables. -/
theorem rep_zero_key {k : Kind} (hk : mapKeyKind k = true) : Rep C true k (zero (Emit.goType k 0)) (zeroScalar k) := by
  cases k <;> simp [mapKeyKind] at hk <;> refine ⟨?_, ?_⟩ <;>
    simp [varT, Emit.goType, zero, zeroScalar, keyOf, toKey, NTy.ext, NTy.signed, NTy.width] <;> exact ⟨0, rfl, by decide⟩

theorem rep_zero_val {k : Kind} (t : Nat) (hk : k ≠ .group) : Rep C false k (zero (Emit.goType k t)) (zeroScalar k) := by
  cases k <;> first | (exact absurd rfl hk) | (refine ⟨?_, ?_⟩ <;>
    simp [varT, Emit.goType, zero, zeroScalar, stored, NTy.ext, NTy.signed, NTy.width] <;> exact ⟨0, rfl, by decide⟩)

theorem exec_loop {c : Expr} {body : Stmt} {vs : List (Id × V)} {i : Int} {m : Val} :
    exec C self (.loop .skip (some c) .skip body) ⟨vs, i⟩ m =
    inScope ⟨vs, i⟩ (iter (fun st => condU C st c) (fun st => inScope st (exec C self body st)) (exec C self .skip) C.fuel ⟨vs, i⟩) m := by
  rw [exec, inScope_def, inScope_def, UM.bind_def, exec_skip]

theorem exec_forever {body : Stmt} {vs : List (Id × V)} {i : Int} {m : Val} :
    exec C self (.loop .skip none .skip body) ⟨vs, i⟩ m =
    inScope ⟨vs, i⟩ (iter (fun _ => pure true) (fun st => inScope st (exec C self body st)) (exec C self .skip) C.fuel ⟨vs, i⟩) m := by
  rw [exec, inScope_def, inScope_def, UM.bind_def, exec_skip]

theorem exec_mapSet {s : Nat} {vs : List (Id × V)} {i : Int} {sl : List Val} {u e : Bytes} {kv vv : V} {k : Key} {v : Val} {es : List (Key × Val)}
    (h1 : keyOf C kv = .ok k) (h2 : stored C vv = .ok v) (h3 : sl.getD s .nil = .map es) :
    exec C self (.mapSet s) ⟨(.mapvalue, vv) :: (.mapkey, kv) :: vs, i⟩ (.msg sl u e) =
    (.msg (sl.set s (.map (mapInsert es k v))) u e, .ok (⟨(.mapvalue, vv) :: (.mapkey, kv) :: vs, i⟩, .next)) := by
  rw [exec]
  simp only [UM.bind_def, UM.lift, St.look, find, reduceCtorEq, if_false, if_true, h1, h2, getSlot, h3, setSlot]
  rfl

/-- A map field. -/
theorem ends_map (hg : Good G E C rec) (hK1 : Id.mapkey ∉ K) (hK2 : Id.mapvalue ∉ K) {t : Nat} (hf : (E.S.msg t).foreign = false)
    {f : FieldDesc} (h : f ∈ (E.S.msg t).fields) {md : MapDesc} (hmd : f.map = some md)
    {vs : List (Id × V)} (hs : Std C vs) {a b : Nat} (ha : a ≤ C.dAtA.length) (hb : b ≤ C.dAtA.length)
    (hpost : find vs .postIndex = .ok (.int b)) {sl : List Val} {u e : Bytes} (hm : Typed E.S t (.msg sl u e)) :
    ∃ j : Nat, Ends K vs ((mapEntry E rec f md C.dAtA C.base a b >>= fun _ => pure j : UM Nat) (.msg sl u e))
      (exec C self (Emit.mapItem G f md) ⟨vs, a⟩ (.msg sl u e)) := by
  have hS := schemaOK_msg hg.env.schema t
  have ff := hS.fields f h
  obtain ⟨m1, m2, m3, m4⟩ := ff.map md hmd
  obtain ⟨hlen, hslots⟩ := (typed_iff hf sl u e).1 hm
  have hsl : f.slot < sl.length := by rw [hlen]; exact ff.slot
  have hsk : slotOK E.S (E.S.msg t) f (sl.getD f.slot .nil) = true := hslots f h
  have ho : f.oneof = false := by
    cases hc : f.oneof
    · rfl
    · have := (ff.oneof hc).1; rw [m1] at this; cases this
  have hbm : md.val = .bytes → E.A.bits = 64 ∨ E.aliasing = true := by
    intro hv
    rcases hg.env.bytesMap with h' | h' | h'
    · exact .inl h'
    · exact .inr h'
    · exact absurd hv (h' t f h md hmd)
  obtain ⟨es, hes⟩ : ∃ es, (if (sl.getD f.slot .nil).isNil then Val.map [] else sl.getD f.slot .nil) = .map es := by
    simp only [slotOK, ho, Bool.false_eq_true, if_false, fieldOK, hmd] at hsk
    generalize sl.getD f.slot .nil = s at hsk
    cases s <;> simp [Val.isNil] at hsk ⊢
  have hinit : exec C self (Emit.when (.bin .eq (.pl (.field f.slot)) .nil) (.assign (.field f.slot) (.makeMap f.slot))) ⟨vs, a⟩ (.msg sl u e) =
      (.msg (sl.set f.slot (.map es)) u e, .ok (⟨vs, a⟩, .next)) := by
    by_cases hn : (sl.getD f.slot .nil).isNil = true
    · rw [if_pos hn] at hes
      cases hes
      rw [exec_when_true (by rw [evalCond_nil, hn]), inScope_def, exec_assign_field (v := .val (.map [])) (by rw [eval]) rfl]
      simp only
      rw [leave_eq vs _ _ rfl]
    · rw [if_neg hn] at hes
      simp only [Bool.not_eq_true] at hn
      rw [exec_when_false (by rw [evalCond_nil, hn]), ← hes]
      congr 2
      rw [List.getD_eq_getElem?_getD, List.getElem?_eq_getElem hsl]
      simp
  obtain ⟨kv, vv, j, hrep, hrun⟩ := run_entries (self := self) (m := .msg (sl.set f.slot (.map es)) u e) (f := f) hg.env hg.link hg.gen hg.agrees hg.safe m3 m4 hbm hs hb hpost
    (C.dAtA.length + 1) C.fuel a _ _ _ _ ha (by omega) (by have := hg.fuel; omega) (rep_zero_key m3) (rep_zero_val md.valMsg m4)
  refine ⟨j, ?_⟩
  rw [um_then, Emit.mapItem, exec_seq, hinit, andThen_next, exec_seq, exec_decl (by decide), andThen_next, exec_seq, exec_decl (by decide), andThen_next,
    exec_seq, exec_loop, inScope_def, hrun]
  have hmod : mapEntry E rec f md C.dAtA C.base a b (.msg sl u e) =
      (UM.lift (entryLoop E rec md C.dAtA C.base b (C.dAtA.length + 1) a (zeroScalar md.key) (zeroScalar md.val)) >>= fun r =>
        mapPut f (.map es) (toKey r.1) r.2) (.msg (sl.set f.slot (.map es)) u e) := by
    unfold mapEntry
    rw [UM.bind_def]
    simp only [getSlot]
    rw [hes, UM.bind_def]
    rfl
  rw [hmod, UM.bind_def]
  simp only [UM.lift]
  cases hq : entryLoop E rec md C.dAtA C.base b (C.dAtA.length + 1) a (zeroScalar md.key) (zeroScalar md.val) with
  | err x => exact .err
  | panic x => exact .panic
  | diverge => exact .diverge
  | ok r =>
    obtain ⟨r1, r2⟩ := hrep r hq
    simp only [Res.bind_ok]
    rw [leave_eq ((.mapvalue, vv) :: (.mapkey, kv) :: vs) _ _ rfl, andThen_next, exec_mapSet (k := toKey r.1) (v := r.2) (es := es) r1.2 r2.2 (getD_set hsl _)]
    exact ⟨[(.mapvalue, vv), (.mapkey, kv)], by simp [hK1, hK2], rfl⟩

/-- Messages and maps. -/
theorem ends_messageItem (hg : Good G E C rec) {t : Nat} (hf : (E.S.msg t).foreign = false)
    {f : FieldDesc} (h : f ∈ (E.S.msg t).fields) (hk : f.kind = .message) (p3 : Bool) (wire : BitVec 64)
    {vs : List (Id × V)} (hs : Std C vs) (i : Nat) {sl : List Val} {u e : Bytes} (hm : Typed E.S t (.msg sl u e)) :
    Ends [.hasFields] vs (fieldItem E rec (E.S.msg t) f p3 wire C.dAtA C.base i (.msg sl u e))
      (exec C self (Emit.messageItem G E.S (E.S.msg t) f) ⟨vs, i⟩ (.msg sl u e)) := by
  have hlen := run_intLen (self := self) hs (len := .msglen) (post := .postIndex) (by simp [Plain]) (by simp [Plain]) i (.msg sl u e)
  have hall := readSpan_all hs.arch C.A.bits hs.fits i
  unfold fieldItem
  rw [hk]
  simp only
  rw [← hg.link.A, Emit.messageItem]
  refine Ends.bind _ (X := UM.lift (readSpan C.A C.A.bits C.dAtA i)) hlen ?_
  rintro ⟨j, p⟩ hjp
  simp only [UM.lift] at hjp ⊢
  rw [hjp] at hall
  obtain ⟨h1, h2, h3⟩ := hall
  simp only at h1 h2 h3
  have hstd : Std C ((.postIndex, .int (p : Int)) :: (.msglen, .int ((p : Int) - j)) :: vs) := (hs.cons (by decide) _).cons (by decide) _
  have hpost : find ((.postIndex, .int (p : Int)) :: (.msglen, .int ((p : Int) - j)) :: vs) .postIndex = .ok (.int p) := by simp [find]
  refine Ends.dropN [(.postIndex, .int (p : Int)), (.msglen, .int ((p : Int) - j))] (by simp) ?_
  rcases hfm : f.map with _ | md
  · simp only
    rw [slice_all h2 h3, UM.lift_ok_bind]
    have := ends_message (K := [.postIndex, .hasFields]) (self := self) hg.env hg.link hg.gen hf h hk hfm hg.agrees h2 h3 (by omega) hpost hm
    exact Ends.setIndex (by decide) this hpost
  · simp only
    have ho : f.oneof = false := by
      cases hc : f.oneof
      · rfl
      · have ff := (schemaOK_msg hg.env.schema t).fields f h
        have := (ff.oneof hc).1; rw [(ff.map md hfm).1] at this; cases this
    simp only [ho, Bool.false_eq_true, if_false]
    obtain ⟨j', this⟩ := ends_map (K := [.postIndex, .hasFields]) (self := self) hg (by decide) (by decide) hf h hfm hstd (Nat.le_trans h2 h3) h3 hpost hm
    exact Ends.setIndex (by decide) this hpost

/-- The loop for a group never ends normally: it looks at the wrong wire type. -/
theorem run_group (hg : Good G E C rec) (f : FieldDesc) {wire : BitVec 64} (hw : (wire &&& 7).toNat ≠ 4)
    {vs : List (Id × V)} (hs : Std C vs) (hfw : find vs .wire = .ok (.num .uint64 wire)) (start : Nat) (m : Val) :
    ∀ (n k i : Nat), C.dAtA.length - i < n → C.dAtA.length - i < k → ∃ e, groupLoop E rec f wire C.dAtA C.base start n i = UM.lift (.err e) ∧
      iter (fun _ => pure true) (fun st => inScope st (exec C self (Emit.groupBody G f) st)) (exec C self .skip) k ⟨vs, i⟩ m = (m, .err e) := by
  intro n
  induction n with
  | zero => intro k i h; exfalso; omega
  | succ n ih =>
    intro k i h hk
    obtain ⟨k, rfl⟩ : ∃ k', k = k' + 1 := ⟨k - 1, by omega⟩
    have hs1 : Std C ((.maybeGroupEnd, .int i) :: vs) := hs.cons (by decide) _
    have hbody : exec C self (Emit.groupBody G f) ⟨vs, i⟩ m =
        andThen (m, Vtp.decodeVarint 64 C.dAtA i >>= fun r =>
          .ok (⟨(.groupFieldWire, .num .uint64 r.1) :: (.maybeGroupEnd, .int i) :: vs, (r.2 : Int)⟩, .next))
          (exec C self (.define .groupWireType (.conv .int (.bin .and (Emit.var .wire) (.lit 7))) ;;
            Emit.when (.bin .eq (Emit.var .groupWireType) (.lit 4))
              (Emit.decodeMessage G (.field f.slot) (Emit.var .groupStart) (Emit.var .maybeGroupEnd) f.msg ;; .brk) ;;
            Emit.skipHead ;; .addAssign .iNdEx (Emit.var .skippy))) := by
      rw [Emit.groupBody, exec_seq, exec_define (by decide) eval_index, andThen_next, exec_seq, exec_decl (by decide), andThen_next, exec_seq]
      rw [show zero (.num .uint64) = V.num .uint64 0 from rfl, run_varint hs1 (by decide) (by decide) (by decide) (by decide) .uint64 0 i m]
      rfl
    have hbad : ∀ e, exec C self (Emit.groupBody G f) ⟨vs, i⟩ m = (m, .err e) →
        iter (fun _ => pure true) (fun st => inScope st (exec C self (Emit.groupBody G f) st)) (exec C self .skip) (k + 1) ⟨vs, i⟩ m = (m, .err e) := by
      intro e he
      rw [iter_body (X := UM.lift (.err e : Res St)) (fun a => a) rfl (by rw [inScope_def, he]; rfl)]
      rfl
    rw [groupLoop]
    have h1 := decodeVarint_all 64 C.dAtA i
    cases hd : Vtp.decodeVarint 64 C.dAtA i with
    | panic p => rw [hd] at h1; exact h1.elim
    | diverge => rw [hd] at h1; exact h1.elim
    | err e => exact ⟨e, rfl, hbad e (by rw [hbody, hd]; rfl)⟩
    | ok r =>
    obtain ⟨v, j⟩ := r
    rw [hd] at h1 hbody
    simp only [Res.All] at h1
    rw [UM.lift_ok_bind]
    simp only [if_neg hw]
    simp only [Res.bind_ok, andThen_next] at hbody
    have hwt : eval C ⟨(.groupFieldWire, .num .uint64 v) :: (.maybeGroupEnd, .int (i : Int)) :: vs, j⟩ m (.conv .int (.bin .and (Emit.var .wire) (.lit 7))) =
        .ok (.int ((wire &&& 7).toNat : Int)) :=
       eval_wireType hs.arch hs.fits (by simpa [find] using hfw)
    rw [exec_seq, exec_define (by decide) hwt, andThen_next, exec_seq, exec_when_false, andThen_next] at hbody
    swap
    · refine evalCond_of ?_
      rw [eval_bin (eval_var_head (by decide)) eval_lit]
      simp only [binV, equal, asInt, Res.bind_ok]
      congr 2
      exact decide_eq_false (by exact_mod_cast hw)
    set vs' : List (Id × V) := (.groupWireType, .int ((wire &&& 7).toNat : Int)) :: (.groupFieldWire, .num .uint64 v) :: (.maybeGroupEnd, .int (i : Int)) :: vs with hvs
    have hs2 : Std C vs' := (hs1.cons (by decide) _).cons (by decide) _
    rw [exec_seq, run_skipHead hs2 h1.2, slice_all h1.2 (Nat.le_refl _), Res.bind_ok] at hbody
    rw [slice_all h1.2 (Nat.le_refl _), UM.lift_ok_bind, ← hg.link.A]
    have hlen : ((C.dAtA.drop j).take (C.dAtA.length - j)).length ≤ C.dAtA.length := by simp
    have h2 := skip_lt hs.arch ((C.dAtA.drop j).take (C.dAtA.length - j)) (by have := hs.fits; unfold Arch.Fits at this ⊢; omega)
    cases hsk : skip C.A ((C.dAtA.drop j).take (C.dAtA.length - j)) with
    | panic p => rw [hsk] at h2; exact h2.elim
    | diverge => rw [hsk] at h2; exact h2.elim
    | err e => exact ⟨e, rfl, hbad e (by rw [hbody, hsk]; rfl)⟩
    | ok n' =>
    rw [hsk] at h2 hbody
    simp only [Res.All] at h2
    rw [UM.lift_ok_bind]
    simp only [Res.bind_ok] at hbody
    by_cases hneg : C.A.wrap (j + n') < 0
    · simp only [hneg, if_true] at hbody ⊢
      exact ⟨_, rfl, hbad _ hbody⟩
    simp only [hneg, if_false, andThen_next] at hbody ⊢
    rw [exec_addIndex_var (n := (n' : Int)) (by decide) (by simp [find])] at hbody
    have hF := hs.fits
    unfold Arch.Fits at hF
    have hpos := hs.arch.pos
    have h2p := two_pow_pred (n := C.A.bits) (by omega)
    have hnat : ((C.A.wrap (j + n')).toNat : Int) = C.A.wrap (j + n') := by omega
    have hge : j + n' ≤ (C.A.wrap (j + n')).toNat := by
      rcases Arch.wrap_cases hs.arch (j + n') (by omega) (by omega) with h | h <;> omega
    obtain ⟨e, he1, he2⟩ := ih k (C.A.wrap (j + n')).toNat (by omega) (by omega)
    refine ⟨e, he1, ?_⟩
    let pre : List (Id × V) := [(.err, .err none), (.skippy, .int (n' : Int)), (.groupWireType, .int ((wire &&& 7).toNat : Int)), (.groupFieldWire, .num .uint64 v), (.maybeGroupEnd, .int (i : Int))]
    have hlv : ∀ (z : Int) (o : St), o.vars.length = vs.length → (⟨(.err, .err none) :: (.skippy, .int (n' : Int)) :: vs', z⟩ : St).leave o = ⟨vs, z⟩ :=
      fun z o ho => leave_append pre vs z o ho
    rw [iter_body (X := UM.lift (.ok ())) (fun _ => ⟨vs, ((C.A.wrap (j + n')).toNat : Int)⟩) rfl ?_]
    · exact he2
    · rw [inScope_def, hbody]
      simp only
      rw [hlv _ _ rfl, hnat]
      rfl

/-- One value of a field. -/
theorem ends_fieldItem (hg : Good G E C rec) {t : Nat} (hf : (E.S.msg t).foreign = false)
    {f : FieldDesc} (h : f ∈ (E.S.msg t).fields) (p3 : Bool) {wire : BitVec 64} (hw : (wire &&& 7).toNat ≠ 4)
    {vs : List (Id × V)} (hs : Std C vs) (hfw : find vs .wire = .ok (.num .uint64 wire)) {i : Nat} (hi : i ≤ C.dAtA.length) {m : Val} (hm : Typed E.S t m) :
    Ends [.hasFields] vs (fieldItem E rec (E.S.msg t) f p3 wire C.dAtA C.base i m) (exec C self (Emit.fieldItem G E.S (E.S.msg t) f p3) ⟨vs, i⟩ m) := by
  obtain ⟨sl, u, e, rfl⟩ := hm.nonnil
  have hS := schemaOK_msg hg.env.schema t
  obtain ⟨hlen, hslots⟩ := (typed_iff hf sl u e).1 hm
  have hsl : f.slot < sl.length := by rw [hlen]; exact (hS.fields f h).slot
  by_cases hk1 : f.kind = .message
  · have := ends_messageItem (self := self) hg hf h hk1 p3 wire hs i hm
    unfold Emit.fieldItem; rw [hk1]; exact this
  by_cases hk2 : f.kind = .group
  · unfold Emit.fieldItem fieldItem; rw [hk2]
    simp only
    obtain ⟨x, h1, h2⟩ := run_group (self := self) hg f hw (vs := (.groupStart, .int (i : Int)) :: vs) (hs.cons (by decide) _) (by simpa [find] using hfw) i (.msg sl u e)
      (C.dAtA.length + 1) C.fuel i (by omega) (by have := hg.fuel; omega)
    rw [h1, Emit.groupItem, exec_seq, exec_define (by decide) eval_index, andThen_next, exec_forever, inScope_def, h2]
    exact .err
  by_cases hk3 : f.kind = .string
  · have := ends_string (self := self) hg.link hs rec (E.S.msg t) hk3 p3 wire i sl u e
    unfold Emit.fieldItem; rw [hk3]; exact this
  by_cases hk4 : f.kind = .bytes
  · have := ends_bytes (self := self) hg.link hs rec (E.S.msg t) hk4 p3 wire i sl u e hsl
    unfold Emit.fieldItem; rw [hk4]; exact this
  exact ends_fieldItem_num hs G E.S hg.link.A.symm rec (E.S.msg t) (numeric_of hk1 hk2 hk3 hk4) p3 wire C.base hi hsl

end

end Vtp.GoU
