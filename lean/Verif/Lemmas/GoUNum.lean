import Verif.Lemmas.GoUItem
/-! Running the printed `fieldItem` for the numeric kinds. -/

namespace Vtp.GoU
open Spec

section
variable {C : Ctx} {self : Nat}

theorem exec_assoc (a b c : Stmt) (st : St) (m : Val) : exec C self (a ;; b ;; c) st m = exec C self ((a ;; b) ;; c) st m := by
  simp only [exec_seq]
  rcases exec C self a st m with ⟨m', ⟨st', q⟩ | e | p | _⟩ <;> try rfl
  cases q
  · rw [andThen_next, exec_seq, andThen_next]
  · rfl
  · rfl

theorem eval_fromBits64 {e : Expr} {st : St} {m : Val} {v : BitVec 64} (h : eval C st m e = .ok (.num .uint64 v)) :
    eval C st m (.fromBits64 e) = .ok (.f64 v) := by rw [eval, h]; rfl

theorem eval_fromBits32 {e : Expr} {st : St} {m : Val} {v : BitVec 32} (h : eval C st m e = .ok (.num .uint32 v)) :
    eval C st m (.fromBits32 e) = .ok (.f32 v) := by rw [eval, h]; rfl

theorem toInt_eq_zero {w : Nat} (v : BitVec w) : v.toInt = 0 ↔ v = 0 := by
  constructor
  · intro h
    have := congrArg (BitVec.ofInt w) h
    simpa using this
  · rintro rfl; simp

/-- `bool(x != 0)` for an `int`. -/
theorem eval_nonzero {vs : List (Id × V)} {i : Int} {m : Val} {x : Id} (hx : x ≠ .iNdEx) {w : Nat} {v : BitVec w} (h : find vs x = .ok (.int v.toInt)) :
    eval C ⟨vs, i⟩ m (.conv .bool (.bin .ne (Emit.var x) (.lit 0))) = .ok (.bool (!decide (v = 0))) := by
  have e := (eval_var (C := C) (i := i) (m := m) hx).trans h
  rw [eval_conv (v := .bool (!decide (v = 0)))]
  · rfl
  rw [eval_bin e eval_lit]
  simp only [binV, equal, asInt, Res.bind_ok]
  congr 3
  simp only [decide_eq_decide]
  exact toInt_eq_zero v

theorem stored_bool (b : Bool) : stored C (.bool (!b)) = .ok (.num (if b then 0 else 1)) := by cases b <;> rfl

/-- The printed code for a number does what `fieldItem` of the model does. -/
theorem ends_fieldItem_num {vs : List (Id × V)} (h : Std C vs) (G : GenCfg) (S : Schema) {E : UEnv} (hA : E.A = C.A) (rec : SubDec) (d : MsgDesc) {f : FieldDesc}
    (hk : numeric f.kind = true) (p3 : Bool) (wire : BitVec 64) (base : Nat) {i : Nat} (hi : i ≤ C.dAtA.length) {sl : List Val} {u x : Bytes} (hsl : f.slot < sl.length) :
    Ends [.hasFields] vs (fieldItem E rec d f p3 wire C.dAtA base i (.msg sl u x)) (exec C self (Emit.fieldItem G S d f p3) ⟨vs, i⟩ (.msg sl u x)) := by
  have hfix : ∀ T : NTy, ∀ n, (n = 8 ∧ T.width = 64 ∨ n = 4 ∧ T.width = 32) →
      exec C self (.decl .v (.num T) ;; Emit.decodeFixed n (.id .v) (.num T)) ⟨vs, i⟩ (.msg sl u x) =
      (.msg sl u x, Vtp.decodeFixed C.A n C.dAtA i >>= fun r => .ok (⟨[(.v, .num T (BitVec.ofNat T.width r.1))] ++ vs, (r.2 : Int)⟩, .next)) := by
    intro T n hn
    rw [exec_seq, exec_decl (by decide), andThen_next]
    exact run_fixed_var h (by decide) (by decide) hn hi _ _
  have hvar : ∀ T : NTy, exec C self (.decl .v (.num T) ;; Emit.decodeVarint (.id .v) (.num T)) ⟨vs, i⟩ (.msg sl u x) =
      (.msg sl u x, Vtp.decodeVarint T.width C.dAtA i >>= fun r => .ok (⟨[(.v, .num T r.1)] ++ vs, (r.2 : Int)⟩, .next)) := by
    intro T
    rw [exec_seq, exec_decl (by decide), andThen_next]
    exact run_varint h (by decide) (by decide) (by decide) (by decide) T 0 i _
  have hall : ∀ n r, 0 < n → n ≤ 8 → Vtp.decodeFixed C.A n C.dAtA i = .ok r → r.1 < 256 ^ n := by
    intro n r h0 h8 hr
    have := decodeFixed_all h.arch h0 h8 h.fits hi
    rw [hr] at this
    exact this.2.2
  cases hf : f.kind <;> rw [hf] at hk <;> (try (simp [numeric] at hk; done)) <;> (have hk' : numeric f.kind = true := by rw [hf]; rfl) <;>
    (unfold Emit.fieldItem; rw [hf]; simp only)
  case double =>
    rw [exec_assoc]
    refine ends_num (C := C) (R := Vtp.decodeFixed C.A 8 C.dAtA i) (c := fun r => BitVec.ofNat 64 r.1) (n := fun r => r.2) rec d hk' wire base ?_ ?_
      (ext := fun r => [(.v, .num .uint64 (BitVec.ofNat 64 r.1))]) ?_ ?_ ?_
    · intro _; rw [hf]; rfl
    · rw [hf, hA]; rfl
    · intro r; simp
    · exact hfix .uint64 8 (.inl ⟨rfl, rfl⟩)
    · intro r _
      refine ends_storeExpr f p3 true (by decide) (by decide) (v := .f64 (BitVec.ofNat 64 r.1)) ?_ rfl
      exact (eval_conv (eval_fromBits64 (eval_var_head (x := .v) (by decide)))).trans rfl
  case float =>
    rw [exec_assoc]
    refine ends_num (C := C) (R := Vtp.decodeFixed C.A 4 C.dAtA i) (c := fun r => BitVec.ofNat 64 r.1) (n := fun r => r.2) rec d hk' wire base ?_ ?_
      (ext := fun r => [(.v, .num .uint32 (BitVec.ofNat 32 r.1))]) ?_ ?_ ?_
    · intro _; rw [hf]; rfl
    · rw [hf, hA]; rfl
    · intro r; simp
    · exact hfix .uint32 4 (.inr ⟨rfl, rfl⟩)
    · intro r hr
      refine ends_storeExpr f p3 true (by decide) (by decide) (v := .f32 (BitVec.ofNat 32 r.1)) ?_ ?_
      · exact (eval_conv (eval_fromBits32 (eval_var_head (x := .v) (by decide)))).trans rfl
      · have := hall 4 r (by omega) (by omega) hr
        simp only [stored]
        congr 2
        apply BitVec.eq_of_toNat_eq; simp; omega
  case int64 =>
    refine ends_varint (by decide) h hA rec d hk' p3 wire base hsl .int64 ?_ ?_ <;> rw [hf]
    · change (Vtp.decodeVarint 64 C.dAtA i >>= _) = (Vtp.decodeVarint 64 C.dAtA i >>= _)
      congr 1; funext r; simp [NTy.ext, NTy.signed, NTy.width]
    · simp [direct, NTy.ext, NTy.signed, NTy.width]
  case uint64 =>
    refine ends_varint (by decide) h hA rec d hk' p3 wire base hsl .uint64 ?_ ?_ <;> rw [hf]
    · change (Vtp.decodeVarint 64 C.dAtA i >>= _) = (Vtp.decodeVarint 64 C.dAtA i >>= _)
      congr 1
    · simp [direct, NTy.ext, NTy.signed, NTy.width]
  case int32 => refine ends_varint (by decide) h hA rec d hk' p3 wire base hsl .int32 ?_ ?_ <;> rw [hf] <;> rfl
  case uint32 => refine ends_varint (by decide) h hA rec d hk' p3 wire base hsl .uint32 ?_ ?_ <;> rw [hf] <;> rfl
  case enum => refine ends_varint (by decide) h hA rec d hk' p3 wire base hsl .enum ?_ ?_ <;> rw [hf] <;> rfl
  case fixed64 =>
    refine ends_fixed (by decide) h hA rec d hk' p3 wire base hi .uint64 (.inl ⟨rfl, rfl⟩) ?_ ?_ <;> rw [hf]
    · change (Vtp.decodeFixed C.A 8 C.dAtA i >>= _) = (Vtp.decodeFixed C.A 8 C.dAtA i >>= _)
      congr 1
    · rfl
  case sfixed64 =>
    refine ends_fixed (by decide) h hA rec d hk' p3 wire base hi .int64 (.inl ⟨rfl, rfl⟩) ?_ ?_ <;> rw [hf]
    · change (Vtp.decodeFixed C.A 8 C.dAtA i >>= _) = (Vtp.decodeFixed C.A 8 C.dAtA i >>= _)
      congr 1; funext r; simp [NTy.ext, NTy.signed, NTy.width]
    · rfl
  case fixed32 =>
    refine ends_fixed (by decide) h hA rec d hk' p3 wire base hi .uint32 (.inr ⟨rfl, rfl⟩) ?_ ?_ <;> rw [hf]
    · change (Vtp.decodeFixed C.A 4 C.dAtA i >>= _) = (Vtp.decodeFixed C.A 4 C.dAtA i >>= _)
      cases hd : Vtp.decodeFixed C.A 4 C.dAtA i with
      | ok r =>
        have := hall 4 r (by omega) (by omega) hd
        simp only [Res.bind_ok, NTy.ext, NTy.signed, NTy.width, Bool.false_eq_true, if_false]
        congr 2
        apply BitVec.eq_of_toNat_eq; simp; omega
      | err e => rfl
      | panic e => rfl
      | diverge => rfl
    · rfl
  case sfixed32 =>
    refine ends_fixed (by decide) h hA rec d hk' p3 wire base hi .int32 (.inr ⟨rfl, rfl⟩) ?_ ?_ <;> rw [hf] <;> rfl
  case bool =>
    unfold Emit.boolItem
    simp only
    rw [exec_assoc]
    refine ends_num (C := C) (R := Vtp.decodeVarint C.A.bits C.dAtA i) (c := fun r => if r.1 = 0 then 0 else 1) (n := fun r => r.2) rec d hk' wire base ?_ ?_
      (ext := fun r => [(.v, .int r.1.toInt)]) ?_ ?_ ?_
    · intro _; rw [hf]; rfl
    · rw [hf, hA]; rfl
    · intro r; simp
    · rw [exec_seq, exec_decl (by decide), andThen_next]
      exact run_int h (by decide) (by decide) (by decide) (by decide) i _
    · intro r _
      have he := fun sl => eval_nonzero (C := C) (vs := (.v, .int r.1.toInt) :: vs) (i := (r.2 : Nat)) (m := .msg sl u x) (x := .v) (by decide) (v := r.1) (by simp [find])
      have hst : stored C (.bool (!decide (r.1 = 0))) = .ok (.num (if r.1 = 0 then 0 else 1)) := by
        rw [stored_bool]; by_cases h0 : r.1 = 0 <;> simp [h0]
      by_cases ho : f.oneof = true
      · rw [if_pos ho]
        exact Ends.define (by decide) (by decide) (he sl) (ends_wrapper ho (eval_var_head (by decide)) hst)
      rw [if_neg ho]
      by_cases hr : (f.card == .repeated) = true
      · rw [if_pos hr]
        exact ends_append (by simpa using ho) hr (he sl) hst
      rw [if_neg hr]
      by_cases hp : (p3 && !f.synthetic) = true
      · rw [if_pos hp]
        exact ends_assign (by simpa using ho) (by simpa using hr) (he sl) hst
      · rw [if_neg hp]
        exact Ends.define (by decide) (by decide) (he sl) (ends_assign (by simpa using ho) (by simpa using hr) (eval_addr.trans (eval_var_head (by decide))) hst)
  case sint32 =>
    rw [exec_assoc, exec_assoc]
    refine ends_num (C := C) (R := Vtp.decodeVarint 32 C.dAtA i) (c := fun r => (Vtp.unzigzag32 r.1).signExtend 64) (n := fun r => r.2) rec d hk' wire base ?_ ?_
      (ext := fun r => [(.v, .num .int32 (Vtp.unzigzag32 r.1))]) ?_ ?_ ?_
    · intro _; rw [hf]; rfl
    · rw [hf, hA]; rfl
    · intro r; simp
    · rw [exec_seq, hvar .int32]
      change andThen (_, Vtp.decodeVarint 32 C.dAtA i >>= _) _ = _
      cases hd : Vtp.decodeVarint 32 C.dAtA i with
      | ok r =>
        change andThen (_, .ok (_, .next)) _ = _
        rw [andThen_next]
        simp only [List.singleton_append]
        rw [exec_assign_id (by decide) (eval_unzigzag32 (v := r.1) (by decide) (by simp [find]))]
        simp [put]
      | err e => rfl
      | panic e => rfl
      | diverge => rfl
    · intro r _
      split
      · rename_i ho
        exact ends_wrapper ho (eval_var_head (by decide)) rfl
      rename_i ho
      split
      · rename_i hr
        exact ends_append (by simpa using ho) hr (eval_var_head (by decide)) rfl
      rename_i hr
      split
      · exact ends_assign (by simpa using ho) (by simpa using hr) (eval_var_head (by decide)) rfl
      · exact ends_assign (by simpa using ho) (by simpa using hr) (eval_addr.trans (eval_var_head (by decide))) rfl
  case sint64 =>
    rw [exec_assoc, exec_assoc]
    refine ends_num (C := C) (R := Vtp.decodeVarint 64 C.dAtA i) (c := fun r => Vtp.unzigzag64 r.1) (n := fun r => r.2) rec d hk' wire base ?_ ?_
      (ext := fun r => [(.v, .num .uint64 (Vtp.unzigzag64 r.1))]) ?_ ?_ ?_
    · intro _; rw [hf]; rfl
    · rw [hf, hA]; rfl
    · intro r; simp
    · rw [exec_seq, hvar .uint64]
      change andThen (_, Vtp.decodeVarint 64 C.dAtA i >>= _) _ = _
      cases hd : Vtp.decodeVarint 64 C.dAtA i with
      | ok r =>
        change andThen (_, .ok (_, .next)) _ = _
        rw [andThen_next]
        simp only [List.singleton_append]
        rw [exec_assign_id (by decide) (eval_unzigzag64 (v := r.1) (by decide) (by simp [find]))]
        simp [put]
      | err e => rfl
      | panic e => rfl
      | diverge => rfl
    · intro r _
      refine ends_storeExpr f p3 false (by decide) (by decide) (v := .num .int64 (Vtp.unzigzag64 r.1)) ?_ ?_
      · refine (eval_conv (eval_var_head (x := .v) (by decide))).trans ?_
        exact congrArg (fun w => Res.ok (V.num .int64 w)) ((BitVec.setWidth_eq _).trans (BitVec.setWidth_eq _))
      · simp [stored, NTy.ext, NTy.signed, NTy.width]

end

end Vtp.GoU
