import Verif.Lemmas.GoU
/-! Running the printed statements: fixed-width reads, lengths and stores. -/

namespace Vtp.GoU
open Spec

section
variable {C : Ctx} {self : Nat}

/-! ## Fixed-width reads -/

theorem exec_addIndex {n : Nat} {vs : List (Id × V)} {i : Int} {m : Val} :
    exec C self (.addAssign .iNdEx (.lit n)) ⟨vs, i⟩ m = (m, .ok (⟨vs, C.A.wrap (i + n)⟩, .next)) := by
  rw [exec]; simp [UM.bind_def, evalU, eval, St.look, binV, St.set]

/-- The conversion of a number read with `Uint32` or `Uint64`. -/
theorem eval_fixed {n : Nat} {T : NTy} (hn : n = 8 ∧ T.width = 64 ∨ n = 4 ∧ T.width = 32) {vs : List (Id × V)} {i : Nat} {m : Val}
    (hi : i + n ≤ C.dAtA.length) :
    eval C ⟨vs, i⟩ m (.conv (.num T) (.le n Emit.iNdEx)) = .ok (.num T (BitVec.ofNat T.width (leValue ((C.dAtA.drop i).take n)))) := by
  have h1 : span C (.int i) (.int C.dAtA.length) = .ok (i, C.dAtA.length - i) := by
    simp only [span]; rw [if_pos (by omega)]; simp
  have h2 : eval C ⟨vs, i⟩ m (.le n Emit.iNdEx) = if n = 8 then .ok (.num .uint64 (BitVec.ofNat 64 (leValue (C.now i 8))))
      else if n = 4 then .ok (.num .uint32 (BitVec.ofNat 32 (leValue (C.now i 4)))) else confused := by
    rw [eval, eval_index]
    simp only [Res.bind_ok, h1]
    rw [if_neg (by omega)]
  rw [eval, h2]
  rcases hn with ⟨rfl, hT⟩ | ⟨rfl, hT⟩
  · cases T <;> simp [NTy.width] at hT <;> simp [convV, NTy.ext, NTy.signed, Ctx.now, NTy.width]
  · have : ∀ v : BitVec 32, (v.setWidth 64).setWidth 32 = v := fun v => by simp
    cases T <;> simp [NTy.width] at hT <;> simp [convV, NTy.ext, NTy.signed, Ctx.now, NTy.width, this]

theorem eval_bin {op : BinOp} {a b : Expr} {st : St} {m : Val} {v w : V} (ha : eval C st m a = .ok v) (hb : eval C st m b = .ok w) :
    eval C st m (.bin op a b) = binV C.A op v w := by rw [eval, ha, hb]; rfl

theorem evalCond_of {e : Expr} {st : St} {m : Val} {c : Bool} (h : eval C st m e = .ok (.bool c)) : evalCond C st m e = .ok c := by
  rw [evalCond, h]; rfl

@[simp] theorem eval_lit {n : Nat} {st : St} {m : Val} : eval C st m (.lit n) = .ok (.const n) := by rw [eval]

/-- Up to the assignment. -/
theorem run_fixed {vs : List (Id × V)} (h : Std C vs) {p : Place} {n : Nat} {T : NTy} (hn : n = 8 ∧ T.width = 64 ∨ n = 4 ∧ T.width = 32)
    {i : Nat} (hi : i ≤ C.dAtA.length) (m : Val) (M : BitVec T.width → Val) (F : BitVec T.width → List (Id × V))
    (hp : ∀ v : BitVec T.width, i + n ≤ C.dAtA.length → eval C ⟨vs, i⟩ m (.conv (.num T) (.le n Emit.iNdEx)) = .ok (.num T v) →
      exec C self (.assign p (.conv (.num T) (.le n Emit.iNdEx))) ⟨vs, i⟩ m = (M v, .ok (⟨F v, i⟩, .next))) :
    exec C self (Emit.decodeFixed n p (.num T)) ⟨vs, i⟩ m =
    (match Vtp.decodeFixed C.A n C.dAtA i with
      | .ok r => M (BitVec.ofNat T.width r.1)
      | _ => m,
      Vtp.decodeFixed C.A n C.dAtA i >>= fun r => .ok (⟨F (BitVec.ofNat T.width r.1), (r.2 : Int)⟩, .next)) := by
  have hF := h.fits
  have hA := h.arch
  unfold Arch.Fits at hF
  have hn8 : n ≤ 8 := by omega
  have hw : C.A.wrap ((i : Int) + n) = ((i + n : Nat) : Int) := by
    rw [Arch.wrap_small hA _ (by omega) (by omega)]; rfl
  have h1 : evalCond C ⟨vs, i⟩ m (.bin .gt (.bin .add Emit.iNdEx (.lit n)) (Emit.var .l)) = .ok (decide (i + n > C.dAtA.length)) := by
    refine evalCond_of ?_
    rw [eval_bin (v := .int ((i + n : Nat) : Int)) (w := .int C.dAtA.length) (by rw [eval_bin eval_index eval_lit]; simp only [binV, hw])
      (by rw [eval_var (by decide), h.l])]
    simp only [binV, asInt, Res.bind_ok]
    congr 2; simp only [decide_eq_decide]; omega
  rw [Emit.decodeFixed, exec_seq, exec_check h1, Vtp.decodeFixed, hw]
  by_cases hc : i + n > C.dAtA.length
  · rw [if_pos (by simpa using hc), if_pos (by omega)]; rfl
  rw [if_neg (by simpa using hc), if_neg (by omega), if_pos (by omega), andThen_next, exec_seq,
    hp _ (by omega) (eval_fixed hn (by omega)), andThen_next, exec_addIndex, hw]
  rfl

/-- Into a variable further out. -/
theorem run_fixed_put {vs : List (Id × V)} (h : Std C vs) {x : Id} (hx : x ≠ .iNdEx) {n : Nat} {T : NTy} (hn : n = 8 ∧ T.width = 64 ∨ n = 4 ∧ T.width = 32)
    {i : Nat} (hi : i ≤ C.dAtA.length) (m : Val) :
    exec C self (Emit.decodeFixed n (.id x) (.num T)) ⟨vs, i⟩ m =
    (m, Vtp.decodeFixed C.A n C.dAtA i >>= fun r => .ok (⟨put vs x (.num T (BitVec.ofNat T.width r.1)), (r.2 : Int)⟩, .next)) := by
  rw [run_fixed h hn hi m (fun _ => m) (fun v => put vs x (.num T v)) (fun v _ he => exec_assign_id hx he)]
  cases Vtp.decodeFixed C.A n C.dAtA i <;> rfl

/-- Into a variable that was just declared. -/
theorem run_fixed_var {vs : List (Id × V)} (h : Std C vs) {x : Id} (hx : x ≠ .iNdEx) (hl : x ≠ .l) {n : Nat} {T : NTy} (hn : n = 8 ∧ T.width = 64 ∨ n = 4 ∧ T.width = 32)
    {i : Nat} (hi : i ≤ C.dAtA.length) (v : V) (m : Val) :
    exec C self (Emit.decodeFixed n (.id x) (.num T)) ⟨(x, v) :: vs, i⟩ m =
    (m, Vtp.decodeFixed C.A n C.dAtA i >>= fun r => .ok (⟨(x, .num T (BitVec.ofNat T.width r.1)) :: vs, (r.2 : Int)⟩, .next)) := by
  rw [run_fixed_put (h.cons hl v) hx hn hi]
  simp [put]

/-- Into a struct field. -/
theorem run_fixed_slot {vs : List (Id × V)} (h : Std C vs) {n : Nat} {T : NTy} (hn : n = 8 ∧ T.width = 64 ∨ n = 4 ∧ T.width = 32)
    {i : Nat} (hi : i ≤ C.dAtA.length) (sl : List Val) (u x : Bytes) (s : Nat) (v : Val) :
    exec C self (Emit.decodeFixed n (.field s) (.num T)) ⟨vs, i⟩ (.msg (sl.set s v) u x) =
    (match Vtp.decodeFixed C.A n C.dAtA i with
      | .ok r => .msg (sl.set s (.num (T.ext (BitVec.ofNat T.width r.1)))) u x
      | _ => .msg (sl.set s v) u x,
     Vtp.decodeFixed C.A n C.dAtA i >>= fun r => .ok (⟨vs, (r.2 : Int)⟩, .next)) := by
  rw [run_fixed h hn hi _ (fun v => .msg (sl.set s (.num (T.ext v))) u x) (fun _ => vs)
    (fun v _ he => by rw [exec_assign_field he rfl]; simp)]

/-! ## Lengths -/

theorem wrap_toInt {A : Arch} (n : BitVec A.bits) : A.wrap n.toInt = n.toInt := by
  rw [BitVec.toInt_eq_toNat_bmod]; unfold Arch.wrap; exact Int.bmod_bmod

theorem wrap_toNat {A : Arch} (hA : A.Valid) (n : BitVec 64) : A.wrap (n.toNat : Int) = A.wrap n.toInt := by
  rw [BitVec.toInt_eq_toNat_bmod]; unfold Arch.wrap
  rcases hA with h | h <;> rw [h]
  · exact (Int.bmod_bmod_of_dvd (by decide)).symm
  · exact (Int.bmod_bmod_of_dvd (by decide)).symm

theorem wrap_lt {A : Arch} (hA : A.Valid) (x : Int) : A.wrap x < (2 ^ (A.bits - 1) : Nat) := by
  have := hA.pos
  have hp := two_pow_pred (n := A.bits) (by omega)
  have : A.wrap x < ((2 ^ A.bits : Nat) + 1) / 2 := by
    unfold Arch.wrap; exact Int.bmod_lt (by positivity)
  omega

/-- The checks of a length, and the index after it. -/
def spanFrom (A : Arch) (d : Bytes) (i : Nat) (len : Int) : Res (Nat × Nat) :=
  if len < 0 then .err .invalidLength
  else if A.wrap (i + len) < 0 then .err .invalidLength
  else if A.wrap (i + len) > d.length then .err .unexpectedEOF
  else .ok (i, (A.wrap (i + len)).toNat)

theorem readSpan_eq (A : Arch) (w : Nat) (d : Bytes) (i : Nat) :
    readSpan A w d i = (Vtp.decodeVarint w d i >>= fun r => spanFrom A d r.2 (A.wrap r.1.toInt)) := rfl

theorem spanFrom_ok {A : Arch} (hA : A.Valid) {d : Bytes} (hF : A.Fits d.length) {i : Nat} {len : Int} (hl : len < (2 ^ (A.bits - 1) : Nat))
    (hi : i ≤ d.length) {r : Nat × Nat} (h : spanFrom A d i len = .ok r) : r.1 = i ∧ i ≤ r.2 ∧ r.2 ≤ d.length ∧ len = r.2 - r.1 := by
  unfold spanFrom at h
  unfold Arch.Fits at hF
  have hpos := hA.pos
  have h2p := two_pow_pred (n := A.bits) (by omega)
  split at h
  · simp at h
  split at h
  · simp at h
  split at h
  · simp at h
  rcases Arch.wrap_cases hA (i + len) (by omega) (by omega) with hw | hw
  · simp only [Res.ok.injEq] at h; subst h
    refine ⟨rfl, ?_, ?_, ?_⟩ <;> simp only <;> omega
  · omega

theorem run_checkLen {vs : List (Id × V)} (h : Std C vs) {len post : Id} (h1 : len ≠ .iNdEx) (h2 : post ≠ .iNdEx) (h3 : post ≠ .l)
    {L : Int} (hL : find vs len = .ok (.int L)) (i : Nat) (m : Val) :
    exec C self (Emit.checkLen len post) ⟨vs, i⟩ m =
    (m, spanFrom C.A C.dAtA i L >>= fun r => .ok (⟨(post, .int (r.2 : Int)) :: vs, (i : Int)⟩, .next)) := by
  have c1 : evalCond C ⟨vs, i⟩ m (.bin .lt (Emit.var len) (.lit 0)) = .ok (decide (L < 0)) := by
    refine evalCond_of ?_
    rw [eval_bin ((eval_var h1).trans hL) eval_lit]; simp [binV, asInt]
  rw [Emit.checkLen, exec_seq, exec_check c1, spanFrom]
  by_cases hc1 : L < 0
  · rw [if_pos (by simpa using hc1), if_pos hc1]; rfl
  rw [if_neg (by simpa using hc1), if_neg hc1, andThen_next, exec_seq]
  rw [exec_define (v := .int (C.A.wrap (i + L))) h2 (by rw [eval_bin eval_index ((eval_var h1).trans hL)]; simp [binV]), andThen_next, exec_seq]
  have c2 : evalCond C ⟨(post, .int (C.A.wrap (i + L))) :: vs, i⟩ m (.bin .lt (Emit.var post) (.lit 0)) = .ok (decide (C.A.wrap (i + L) < 0)) := by
    refine evalCond_of ?_
    rw [eval_bin (v := .int (C.A.wrap (i + L))) ((eval_var h2).trans (by simp [find])) eval_lit]; simp [binV, asInt]
  rw [exec_check c2]
  by_cases hc2 : C.A.wrap (i + L) < 0
  · rw [if_pos (by simpa using hc2), if_pos hc2]; rfl
  rw [if_neg (by simpa using hc2), if_neg hc2, andThen_next]
  have c3 : evalCond C ⟨(post, .int (C.A.wrap (i + L))) :: vs, i⟩ m (.bin .gt (Emit.var post) (Emit.var .l)) = .ok (decide (C.A.wrap (i + L) > C.dAtA.length)) := by
    refine evalCond_of ?_
    rw [eval_bin (v := .int (C.A.wrap (i + L))) ((eval_var h2).trans (by simp [find])) ((eval_var (by decide)).trans (by simp only [find, h3, if_false]; exact h.l))]; simp [binV, asInt]
  rw [exec_check c3]
  by_cases hc3 : C.A.wrap (i + L) > C.dAtA.length
  · rw [if_pos (by simpa using hc3), if_pos hc3]; rfl
  rw [if_neg (by simpa using hc3), if_neg hc3]
  simp only [Res.bind_ok]
  rw [Int.toNat_of_nonneg (by omega)]

/-- Variables that a loop over the input may be decoded into. -/
def Plain (x : Id) : Prop := x ≠ .b ∧ x ≠ .shift ∧ x ≠ .l ∧ x ≠ .iNdEx

theorem run_intLen {vs : List (Id × V)} (h : Std C vs) {len post : Id} (hl : Plain len) (hp : Plain post) (i : Nat) (m : Val) :
    exec C self (Emit.intLen len post) ⟨vs, i⟩ m =
    (m, readSpan C.A C.A.bits C.dAtA i >>= fun r =>
      .ok (⟨(post, .int (r.2 : Int)) :: (len, .int ((r.2 : Int) - r.1)) :: vs, (r.1 : Int)⟩, .next)) := by
  rw [Emit.intLen, exec_seq, exec_decl hl.2.2.2, andThen_next, exec_seq, zero, run_int h hl.1 hl.2.1 hl.2.2.1 hl.2.2.2, readSpan_eq]
  have hall := decodeVarint_all C.A.bits C.dAtA i
  cases hd : Vtp.decodeVarint C.A.bits C.dAtA i with
  | err e => rfl
  | panic p => rfl
  | diverge => rfl
  | ok r =>
    rw [hd] at hall
    simp only [Res.bind_ok, andThen_next]
    rw [run_checkLen (h.cons hl.2.2.1 _) hl.2.2.2 hp.2.2.2 hp.2.2.1 (L := r.1.toInt) (by simp [find]), wrap_toInt]
    cases hs : spanFrom C.A C.dAtA r.2 r.1.toInt with
    | err e => rfl
    | panic p => rfl
    | diverge => rfl
    | ok q =>
      have hlt := wrap_lt h.arch r.1.toInt
      rw [wrap_toInt] at hlt
      obtain ⟨e1, _, _, e4⟩ := spanFrom_ok h.arch h.fits hlt hall.2 hs
      simp only [Res.bind_ok]
      rw [e4, e1]

theorem run_uint64Len {vs : List (Id × V)} (h : Std C vs) {len int post : Id} (hl : Plain len) (hn : Plain int) (hp : Plain post) (i : Nat) (m : Val) :
    exec C self (Emit.uint64Len len int post) ⟨vs, i⟩ m =
    (m, Vtp.decodeVarint 64 C.dAtA i >>= fun q => readSpan C.A 64 C.dAtA i >>= fun r =>
      .ok (⟨(post, .int (r.2 : Int)) :: (int, .int ((r.2 : Int) - r.1)) :: (len, .num .uint64 q.1) :: vs, (r.1 : Int)⟩, .next)) := by
  rw [Emit.uint64Len, exec_seq, exec_decl hl.2.2.2, andThen_next, exec_seq, zero]
  have h0 := run_varint (self := self) h hl.1 hl.2.1 hl.2.2.1 hl.2.2.2 .uint64 0 i m
  rw [h0, readSpan_eq]
  have hall := decodeVarint_all 64 C.dAtA i
  change andThen (m, Vtp.decodeVarint 64 C.dAtA i >>= _) _ = _
  cases hd : Vtp.decodeVarint 64 C.dAtA i with
  | err e => rfl
  | panic p => rfl
  | diverge => rfl
  | ok r =>
    rw [hd] at hall
    change andThen (m, .ok (_, .next)) _ = _
    simp only [Res.bind_ok]
    rw [andThen_next, exec_seq, exec_define (v := .int (C.A.wrap r.1.toInt)) hn.2.2.2
      (by rw [eval, eval_var hl.2.2.2]; simp only [find, if_true, Res.bind_ok, convV, NTy.signed, Bool.false_eq_true, if_false]; rw [← wrap_toNat h.arch]; rfl), andThen_next,
      run_checkLen ((h.cons hl.2.2.1 _).cons hn.2.2.1 _) hn.2.2.2 hp.2.2.2 hp.2.2.1 (L := C.A.wrap r.1.toInt) (by simp [find])]
    cases hs : spanFrom C.A C.dAtA r.2 (C.A.wrap r.1.toInt) with
    | err e => rfl
    | panic p => rfl
    | diverge => rfl
    | ok q =>
      obtain ⟨e1, _, _, e4⟩ := spanFrom_ok h.arch h.fits (wrap_lt h.arch _) hall.2 hs
      simp only [Res.bind_ok]
      rw [e4, e1]

end

end Vtp.GoU
