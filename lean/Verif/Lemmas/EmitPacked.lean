import Verif.Lemmas.EmitWriter
/-! The code for packed fields of varint kinds. -/

namespace Vtp.Go
open Spec

/-- A state with the value being written and the index to write at. -/
abbrev vst (X : Id) (T : NumTy) (x : BitVec 64) (pre : List (Id × GV)) (J : Id) (j : Int) (rest : List (Id × GV)) (buf : Bytes) : St :=
  ⟨(X, .val (.num T) (.num x)) :: (pre ++ (J, .int j) :: rest), buf⟩

section
variable {C : Ctx} {X J : Id} {T : NumTy} {pre rest : List (Id × GV)}

theorem lookupJ (hX : X ≠ J) (hp : ∀ p ∈ pre, p.1 ≠ J) (v : GV) (j : Int) : lookup J ((X, v) :: (pre ++ (J, .int j) :: rest)) = .ok (.int j) := by
  rw [lookup, if_neg hX.symm, lookup_skip hp, lookup, if_pos rfl]

theorem updateJ (hX : X ≠ J) (hp : ∀ p ∈ pre, p.1 ≠ J) (v : GV) (j j' : Int) :
    update J (.int j') ((X, v) :: (pre ++ (J, .int j) :: rest)) = .ok ((X, v) :: (pre ++ (J, .int j') :: rest)) := by
  rw [update, if_neg hX.symm, update_skip hp, update, if_pos rfl]; rfl

theorem exec_setJ (hX : X ≠ J) (hp : ∀ p ∈ pre, p.1 ≠ J) {x : BitVec 64} {j : Int} {buf : Bytes} {e : Expr} {g : GV} {b : UInt8}
    (he : eval C (vst X T x pre J j rest buf) e = .ok g) (hg : byteG g = .ok b) :
    exec C (.setByte J e) (vst X T x pre J j rest buf) = putByte buf j b >>= fun buf => .ok (vst X T x pre J j rest buf, .next) := by
  simp only [exec, he, Res.bind_ok, hg, intVar, lookupJ hX hp, intG]

theorem exec_incJ (hX : X ≠ J) (hp : ∀ p ∈ pre, p.1 ≠ J) {x : BitVec 64} {j : Int} {buf : Bytes} :
    exec C (.inc J) (vst X T x pre J j rest buf) = .ok (vst X T x pre J (j + 1) rest buf, .next) := by
  simp only [exec, intVar, lookupJ hX hp, Res.bind_ok, intG, setVar, updateJ hX hp]

theorem exec_shrX (hT : T = .uint32 ∨ T = .uint64) {x : BitVec 64} {j : Int} {buf : Bytes} :
    exec C (.shrAssign X 7) (vst X T x pre J j rest buf) = .ok (vst X T (x >>> 7) pre J j rest buf, .next) := by
  rcases hT with rfl | rfl <;> simp [exec, lookup, shrG, setVar, update, coerce]

theorem leave_vst {x x' : BitVec 64} {j j' : Int} {buf buf' : Bytes} :
    St.leave (vst X T x pre J j rest buf) (vst X T x' pre J j' rest buf') = vst X T x' pre J j' rest buf' := by
  simp [St.leave]

theorem ofBitVec_8 (y : BitVec 64) : UInt8.ofBitVec (((y.setWidth 8).setWidth 64).setWidth 8) = UInt8.ofBitVec (y.setWidth 8) := by
  congr 1
  apply BitVec.eq_of_toNat_eq
  simp only [BitVec.toNat_setWidth]
  omega

/-- The result of writing one varint forwards. -/
def PackedEnds (X : Id) (T : NumTy) (pre : List (Id × GV)) (J : Id) (rest : List (Id × GV)) (o : Res (Bytes × Int)) (r : Res (St × Ctrl)) : Prop :=
  match o with
  | .ok (buf, j) => ∃ x, r = .ok (vst X T x pre J j rest buf, .next)
  | .panic p => r = .panic p
  | _ => False

theorem varintLoop_exec (hT : T = .uint32 ∨ T = .uint64) (hX : X ≠ J) (hp : ∀ p ∈ pre, p.1 ≠ J) (jf : Bool) : ∀ (n : Nat) (x : BitVec 64) (j : Int)
    (buf : Bytes) (fuel : Nat), x.toNat < 2 ^ (7 * (n + 1)) → n + 1 ≤ fuel →
    PackedEnds X T pre J rest (packedVarintLoop (n + 1) buf j x)
      (whileN (fun s => eval C s (.bin .ge (.id X) (.bin .shl (.lit 1) (.lit 7))) >>= truth)
        (block [] (exec C (.setByte J (.toU8 (.bin .or (.bin .and (.toU64 (.id X)) (.lit 0x7f)) (.lit 0x80))) ;;
          (if jf then .inc J ;; .shrAssign X 7 else .shrAssign X 7 ;; .inc J)))) fuel (vst X T x pre J j rest buf) >>= fun r => match r.2 with
        | .next => exec C (.setByte J (.toU8 (.id X)) ;; .inc J) r.1
        | .ret v => .ok (r.1, .ret v)) := by
  intro n
  induction n with
  | zero =>
    intro x j buf fuel hx hf
    obtain ⟨fuel, rfl⟩ : ∃ k, fuel = k + 1 := ⟨fuel - 1, by omega⟩
    have hlt : ¬ x.toNat ≥ 2 ^ 7 := by simpa using hx
    have hc : (eval C (vst X T x pre J j rest buf) (.bin .ge (.id X) (.bin .shl (.lit 1) (.lit 7))) >>= truth) = .ok false := by
      rcases hT with rfl | rfl <;> simp [eval, lookup, binG, shlG, geG, truth] <;> simpa using hlt
    simp only [whileN, hc, Res.bind_ok, Bool.false_eq_true, if_false, packedVarintLoop, if_neg hlt]
    have hs := exec_setJ (C := C) (T := T) (rest := rest) hX hp (x := x) (j := j) (buf := buf) (e := .toU8 (.id X)) (g := .val (.num .uint8) (.num ((x.setWidth 8).setWidth 64)))
      (b := UInt8.ofBitVec (x.setWidth 8)) (by rcases hT with rfl | rfl <;> simp [eval, lookup, u8G]) (by rw [byteG, ofBitVec_8])
    rw [exec, hs]
    unfold putByte
    split
    · simp only [Res.bind_ok, exec_incJ hX hp]; exact ⟨x, rfl⟩
    · exact rfl
  | succ n ih =>
    intro x j buf fuel hx hf
    obtain ⟨fuel, rfl⟩ : ∃ k, fuel = k + 1 := ⟨fuel - 1, by omega⟩
    by_cases hge : x.toNat ≥ 2 ^ 7
    · have hc : (eval C (vst X T x pre J j rest buf) (.bin .ge (.id X) (.bin .shl (.lit 1) (.lit 7))) >>= truth) = .ok true := by
        rcases hT with rfl | rfl <;> simp [eval, lookup, binG, shlG, geG, truth] <;> simpa using hge
      rw [packedVarintLoop, if_pos hge]
      simp only [whileN, hc, Res.bind_ok, if_true]
      have hs := exec_setJ (C := C) (T := T) (rest := rest) hX hp (x := x) (j := j) (buf := buf)
        (e := .toU8 (.bin .or (.bin .and (.toU64 (.id X)) (.lit 0x7f)) (.lit 0x80)))
        (g := .val (.num .uint8) (.num (((x &&& 0x7f ||| 0x80).setWidth 8).setWidth 64)))
        (b := UInt8.ofBitVec ((x &&& 0x7f ||| 0x80).setWidth 8)) (by rcases hT with rfl | rfl <;> simp [eval, lookup, u64G, binG, bitG, u8G])
        (by rw [byteG, ofBitVec_8])
      have hb : block [] (exec C (.setByte J (.toU8 (.bin .or (.bin .and (.toU64 (.id X)) (.lit 0x7f)) (.lit 0x80))) ;;
          (if jf then .inc J ;; .shrAssign X 7 else .shrAssign X 7 ;; .inc J))) (vst X T x pre J j rest buf) =
          putByte buf j (UInt8.ofBitVec ((x &&& 0x7f ||| 0x80).setWidth 8)) >>= fun buf => .ok (vst X T (x >>> 7) pre J (j + 1) rest buf, .next) := by
        unfold block
        simp only [List.nil_append]
        rw [exec, hs]
        unfold putByte
        split
        · simp only [Res.bind_ok]
          cases jf
          · simp only [Bool.false_eq_true, if_false]
            rw [exec, exec_shrX hT]
            simp only [Res.bind_ok, exec_incJ hX hp]
            rw [leave_vst]
          · simp only [if_true]
            rw [exec, exec_incJ hX hp]
            simp only [Res.bind_ok, exec_shrX hT]
            rw [leave_vst]
        · exact rfl
      rw [hb]
      unfold putByte
      split
      · simp only [Res.bind_ok]
        refine ih (x >>> 7) (j + 1) _ fuel ?_ (by omega)
        rw [BitVec.toNat_ushiftRight, Nat.shiftRight_eq_div_pow]
        apply Nat.div_lt_of_lt_mul
        rw [← pow_add]
        exact lt_of_lt_of_eq hx (by congr 1; omega)
      · exact rfl
    · have hc : (eval C (vst X T x pre J j rest buf) (.bin .ge (.id X) (.bin .shl (.lit 1) (.lit 7))) >>= truth) = .ok false := by
        rcases hT with rfl | rfl <;> simp [eval, lookup, binG, shlG, geG, truth] <;> simpa using hge
      simp only [whileN, hc, Res.bind_ok, Bool.false_eq_true, if_false]
      rw [packedVarintLoop, if_neg hge]
      have hs := exec_setJ (C := C) (T := T) (rest := rest) hX hp (x := x) (j := j) (buf := buf) (e := .toU8 (.id X)) (g := .val (.num .uint8) (.num ((x.setWidth 8).setWidth 64)))
        (b := UInt8.ofBitVec (x.setWidth 8)) (by rcases hT with rfl | rfl <;> simp [eval, lookup, u8G]) (by rw [byteG, ofBitVec_8])
      rw [exec, hs]
      unfold putByte
      split
      · simp only [Res.bind_ok, exec_incJ hX hp]; exact ⟨x, rfl⟩
      · exact rfl

theorem varintLoop_ends (hT : T = .uint32 ∨ T = .uint64) (hX : X ≠ J) (hp : ∀ p ∈ pre, p.1 ≠ J) (jf : Bool) (x : BitVec 64) (j : Int) (buf : Bytes) :
    PackedEnds X T pre J rest (packedVarintLoop 10 buf j x) (exec C (Emit.varintLoop jf X J) (vst X T x pre J j rest buf)) := by
  have := varintLoop_exec (C := C) (rest := rest) hT hX hp jf 9 x j buf whileFuel (lt_trans x.isLt (by norm_num)) (by norm_num [whileFuel])
  unfold Emit.varintLoop
  rw [exec]
  simp only [exec] at this ⊢
  exact this

/-- One element: the loop body in its block. -/
theorem packedElem {k : Kind} (hk : varintKind k = true) (c : Nat) {t : Nat} {e : Val} (he : scalarOK k e = true) (j : Int) (buf : Bytes) :
    ∃ (X : Id) (body : Stmt), (∀ var, Emit.packedLoop c k var = .range none (some X) var body) ∧
      match packedVarintLoop 10 buf j (wireVarint k e) with
      | .ok (buf', j') => block [(X, .val (elemTy k t) e)] (exec C body) ⟨(.j (c + 1), .int j) :: rest, buf⟩ = .ok (⟨(.j (c + 1), .int j') :: rest, buf'⟩, .next)
      | .panic p => block [(X, .val (elemTy k t) e)] (exec C body) ⟨(.j (c + 1), .int j) :: rest, buf⟩ = .panic p
      | _ => False := by
  have hn : numeric k = true := by cases k <;> first | rfl | simp [varintKind, protoWireType] at hk
  obtain ⟨x, rfl⟩ := scalar_num hn he
  have fin : ∀ {Y X : Id} {T T' : NumTy} {y w : BitVec 64} {a b : Stmt} {jf : Bool} , (T' = .uint32 ∨ T' = .uint64) → X ≠ .j (c + 1) → Y ≠ .j (c + 1) →
      exec C a ⟨(Y, .val (.num T) (.num y)) :: (.j (c + 1), .int j) :: rest, buf⟩ = .ok (vst X T' w [(Y, .val (.num T) (.num y))] (.j (c + 1)) j rest buf, .next) →
      b = (a ;; Emit.varintLoop jf X (.j (c + 1))) →
      match packedVarintLoop 10 buf j w with
      | .ok (buf', j') => block [(Y, .val (.num T) (.num y))] (exec C b) ⟨(.j (c + 1), .int j) :: rest, buf⟩ = .ok (⟨(.j (c + 1), .int j') :: rest, buf'⟩, .next)
      | .panic p => block [(Y, .val (.num T) (.num y))] (exec C b) ⟨(.j (c + 1), .int j) :: rest, buf⟩ = .panic p
      | _ => False := by
    intro Y X T T' y w a b jf hT hX hY ha hb
    subst hb
    have h := varintLoop_ends (C := C) (rest := rest) hT hX (pre := [(Y, .val (.num T) (.num y))]) (by simpa using hY) jf w j buf
    unfold block
    simp only [List.cons_append, List.nil_append, exec, ha, Res.bind_ok]
    revert h
    cases hq : packedVarintLoop 10 buf j w with
    | ok r =>
      rintro ⟨x', hx'⟩
      simp only [hx', Res.bind_ok]
      simp [St.leave]
    | panic p =>
      intro h
      have h : exec C (Emit.varintLoop jf X (.j (c + 1))) (vst X T' w [(Y, .val (.num T) (.num y))] (.j (c + 1)) j rest buf) = .panic p := h
      simp only [h]; rfl
    | err e => intro h; exact h
    | diverge => intro h; exact h
  have fin0 : ∀ {T : NumTy} {b : Stmt}, (T = .uint32 ∨ T = .uint64) → b = Emit.varintLoop false .num (.j (c + 1)) →
      match packedVarintLoop 10 buf j x with
      | .ok (buf', j') => block [(.num, .val (.num T) (.num x))] (exec C b) ⟨(.j (c + 1), .int j) :: rest, buf⟩ = .ok (⟨(.j (c + 1), .int j') :: rest, buf'⟩, .next)
      | .panic p => block [(.num, .val (.num T) (.num x))] (exec C b) ⟨(.j (c + 1), .int j) :: rest, buf⟩ = .panic p
      | _ => False := by
    intro T b hT hb
    subst hb
    have h := varintLoop_ends (C := C) (rest := rest) (X := .num) (J := .j (c + 1)) hT (by simp) (pre := []) (by simp) false x j buf
    unfold block
    simp only [List.cons_append, List.nil_append]
    revert h
    cases hq : packedVarintLoop 10 buf j x with
    | ok r =>
      rintro ⟨x', hx'⟩
      replace hx' : exec C (Emit.varintLoop false .num (.j (c + 1))) ⟨(.num, .val (.num T) (.num x)) :: (.j (c + 1), .int j) :: rest, buf⟩ = _ := hx'
      simp only [hx', Res.bind_ok]
      simp [St.leave]
    | panic p =>
      intro h
      have h : exec C (Emit.varintLoop false .num (.j (c + 1))) ⟨(.num, .val (.num T) (.num x)) :: (.j (c + 1), .int j) :: rest, buf⟩ = .panic p := h
      simp only [h]; rfl
    | err e => intro h; exact h
    | diverge => intro h; exact h
  cases k <;> simp only [varintKind, protoWireType] at hk
  case int32 => exact ⟨.num1, _, fun _ => rfl, fin (T' := .uint64) (T := numTy .int32) (y := x) (w := x) (.inr rfl) (by simp) (by simp) (by simp [exec, eval, lookup, elemTy, numTy, u64G, fresh]) rfl⟩
  case int64 => exact ⟨.num1, _, fun _ => rfl, fin (T' := .uint64) (T := numTy .int64) (y := x) (w := x) (.inr rfl) (by simp) (by simp) (by simp [exec, eval, lookup, elemTy, numTy, u64G, fresh]) rfl⟩
  case enum => exact ⟨.num1, _, fun _ => rfl, fin (T' := .uint64) (T := numTy .enum) (y := x) (w := x) (.inr rfl) (by simp) (by simp) (by simp [exec, eval, lookup, elemTy, numTy, u64G, fresh]) rfl⟩
  case uint32 => exact ⟨.num, _, fun _ => rfl, fin0 (.inl rfl) rfl⟩
  case uint64 => exact ⟨.num, _, fun _ => rfl, fin0 (.inr rfl) rfl⟩
  case sint32 =>
    refine ⟨.num, _, fun _ => rfl, fin (T' := .uint32) (T := .int32) (y := x) (.inl rfl) (by simp) (by simp) ?_ rfl⟩
    rw [exec, eval_zigzag32 (x := x) (by simp [eval, lookup])]
    rfl
  case sint64 =>
    refine ⟨.num, _, fun _ => rfl, fin (T' := .uint64) (T := .int64) (y := x) (.inr rfl) (by simp) (by simp) ?_ rfl⟩
    rw [exec, eval_zigzag64 (x := x) (by simp [eval, lookup])]
    rfl
  all_goals simp at hk

theorem zipIdx_fst_map {β : Type} (h : Val → β) (xs : List Val) : (xs.zipIdx.map fun p => h p.1) = xs.map h := by
  have : (fun p : Val × Nat => h p.1) = h ∘ Prod.fst := rfl
  rw [this, ← List.map_map, List.zipIdx_map_fst]

/-- The loop over the elements. -/
theorem packedLoop_exec {k : Kind} (hk : varintKind k = true) (c : Nat) {t : Nat} {var : Expr} {v : Val} (hok : ∀ e ∈ v.elems, scalarOK k e = true)
    (hv : ∀ j buf, eval C ⟨(.j (c + 1), .int j) :: rest, buf⟩ var = .ok (.val (.list k t) v)) (j : Int) (buf : Bytes) :
    match packedVarints (v.elems.map (wireVarint k)) buf j with
    | .ok buf' => ∃ j', exec C (Emit.packedLoop c k var) ⟨(.j (c + 1), .int j) :: rest, buf⟩ = .ok (⟨(.j (c + 1), .int j') :: rest, buf'⟩, .next)
    | .panic p => exec C (Emit.packedLoop c k var) ⟨(.j (c + 1), .int j) :: rest, buf⟩ = .panic p
    | _ => False := by
  have hX : ∃ (X : Id) (body : Stmt), (∀ var, Emit.packedLoop c k var = .range none (some X) var body) ∧ ∀ (e : Val), scalarOK k e = true → ∀ (j : Int) (buf : Bytes),
      match packedVarintLoop 10 buf j (wireVarint k e) with
      | .ok (buf', j') => block [(X, .val (elemTy k t) e)] (exec C body) ⟨(.j (c + 1), .int j) :: rest, buf⟩ = .ok (⟨(.j (c + 1), .int j') :: rest, buf'⟩, .next)
      | .panic p => block [(X, .val (elemTy k t) e)] (exec C body) ⟨(.j (c + 1), .int j) :: rest, buf⟩ = .panic p
      | _ => False := by
    obtain ⟨X, body, hl⟩ : ∃ (X : Id) (body : Stmt), ∀ var, Emit.packedLoop c k var = .range none (some X) var body := by
      cases k <;> exact ⟨_, _, fun _ => rfl⟩
    refine ⟨X, body, hl, fun e he j buf => ?_⟩
    obtain ⟨X', body', hl', h⟩ := packedElem (C := C) (rest := rest) hk c (t := t) he j buf
    have := (hl var).symm.trans (hl' var)
    simp only [Stmt.range.injEq, Option.some.injEq, true_and] at this
    obtain ⟨rfl, rfl⟩ := this
    exact h
  obtain ⟨X, body, hl, H⟩ := hX
  rw [hl]
  simp only [exec, hv, Res.bind_ok, rangeG]
  rw [loop_map, ← zipIdx_fst_map]
  have hp : ∀ p ∈ v.elems.zipIdx, scalarOK k p.1 = true := fun p hp => hok p.1 (List.fst_mem_of_mem_zipIdx hp)
  revert hp
  generalize v.elems.zipIdx = ps
  induction ps generalizing j buf with
  | nil => intro _; exact ⟨j, rfl⟩
  | cons p ps ih =>
    intro hp
    have h1 := H p.1 (hp p (by simp)) j buf
    simp only [List.map_cons, packedVarints, loop, bindOpt, List.append_nil]
    revert h1
    cases packedVarintLoop 10 buf j (wireVarint k p.1) with
    | ok r =>
      intro h1
      simp only [] at h1
      rw [h1]
      simp only [Res.bind_ok]
      exact ih r.2 r.1 fun q hq => hp q (by simp [hq])
    | panic q =>
      intro h1
      simp only [] at h1
      rw [h1]
      exact rfl
    | err e => intro h; exact h.elim
    | diverge => intro h; exact h.elim

/-- The first loop, which adds up the sizes. -/
theorem total_exec {P : Id} (hP : P ≠ .num) {z : Bool} {k : Kind} {t : Nat} {var : Expr} {v : Val} (hn : numeric k = true) (hi : (numTy k).isInt = true)
    (hz : ∀ x : BitVec 64, sizeScalar k (.num x) = if z then sizeOfZigzag x else sizeOfVarint x)
    (hok : ∀ e ∈ v.elems, scalarOK k e = true) (buf : Bytes)
    (hv : ∀ a, eval C ⟨(P, .int a) :: rest, buf⟩ var = .ok (.val (.list k t) v)) (a : Int) :
    exec C (.range none (some .num) var (.addAssign P ((if z then Expr.soz else Expr.sov) (.toU64 (.id .num))))) ⟨(P, .int a) :: rest, buf⟩ =
      .ok (⟨(P, .int (a + (v.elems.map (sizeScalar k)).sum)) :: rest, buf⟩, .next) := by
  simp only [exec, hv, Res.bind_ok, rangeG]
  rw [loop_map, ← zipIdx_fst_map]
  have hp : ∀ p ∈ v.elems.zipIdx, scalarOK k p.1 = true := fun p hp => hok p.1 (List.fst_mem_of_mem_zipIdx hp)
  revert hp
  generalize v.elems.zipIdx = ps
  induction ps generalizing a with
  | nil => intro _; simp [loop]
  | cons p ps ih =>
    intro hp
    obtain ⟨x, hx⟩ := scalar_num hn (hp p (by simp))
    have he : eval C ⟨(.num, .val (elemTy k t) p.1) :: (P, .int a) :: rest, buf⟩ (.id .num) = .ok (.val (.num (numTy k)) (.num x)) := by
      simp [eval, lookup, elemTy_num hn, hx]
    have h1 : block (bindOpt (some Id.num) (.val (elemTy k t) p.1) ++ bindOpt none (.int p.2)) (exec C (.addAssign P ((if z then Expr.soz else Expr.sov) (.toU64 (.id .num)))))
        ⟨(P, .int a) :: rest, buf⟩ = .ok (⟨(P, .int (a + sizeScalar k p.1)) :: rest, buf⟩, .next) := by
      simp only [block, bindOpt, List.append_nil, List.cons_append, List.nil_append, exec]
      rw [eval_helper hi he]
      simp [lookup, hP, binG, asInt, setVar, update, coerce, St.leave, hx, hz]
    simp only [loop]
    simp only [exec] at h1
    rw [h1]
    simp only [Res.bind_ok]
    rw [ih _ fun q hq => hp q (by simp [hq])]
    simp [add_assoc]

end

/-- A packed field of a varint kind. -/
theorem packedVarint_sim {C : Ctx} {env : Int → List (Id × GV)} {mv : GV} (h : IEnv env mv) {z : Bool} {k : Kind} {t c num wt : Nat} {var : Expr} {v : Val}
    (hn : numeric k = true) (hi : (numTy k).isInt = true) (hk : varintKind k = true)
    (hz : ∀ x : BitVec 64, sizeScalar k (.num x) = if z then sizeOfZigzag x else sizeOfVarint x)
    (hok : ∀ e ∈ v.elems, scalarOK k e = true) (hv : Stays C env var (.val (.list k t) v)) :
    Sim C env (Emit.packedVarint c k (if z then Expr.soz else Expr.sov) var num wt) (fun s =>
      packedVarints (v.elems.map (wireVarint k)) s.buf (s.i - (v.elems.map (sizeScalar k)).sum) >>= fun buf =>
        Writer.seq (Writer.varint (u64 (v.elems.map (sizeScalar k)).sum)) (Writer.key num wt) ⟨buf, s.i - (v.elems.map (sizeScalar k)).sum⟩) := fun s => by
  generalize hT : (v.elems.map (sizeScalar k)).sum = T
  show Ends env (packedVarints (v.elems.map (wireVarint k)) s.buf (s.i - T) >>= fun buf =>
    Writer.seq (Writer.varint (u64 T)) (Writer.key num wt) ⟨buf, s.i - T⟩) _
  unfold Emit.packedVarint
  rw [exec_seq (s' := ⟨(.pksize (c + 2), .int 0) :: env s.i, s.buf⟩) rfl]
  have ht := total_exec (C := C) (rest := env s.i) (P := .pksize (c + 2)) (by simp) hn hi hz hok s.buf
    (fun a => hv [(.pksize (c + 2), .int a)] (Temps.nil.cons rfl) s.i s.buf) 0
  rw [hT, zero_add] at ht
  rw [exec_seq ht]
  have h1 : IEnv (fun i => (.pksize (c + 2), .int T) :: env i) mv := h.cons _ (by simp) (by simp)
  rw [exec_seq (exec_subI (env := fun i => (.pksize (c + 2), .int T) :: env i) h1 (g := .int T) (n := T) (by simp [eval, lookup]) rfl)]
  rw [exec_seq (s' := ⟨(.j (c + 1), .int (s.i - T)) :: (.pksize (c + 2), .int T) :: env (s.i - T), s.buf⟩)
    (by simp only [exec, eval]; rw [h1.get]; rfl)]
  have hl := packedLoop_exec (C := C) (rest := (.pksize (c + 2), .int T) :: env (s.i - T)) hk c hok
    (fun j buf => hv [(.j (c + 1), .int j), (.pksize (c + 2), .int T)] ((Temps.nil.cons rfl).cons rfl) (s.i - T) buf) (s.i - T) s.buf
  revert hl
  cases packedVarints (v.elems.map (wireVarint k)) s.buf (s.i - T) with
  | ok buf =>
    rintro ⟨j', hj⟩
    rw [exec_seq hj]
    have h2 : IEnv (fun i => [(.j (c + 1), .int j'), (.pksize (c + 2), .int T)] ++ env i) mv := h.temps ((Temps.nil.cons rfl).cons rfl)
    refine Ends.weaken (ext := [(.j (c + 1), .int j'), (.pksize (c + 2), .int T)]) ((Temps.nil.cons rfl).cons rfl) ?_
    have hs : Sim C (fun i => [(.j (c + 1), .int j'), (.pksize (c + 2), .int T)] ++ env i) (Emit.encodeVarint (.id (.pksize (c + 2))) ;; Emit.encodeKey num wt)
        (Writer.seq (Writer.varint (u64 T)) (Writer.key num wt)) :=
      (varint_sim h2 (g := .int T) (fun i buf => by simp [eval, lookup]) (by simp only [u64G, ofInt_nat])).seq fun ext he => key_sim (h2.temps he) _ _
    exact hs ⟨buf, s.i - T⟩
  | panic p =>
    intro hj
    have hj : exec C (Emit.packedLoop c k var) _ = .panic p := hj
    show exec C _ _ = .panic p
    rw [exec, hj]; rfl
  | err e => intro h; exact h.elim
  | diverge => intro h; exact h.elim

end Vtp.Go
