import Verif.Model.EmitSize
import Verif.Lemmas.Schema
import Verif.Lemmas.Marshal
import Verif.Lemmas.MarshalMsg
import Verif.Lemmas.Depth
/-! The emitted `SizeVT` computes `sizeVT`. -/

namespace Vtp.Go
open Spec

/-- The variables of `SizeVT` after its first lines. -/
abbrev sst (l n : Int) (mv : GV) : St := ⟨[(.l, .int l), (.n, .int n), (.m, mv)], []⟩

/-- The statement adds `k` to `n`. -/
def Adds (C : Ctx) (mv : GV) (s : Stmt) (k : Nat) : Prop :=
  ∀ l n : Int, ∃ l' : Int, exec C s (sst l n mv) = .ok (sst l' (n + k) mv, .next)

theorem Adds.skip {C : Ctx} {mv : GV} : Adds C mv .skip 0 := fun l n => ⟨l, by simp [exec]⟩

theorem Adds.seq {C : Ctx} {mv : GV} {a b : Stmt} {j k : Nat} (ha : Adds C mv a j) (hb : Adds C mv b k) :
    Adds C mv (a ;; b) (j + k) := fun l n => by
  obtain ⟨l1, h1⟩ := ha l n
  obtain ⟨l2, h2⟩ := hb l1 (n + j)
  refine ⟨l2, ?_⟩
  simp only [exec, h1, Res.bind_ok, h2]
  rw [Nat.cast_add, Int.add_assoc]

theorem Adds.cast {C : Ctx} {mv : GV} {a : Stmt} {j k : Nat} (ha : Adds C mv a j) (h : j = k) : Adds C mv a k := h ▸ ha

@[simp] theorem leave_sst (l n l' n' : Int) (mv mv' : GV) : St.leave (sst l n mv) (sst l' n' mv') = sst l' n' mv' := by
  simp [St.leave]

theorem Adds.ite {C : Ctx} {mv : GV} {c : Expr} {a b : Stmt} {t : Bool} {j k : Nat}
    (hc : ∀ l n, (eval C (sst l n mv) c >>= truth) = .ok t) (ha : t = true → Adds C mv a j) (hb : t = false → Adds C mv b k) :
    Adds C mv (.ite c a b) (if t then j else k) := fun l n => by
  cases t with
  | true =>
    obtain ⟨l', h⟩ := ha rfl l n
    refine ⟨l', ?_⟩
    simp only [exec, hc, Res.bind_ok, if_true, block, List.nil_append]
    rw [h]
    simp
  | false =>
    obtain ⟨l', h⟩ := hb rfl l n
    refine ⟨l', ?_⟩
    simp only [exec, hc, Res.bind_ok, block, List.nil_append, Bool.false_eq_true, if_false]
    rw [h]
    simp

theorem loop_adds {α : Type} {mv : GV} {f : α → St → Res (St × Ctrl)} {h : α → Nat} : ∀ (ps : List α) (l n : Int),
    (∀ p ∈ ps, ∀ l n : Int, ∃ l' : Int, f p (sst l n mv) = .ok (sst l' (n + h p) mv, .next)) →
    ∃ l' : Int, loop f ps (sst l n mv) = .ok (sst l' (n + (ps.map h).sum) mv, .next)
  | [], l, n, _ => ⟨l, by simp [loop]⟩
  | p :: ps, l, n, H => by
    obtain ⟨l1, h1⟩ := H p (by simp) l n
    obtain ⟨l2, h2⟩ := loop_adds ps l1 (n + h p) fun q hq => H q (by simp [hq])
    refine ⟨l2, ?_⟩
    simp only [loop, h1, Res.bind_ok, h2, List.map_cons, List.sum_cons]
    rw [Nat.cast_add, Int.add_assoc]

theorem loop_addsL {α : Type} {mv : GV} {f : α → St → Res (St × Ctrl)} {h : α → Nat} : ∀ (ps : List α) (l n : Int),
    (∀ p ∈ ps, ∀ l n : Int, f p (sst l n mv) = .ok (sst (l + h p) n mv, .next)) →
    loop f ps (sst l n mv) = .ok (sst (l + (ps.map h).sum) n mv, .next)
  | [], l, n, _ => by simp [loop]
  | p :: ps, l, n, H => by
    simp only [loop, H p (by simp), Res.bind_ok, loop_addsL ps (l + h p) n fun q hq => H q (by simp [hq]), List.map_cons,
      List.sum_cons]
    rw [Nat.cast_add, Int.add_assoc]

theorem zipIdx_vals {α : Type} (xs : List Val) (c : Nat → Val → α) (h : Val → Nat) :
    ((xs.zipIdx.map fun p => (c p.2 p.1, p.1)).map fun p => h p.2) = xs.map h := by
  rw [List.map_map]
  have : ((fun p : α × Val => h p.2) ∘ fun p : Val × Nat => (c p.2 p.1, p.1)) = h ∘ Prod.fst := rfl
  rw [this, ← List.map_map, List.zipIdx_map_fst]

/-- The value in a typed value. -/
def GV.v : GV → Val
  | .val _ v => v
  | _ => .nil

theorem rangeG_list_map (k : Kind) (t : Nat) (xs : List Val) (h : Val → Nat) :
    ((xs.zipIdx.map fun p => ((GV.int p.2, GV.val (elemTy k t) p.1) : GV × GV)).map fun p => h p.2.v) = xs.map h := by
  rw [List.map_map]
  have : ((fun p : GV × GV => h p.2.v) ∘ fun p : Val × Nat => ((GV.int p.2, GV.val (elemTy k t) p.1) : GV × GV)) = h ∘ Prod.fst := rfl
  rw [this, ← List.map_map, List.zipIdx_map_fst]

/-- `for _, x := range m.F { body }` over a slice. -/
theorem Adds.range {C : Ctx} {mv : GV} {var : Expr} {k : Kind} {t : Nat} {v : Val} {x : Id} {body : Stmt} {h : Val → Nat}
    (hv : ∀ l n, eval C (sst l n mv) var = .ok (.val (.list k t) v))
    (hb : ∀ e ∈ v.elems, ∀ l n : Int, ∃ l' : Int,
      exec C body ⟨(x, .val (elemTy k t) e) :: (sst l n mv).vars, []⟩ = .ok (⟨(x, .val (elemTy k t) e) :: (sst l' (n + h e) mv).vars, []⟩, .next)) :
    Adds C mv (.range none (some x) var body) (v.elems.map h).sum := fun l n => by
  simp only [exec, hv, Res.bind_ok, rangeG]
  rw [← rangeG_list_map k t v.elems h]
  refine loop_adds _ l n fun p hp l n => ?_
  obtain ⟨q, hq, rfl⟩ := List.mem_map.1 hp
  obtain ⟨l', hl⟩ := hb q.1 (List.fst_mem_of_mem_zipIdx hq) l n
  refine ⟨l', ?_⟩
  simp only [block, bindOpt, List.append_nil, List.cons_append, List.nil_append]
  simp only [] at hl
  rw [hl]
  simp [St.leave, GV.v]

theorem range_l {C : Ctx} {mv : GV} {var : Expr} {k : Kind} {t : Nat} {v : Val} {x : Id} {body : Stmt} {h : Val → Nat}
    (hv : ∀ l n, eval C (sst l n mv) var = .ok (.val (.list k t) v))
    (hb : ∀ e ∈ v.elems, ∀ l n : Int,
      exec C body ⟨(x, .val (elemTy k t) e) :: (sst l n mv).vars, []⟩ = .ok (⟨(x, .val (elemTy k t) e) :: (sst (l + h e) n mv).vars, []⟩, .next))
    (l n : Int) :
    exec C (.range none (some x) var body) (sst l n mv) = .ok (sst (l + (v.elems.map h).sum) n mv, .next) := by
  simp only [exec, hv, Res.bind_ok, rangeG]
  rw [← rangeG_list_map k t v.elems h]
  refine loop_addsL _ l n fun p hp l n => ?_
  obtain ⟨q, hq, rfl⟩ := List.mem_map.1 hp
  have hl := hb q.1 (List.fst_mem_of_mem_zipIdx hq) l n
  simp only [block, bindOpt, List.append_nil, List.cons_append, List.nil_append]
  simp only [] at hl
  rw [hl]
  simp [St.leave, GV.v]

@[simp] theorem ofInt_nat (n : Nat) : BitVec.ofInt 64 (n : Int) = Vtp.u64 n := by
  simp [Vtp.u64]

/-- Integer types. -/
def NumTy.isInt : NumTy → Bool
  | .bool => false
  | .float32 => false
  | .float64 => false
  | _ => true

theorem u64G_num {T : NumTy} (h : T.isInt = true) (x : BitVec 64) : u64G (.val (.num T) (.num x)) = .ok (.val (.num .uint64) (.num x)) := by
  cases T <;> first | rfl | simp [NumTy.isInt] at h

theorem elemTy_num {k : Kind} (h : numeric k = true) (t : Nat) : elemTy k t = .num (numTy k) := by
  cases k <;> first | rfl | simp [numeric] at h

theorem isZeroTy_eq {k : Kind} (h : numeric k = true) (x : BitVec 64) : isZeroTy (numTy k) x = isZeroNum k x := by
  cases k <;> first | rfl | simp [numeric] at h

theorem isZeroVal_num {k : Kind} (h : numeric k = true) (v : Val) : isZeroVal k v = isZeroNum k v.bits := by
  cases k <;> first | rfl | simp [numeric] at h

/-- A field of type `k` without presence: its value. -/
theorem scalar_num {k : Kind} (hk : numeric k = true) {v : Val} (h : scalarOK k v = true) : ∃ x, v = .num x := by
  cases v <;> cases k <;> simp_all [numeric, scalarOK]

section
variable {C : Ctx} {mv : GV} {var : Expr} {f : FieldDesc} {v : Val} {T : GTy}

/-- What the expression for the field gives. -/
abbrev Reads (C : Ctx) (mv : GV) (var : Expr) (T : GTy) (v : Val) : Prop := ∀ l n, eval C (sst l n mv) var = .ok (.val T v)

theorem addN {e : Expr} {k : Nat} (h : ∀ l n, eval C (sst l n mv) e = .ok (.int k)) : Adds C mv (.addAssign .n e) k := fun l n =>
  ⟨l, by simp [exec, h, lookup, binG, asInt, setVar, update, coerce]⟩

theorem addConst {k : Nat} : Adds C mv (.addAssign .n (.lit k)) k := fun l n =>
  ⟨l, by simp [exec, eval, lookup, binG, asInt, setVar, update, coerce]⟩

theorem fixedSize_adds {o nullable : Bool} {key w : Nat} (hk : numeric f.kind = true)
    (hp : f.packed = true → f.card = .repeated)
    (hr : f.card = .repeated → Reads C mv var (.list f.kind f.msg) v)
    (hs : f.card ≠ .repeated → o = false → nullable = false → Reads C mv var (.num (numTy f.kind)) v ∧ scalarOK f.kind v = true) :
    Adds C mv (Emit.fixedSize o nullable var f key w)
      (if f.packed then key + sizeOfVarint (u64 (v.elems.length * w)) + v.elems.length * w
       else if f.card == .repeated then (key + w) * v.elems.length
       else if !o && !nullable && isZeroVal f.kind v then 0 else key + w) := by
  unfold Emit.fixedSize
  by_cases h1 : f.packed = true
  · simp only [h1, if_true]
    have hv := hr (hp h1)
    refine addN fun l n => ?_
    simp only [eval, hv l n, Res.bind_ok, lenG, binG, asInt]
    simp only [u64G, helperG, asInt, Res.bind_ok, ← Nat.cast_mul, ofInt_nat, ← Nat.cast_add]
  · simp only [h1, Bool.false_eq_true, if_false]
    by_cases h2 : f.card = .repeated
    · simp only [h2, beq_self_eq_true, if_true]
      refine addN fun l n => ?_
      simp [eval, hr h2 l n, lenG, binG, asInt]
    · simp only [beq_eq_false_iff_ne.2 h2, Bool.false_eq_true, if_false]
      by_cases h3 : (!o && !nullable) = true
      · simp only [h3, if_true]
        simp only [Bool.and_eq_true, Bool.not_eq_true'] at h3
        obtain ⟨hv, hok⟩ := hs h2 h3.1 h3.2
        obtain ⟨x, rfl⟩ := scalar_num hk hok
        have : Adds C mv (.ite (.bin .ne var (.lit 0)) (.addAssign .n (.lit (key + w))) .skip) (if !isZeroNum f.kind x then key + w else 0) := by
          refine Adds.ite (fun l n => ?_) (fun _ => addConst) fun _ => Adds.skip
          simp [eval, hv l n, binG, truth, isZeroTy_eq hk]
        refine this.cast ?_
        rw [isZeroVal_num hk]
        cases h : isZeroNum f.kind x <;> simp [Val.bits, h]
      · rw [if_neg h3]
        refine addConst.cast ?_
        have : (!o && !nullable) = false := by simpa using h3
        simp [this]

theorem boolSize_adds {o nullable : Bool} {key : Nat} (hk : f.kind = .bool)
    (hp : f.packed = true → f.card = .repeated)
    (hr : f.card = .repeated → Reads C mv var (.list f.kind f.msg) v)
    (hs : f.card ≠ .repeated → o = false → nullable = false → Reads C mv var (.num (numTy f.kind)) v ∧ scalarOK f.kind v = true) :
    Adds C mv (Emit.boolSize o nullable var f key)
      (if f.packed then key + sizeOfVarint (u64 (v.elems.length * 1)) + v.elems.length * 1
       else if f.card == .repeated then (key + 1) * v.elems.length
       else if !o && !nullable && isZeroVal f.kind v then 0 else key + 1) := by
  unfold Emit.boolSize
  have hn : numeric f.kind = true := by rw [hk]; rfl
  by_cases h1 : f.packed = true
  · simp only [h1, if_true]
    have hv := hr (hp h1)
    refine addN fun l n => ?_
    simp [eval, hv l n, lenG, binG, asInt, u64G, helperG, Vtp.u64]
  · simp only [h1, Bool.false_eq_true, if_false]
    by_cases h2 : f.card = .repeated
    · simp only [h2, beq_self_eq_true, if_true]
      refine addN fun l n => ?_
      simp [eval, hr h2 l n, lenG, binG, asInt]
    · simp only [beq_eq_false_iff_ne.2 h2, Bool.false_eq_true, if_false]
      by_cases h3 : (!o && !nullable) = true
      · simp only [h3, if_true]
        simp only [Bool.and_eq_true, Bool.not_eq_true'] at h3
        obtain ⟨hv, hok⟩ := hs h2 h3.1 h3.2
        obtain ⟨x, rfl⟩ := scalar_num hn hok
        have : Adds C mv (.ite var (.addAssign .n (.lit (key + 1))) .skip) (if !isZeroNum f.kind x then key + 1 else 0) := by
          refine Adds.ite (fun l n => ?_) (fun _ => addConst) fun _ => Adds.skip
          simp [hv l n, truth, hk, numTy, isZeroNum, bne]
        refine this.cast ?_
        rw [isZeroVal_num hn]
        cases h : isZeroNum f.kind x <;> simp [Val.bits, h]
      · rw [if_neg h3]
        refine addConst.cast ?_
        have : (!o && !nullable) = false := by simpa using h3
        simp [this]

/-- The two helpers on a `uint64`. -/
theorem eval_helper {z : Bool} {s : St} {e : Expr} {T : NumTy} (hT : T.isInt = true) {x : BitVec 64}
    (h : eval C s e = .ok (.val (.num T) (.num x))) :
    eval C s ((if z then Expr.soz else Expr.sov) (.toU64 e)) = .ok (.int ((if z then sizeOfZigzag x else sizeOfVarint x : Nat))) := by
  cases z <;> simp [eval, h, u64G_num hT, helperG]

theorem varintSize_adds {z o nullable : Bool} {key : Nat} (hk : numeric f.kind = true) (hi : (numTy f.kind).isInt = true)
    (hz : ∀ x : BitVec 64, sizeScalar f.kind (.num x) = if z then sizeOfZigzag x else sizeOfVarint x)
    (hp : f.packed = true → f.card = .repeated)
    (hr : f.card = .repeated → Reads C mv var (.list f.kind f.msg) v ∧ ∀ e ∈ v.elems, scalarOK f.kind e = true)
    (hs : f.card ≠ .repeated → (if nullable then Reads C mv var (.ptr f.kind) v else Reads C mv var (.num (numTy f.kind)) v) ∧ scalarOK f.kind v = true) :
    Adds C mv (Emit.varintSize (if z then Expr.soz else Expr.sov) o nullable var f key)
      (if f.packed then key + sizeOfVarint (u64 (v.elems.map (sizeScalar f.kind)).sum) + (v.elems.map (sizeScalar f.kind)).sum
       else if f.card == .repeated then (v.elems.map fun e => key + sizeScalar f.kind e).sum
       else if !o && !nullable && isZeroVal f.kind v then 0 else key + sizeScalar f.kind v) := by
  unfold Emit.varintSize
  by_cases h1 : f.packed = true
  · simp only [h1, if_true]
    obtain ⟨hv, hok⟩ := hr (hp h1)
    intro l n
    have hl : ∀ l n : Int, exec C (.range none (some .e) var (.addAssign .l ((if z then Expr.soz else Expr.sov) (.toU64 (.id .e))))) (sst l n mv)
        = .ok (sst (l + (v.elems.map (sizeScalar f.kind)).sum) n mv, .next) := by
      refine range_l hv fun e he l n => ?_
      obtain ⟨x, rfl⟩ := scalar_num hk (hok e he)
      have he : ∀ l n, eval C ⟨(.e, .val (elemTy f.kind f.msg) (.num x)) :: (sst l n mv).vars, []⟩ (.id .e) = .ok (.val (.num (numTy f.kind)) (.num x)) := by
        simp [eval, lookup, elemTy_num hk]
      simp only [exec]
      rw [eval_helper hi (he l n)]
      simp [lookup, binG, asInt, setVar, update, coerce, hz]
    refine ⟨(v.elems.map (sizeScalar f.kind)).sum, ?_⟩
    have h0 : exec C (.assign .l (.lit 0)) (sst l n mv) = .ok (sst 0 n mv, .next) := by
      simp [exec, eval, setVar, update, coerce]
    rw [exec, h0]
    simp only [Res.bind_ok]
    rw [exec, hl]
    simp [exec, eval, lookup, u64G, binG, asInt, helperG, setVar, update, coerce, Vtp.u64, add_assoc]
  · simp only [h1, Bool.false_eq_true, if_false]
    by_cases h2 : f.card = .repeated
    · simp only [h2, beq_self_eq_true, if_true]
      obtain ⟨hv, hok⟩ := hr h2
      refine Adds.range hv fun e he l n => ⟨l, ?_⟩
      obtain ⟨x, rfl⟩ := scalar_num hk (hok e he)
      have he : ∀ l n, eval C ⟨(.e, .val (elemTy f.kind f.msg) (.num x)) :: (sst l n mv).vars, []⟩ (.id .e) = .ok (.val (.num (numTy f.kind)) (.num x)) := by
        simp [eval, lookup, elemTy_num hk]
      simp only [exec, eval]
      rw [eval_helper hi (he l n)]
      simp [lookup, binG, asInt, setVar, update, coerce, hz]
    · simp only [beq_eq_false_iff_ne.2 h2, Bool.false_eq_true, if_false]
      obtain ⟨hv, hok⟩ := hs h2
      obtain ⟨x, rfl⟩ := scalar_num hk hok
      by_cases h3 : nullable = true
      · simp only [h3, if_true] at hv ⊢
        refine (addN (k := key + sizeScalar f.kind (.num x)) fun l n => ?_).cast (by simp)
        have he : eval C (sst l n mv) (.star var) = .ok (.val (.num (numTy f.kind)) (.num x)) := by
          simp [eval, hv l n, starG, Val.isNil, elemTy_num hk]
        simp only [eval]
        rw [eval_helper hi he]
        simp [binG, asInt, hz]
      · simp only [h3, Bool.false_eq_true, if_false] at hv ⊢
        have hadd : Adds C mv (.addAssign .n (.bin .add (.lit key) ((if z then Expr.soz else Expr.sov) (.toU64 var)))) (key + sizeScalar f.kind (.num x)) := by
          refine addN fun l n => ?_
          simp only [eval]
          rw [eval_helper hi (hv l n)]
          simp [binG, asInt, hz]
        cases o with
        | true => exact hadd.cast (by simp)
        | false =>
          simp only [Bool.not_false, if_true]
          have : Adds C mv (.ite (.bin .ne var (.lit 0)) (.addAssign .n (.bin .add (.lit key) ((if z then Expr.soz else Expr.sov) (.toU64 var)))) .skip)
              (if !isZeroNum f.kind x then key + sizeScalar f.kind (.num x) else 0) := by
            refine Adds.ite (fun l n => ?_) (fun _ => hadd) fun _ => Adds.skip
            simp [eval, hv l n, binG, truth, isZeroTy_eq hk]
          refine this.cast ?_
          rw [isZeroVal_num hk]
          cases h : isZeroNum f.kind x <;> simp [Val.bits, h, h3]

theorem lenStr {T : GTy} (hT : T = .str ∨ T = .bytes) {s : St} {e : Expr} {v : Val} (h : eval C s e = .ok (.val T v)) :
    eval C s (.len e) = .ok (.int v.bytes.length) := by
  rcases hT with rfl | rfl <;> simp [eval, h, lenG]

theorem addLen_adds {key : Nat} {e : Expr} {v : Val} (h : ∀ l n, eval C (sst l n mv) (.len e) = .ok (.int v.bytes.length)) :
    Adds C mv (.assign .l (.len e) ;; Emit.addLen key) (key + (v.bytes.length + sizeOfVarint (u64 v.bytes.length))) := fun l n => by
  refine ⟨v.bytes.length, ?_⟩
  have h0 : exec C (.assign .l (.len e)) (sst l n mv) = .ok (sst v.bytes.length n mv, .next) := by
    rw [exec, h]; simp [setVar, update, coerce]
  rw [exec, h0]
  simp [Emit.addLen, exec, eval, lookup, u64G, binG, asInt, helperG, setVar, update, coerce, Vtp.u64, add_assoc]

theorem addLenOpt_adds {key : Nat} {e : Expr} {v : Val} (h : ∀ l n, eval C (sst l n mv) (.len e) = .ok (.int v.bytes.length)) :
    Adds C mv (.assign .l (.len e) ;; .ite (.bin .gt (.id .l) (.lit 0)) (Emit.addLen key) .skip)
      (if v.bytes.length == 0 then 0 else key + (v.bytes.length + sizeOfVarint (u64 v.bytes.length))) := fun l n => by
  refine ⟨v.bytes.length, ?_⟩
  have h0 : exec C (.assign .l (.len e)) (sst l n mv) = .ok (sst v.bytes.length n mv, .next) := by
    rw [exec, h]; simp [setVar, update, coerce]
  rw [exec, h0]
  rcases Nat.eq_zero_or_pos v.bytes.length with hb | hb
  · rw [hb]; simp [exec, eval, lookup, binG, asInt, truth, block, St.leave]
  · simp only [Res.bind_ok, exec, eval, lookup, binG, asInt, if_true, truth]
    rw [if_pos (by simpa using hb), if_neg (by simpa using List.ne_nil_of_length_pos hb)]
    simp [block, St.leave, Emit.addLen, exec, eval, lookup, u64G, binG, asInt, helperG, setVar, update, coerce, Vtp.u64, add_assoc]

theorem rangeLen_adds {key : Nat} {k : Kind} {t : Nat} (hk : elemTy k t = .str ∨ elemTy k t = .bytes) (x : Id) (hx : x ≠ .l) (hx' : x ≠ .n)
    (hv : Reads C mv var (.list k t) v) :
    Adds C mv (.range none (some x) var (.assign .l (.len (.id x)) ;; Emit.addLen key))
      (v.elems.map fun e => key + (e.bytes.length + sizeOfVarint (u64 e.bytes.length))).sum := by
  refine Adds.range hv fun e he l n => ⟨e.bytes.length, ?_⟩
  have hl : eval C ⟨(x, .val (elemTy k t) e) :: (sst l n mv).vars, []⟩ (.len (.id x)) = .ok (.int e.bytes.length) :=
    lenStr hk (by simp [eval, lookup])
  rw [exec, exec, hl]
  simp [Emit.addLen, exec, eval, lookup, u64G, binG, asInt, helperG, setVar, update, coerce, Vtp.u64, add_assoc, hx.symm, hx'.symm]

theorem stringSize_adds {o nullable : Bool} {key : Nat} (hk : f.kind = .string)
    (hr : f.card = .repeated → Reads C mv var (.list f.kind f.msg) v)
    (hs : f.card ≠ .repeated → (if nullable then Reads C mv var (.ptr f.kind) v else Reads C mv var .str v) ∧ scalarOK f.kind v = true) :
    Adds C mv (Emit.stringSize o nullable var f key)
      (if f.card == .repeated then (v.elems.map fun e => key + sizeScalar f.kind e).sum
       else if !o && !nullable && isZeroVal f.kind v then 0 else key + sizeScalar f.kind v) := by
  unfold Emit.stringSize
  simp only [hk, sizeScalar, isZeroVal]
  by_cases h2 : f.card = .repeated
  · simp only [h2, beq_self_eq_true, if_true]
    exact rangeLen_adds (by rw [hk]; simp [elemTy]) .s (by simp) (by simp) (hr h2)
  · simp only [beq_eq_false_iff_ne.2 h2, Bool.false_eq_true, if_false]
    obtain ⟨hv, hok⟩ := hs h2
    rw [hk] at hv hok
    cases nullable with
    | true =>
      simp only [if_true] at hv ⊢
      refine (addLen_adds (v := v) fun l n => ?_).cast (by simp)
      refine lenStr (.inl rfl) ?_
      cases v <;> simp [scalarOK] at hok
      simp [eval, hv l n, starG, Val.isNil, elemTy]
    | false =>
      simp only [Bool.false_eq_true, if_false] at hv ⊢
      cases o with
      | true => exact (addLen_adds fun l n => lenStr (.inl rfl) (hv l n)).cast (by simp)
      | false => exact (addLenOpt_adds fun l n => lenStr (.inl rfl) (hv l n)).cast (by simp)

theorem bytesSize_adds {o nullable : Bool} {key : Nat} (hk : f.kind = .bytes) (hn : nullable = (!o && f.presence))
    (hr : f.card = .repeated → Reads C mv var (.list f.kind f.msg) v)
    (hs : f.card ≠ .repeated → Reads C mv var .bytes v) :
    Adds C mv (Emit.bytesSize o var f key)
      (if f.card == .repeated then (v.elems.map fun e => key + sizeScalar f.kind e).sum
       else if !o && !nullable && isZeroVal f.kind v then 0 else key + sizeScalar f.kind v) := by
  unfold Emit.bytesSize
  simp only [hk, sizeScalar, isZeroVal]
  by_cases h2 : f.card = .repeated
  · simp only [h2, beq_self_eq_true, if_true]
    exact rangeLen_adds (by rw [hk]; simp [elemTy]) .b (by simp) (by simp) (hr h2)
  · simp only [beq_eq_false_iff_ne.2 h2, Bool.false_eq_true, if_false]
    have hv := hs h2
    cases o with
    | true => exact (addLen_adds fun l n => lenStr (.inr rfl) (hv l n)).cast (by simp)
    | false =>
      cases hp : f.presence with
      | true => exact (addLen_adds fun l n => lenStr (.inr rfl) (hv l n)).cast (by simp [hn, hp])
      | false => exact (addLenOpt_adds fun l n => lenStr (.inr rfl) (hv l n)).cast (by simp [hn, hp])

theorem update_length {x : Id} {g : GV} : ∀ {vs ws : List (Id × GV)}, update x g vs = .ok ws → ws.length = vs.length
  | [], ws, h => by simp [update] at h
  | (y, w) :: vs, ws, h => by
    rw [update] at h
    split at h
    · cases h; rfl
    · cases hu : update x g vs with
      | ok us =>
        rw [hu] at h
        simp only [Res.bind_ok, Res.ok.injEq] at h
        subst h
        simp [update_length hu]
      | err e => rw [hu] at h; simp at h
      | panic p => rw [hu] at h; simp at h
      | diverge => rw [hu] at h; simp at h

theorem leave_same {s s' : St} (h : s'.vars.length = s.vars.length) : s.leave s' = s' := by
  simp [St.leave, h]

/-- Message types the generator calls methods of directly have them. -/
def GenCfg.OK (G : GenCfg) (S : Schema) : Prop := ∀ t, (S.msg t).foreign = true → G.wellKnown t = false ∧ G.isLocal t = false

/-- Calls of `SizeVT` on nil and on the messages in question give `rec`. -/
def SubSizes (C : Ctx) (okv : Nat → Val → Bool) (rec : Nat → Val → Nat) : Prop :=
  ∀ t x, (x.isNil || okv t x) = true → (C.S.msg t).foreign = false → C.size (.msg t) x = .ok (rec t x : Nat)

section
variable {G : GenCfg} {okv : Nat → Val → Bool} {rec : Nat → Val → Nat}

theorem messageSize_exec (hG : G.OK C.S) (H : SubSizes C okv rec) {s : St} {t : Nat} {x : Val} (hx : (x.isNil || okv t x) = true)
    (hv : eval C s var = .ok (.val (.msg t) x)) {vs : List (Id × GV)}
    (hu : update .l (.int (Vtp.messageSize ⟨C.S, C.R⟩ rec t x : Nat)) s.vars = .ok vs) :
    exec C (Emit.messageSize G var t) s = .ok (⟨vs, s.buf⟩, .next) := by
  unfold Emit.messageSize
  have hr := H t x hx
  unfold Vtp.messageSize at hu
  by_cases hf : (C.S.msg t).foreign = true
  · obtain ⟨h1, h2⟩ := hG t hf
    simp only [hf, if_true] at hu
    simp only [h1, h2, Bool.false_eq_true, if_false, exec, hv, Res.bind_ok, dyn, implements, hf, Bool.not_true, block, List.nil_append]
    simp only [eval, setVar]
    rw [show eval C ⟨s.vars, s.buf⟩ var = .ok (.val (.msg t) x) from hv]
    simp only [Res.bind_ok, protoSizeG, hu]
    rw [leave_same]
    exact update_length hu
  · have hf : (C.S.msg t).foreign = false := by simpa using hf
    simp only [hf, Bool.false_eq_true, if_false] at hu
    split
    · simp [exec, eval, hv, recvG, hr hf, setVar, hu]
    · split
      · simp [exec, eval, hv, recvG, hr hf, setVar, hu]
      · simp only [exec, hv, Res.bind_ok, dyn, implements, hf, Bool.not_false, if_true, block, List.cons_append, List.nil_append]
        simp only [eval, lookup, if_true, Res.bind_ok, recvG, hr hf, setVar, update, reduceCtorEq, if_false, hu]
        simp [St.leave, update_length hu]

/-- `messageSize` on a variable of the loop. -/
theorem messageSize_adds (hG : G.OK C.S) (H : SubSizes C okv rec) {key t : Nat} {x : Val} (hx : (x.isNil || okv t x) = true)
    (hv : Reads C mv var (.msg t) x) :
    Adds C mv (Emit.messageSize G var t ;; Emit.addLen key)
      (key + Vtp.messageSize ⟨C.S, C.R⟩ rec t x + sizeOfVarint (u64 (Vtp.messageSize ⟨C.S, C.R⟩ rec t x))) := fun l n => by
  refine ⟨(Vtp.messageSize ⟨C.S, C.R⟩ rec t x : Nat), ?_⟩
  rw [exec, messageSize_exec hG H hx (hv l n) (vs := (sst (Vtp.messageSize ⟨C.S, C.R⟩ rec t x : Nat) n mv).vars) (by simp [update, coerce])]
  simp [Emit.addLen, exec, eval, lookup, u64G, binG, asInt, helperG, setVar, update, coerce, Vtp.u64, add_assoc]

theorem groupSize_adds (hG : G.OK C.S) (H : SubSizes C okv rec) {key t : Nat} {x : Val} (hx : (x.isNil || okv t x) = true)
    (hv : Reads C mv var (.msg t) x) :
    Adds C mv (Emit.messageSize G var t ;; .addAssign .n (.bin .add (.id .l) (.lit (2 * key))))
      (Vtp.messageSize ⟨C.S, C.R⟩ rec t x + 2 * key) := fun l n => by
  refine ⟨(Vtp.messageSize ⟨C.S, C.R⟩ rec t x : Nat), ?_⟩
  rw [exec, messageSize_exec hG H hx (hv l n) (vs := (sst (Vtp.messageSize ⟨C.S, C.R⟩ rec t x : Nat) n mv).vars) (by simp [update, coerce])]
  simp [exec, eval, lookup, binG, asInt, setVar, update, coerce]

theorem rangeMsg_adds (hG : G.OK C.S) (H : SubSizes C okv rec) {key t : Nat} {k : Kind} (hk : elemTy k t = .msg t)
    (hv : Reads C mv var (.list k t) v) (hx : ∀ x ∈ v.elems, (x.isNil || okv t x) = true) :
    Adds C mv (.range none (some .e) var (Emit.messageSize G (.id .e) t ;; Emit.addLen key))
      (v.elems.map fun x => key + Vtp.messageSize ⟨C.S, C.R⟩ rec t x + sizeOfVarint (u64 (Vtp.messageSize ⟨C.S, C.R⟩ rec t x))).sum := by
  refine Adds.range hv fun x hxm l n => ⟨(Vtp.messageSize ⟨C.S, C.R⟩ rec t x : Nat), ?_⟩
  rw [hk]
  rw [exec, messageSize_exec hG H (hx x hxm) (by simp [eval, lookup])
    (vs := (.e, .val (.msg t) x) :: (sst (Vtp.messageSize ⟨C.S, C.R⟩ rec t x : Nat) n mv).vars) (by simp [update, coerce])]
  simp [Emit.addLen, exec, eval, lookup, u64G, binG, asInt, helperG, setVar, update, coerce, Vtp.u64, add_assoc]

/-! Maps -/

/-- The variables inside of a map loop. -/
abbrev mst (gk gv : GV) (l n : Int) (mv : GV) : St := ⟨(.v, gv) :: (.k, gk) :: (sst l n mv).vars, []⟩

theorem keySum_eval {md : MapDesc} {key : Key} (hk : mapKeyKind md.key = true) (hok : scalarOK md.key key.toVal = true) {gv : GV} {acc : Expr} {a : Nat}
    {l n : Int} (ha : eval C (mst (.val (elemTy md.key 0) key.toVal) gv l n mv) acc = .ok (.int a) ∨
      eval C (mst (.val (elemTy md.key 0) key.toVal) gv l n mv) acc = .ok (.const a)) :
    eval C (mst (.val (elemTy md.key 0) key.toVal) gv l n mv) (Emit.keySum md.key acc) = .ok (.int (a + sizeScalar md.key key.toVal : Nat)) := by
  revert hok hk
  obtain ⟨kk, vk, vm⟩ := md
  rcases ha with hr | hr <;> revert hr <;>
  cases kk <;> intro hr hk hok <;> simp [mapKeyKind] at hk <;> cases key <;> simp [scalarOK, Key.toVal] at hok <;>
    simp only [Emit.keySum, eval] at hr ⊢ <;> rw [hr] <;>
    simp [lookup, elemTy, numTy, Key.toVal, u64G, helperG, binG, asInt, lenG, sizeScalar, Val.bits, Val.bytes, Vtp.u64, add_assoc]

theorem valueSum_ok (hG : G.OK C.S) (H : SubSizes C okv rec) {md : MapDesc} {x : Val} (hk : md.val ≠ .group)
    (hok : elemOK okv md.val md.valMsg x = true) {gk : GV} {acc : Expr} {a key : Nat} {l n : Int}
    (ha : ∀ l, eval C (mst gk (.val (elemTy md.val md.valMsg) x) l n mv) acc = .ok (.int a)) :
    ∃ l' : Int, exec C (Emit.valueSum G md key acc).1 (mst gk (.val (elemTy md.val md.valMsg) x) l n mv) =
        .ok (mst gk (.val (elemTy md.val md.valMsg) x) l' n mv, .next) ∧
      eval C (mst gk (.val (elemTy md.val md.valMsg) x) l' n mv) (Emit.valueSum G md key acc).2 =
        .ok (.int (a + (match md.val with
          | .message => let l := if x.isNil then 0 else Vtp.messageSize ⟨C.S, C.R⟩ rec md.valMsg x; l + (key + sizeOfVarint (u64 l))
          | k => key + sizeScalar k x) : Nat)) := by
  by_cases hm : md.val = .message
  · obtain ⟨kk, vk, vm⟩ := md
    simp only at hm
    subst hm
    simp only [elemTy] at ha ⊢
    simp only [elemOK] at hok
    by_cases hn : x.isNil = true
    · refine ⟨(key + sizeOfVarint (u64 0) : Nat), ?_, ?_⟩
      · simp [Emit.valueSum, exec, eval, lookup, setVar, update, coerce, binG, isNilG, hn, truth, block, St.leave, u64G, asInt, helperG, Vtp.u64]
      · simp only [Emit.valueSum, eval, ha, Res.bind_ok, lookup, reduceCtorEq, if_false, if_true]
        simp [binG, asInt, hn]
    · have hn' : x.isNil = false := by simpa using hn
      let k := Vtp.messageSize ⟨C.S, C.R⟩ rec vm x
      have h0 : exec C (.assign .l (.lit 0)) (mst gk (.val (.msg vm) x) l n mv) = .ok (mst gk (.val (.msg vm) x) 0 n mv, .next) := by
        simp [exec, eval, setVar, update, coerce]
      have h1 : exec C (Emit.messageSize G (.id .v) vm) (mst gk (.val (.msg vm) x) 0 n mv) = .ok (mst gk (.val (.msg vm) x) (k : Nat) n mv, .next) := by
        rw [messageSize_exec hG H hok (by simp [eval, lookup]) (vs := (mst gk (.val (.msg vm) x) (k : Nat) n mv).vars) (by simp [update, coerce, k])]
      refine ⟨(k + (key + sizeOfVarint (u64 k)) : Nat), ?_, ?_⟩
      · simp only [Emit.valueSum]
        rw [exec, h0]
        simp only [Res.bind_ok, exec]
        simp only [eval, lookup, if_true, Res.bind_ok, binG, isNilG, hn', Bool.not_false, truth, block, List.nil_append]
        rw [show exec C (Emit.messageSize G (.id .v) vm) ⟨(mst gk (.val (.msg vm) x) 0 n mv).vars, []⟩ = _ from h1]
        simp [St.leave, lookup, asInt, u64G, helperG, setVar, update, coerce, Vtp.u64]
      · simp only [Emit.valueSum, eval, ha, Res.bind_ok, lookup, reduceCtorEq, if_false, if_true]
        simp [binG, asInt, hn', k]
  · obtain ⟨kk, vk, vm⟩ := md
    simp only at hm hk ha hok ⊢
    revert ha hok
    cases vk <;> first | exact absurd rfl hm | exact absurd rfl hk | skip
    all_goals
      intro hok ha
      cases x <;> simp [elemOK, scalarOK] at hok
      all_goals
        simp only [Emit.valueSum, exec, Res.ok.injEq, Prod.mk.injEq, and_true, eval, ha, Res.bind_ok]
        simp [lookup, elemTy, numTy, u64G, helperG, binG, asInt, lenG, sizeScalar, Val.bits, Val.bytes, Vtp.u64, add_assoc, setVar, update, coerce]

theorem loop_map {α β : Type} (f : β → St → Res (St × Ctrl)) (g : α → β) : ∀ (xs : List α) (s : St),
    loop f (xs.map g) s = loop (fun a => f (g a)) xs s
  | [], s => rfl
  | x :: xs, s => by
    simp only [List.map_cons, loop]
    congr 1; funext r; split
    · exact loop_map f g xs _
    · rfl

theorem mapSize_adds (hG : G.OK C.S) (H : SubSizes C okv rec) {md : MapDesc} (hk : mapKeyKind md.key = true) (hg : md.val ≠ .group)
    (hv : Reads C mv var (.map md) v)
    (hx : ∀ e ∈ v.entries, scalarOK md.key e.1.toVal = true ∧ elemOK okv md.val md.valMsg e.2 = true) :
    Adds C mv (Emit.mapSize G var f md)
      (v.entries.map fun e =>
        let s := Vtp.mapEntrySize ⟨C.S, C.R⟩ rec md e
        s + keySize f.num (protoWireType f.kind) + sizeOfVarint (u64 s)).sum := fun l n => by
  simp only [Emit.mapSize, exec, hv l n, Res.bind_ok, rangeG]
  rw [loop_map]
  refine loop_adds (h := fun e => Vtp.mapEntrySize ⟨C.S, C.R⟩ rec md e + keySize f.num (protoWireType f.kind) +
    sizeOfVarint (u64 (Vtp.mapEntrySize ⟨C.S, C.R⟩ rec md e))) _ l n fun e he l n => ?_
  obtain ⟨hok1, hok2⟩ := hx e he
  have hks : ∀ l, eval C (mst (.val (elemTy md.key 0) e.1.toVal) (.val (elemTy md.val md.valMsg) e.2) l n mv)
      (Emit.keySum md.key (.lit (keySize 1 (protoWireType md.key)))) = .ok (.int (keySize 1 (protoWireType md.key) + sizeScalar md.key e.1.toVal : Nat)) :=
    fun l => keySum_eval hk hok1 (.inr rfl)
  obtain ⟨l', h1, h2⟩ := valueSum_ok hG H hg hok2 (key := keySize 2 (protoWireType md.val)) (l := l) hks
  refine ⟨l', ?_⟩
  simp only [block, bindOpt, List.cons_append, List.nil_append, exec, eval, lookup, if_true, Res.bind_ok, reduceCtorEq, if_false]
  rw [show exec C (Emit.valueSum G md (keySize 2 (protoWireType md.val)) (Emit.keySum md.key (.lit (keySize 1 (protoWireType md.key))))).1
    ⟨(.v, .val (elemTy md.val md.valMsg) e.2) :: (.k, .val (elemTy md.key 0) e.1.toVal) :: (sst l n mv).vars, []⟩ = _ from h1]
  simp only [Res.bind_ok, h2]
  have hs : keySize 1 (protoWireType md.key) + sizeScalar md.key e.1.toVal + (match md.val with
      | .message => let l := if e.2.isNil then 0 else Vtp.messageSize ⟨C.S, C.R⟩ rec md.valMsg e.2; l + (keySize 2 (protoWireType md.val) + sizeOfVarint (u64 l))
      | k => keySize 2 (protoWireType md.val) + sizeScalar k e.2) = Vtp.mapEntrySize ⟨C.S, C.R⟩ rec md e := by
    unfold Vtp.mapEntrySize
    cases md.val <;> rfl
  rw [hs]
  simp [fresh, lookup, binG, asInt, u64G, helperG, setVar, update, coerce, St.leave, Vtp.u64, add_assoc]

/-- The value of the struct or wrapper field, as the code reads it. -/
def fieldValOK (okv : Nat → Val → Bool) (oneof : Bool) (f : FieldDesc) (v : Val) : Bool :=
  if oneof then elemOK okv f.kind f.msg v else fieldOK okv f v

/-- Its Go type. -/
def fieldValTy (oneof : Bool) (f : FieldDesc) : GTy := if oneof then elemTy f.kind f.msg else fieldTy f

theorem fieldBody_adds (hG : G.OK C.S) (H : SubSizes C okv rec) {d : MsgDesc} {o : Bool} (ff : FieldFacts d f) (ho : o = true → f.oneof = true)
    (hv : Reads C mv var (fieldValTy o f) v) (hok : fieldValOK okv o f v = true)
    (hn : f.card ≠ .repeated → (f.hasMessage || (!o && f.presence)) = true → v.isNil = false) :
    Adds C mv (Emit.fieldBody G o var f) (Vtp.sizeFieldBody ⟨C.S, C.R⟩ rec o f v) := by
  have hor : o = true → f.card ≠ .repeated := fun h => by rw [(ff.oneof (ho h)).1]; simp
  have hof : f.card = .repeated → o = false := fun h => by
    cases o with
    | false => rfl
    | true => exact absurd h (hor rfl)
  have hmap1 : f.card ≠ .repeated → f.map = none := fun h => by
    cases hm : f.map with
    | none => rfl
    | some md => exact absurd (ff.map md hm).1 h
  have hmap2 : f.kind ≠ .message → f.map = none := fun h => by
    cases hm : f.map with
    | none => rfl
    | some md => exact absurd (ff.map md hm).2.1 h
  -- lists
  have hlist : f.card = .repeated → f.map = none → Reads C mv var (.list f.kind f.msg) v ∧ ∀ e ∈ v.elems, elemOK okv f.kind f.msg e = true := by
    intro h1 h2
    have h3 := hof h1
    subst h3
    simp only [fieldValTy, fieldValOK, Bool.false_eq_true, if_false, fieldTy, fieldOK, h2, h1, beq_self_eq_true, if_true] at hv hok
    refine ⟨hv, ?_⟩
    cases v <;> simp [Val.elems] at hok ⊢
    exact hok.1
  -- scalars
  have hscal : ∀ {T : GTy}, f.card ≠ .repeated → f.hasMessage = false → elemTy f.kind f.msg = T →
      (f.kind ≠ .bytes → if (!o && f.presence) then Reads C mv var (.ptr f.kind) v else Reads C mv var T v) ∧
      (f.kind = .bytes → Reads C mv var .bytes v) ∧ scalarOK f.kind v = true := by
    intro T h1 h2 hT
    have h3 := hmap1 h1
    have hel : elemOK okv f.kind f.msg v = scalarOK f.kind v := by
      cases hk : f.kind <;> simp [FieldDesc.hasMessage, hk] at h2 <;> rfl
    cases o with
    | true =>
      simp only [fieldValTy, fieldValOK, if_true] at hv hok
      rw [hel] at hok
      refine ⟨fun _ => by simpa [hT] using hv, fun hb => ?_, hok⟩
      rw [hb] at hv; exact hv
    | false =>
      simp only [fieldValTy, fieldValOK, Bool.false_eq_true, if_false, fieldTy, fieldOK, h3, beq_eq_false_iff_ne.2 h1, h2] at hv hok
      refine ⟨fun hb => ?_, fun hb => ?_, ?_⟩
      · simp only [beq_eq_false_iff_ne.2 hb, Bool.false_eq_true, if_false] at hv
        cases hp : f.presence <;> simp [hp, hT] at hv ⊢ <;> exact hv
      · simpa [hb] using hv
      · cases hp : f.presence with
        | false => simpa [hp] using hok
        | true =>
          have := hn h1 (by simp [hp])
          simp only [hp, if_true, this, Bool.false_or] at hok
          rw [← hel]; exact hok
  unfold Emit.fieldBody Vtp.sizeFieldBody
  have hpk : f.packed = true → f.card = .repeated := fun h => (ff.packed h).1
  have hmsg : f.card ≠ .repeated → f.hasMessage = true → Reads C mv var (.msg f.msg) v ∧ (v.isNil || okv f.msg v) = true := by
    intro h1 h2
    have h3 := hmap1 h1
    have hel : elemTy f.kind f.msg = .msg f.msg ∧ elemOK okv f.kind f.msg v = (v.isNil || okv f.msg v) := by
      cases hk : f.kind <;> simp [FieldDesc.hasMessage, hk] at h2 <;> exact ⟨rfl, rfl⟩
    cases o with
    | true =>
      simp only [fieldValTy, fieldValOK, if_true] at hv hok
      rw [hel.1] at hv; rw [hel.2] at hok
      exact ⟨hv, hok⟩
    | false =>
      simp only [fieldValTy, fieldValOK, Bool.false_eq_true, if_false, fieldTy, fieldOK, h3, beq_eq_false_iff_ne.2 h1, h2, if_true, ff.singMsg h1 h2] at hv hok
      rw [hel.2] at hok
      refine ⟨hv, ?_⟩
      revert hok
      cases v.isNil <;> simp
  have hnm : f.hasMessage = false → ∀ hh, (f.hasMessage || (!o && f.presence)) = hh → (!o && f.presence) = hh := fun h hh => by simp [h]
  have hnum : numeric f.kind = true → f.hasMessage = false ∧ f.kind ≠ .bytes ∧ f.kind ≠ .message ∧ ∀ e, elemOK okv f.kind f.msg e = scalarOK f.kind e := by
    intro h
    cases hk : f.kind <;> simp [numeric, hk] at h <;> exact ⟨by simp [FieldDesc.hasMessage, hk], by simp, by simp, fun e => rfl⟩
  have hfixed : numeric f.kind = true → ∀ key w, Adds C mv (Emit.fixedSize o (f.hasMessage || (!o && f.presence)) var f key w)
      (if f.packed then key + sizeOfVarint (u64 (v.elems.length * w)) + v.elems.length * w
       else if f.card == .repeated then (key + w) * v.elems.length
       else if !o && !(f.hasMessage || (!o && f.presence)) && isZeroVal f.kind v then 0 else key + w) := by
    intro h key w
    obtain ⟨h1, h2, h3, h4⟩ := hnum h
    refine fixedSize_adds h hpk (fun hc => (hlist hc (hmap2 h3)).1) fun hc ho hnl => ?_
    obtain ⟨ha, -, hb⟩ := hscal hc h1 (elemTy_num h _)
    have := hnm h1 _ hnl
    refine ⟨?_, hb⟩
    simpa [this] using ha h2
  have hbool : f.kind = .bool → ∀ key, Adds C mv (Emit.boolSize o (f.hasMessage || (!o && f.presence)) var f key)
      (if f.packed then key + sizeOfVarint (u64 (v.elems.length * 1)) + v.elems.length * 1
       else if f.card == .repeated then (key + 1) * v.elems.length
       else if !o && !(f.hasMessage || (!o && f.presence)) && isZeroVal f.kind v then 0 else key + 1) := by
    intro hk key
    have h : numeric f.kind = true := by rw [hk]; rfl
    obtain ⟨h1, h2, h3, h4⟩ := hnum h
    refine boolSize_adds hk hpk (fun hc => (hlist hc (hmap2 h3)).1) fun hc ho hnl => ?_
    obtain ⟨ha, -, hb⟩ := hscal hc h1 (elemTy_num h _)
    have := hnm h1 _ hnl
    refine ⟨?_, hb⟩
    simpa [this] using ha h2
  have hvar : numeric f.kind = true → (numTy f.kind).isInt = true → ∀ z : Bool, (∀ x : BitVec 64, sizeScalar f.kind (.num x) = if z then sizeOfZigzag x else sizeOfVarint x) →
      ∀ key, Adds C mv (Emit.varintSize (if z then Expr.soz else Expr.sov) o (f.hasMessage || (!o && f.presence)) var f key)
      (if f.packed then key + sizeOfVarint (u64 (v.elems.map (sizeScalar f.kind)).sum) + (v.elems.map (sizeScalar f.kind)).sum
       else if f.card == .repeated then (v.elems.map fun e => key + sizeScalar f.kind e).sum
       else if !o && !(f.hasMessage || (!o && f.presence)) && isZeroVal f.kind v then 0 else key + sizeScalar f.kind v) := by
    intro h hi z hz key
    obtain ⟨h1, h2, h3, h4⟩ := hnum h
    refine varintSize_adds h hi hz hpk (fun hc => ?_) fun hc => ?_
    · obtain ⟨ha, hb⟩ := hlist hc (hmap2 h3)
      exact ⟨ha, fun e he => by rw [← h4]; exact hb e he⟩
    · obtain ⟨ha, -, hb⟩ := hscal hc h1 (elemTy_num h _)
      refine ⟨?_, hb⟩
      have := ha h2
      rw [h1]
      simpa using this
  cases hk : f.kind <;> simp only []
  case double => have := hfixed (by rw [hk]; rfl) (keySize f.num (if f.packed = true then 2 else protoWireType f.kind)) 8; simpa only [hk] using this
  case fixed64 => have := hfixed (by rw [hk]; rfl) (keySize f.num (if f.packed = true then 2 else protoWireType f.kind)) 8; simpa only [hk] using this
  case sfixed64 => have := hfixed (by rw [hk]; rfl) (keySize f.num (if f.packed = true then 2 else protoWireType f.kind)) 8; simpa only [hk] using this
  case float => have := hfixed (by rw [hk]; rfl) (keySize f.num (if f.packed = true then 2 else protoWireType f.kind)) 4; simpa only [hk] using this
  case fixed32 => have := hfixed (by rw [hk]; rfl) (keySize f.num (if f.packed = true then 2 else protoWireType f.kind)) 4; simpa only [hk] using this
  case sfixed32 => have := hfixed (by rw [hk]; rfl) (keySize f.num (if f.packed = true then 2 else protoWireType f.kind)) 4; simpa only [hk] using this
  case bool => have := hbool hk (keySize f.num (if f.packed = true then 2 else protoWireType f.kind)); simpa only [hk] using this
  case int64 => have := hvar (by rw [hk]; rfl) (by rw [hk]; rfl) false (by rw [hk]; intro; rfl) (keySize f.num (if f.packed = true then 2 else protoWireType f.kind)); simpa only [hk, Bool.false_eq_true, if_false, if_true] using this
  case uint64 => have := hvar (by rw [hk]; rfl) (by rw [hk]; rfl) false (by rw [hk]; intro; rfl) (keySize f.num (if f.packed = true then 2 else protoWireType f.kind)); simpa only [hk, Bool.false_eq_true, if_false, if_true] using this
  case uint32 => have := hvar (by rw [hk]; rfl) (by rw [hk]; rfl) false (by rw [hk]; intro; rfl) (keySize f.num (if f.packed = true then 2 else protoWireType f.kind)); simpa only [hk, Bool.false_eq_true, if_false, if_true] using this
  case enum => have := hvar (by rw [hk]; rfl) (by rw [hk]; rfl) false (by rw [hk]; intro; rfl) (keySize f.num (if f.packed = true then 2 else protoWireType f.kind)); simpa only [hk, Bool.false_eq_true, if_false, if_true] using this
  case int32 => have := hvar (by rw [hk]; rfl) (by rw [hk]; rfl) false (by rw [hk]; intro; rfl) (keySize f.num (if f.packed = true then 2 else protoWireType f.kind)); simpa only [hk, Bool.false_eq_true, if_false, if_true] using this
  case sint32 => have := hvar (by rw [hk]; rfl) (by rw [hk]; rfl) true (by rw [hk]; intro; rfl) (keySize f.num (if f.packed = true then 2 else protoWireType f.kind)); simpa only [hk, Bool.false_eq_true, if_false, if_true] using this
  case sint64 => have := hvar (by rw [hk]; rfl) (by rw [hk]; rfl) true (by rw [hk]; intro; rfl) (keySize f.num (if f.packed = true then 2 else protoWireType f.kind)); simpa only [hk, Bool.false_eq_true, if_false, if_true] using this
  case string =>
    have hm : f.hasMessage = false := by simp [FieldDesc.hasMessage, hk]
    have := stringSize_adds (C := C) (mv := mv) (var := var) (v := v) (o := o) (nullable := f.hasMessage || (!o && f.presence)) (key := keySize f.num (if f.packed = true then 2 else protoWireType f.kind)) hk
      (fun hc => (hlist hc (hmap2 (by simp [hk]))).1) fun hc => by
        obtain ⟨ha, -, hb⟩ := hscal (T := .str) hc hm (by simp [hk, elemTy])
        refine ⟨?_, hb⟩
        rw [hm]
        simpa using ha (by simp [hk])
    simpa only [hk] using this
  case bytes =>
    have hm : f.hasMessage = false := by simp [FieldDesc.hasMessage, hk]
    have := bytesSize_adds (C := C) (mv := mv) (var := var) (v := v) (o := o) (nullable := f.hasMessage || (!o && f.presence)) (key := keySize f.num (if f.packed = true then 2 else protoWireType f.kind)) hk
      (by simp [hm]) (fun hc => (hlist hc (hmap2 (by simp [hk]))).1) fun hc => (hscal hc hm rfl).2.1 hk
    simpa only [hk] using this
  case group =>
    have hm : f.hasMessage = true := by simp [FieldDesc.hasMessage, hk]
    have hc : f.card ≠ .repeated := fun h => (ff.rep h).2.1 hk
    obtain ⟨ha, hb⟩ := hmsg hc hm
    exact groupSize_adds hG H hb ha
  case message =>
    have hm : f.hasMessage = true := by simp [FieldDesc.hasMessage, hk]
    have hel : elemTy f.kind f.msg = .msg f.msg := by rw [hk]; rfl
    cases hmp : f.map with
    | some md =>
      obtain ⟨hc, -, hkk, hvk⟩ := ff.map md hmp
      have h3 := hof hc
      subst h3
      simp only [fieldValTy, fieldValOK, Bool.false_eq_true, if_false, fieldTy, fieldOK, hmp] at hv hok
      have := mapSize_adds (f := f) hG H hkk hvk hv (by
        cases v <;> simp [Val.entries] at hok ⊢
        intro a b hab
        exact hok.2 a b hab)
      simpa only [hk] using this
    | none =>
      simp only []
      by_cases hc : f.card = .repeated
      · obtain ⟨ha, hb⟩ := hlist hc hmp
        simp only [FieldDesc.isList, hc, beq_self_eq_true, hmp, Option.isNone_none, Bool.and_true, if_true]
        refine rangeMsg_adds hG H hel ha fun x hx => ?_
        have := hb x hx
        rw [hk] at this
        exact this
      · obtain ⟨ha, hb⟩ := hmsg hc hm
        simp only [FieldDesc.isList, beq_eq_false_iff_ne.2 hc, Bool.false_and, Bool.false_eq_true, if_false]
        exact messageSize_adds hG H hb ha


theorem isNilG_field (o : Bool) (f : FieldDesc) (v : Val) : isNilG (fieldValTy o f) v = v.isNil := by
  have he : ∀ k t, isNilG (elemTy k t) v = v.isNil := by intro k t; cases k <;> rfl
  unfold fieldValTy
  split
  · exact he _ _
  · unfold fieldTy
    split
    · rfl
    · split
      · rfl
      · split
        · rfl
        · split
          · rfl
          · split
            · rfl
            · exact he _ _

theorem field_adds (hG : G.OK C.S) (H : SubSizes C okv rec) {d : MsgDesc} {o : Bool} {t : Nat} (ff : FieldFacts d f) (ho : o = true → f.oneof = true)
    (hv : Reads C mv (Emit.fieldExpr o t f) (fieldValTy o f) v) (hok : fieldValOK okv o f v = true) :
    Adds C mv (Emit.field G o t f) (Vtp.sizeField ⟨C.S, C.R⟩ rec o f v) := by
  unfold Emit.field Vtp.sizeField
  simp only []
  have hc : (o && f.kind == .message && f.map.isNone && !f.isList) = (o && f.kind == .message && f.map.isNone) := by
    cases o with
    | false => rfl
    | true => simp [FieldDesc.isList, (ff.oneof (ho rfl)).1]
  rw [hc]
  by_cases h1 : f.card = .repeated
  · have ho' : o = false := by
      cases o with
      | false => rfl
      | true => rw [(ff.oneof (ho rfl)).1] at h1; simp at h1
    subst ho'
    simp only [h1, beq_self_eq_true, if_true, Bool.false_and, Bool.false_eq_true, if_false]
    have hl : ∀ l n, (eval C (sst l n mv) (.bin .gt (.len (Emit.fieldExpr false t f)) (.lit 0)) >>= truth) = .ok (decide (f.len v > 0)) := by
      intro l n
      simp only [eval, hv l n, Res.bind_ok]
      have hT : lenG (.val (fieldValTy false f) v) = .ok (.int (f.len v)) := by
        rcases hfm : f.map with _ | md
        · simp [fieldValTy, fieldTy, FieldDesc.len, hfm, h1, lenG]
        · simp [fieldValTy, fieldTy, FieldDesc.len, hfm, lenG]
      simp [hT, binG, asInt, truth]
    refine (Adds.ite hl (fun _ => fieldBody_adds hG H ff ho hv hok fun h => absurd h1 h) fun _ => Adds.skip).cast ?_
    by_cases h : f.len v > 0 <;> simp [h]
  · simp only [beq_eq_false_iff_ne.2 h1, Bool.false_eq_true, if_false]
    by_cases h2 : (f.hasMessage || (!o && f.presence)) = true
    · simp only [h2, if_true]
      have hl : ∀ l n, (eval C (sst l n mv) (.bin .ne (Emit.fieldExpr o t f) .nil) >>= truth) = .ok (!v.isNil) := by
        intro l n
        simp [eval, hv l n, binG, isNilG_field, truth]
      have hcl : Adds C mv (if (o && f.kind == .message && f.map.isNone) = true then
            .addAssign .n (.lit (keySize f.num (if f.packed = true then 2 else protoWireType f.kind) + 1)) else .skip)
          (if (o && f.kind == .message && f.map.isNone) = true then keySize f.num (if f.packed = true then 2 else protoWireType f.kind) + 1 else 0) := by
        split
        · exact addConst
        · exact Adds.skip
      exact Adds.ite hl (fun hn => fieldBody_adds hG H ff ho hv hok fun _ _ => by simpa using hn) fun _ => hcl
    · have h2' : (f.hasMessage || (!o && f.presence)) = false := by simpa using h2
      simp only [h2', Bool.false_eq_true, if_false]
      exact fieldBody_adds hG H ff ho hv hok fun _ h => absurd h h2

end

/-! Struct layout -/

theorem slotTy_field {S : Schema} {t : Nat} (hd : MsgFacts (S.msg t)) {f : FieldDesc} (hf : f ∈ (S.msg t).fields) (ho : f.oneof = false) :
    slotTy S t f.slot = fieldTy f := by
  unfold slotTy
  cases hc : (S.msg t).fields.find? (fun g => g.slot == f.slot) with
  | none =>
    rw [List.find?_eq_none] at hc
    have := hc f hf
    simp at this
  | some g =>
    have h1 := List.mem_of_find?_eq_some hc
    have h2 : g.slot = f.slot := by simpa using List.find?_some hc
    have : g = f := by
      by_contra hne
      have := hd.share g h1 f hf (fun he => hne (hd.num_inj h1 hf he)) h2
      simp [ho] at this
    subst this
    simp [ho]

theorem slotTy_oneof {S : Schema} {t : Nat} (hd : MsgFacts (S.msg t)) {f : FieldDesc} (hf : f ∈ (S.msg t).fields) (ho : f.oneof = true) :
    slotTy S t f.slot = .iface t f.slot := by
  unfold slotTy
  cases hc : (S.msg t).fields.find? (fun g => g.slot == f.slot) with
  | none =>
    rw [List.find?_eq_none] at hc
    have := hc f hf
    simp at this
  | some g =>
    have h1 := List.mem_of_find?_eq_some hc
    have h2 : g.slot = f.slot := by simpa using List.find?_some hc
    have : g.oneof = true := by
      by_cases hne : g.num = f.num
      · rw [hd.num_inj h1 hf hne]; exact ho
      · exact (hd.share g h1 f hf hne h2).1
    simp [this]

theorem find_num {d : MsgDesc} (hd : MsgFacts d) {f : FieldDesc} (hf : f ∈ d.fields) : d.fields.find? (fun g => g.num == f.num) = some f := by
  cases hc : d.fields.find? (fun g => g.num == f.num) with
  | none =>
    rw [List.find?_eq_none] at hc
    have := hc f hf
    simp at this
  | some g =>
    have h1 := List.mem_of_find?_eq_some hc
    have h2 : g.num = f.num := by simpa using List.find?_some hc
    rw [hd.num_inj h1 hf h2]

theorem memberTy_field {S : Schema} {t : Nat} (hd : MsgFacts (S.msg t)) {f : FieldDesc} (hf : f ∈ (S.msg t).fields) :
    memberTy S t f.num = elemTy f.kind f.msg := by
  unfold memberTy
  rw [find_num hd hf]

/-- Calls of `SizeVT` on oneof wrappers. -/
def SubWraps (C : Ctx) (tn : Members) (okv : Nat → Val → Bool) (rec : Nat → Val → Nat) : Prop :=
  ∀ t slot n w, oneofOK tn okv (C.S.msg t) slot w = true → (w = .wrapNil n ∨ ∃ x, w = .wrap n x) →
    C.size (.wrapper t n) w = .ok (Vtp.sizeOneof ⟨C.S, C.R⟩ rec (C.S.msg t) slot w : Nat)

section
variable {G : GenCfg} {okv : Nat → Val → Bool} {rec : Nat → Val → Nat} {tn : Members}

theorem addCall_exec {T : GTy} {w : Val} {x : Id} {k : Nat} {e : Expr} (hx : x ≠ .n) (hT : (∃ t, T = .msg t) ∨ ∃ t n, T = .wrapper t n)
    (he : ∀ s : St, eval C s e = eval C s (.id x)) (h : C.size T w = .ok (k : Nat)) (l n : Int) :
    block [(x, .val T w)] (exec C (.addAssign .n (.callSize e))) (sst l n mv) = .ok (sst l (n + k) mv, .next) := by
  have hr : recvG (.val T w) = .ok (T, w) := by
    rcases hT with ⟨t, rfl⟩ | ⟨t, n, rfl⟩ <;> rfl
  simp only [block, exec, eval, he, List.cons_append, List.nil_append, lookup, if_true, Res.bind_ok, hr, h, hx.symm, if_false,
    reduceCtorEq]
  simp [binG, asInt, setVar, update, coerce, hx.symm, St.leave]

theorem oneofCases_adds (HW : SubWraps C tn okv rec) {t slot : Nat} {w : Val} (hok : oneofOK tn okv (C.S.msg t) slot w = true)
    (hv : Reads C mv var (.iface t slot) w) : ∀ fs : List FieldDesc,
    (∀ n, (w = .wrapNil n ∨ ∃ x, w = .wrap n x) → ∃ f ∈ fs, f.num = n) →
    Adds C mv (Emit.oneofCases var t fs) (Vtp.sizeOneof ⟨C.S, C.R⟩ rec (C.S.msg t) slot w)
  | fs, hm => by
    have key : ∀ n, (w = .wrapNil n ∨ ∃ x, w = .wrap n x) → dyn (.val (.iface t slot) w) = some (.wrapper t n, w) →
        ∀ fs : List FieldDesc, (∃ f ∈ fs, f.num = n) →
        Adds C mv (Emit.oneofCases var t fs) (Vtp.sizeOneof ⟨C.S, C.R⟩ rec (C.S.msg t) slot w) := by
      intro n hn hd fs
      induction fs with
      | nil => rintro ⟨f, hf, -⟩; simp at hf
      | cons f fs ih =>
        intro hf
        have hsz := HW t slot n w hok hn
        unfold Emit.oneofCases
        by_cases hfn : f.num = n
        · subst hfn
          intro l n'
          refine ⟨l, ?_⟩
          rw [exec, hv l n']
          simp only [Res.bind_ok, hd, if_true]
          exact addCall_exec (by simp) (.inr ⟨_, _, rfl⟩) (fun s => rfl) hsz l n'
        · intro l n'
          obtain ⟨g, hg, hgn⟩ := hf
          have hg' : g ∈ fs := by
            rcases List.mem_cons.1 hg with rfl | h
            · exact absurd hgn hfn
            · exact h
          obtain ⟨l', h'⟩ := ih ⟨g, hg', hgn⟩ l n'
          refine ⟨l', ?_⟩
          rw [exec, hv l n']
          simp only [Res.bind_ok, hd]
          rw [if_neg (by simp [Ne.symm hfn])]
          simp only [block, List.nil_append]
          rw [show exec C (Emit.oneofCases var t fs) ⟨(sst l n' mv).vars, []⟩ = _ from h']
          simp
    have nilcase : dyn (.val (.iface t slot) w) = none → Vtp.sizeOneof ⟨C.S, C.R⟩ rec (C.S.msg t) slot w = 0 →
        ∀ fs : List FieldDesc, Adds C mv (Emit.oneofCases var t fs) (Vtp.sizeOneof ⟨C.S, C.R⟩ rec (C.S.msg t) slot w) := by
      intro hd hz fs
      rw [hz]
      induction fs with
      | nil => exact Adds.skip
      | cons f fs ih =>
        intro l n'
        obtain ⟨l', h'⟩ := ih l n'
        refine ⟨l', ?_⟩
        unfold Emit.oneofCases
        rw [exec, hv l n']
        simp only [Res.bind_ok, hd, block, List.nil_append]
        rw [show exec C (Emit.oneofCases var t fs) ⟨(sst l n' mv).vars, []⟩ = _ from h']
        simp
    cases w with
    | wrap n x => exact key n (.inr ⟨x, rfl⟩) rfl fs (hm n (.inr ⟨x, rfl⟩))
    | wrapNil n => exact key n (.inl rfl) rfl fs (hm n (.inl rfl))
    | nil => exact nilcase rfl rfl fs
    | num _ => exact nilcase rfl rfl fs
    | str _ => exact nilcase rfl rfl fs
    | msg _ _ _ => exact nilcase rfl rfl fs
    | list _ _ => exact nilcase rfl rfl fs
    | map _ => exact nilcase rfl rfl fs

theorem oneof_adds (HW : SubWraps C tn okv rec) {t slot : Nat} {w : Val} (hok : oneofOK tn okv (C.S.msg t) slot w = true)
    (hv : Reads C mv (.sel (.id .m) (.slot t slot)) (.iface t slot) w) :
    Adds C mv (Emit.oneof G (C.S.msg t) t slot) (Vtp.sizeOneof ⟨C.S, C.R⟩ rec (C.S.msg t) slot w) := by
  unfold Emit.oneof
  simp only []
  split
  · refine oneofCases_adds HW hok hv _ ?_
    intro n hn
    have hm : ∃ f, (C.S.msg t).member slot n = some f := by
      rcases hn with rfl | ⟨x, rfl⟩
      · simp only [oneofOK, Bool.and_eq_true] at hok
        exact Option.isSome_iff_exists.1 hok.2
      · simp only [oneofOK] at hok
        cases h : (C.S.msg t).member slot n with
        | none => rw [h] at hok; simp at hok
        | some f => exact ⟨f, rfl⟩
    obtain ⟨f, hf⟩ := hm
    obtain ⟨h1, h2, h3, h4⟩ := member_some hf
    exact ⟨f, by simp [Emit.members, h1, h2, h3], h4⟩
  · have key : ∀ n, (w = .wrapNil n ∨ ∃ x, w = .wrap n x) → dyn (.val (.iface t slot) w) = some (.wrapper t n, w) →
        Adds C mv (.ifImpl .vtmsg (.sel (.id .m) (.slot t slot)) .size (.addAssign .n (.callSize (.id .vtmsg))) .skip)
          (Vtp.sizeOneof ⟨C.S, C.R⟩ rec (C.S.msg t) slot w) := fun n hn hd l n' => by
      refine ⟨l, ?_⟩
      rw [exec, hv l n']
      simp only [Res.bind_ok, hd, implements, if_true]
      exact addCall_exec (by simp) (.inr ⟨_, _, rfl⟩) (fun s => rfl) (HW t slot n w hok hn) l n'
    have nilcase : dyn (.val (.iface t slot) w) = none → Vtp.sizeOneof ⟨C.S, C.R⟩ rec (C.S.msg t) slot w = 0 →
        Adds C mv (.ifImpl .vtmsg (.sel (.id .m) (.slot t slot)) .size (.addAssign .n (.callSize (.id .vtmsg))) .skip)
          (Vtp.sizeOneof ⟨C.S, C.R⟩ rec (C.S.msg t) slot w) := fun hd hz l n' => by
      refine ⟨l, ?_⟩
      rw [exec, hv l n']
      simp [hd, block, exec, St.leave, hz]
    cases w with
    | wrap n x => exact key n (.inr ⟨x, rfl⟩) rfl
    | wrapNil n => exact key n (.inl rfl) rfl
    | nil => exact nilcase rfl rfl
    | num _ => exact nilcase rfl rfl
    | str _ => exact nilcase rfl rfl
    | msg _ _ _ => exact nilcase rfl rfl
    | list _ _ => exact nilcase rfl rfl
    | map _ => exact nilcase rfl rfl

theorem fields_adds (hG : G.OK C.S) (H : SubSizes C okv rec) (HW : SubWraps C tn okv rec) {t : Nat} (hd : MsgFacts (C.S.msg t))
    {slots : List Val} {unk ext : Bytes} (hmv : mv = .val (.msg t) (.msg slots unk ext))
    (hok : ∀ f ∈ (C.S.msg t).fields, (if f.oneof then oneofOK tn okv (C.S.msg t) f.slot (slotOf slots f) else fieldOK okv f (slotOf slots f)) = true) :
    ∀ (fs : List FieldDesc) (seen : List Nat), (∀ f ∈ fs, f ∈ (C.S.msg t).fields) →
      Adds C mv (Emit.fields G (C.S.msg t) t seen fs) (Vtp.sizeFields ⟨C.S, C.R⟩ rec (C.S.msg t) slots seen fs)
  | [], seen, _ => Adds.skip
  | f :: fs, seen, hfs => by
    have hf := hfs f (by simp)
    have hfs' : ∀ g ∈ fs, g ∈ (C.S.msg t).fields := fun g hg => hfs g (by simp [hg])
    have hr : Reads C mv (.sel (.id .m) (.slot t f.slot)) (slotTy C.S t f.slot) (slotOf slots f) := fun l n => by
      simp [eval, lookup, hmv, selG, slotOf]
    unfold Emit.fields Vtp.sizeFields
    have hk := hok f hf
    by_cases ho : f.oneof = true
    · simp only [ho, if_true] at hk ⊢
      rw [slotTy_oneof hd hf ho] at hr
      split
      · exact fields_adds hG H HW hd hmv hok fs seen hfs'
      · exact Adds.seq (oneof_adds HW hk hr) (fields_adds hG H HW hd hmv hok fs _ hfs')
    · have ho' : f.oneof = false := by simpa using ho
      simp only [ho', Bool.false_eq_true, if_false] at hk ⊢
      rw [slotTy_field hd hf ho'] at hr
      exact Adds.seq (field_adds hG H (hd.fields f hf) (by simp) hr hk) (fields_adds hG H HW hd hmv hok fs _ hfs')

theorem messageFields_perm (d : MsgDesc) : (Emit.messageFields G d).Perm d.fields := by
  unfold Emit.messageFields
  split
  · exact List.perm_insertionSort _ _
  · exact List.Perm.refl _

/-- The sum does not depend on the order of the fields. -/
theorem sizeFields_perm (E : Env) (rS : Nat → Val → Nat) (d : MsgDesc) (slots : List Val) {fs gs : List FieldDesc} (h : fs.Perm gs) :
    Vtp.sizeFields E rS d slots [] fs = Vtp.sizeFields E rS d slots [] gs := by
  rw [sizeFields_eq, sizeFields_eq]
  congr 1
  · exact sum_perm ((h.filter _).map _)
  · exact sum_perm ((firsts_perm h).map _)

theorem sizeMethod_exec (hG : G.OK C.S) (H : SubSizes C okv rec) (HW : SubWraps C tn okv rec) {t : Nat} (hd : MsgFacts (C.S.msg t))
    {slots : List Val} {unk ext : Bytes}
    (hok : ∀ f ∈ (C.S.msg t).fields, (if f.oneof then oneofOK tn okv (C.S.msg t) f.slot (slotOf slots f) else fieldOK okv f (slotOf slots f)) = true) :
    resultInt (exec C (Emit.sizeMethod G C.S t) ⟨[(.n, .int 0), (.m, .val (.msg t) (.msg slots unk ext))], []⟩) =
      .ok ((Vtp.sizeFields ⟨C.S, C.R⟩ rec (C.S.msg t) slots [] (C.S.msg t).fields + (if (C.S.msg t).keepUnknown then unk.length else 0) : Nat) : Int) := by
  obtain ⟨l', h1⟩ := fields_adds hG H HW hd rfl hok (Emit.messageFields G (C.S.msg t)) [] (fun f h => (messageFields_perm (C.S.msg t)).mem_iff.1 h) (mv := .val (.msg t) (.msg slots unk ext)) (unk := unk) (ext := ext) 0 0
  rw [sizeFields_perm _ _ _ _ (messageFields_perm (G := G) (C.S.msg t))] at h1
  unfold Emit.sizeMethod
  simp only [exec, eval, lookup, if_true, reduceCtorEq, if_false, Res.bind_ok, binG, isNilG, Val.isNil, truth, block, Bool.false_eq_true, List.nil_append, St.leave]
  simp only [List.length_cons, List.length_nil, Nat.sub_self, List.drop_zero]
  rw [show exec C (Emit.fields G (C.S.msg t) t [] (Emit.messageFields G (C.S.msg t))) ⟨[(.l, .int 0), (.n, .int 0), (.m, .val (.msg t) (.msg slots unk ext))], []⟩ = _ from h1]
  cases hku : (C.S.msg t).keepUnknown <;>
    simp [exec, eval, evals, lookup, selG, lenG, binG, asInt, setVar, update, coerce, resultInt, intG, Val.bytes]

theorem sizeMethod_nil {t : Nat} :
    resultInt (exec C (Emit.sizeMethod G C.S t) ⟨[(.n, .int 0), (.m, .val (.msg t) .nil)], []⟩) = .ok 0 := by
  simp [Emit.sizeMethod, exec, eval, evals, lookup, binG, isNilG, Val.isNil, truth, block, St.leave, resultInt, intG]

theorem sizeWrapper_exec (hG : G.OK C.S) (H : SubSizes C okv rec) {t slot : Nat} (hd : MsgFacts (C.S.msg t))
    {n : Nat} {w : Val} (hok : oneofOK tn okv (C.S.msg t) slot w = true) (hw : w = .wrapNil n ∨ ∃ x, w = .wrap n x) :
    ∃ f, (C.S.msg t).fields.find? (fun f => f.num == n) = some f ∧
      resultInt (exec C (Emit.sizeWrapper G t f) ⟨[(.n, .int 0), (.m, .val (.wrapper t n) w)], []⟩) =
        .ok (Vtp.sizeOneof ⟨C.S, C.R⟩ rec (C.S.msg t) slot w : Nat) := by
  have hm : ∃ f, (C.S.msg t).member slot n = some f := by
    rcases hw with rfl | ⟨x, rfl⟩
    · simp only [oneofOK, Bool.and_eq_true] at hok
      exact Option.isSome_iff_exists.1 hok.2
    · simp only [oneofOK] at hok
      cases h : (C.S.msg t).member slot n with
      | none => rw [h] at hok; simp at hok
      | some f => exact ⟨f, rfl⟩
  obtain ⟨f, hf⟩ := hm
  obtain ⟨h1, h2, h3, h4⟩ := member_some hf
  refine ⟨f, h4 ▸ find_num hd h1, ?_⟩
  rcases hw with rfl | ⟨x, rfl⟩
  · simp [Emit.sizeWrapper, exec, eval, evals, lookup, binG, isNilG, truth, block, St.leave, resultInt, intG, Vtp.sizeOneof]
  · simp only [oneofOK, hf, Bool.and_eq_true] at hok
    have hr : Reads C (.val (.wrapper t n) (.wrap n x)) (Emit.fieldExpr true t f) (fieldValTy true f) x := fun l k => by
      simp [Emit.fieldExpr, eval, lookup, selG, h4, fieldValTy]
      rw [← h4, memberTy_field hd h1]
    obtain ⟨l', hx⟩ := field_adds hG H (hd.fields f h1) (fun _ => h2) hr (by simp [fieldValOK, hok.1]) 0 0
    unfold Emit.sizeWrapper
    simp only [exec, eval, lookup, if_true, reduceCtorEq, if_false, Res.bind_ok, binG, isNilG, truth, block, Bool.false_eq_true, List.nil_append, St.leave]
    simp only [List.length_cons, List.length_nil, Nat.sub_self, List.drop_zero]
    rw [show exec C (Emit.field G true t f) ⟨[(.l, .int 0), (.n, .int 0), (.m, .val (.wrapper t n) (.wrap n x))], []⟩ = _ from hx]
    simp [eval, evals, lookup, resultInt, intG, Vtp.sizeOneof, hf]

end

end

/-- The emitted methods, called with enough depth, compute `sizeN`. -/
theorem runSizeN_eq {G : GenCfg} {E : Env} (hG : G.OK E.S) (hS : schemaOK E.S = true) (tn : Members) : ∀ (N : Nat) (t : Nat) (v : Val),
    (E.S.msg t).foreign = false → (v.isNil || wtN E.S tn N t v) = true → ∀ K, 2 * N + 1 ≤ K → runSizeN G E K (.msg t) v = .ok (sizeN E N t v : Nat) := by
  intro N
  induction N with
  | zero =>
    intro t v hf hv K hK
    obtain ⟨K, rfl⟩ := Nat.exists_eq_add_of_le hK
    simp only [wtN, Bool.or_false] at hv
    cases v <;> simp [Val.isNil] at hv
    rw [show 2 * 0 + 1 + K = K + 1 by omega, runSizeN]
    exact sizeMethod_nil
  | succ N ih =>
    intro t v hf hv K hK
    obtain ⟨K, rfl⟩ : ∃ K', K = K' + 1 := ⟨K - 1, by omega⟩
    rw [runSizeN]
    by_cases hn : v.isNil = true
    · cases v <;> simp [Val.isNil] at hn
      exact sizeMethod_nil
    · have hv' : wtN E.S tn (N + 1) t v = true := by simpa [hn] using hv
      obtain ⟨slots, unk, ext, rfl⟩ : ∃ slots unk ext, v = .msg slots unk ext := by
        cases v <;> first | exact ⟨_, _, _, rfl⟩ | simp [wtN] at hv'
      simp only [wtN, hf, Bool.false_or, Bool.and_eq_true, List.all_eq_true] at hv'
      have hd := schemaOK_msg hS t
      have H : ∀ K, 2 * N + 1 ≤ K → SubSizes ⟨E.S, E.R, runSizeN G E K, fun _ _ _ => confused⟩ (wtN E.S tn N) (sizeN E N) :=
        fun K hK t x hx hf => ih t x hf hx K hK
      refine sizeMethod_exec (C := ⟨E.S, E.R, runSizeN G E K, fun _ _ _ => confused⟩) (tn := tn) hG (H K (by omega)) ?_ hd ?_
      · intro t' slot n w hok hw
        obtain ⟨K, rfl⟩ : ∃ K', K = K' + 1 := ⟨K - 1, by omega⟩
        obtain ⟨f, hf, hr⟩ := sizeWrapper_exec (C := ⟨E.S, E.R, runSizeN G E K, fun _ _ _ => confused⟩) (G := G) (tn := tn) hG (H K (by omega)) (schemaOK_msg hS t') hok hw
        simp only [runSizeN]
        simp only [] at hf
        rw [hf]
        exact hr
      · intro f hf
        exact hv'.2 f hf

end Vtp.Go
