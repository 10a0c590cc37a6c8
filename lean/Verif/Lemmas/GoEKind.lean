import Verif.Lemmas.GoE
/-!
# The code printed for `EqualVT`: comparisons of scalars, bytes and messages
-/

namespace Vtp.GoE
open Spec
open Go (GTy GenCfg elemTy fieldTy slotTy memberTy numTy)

/-- The context of the printed methods. -/
abbrev ctx (E : CEnv) (eq : GTy → V → V → Res Bool) : Ctx := ⟨E.S, E.R, E.same, eq⟩

/-- Values without pointers in them. -/
def leaf : Val → Bool
  | .nil => true
  | .num _ => true
  | .str _ => true
  | _ => false

/-- A value at a place; where there are no pointers the place does not matter. -/
def Loc (path : List Nat) (a : Option (List Nat)) (v : Val) : Prop := a = some path ∨ (a = none ∧ leaf v = true)

/-- The same for pointers to messages, which may point to a new struct. -/
def MLoc (S : Schema) (path : List Nat) (t : Nat) (a : Option (List Nat)) (v : Val) : Prop := a = some path ∨ (a = none ∧ (v = .nil ∨ v = zeroMsg S t))

variable {E : CEnv} {eq : GTy → V → V → Res Bool} {vs : Vars} {lhs rhs : Expr} {a b : Option (List Nat)} {v w : Val} {k : Kind} {t : Nat} {path : List Nat}

/-- Kinds compared with `!=`. -/
def scalarKind : Kind → Bool
  | .bytes => false
  | .message => false
  | .group => false
  | _ => true

theorem eqV_scalar {C : Ctx} (hk : scalarKind k = true) : eqV C (.val (elemTy k t) a v) (.val (elemTy k t) b w) = .ok (scalarEq k v w) := by
  revert hk
  cases k <;> simp [scalarKind, eqV, elemTy, numTy, numEq, scalarEq]

theorem compareScalar_cmp (hk : scalarKind k = true) (nullable : Bool)
    (hl : eval (ctx E eq) vs lhs = .ok (.val (if nullable then .ptr k else elemTy k t) a v))
    (hr : eval (ctx E eq) vs rhs = .ok (.val (if nullable then .ptr k else elemTy k t) b w)) :
    Cmp (ctx E eq) (Emit.compareScalar lhs rhs nullable) vs vs (compareScalar nullable k v w) := by
  cases nullable
  · simp only [Bool.false_eq_true, if_false] at hl hr
    unfold Emit.compareScalar compareScalar
    simp only [Bool.false_eq_true, if_false]
    exact Cmp.ifRet (eval_ne hl hr (eqV_scalar hk))
  · simp only [if_true] at hl hr
    unfold Emit.compareScalar
    simp only [if_true]
    refine Cmp.ifWithRet hl hr ?_
    have hs : eqV (ctx E eq) (.val (elemTy k 0) none v) (.val (elemTy k 0) none w) = .ok (scalarEq k v w) := eqV_scalar hk
    have hp : ∀ (x : Option (List Nat)) (y : Val), eqV (ctx E eq) (.val (.ptr k) x y) .nil = .ok y.isNil := fun x y => rfl
    unfold compareScalar deref
    cases hv : v.isNil <;> cases hw : w.isNil <;>
      simp [eval, find, hp, hv, hw, truth, starV, hs]

theorem compareBytes_cmp (nullable : Bool) (hl : eval (ctx E eq) vs lhs = .ok (.val .bytes a v))
    (hr : eval (ctx E eq) vs rhs = .ok (.val .bytes b w)) :
    Cmp (ctx E eq) (Emit.compareBytes lhs rhs nullable) vs vs (.ok (compareBytes nullable v w)) := by
  cases nullable
  · unfold Emit.compareBytes compareBytes
    simp only [Bool.false_eq_true, if_false]
    refine Cmp.ifRet ?_
    simp [eval, hl, hr, strV, eqV, truth, Val.bytes]
  · unfold Emit.compareBytes
    simp only [if_true]
    refine Cmp.ifWithRet hl hr ?_
    unfold compareBytes
    cases hv : v.isNil <;> cases hw : w.isNil <;>
      simp [eval, find, eqV, nilable, Go.isNilG, hv, hw, truth, strV, Val.bytes, bne]

/-- `EqualVT` of messages behaves like `rec` up to a depth. -/
def SubEqual (E : CEnv) (eq : GTy → V → V → Res Bool) (rec : SubEq) (n : Nat) : Prop :=
  ∀ path t a b v w, (E.S.msg t).foreign = false → PtrOK E.S t v → PtrOK E.S t w → v.depth ≤ n → w.depth ≤ n → MLoc E.S path t a v → MLoc E.S path t b w →
    eq (.msg t) (.val (.msg t) a v) (.val (.msg t) b w) = rec path t v w

variable {G : GenCfg} {rec : SubEq} {n : Nat}

theorem callEqual_cmp (hG : G.OK E.S) (H : SubEqual E eq rec n) (hv : PtrOK E.S t v) (hw : PtrOK E.S t w) (dv : v.depth ≤ n) (dw : w.depth ≤ n)
    (la : MLoc E.S path t a v) (lb : MLoc E.S path t b w)
    (hl : eval (ctx E eq) vs lhs = .ok (.val (.msg t) a v))
    (hr : eval (ctx E eq) vs rhs = .ok (.val (.msg t) b w)) (hr' : ∀ g, eval (ctx E eq) ((.equal, g) :: vs) rhs = .ok (.val (.msg t) b w)) :
    Cmp (ctx E eq) (Emit.callEqual G lhs rhs t) vs vs (callEqual E rec path t v w) := by
  have hcall : ∀ {us : Vars} {x : Expr}, (E.S.msg t).foreign = false → eval (ctx E eq) us x = .ok (.val (.msg t) a v) → eval (ctx E eq) us rhs = .ok (.val (.msg t) b w) →
      (eval (ctx E eq) us (.call x rhs) >>= truth) = rec path t v w := by
    intro us x hf h1 h2
    rw [eval, h1, h2]
    simp only [Res.bind_ok, callV]
    rw [H path t a b v w hf hv hw dv dw la lb]
    rcases rec path t v w with z | z | z | _ <;> rfl
  unfold Emit.callEqual callEqual
  by_cases hk : G.wellKnown t = true
  · have hf : (E.S.msg t).foreign = false := by
      by_contra h
      rw [(hG t (by simpa using h)).1] at hk
      cases hk
    rw [if_pos hk, if_neg (by simp [hf])]
    refine Cmp.ifNot ?_
    have : eval (ctx E eq) vs (.call (.known lhs) (.known rhs)) = eval (ctx E eq) vs (.call lhs rhs) := by simp only [eval]
    rw [this]
    exact hcall hf hl hr
  · rw [if_neg hk]
    by_cases hL : G.isLocal t = true
    · have hf : (E.S.msg t).foreign = false := by
        by_contra h
        rw [(hG t (by simpa using h)).2] at hL
        cases hL
      rw [if_pos hL, if_neg (by simp [hf])]
      exact Cmp.ifNot (hcall hf hl hr)
    · rw [if_neg hL]
      unfold Cmp
      rw [exec, hl]
      simp only [Res.bind_ok]
      have himp : implements (ctx E eq).S (.val (.msg t) a v) = !(E.S.msg t).foreign := rfl
      rw [himp]
      cases hf : (E.S.msg t).foreign
      · simp only [Bool.not_false, if_true, Bool.false_eq_true, if_false]
        refine Cmp.block (bind' := [(.equal, .val (.msg t) a v)]) rfl (Cmp.ifNot ?_)
        exact hcall hf (by simp [eval, find]) (hr' _)
      · simp only [Bool.not_true, Bool.false_eq_true, if_false, if_true]
        refine Cmp.block (bind' := []) rfl (Cmp.ifNot ?_)
        rw [eval]
        simp only [List.nil_append]
        rw [hl, hr]
        simp only [Res.bind_ok, protoEqualV, if_true, truth]

theorem loc_mloc (hv : PtrOK E.S t v) (h : Loc path a v) : MLoc E.S path t a v := by
  rcases h with h | ⟨h', h⟩
  · exact .inl h
  · rcases hv with hv | hv
    · exact .inr ⟨h', .inl hv⟩
    · obtain ⟨s, u, e, rfl⟩ := wtM_isMsg hv
      cases h

theorem ptrEq_msg {T : GTy} (hT : ∀ x : Val, x = v ∨ x = w → Go.isNilG T x = x.isNil) (la : Loc path a v) (lb : Loc path b w)
    (hv : leaf v = true → v.isNil = true) (hw : leaf w = true → w.isNil = true) :
    ptrEq (ctx E eq) T a b v w = .ok (E.ptrEq path v w) := by
  unfold ptrEq CEnv.ptrEq
  rw [hT v (.inl rfl), hT w (.inr rfl)]
  by_cases hn : (v.isNil && w.isNil) = true
  · rw [if_pos hn, hn, Bool.true_or]
  · rw [if_neg hn]
    rw [Bool.not_eq_true] at hn
    rw [hn, Bool.false_or]
    have hne : ∀ {x y : Val}, leaf x = true → x.isNil = true → (x.isNil && y.isNil) = false → decide (x = y) = false := by
      intro x y _ h1 h2
      rw [h1, Bool.true_and] at h2
      rw [decide_eq_false_iff_not]
      rintro rfl
      rw [h1] at h2; cases h2
    rcases la with rfl | ⟨rfl, la⟩
    · rcases lb with rfl | ⟨rfl, lb⟩
      · simp
      · have := hne (y := v) lb (hw lb) (by rw [Bool.and_comm]; exact hn)
        have : decide (v = w) = false := by
          rw [decide_eq_false_iff_not] at this ⊢
          exact fun h => this h.symm
        rw [this, Bool.and_false]
    · rw [hne la (hv la) hn, Bool.and_false]

/-- `EqualVT` on pointers to messages compares the pointers as the model does, except for new structs. -/
theorem eqV_msg (hv : PtrOK E.S t v) (hw : PtrOK E.S t w) (la : Loc path a v) (lb : Loc path b w) :
    eqV (ctx E eq) (.val (.msg t) a v) (.val (.msg t) b w) = .ok (E.ptrEq path v w) := by
  have h : ∀ x, PtrOK E.S t x → leaf x = true → x.isNil = true := by
    intro x hx hl
    rcases hx with rfl | hx
    · rfl
    · obtain ⟨s, u, e, rfl⟩ := wtM_isMsg hx
      cases hl
  have : eqV (ctx E eq) (.val (.msg t) a v) (.val (.msg t) b w) = ptrEq (ctx E eq) (.msg t) a b v w := by simp [eqV]
  rw [this]
  exact ptrEq_msg (fun _ _ => rfl) la lb (h v hv) (h w hw)

theorem compareCall_cmp (hS : schemaOK E.S = true) (hG : G.OK E.S) (H : SubEqual E eq rec n) (nullable : Bool) (hv : PtrOK E.S t v) (hw : PtrOK E.S t w)
    (dv : v.depth ≤ n) (dw : w.depth ≤ n) (la : Loc path a v) (lb : Loc path b w)
    (hl : eval (ctx E eq) vs lhs = .ok (.val (.msg t) a v))
    (hr : eval (ctx E eq) vs rhs = .ok (.val (.msg t) b w)) (hr' : ∀ g, eval (ctx E eq) ((.equal, g) :: vs) rhs = .ok (.val (.msg t) b w)) :
    Cmp (ctx E eq) (Emit.compareCall G lhs rhs t nullable) vs vs (compareCall E rec nullable path t v w) := by
  unfold Emit.compareCall compareCall
  cases nullable
  · simp only [Bool.false_eq_true, if_false]
    have hc := eval_ne (C := ctx E eq) (vs := (.q, .val (.msg t) b w) :: (.p, .val (.msg t) a v) :: vs) (lhs := .id .p) (rhs := .id .q)
      (by simp [eval, find]) (by simp [eval, find]) (eqV_msg hv hw la lb)
    simp only [Res.bind_ok] at hc
    have hnew : ∀ x c, PtrOK E.S t x → Loc path c x → ∃ c', MLoc E.S path t c' (if x.isNil then zeroMsg E.S t else x) ∧
        (if x.isNil then V.val (.msg t) none (zeroMsg E.S t) else .val (.msg t) c x) = .val (.msg t) c' (if x.isNil then zeroMsg E.S t else x) := by
      intro x c hx hl
      cases hn : x.isNil
      · exact ⟨c, loc_mloc hx hl, rfl⟩
      · exact ⟨none, .inr ⟨rfl, .inr rfl⟩, rfl⟩
    have hok : ∀ x, PtrOK E.S t x → PtrOK E.S t (if x.isNil then zeroMsg E.S t else x) := by
      intro x hx
      split
      · exact zeroMsg_ptrOK hS t
      · exact hx
    obtain ⟨a', la', ea⟩ := hnew v a hv la
    obtain ⟨b', lb', eb⟩ := hnew w b hw lb
    refine Cmp.ifWith (v' := .val (.msg t) a' (if v.isNil then zeroMsg E.S t else v)) (w' := .val (.msg t) b' (if w.isNil then zeroMsg E.S t else w)) hl hr hc (fun ht => ?_) (fun ht => ?_)
    · have hpe : E.ptrEq path v w = false := by simpa using ht
      rw [hpe]
      simp only [Bool.false_eq_true, if_false]
      have hd : (if v.isNil then zeroMsg E.S t else v).depth ≤ n ∧ (if w.isNil then zeroMsg E.S t else w).depth ≤ n := by
        have h1 : v.isNil = true → w.isNil = true → False := fun h1 h2 => by simp [CEnv.ptrEq, h1, h2] at hpe
        have hp : ∀ x, PtrOK E.S t x → x.isNil = false → 1 ≤ x.depth := by
          intro x hx hn
          rcases hx with rfl | hx
          · cases hn
          · obtain ⟨s, u, e, rfl⟩ := wtM_isMsg hx
            rw [Val.depth]; omega
        constructor
        · split
          · rename_i h
            rw [zeroMsg_depth]
            exact le_trans (hp w hw (by simpa using fun h2 => h1 h h2)) dw
          · exact dv
        · split
          · rename_i h
            rw [zeroMsg_depth]
            exact le_trans (hp v hv (by simpa using fun h2 => h1 h2 h)) dv
          · exact dw
      refine Cmp.next (ws := (.q, .val (.msg t) b w) :: (.p, .val (.msg t) a' (if v.isNil then zeroMsg E.S t else v)) :: vs) ?_ ?_
      · rw [← ea]
        have he := eval_eqNil (C := ctx E eq) (vs := (.q, .val (.msg t) b w) :: (.p, .val (.msg t) a v) :: vs) (e := .id .p) (T := .msg t) (x := a) (v := v) (by simp [eval, find]) rfl
        rw [exec, he]
        cases hn : v.isNil <;> simp [truth, Go.isNilG, hn, block, exec, eval, update]
      · refine Cmp.next (ws := (.q, .val (.msg t) b' (if w.isNil then zeroMsg E.S t else w)) :: (.p, .val (.msg t) a' (if v.isNil then zeroMsg E.S t else v)) :: vs) ?_ ?_
        · rw [← eb]
          have he := eval_eqNil (C := ctx E eq) (vs := (.q, .val (.msg t) b w) :: (.p, .val (.msg t) a' (if v.isNil then zeroMsg E.S t else v)) :: vs) (e := .id .q) (T := .msg t) (x := b) (v := w) (by simp [eval, find]) rfl
          rw [exec, he]
          cases hn : w.isNil <;> simp [truth, Go.isNilG, hn, block, exec, eval, update]
        · exact callEqual_cmp hG H (hok v hv) (hok w hw) hd.1 hd.2 la' lb' (by simp [eval, find]) (by simp [eval, find]) (fun g => by simp [eval, find])
    · have hpe : E.ptrEq path v w = true := by simpa using ht
      rw [hpe]
      rfl
  · simp only [if_true]
    exact callEqual_cmp hG H hv hw dv dw (loc_mloc hv la) (loc_mloc hw lb) hl hr hr'

/-- Static type of a value that is compared. -/
def cmpTy (k : Kind) (t : Nat) (nullable : Bool) : GTy := if nullable && scalarKind k then .ptr k else elemTy k t

theorem compareKind_cmp (hS : schemaOK E.S = true) (hG : G.OK E.S) (H : SubEqual E eq rec n) (nullable : Bool)
    (hv : k = .message ∨ k = .group → PtrOK E.S t v) (hw : k = .message ∨ k = .group → PtrOK E.S t w)
    (dv : v.depth ≤ n) (dw : w.depth ≤ n) (la : Loc path a v) (lb : Loc path b w)
    (hl : eval (ctx E eq) vs lhs = .ok (.val (cmpTy k t nullable) a v))
    (hr : eval (ctx E eq) vs rhs = .ok (.val (cmpTy k t nullable) b w))
    (hr' : ∀ g, eval (ctx E eq) ((.equal, g) :: vs) rhs = .ok (.val (cmpTy k t nullable) b w)) :
    Cmp (ctx E eq) (Emit.compareKind G lhs rhs k t nullable) vs vs (compareKind E rec nullable path k t v w) := by
  by_cases hk : scalarKind k = true
  · have h1 : Emit.compareKind G lhs rhs k t nullable = Emit.compareScalar lhs rhs nullable := by
      revert hk; cases k <;> simp [scalarKind, Emit.compareKind]
    have h2 : compareKind E rec nullable path k t v w = compareScalar nullable k v w := by
      revert hk; cases k <;> simp [scalarKind, compareKind]
    rw [h1, h2]
    unfold cmpTy at hl hr
    rw [hk, Bool.and_true] at hl hr
    exact compareScalar_cmp (t := t) hk nullable hl hr
  · cases k with
    | bytes =>
      simp only [cmpTy, scalarKind, Bool.and_false, Bool.false_eq_true, if_false, elemTy] at hl hr
      exact compareBytes_cmp nullable hl hr
    | message =>
      simp only [cmpTy, scalarKind, Bool.and_false, Bool.false_eq_true, if_false, elemTy] at hl hr hr'
      exact compareCall_cmp hS hG H nullable (hv (.inl rfl)) (hw (.inl rfl)) dv dw la lb hl hr hr'
    | group =>
      simp only [cmpTy, scalarKind, Bool.and_false, Bool.false_eq_true, if_false, elemTy] at hl hr hr'
      exact compareCall_cmp hS hG H nullable (hv (.inr rfl)) (hw (.inr rfl)) dv dw la lb hl hr hr'
    | _ => exact absurd rfl hk

end Vtp.GoE
