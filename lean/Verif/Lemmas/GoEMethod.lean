import Verif.Lemmas.GoEKind
/-!
# The code printed for `EqualVT`: fields, oneofs, whole methods
-/

namespace Vtp.GoE
open Spec
open Go (GTy GenCfg elemTy fieldTy slotTy memberTy numTy)

variable {E : CEnv} {eq : GTy → V → V → Res Bool} {vs : Vars} {lhs rhs : Expr} {a b : Option (List Nat)} {v w : Val} {k : Kind} {t : Nat} {path : List Nat}
variable {G : GenCfg} {rec : SubEq} {n : Nat}

theorem loop_cmp {α : Type} {g : α → Nat → V × V} {h : Nat → α → Res Bool} {F : V × V → Vars → Res Flow} : ∀ (l : List α) (i : Nat),
    (∀ j x, l[j]? = some x → F (g x (i + j)) vs = h (i + j) x >>= fun b => .ok (if b then .next vs else .ret false)) →
    loop F ((l.zipIdx i).map fun p => g p.1 p.2) vs = allIdx h i l >>= fun b => .ok (if b then .next vs else .ret false)
  | [], i, _ => rfl
  | x :: l, i, H => by
    have h0 := H 0 x (by simp)
    rw [Nat.add_zero] at h0
    have ih := loop_cmp (g := g) (h := h) (F := F) l (i + 1) fun j y hj => by
      have := H (j + 1) y (by simpa using hj)
      rwa [show i + (j + 1) = i + 1 + j by omega] at this
    rw [List.zipIdx_cons, List.map_cons, loop, h0, allIdx]
    rcases h i x with z | z | z | _
    · cases z
      · rfl
      · simp only [Res.bind_ok, if_true]
        exact ih
    · rfl
    · rfl
    · rfl

theorem eval_this {s : List Val} {u e : Bytes} {x : Id} (h : find x vs = .ok (.val (.msg t) a (.msg s u e))) (i : Nat) :
    eval (ctx E eq) vs (.sel (.id x) (.slot t i)) = .ok (.val (slotTy E.S t i) (a.map (· ++ [i])) (s.getD i .nil)) := by
  simp [eval, h, selV]

theorem find_append {x : Id} : ∀ {pre : Vars}, (pre.all fun p => decide (x ≠ p.1)) = true → find x (pre ++ vs) = find x vs
  | [], _ => rfl
  | (y, g) :: pre, h => by
    rw [List.all_cons, Bool.and_eq_true, decide_eq_true_iff] at h
    rw [List.cons_append, find, if_neg h.1, find_append h.2]

/-- A message the method is called on: the receiver or the argument. -/
structure Sees (E : CEnv) (vs : Vars) (x : Id) (path : List Nat) (t : Nat) (s : List Val) (u e : Bytes) where
  at_ : Option (List Nat)
  find : find x vs = .ok (.val (.msg t) at_ (.msg s u e))
  loc : MLoc E.S path t at_ (.msg s u e)

theorem zeroSlot_leaf (d : MsgDesc) (i : Nat) : leaf (zeroSlot d i) = true := by
  unfold zeroSlot
  split
  · rename_i f _
    unfold zeroField
    split
    · rfl
    · cases f.kind <;> rfl
  · rfl

theorem Sees.slot {x : Id} {s : List Val} {u e : Bytes} (h : Sees E vs x path t s u e) (i : Nat) : Loc (path ++ [i]) (h.at_.map (· ++ [i])) (s.getD i .nil) := by
  rcases h.loc with h1 | ⟨h1, h2⟩
  · rw [h1]; exact .inl rfl
  · rw [h1]
    refine .inr ⟨rfl, ?_⟩
    rcases h2 with h2 | h2
    · cases h2
    · unfold zeroMsg at h2
      injection h2 with h2
      rw [h2, List.getD_eq_getElem?_getD, List.getElem?_map]
      cases (List.range (E.S.msg t).nslots)[i]? with
      | none => rfl
      | some j => exact zeroSlot_leaf _ _

theorem leaf_elems (h : leaf v = true) : v.elems = [] := by
  cases v <;> first | rfl | cases h

theorem leaf_entries (h : leaf v = true) : v.entries = [] := by
  cases v <;> first | rfl | cases h

theorem asKey_toVal (key : Key) : Go.asKey key.toVal = some key := by cases key <;> rfl

theorem loc_elem {i : Nat} {x : Val} (h : Loc path a v) (hx : v.elems[i]? = some x) : a = some path := by
  rcases h with h | ⟨_, h⟩
  · exact h
  · rw [leaf_elems h] at hx; cases hx

theorem loc_entry {x : Key × Val} (h : Loc path a v) (hx : x ∈ v.entries) : a = some path := by
  rcases h with h | ⟨_, h⟩
  · exact h
  · rw [leaf_entries h] at hx; cases hx

/-- A block whose statements declare variables too. -/
theorem Cmp.blockAny {C : Ctx} {s : Stmt} {r : Res Bool} {bind bind' : Vars} (h : Cmp C s (bind ++ vs) (bind' ++ vs) r) :
    GoE.block bind (exec C s) vs = r >>= fun b => .ok (if b then .next vs else .ret false) := by
  unfold GoE.block
  unfold Cmp at h
  rw [h]
  rcases r with x | x | x | _
  · cases x
    · rfl
    · simp
  · rfl
  · rfl
  · rfl

theorem elemOK_ptr {k : Kind} (h : elemOK (wtM E.S .typedNil) k t v = true) : k = .message ∨ k = .group → PtrOK E.S t v :=
  fun hk => ptrOK_of hk h

theorem field_cmp (hS : schemaOK E.S = true) (hG : G.OK E.S) (H : SubEqual E eq rec n) {s s' : List Val} {u u' e e' : Bytes}
    (A : Sees E vs .this path t s u e) (B : Sees E vs .that path t s' u' e') {f : FieldDesc} (hf : f ∈ (E.S.msg t).fields) (ho : f.oneof = false)
    (hv : fieldOK (wtM E.S .typedNil) f (slotOf s f) = true) (hw : fieldOK (wtM E.S .typedNil) f (slotOf s' f) = true)
    (dv : (slotOf s f).depth ≤ n) (dw : (slotOf s' f).depth ≤ n) :
    Cmp (ctx E eq) (Emit.field G t f ((E.S.msg t).nullable f)) vs vs
      (compareField E rec (path ++ [f.slot]) f ((E.S.msg t).nullable f) (slotOf s f) (slotOf s' f)) := by
  have hd := schemaOK_msg hS t
  have ff := hd.fields f hf
  have hty := Go.slotTy_field hd hf ho
  have ha := eval_this (E := E) (eq := eq) A.find f.slot
  have hb := eval_this (E := E) (eq := eq) B.find f.slot
  have la := A.slot f.slot
  have lb := B.slot f.slot
  rw [hty] at ha hb
  change eval (ctx E eq) vs (.sel (.id .this) (.slot t f.slot)) = .ok (.val (fieldTy f) _ (slotOf s f)) at ha
  change eval (ctx E eq) vs (.sel (.id .that) (.slot t f.slot)) = .ok (.val (fieldTy f) _ (slotOf s' f)) at hb
  change Loc _ _ (slotOf s f) at la
  change Loc _ _ (slotOf s' f) at lb
  have hb' : ∀ pre : Vars, (pre.all fun p => decide (Id.that ≠ p.1)) = true →
      eval (ctx E eq) (pre ++ vs) (.sel (.id .that) (.slot t f.slot)) = .ok (.val (fieldTy f) (B.at_.map (· ++ [f.slot])) (slotOf s' f)) := by
    intro pre hp
    have := eval_this (E := E) (eq := eq) ((find_append hp).trans B.find) f.slot
    rw [hty] at this
    exact this
  generalize A.at_.map (· ++ [f.slot]) = a at *
  generalize B.at_.map (· ++ [f.slot]) = b at *
  generalize slotOf s f = v at *
  generalize slotOf s' f = w at *
  unfold Emit.field compareField
  by_cases hc : f.card = .repeated
  · simp only [hc, beq_self_eq_true, if_true]
    have hlen : ∀ {x : Expr} {c : Option (List Nat)} {y : Val}, eval (ctx E eq) vs x = .ok (.val (fieldTy f) c y) → eval (ctx E eq) vs (.len x) = .ok (.int (f.len y)) := by
      intro x c y hx
      rw [eval, hx]
      simp only [Res.bind_ok]
      cases hm : f.map with
      | none => simp [fieldTy, hm, hc, lenV, FieldDesc.len]
      | some md => simp [fieldTy, hm, lenV, FieldDesc.len]
    have hl : Cmp (ctx E eq) (.ite (.ne (.len (.sel (.id .this) (.slot t f.slot))) (.len (.sel (.id .that) (.slot t f.slot)))) (.ret .ff) .skip) vs vs
        (.ok (f.len v == f.len w)) := Cmp.ifRet (eval_ne (hlen ha) (hlen hb) rfl)
    cases hm : f.map with
    | some md =>
      simp only
      refine (Cmp.seq (us := vs) (r' := allIdx (fun i (e : Key × Val) =>
          match mapGet w e.1 with
          | none => .ok false
          | some y => compareKind E rec false (path ++ [f.slot] ++ [i]) md.val md.valMsg e.2 y) 0 v.entries) hl fun _ => ?_).cast ?_
      · have hT : fieldTy f = .map md := by simp [fieldTy, hm]
        rw [hT] at ha hb hb'
        unfold Cmp
        rw [exec, ha]
        simp only [Res.bind_ok, rangeV]
        refine loop_cmp (g := fun (p : Key × Val) (i : Nat) => (V.val (elemTy md.key 0) (some [i]) p.1.toVal, V.val (elemTy md.val md.valMsg) (a.map (· ++ [i])) p.2)) v.entries 0 fun j x hj => ?_
        rw [Nat.zero_add]
        have hmem := List.mem_of_getElem? hj
        have ha' := loc_entry la hmem
        subst ha'
        have hE : ∀ y, fieldOK (wtM E.S .typedNil) f y = true → ∀ e ∈ y.entries, elemOK (wtM E.S .typedNil) md.val md.valMsg e.2 = true := by
          intro y hy
          unfold fieldOK at hy
          simp only [hm] at hy
          cases y <;> simp only at hy <;> try cases hy
          · simp [Val.entries]
          · simp only [Bool.and_eq_true, decide_eq_true_iff, List.all_eq_true] at hy
            exact fun e hm => (hy.2 e hm).2
        have hr := hb' [(.vx, .val (elemTy md.val md.valMsg) (some (path ++ [f.slot] ++ [j])) x.2), (.i, .val (elemTy md.key 0) (some [j]) x.1.toVal)] rfl
        simp only [Option.map_some]
        cases hg : mapGet w x.1 with
        | none =>
          refine Cmp.blockAny (bind' := [(.ok, .bool false), (.vy, .val (elemTy md.val md.valMsg) none (Go.zeroG (elemTy md.val md.valMsg))),
            (.vx, .val (elemTy md.val md.valMsg) (some (path ++ [f.slot] ++ [j])) x.2), (.i, .val (elemTy md.key 0) (some [j]) x.1.toVal)]) ?_
          refine Cmp.next (ws := [(.ok, .bool false), (.vy, .val (elemTy md.val md.valMsg) none (Go.zeroG (elemTy md.val md.valMsg))),
            (.vx, .val (elemTy md.val md.valMsg) (some (path ++ [f.slot] ++ [j])) x.2), (.i, .val (elemTy md.key 0) (some [j]) x.1.toVal)] ++ vs) ?_ ?_
          · rw [exec, hr]
            simp [eval, find, lookupV, asKey_toVal, hg]
          · exact (Cmp.seq (r' := .ok false) (Cmp.ifNot (r := .ok false) (by simp [eval, find, truth])) (fun h => by cases h)).cast rfl
        | some y =>
          have hy := lookup_mem ((mapGet_eq w x.1).symm.trans hg)
          have hb'' := loc_entry lb hy
          subst hb''
          let ws : Vars := [(.ok, .bool true), (.vy, .val (elemTy md.val md.valMsg) (some (path ++ [f.slot] ++ [j])) y),
            (.vx, .val (elemTy md.val md.valMsg) (some (path ++ [f.slot] ++ [j])) x.2), (.i, .val (elemTy md.key 0) (some [j]) x.1.toVal)]
          refine Cmp.blockAny (bind' := ws) ?_
          refine Cmp.next (ws := ws ++ vs) ?_ ?_
          · rw [exec, hr]
            simp [eval, find, lookupV, asKey_toVal, hg, ws]
          · refine (Cmp.seq (r' := compareKind E rec false (path ++ [f.slot] ++ [j]) md.val md.valMsg x.2 y) (Cmp.ifNot (r := .ok true) (by simp [eval, find, truth, ws])) (fun _ => ?_)).cast ?_
            · exact compareKind_cmp hS hG H false (elemOK_ptr (hE v hv _ hmem)) (elemOK_ptr (hE w hw _ hy)) (le_trans (depth_entries hmem) dv) (le_trans (depth_entries hy) dw)
                (.inl rfl) (.inl rfl) (by simp [eval, find, ws, cmpTy]) (by simp [eval, find, ws, cmpTy]) (fun g => by simp [eval, find, ws, cmpTy])
            · simp
      · by_cases h : f.len v = f.len w
        · rw [if_neg (not_not.2 h), beq_iff_eq.2 h]
          rfl
        · rw [if_pos h, beq_eq_false_iff_ne.2 h]
          rfl
    | none =>
      simp only
      refine (Cmp.seq (us := vs) (r' := allIdx (fun i x => do
          let y ← indexVal w i
          compareKind E rec false (path ++ [f.slot] ++ [i]) f.kind f.msg x y) 0 v.elems) hl fun _ => ?_).cast ?_
      · have hT : fieldTy f = .list f.kind f.msg := by simp [fieldTy, hm, hc]
        rw [hT] at ha hb hb'
        unfold Cmp
        rw [exec, ha]
        simp only [Res.bind_ok, rangeV]
        refine loop_cmp (g := fun (p : Val) (i : Nat) => (V.int i, V.val (elemTy f.kind f.msg) (a.map (· ++ [i])) p)) v.elems 0 fun j x hj => ?_
        rw [Nat.zero_add]
        have hmem := List.mem_of_getElem? hj
        have ha' := loc_elem la hj
        subst ha'
        have hE : ∀ y, fieldOK (wtM E.S .typedNil) f y = true → ∀ e ∈ y.elems, elemOK (wtM E.S .typedNil) f.kind f.msg e = true := by
          intro y hy
          unfold fieldOK at hy
          simp only [hm, hc, beq_self_eq_true, if_true] at hy
          cases y <;> simp only at hy <;> try cases hy
          · simp [Val.elems]
          · simp only [Bool.and_eq_true, List.all_eq_true] at hy
            exact hy.1
        have hr := hb' [(.vx, .val (elemTy f.kind f.msg) (some (path ++ [f.slot] ++ [j])) x), (.i, .int j)] rfl
        simp only [Option.map_some]
        unfold indexVal
        cases hg : w.elems[j]? with
        | none =>
          unfold block
          rw [exec, exec, eval, hr]
          simp [eval, find, indexV, hg]
        | some y =>
          have hy := List.mem_of_getElem? hg
          have hb'' := loc_elem lb hg
          subst hb''
          let ws : Vars := [(.vy, .val (elemTy f.kind f.msg) (some (path ++ [f.slot] ++ [j])) y),
            (.vx, .val (elemTy f.kind f.msg) (some (path ++ [f.slot] ++ [j])) x), (.i, .int j)]
          refine Cmp.blockAny (bind' := ws) ?_
          refine Cmp.next (ws := ws ++ vs) ?_ ?_
          · rw [exec, eval, hr]
            simp [eval, find, indexV, hg, ws]
          · exact compareKind_cmp hS hG H false (elemOK_ptr (hE v hv _ hmem)) (elemOK_ptr (hE w hw _ hy)) (le_trans (depth_elems hmem) dv) (le_trans (depth_elems hy) dw)
              (.inl rfl) (.inl rfl) (by simp [eval, find, ws, cmpTy]) (by simp [eval, find, ws, cmpTy]) (fun g => by simp [eval, find, ws, cmpTy])
      · by_cases h : f.len v = f.len w
        · rw [if_neg (not_not.2 h), beq_iff_eq.2 h]
          rfl
        · rw [if_pos h, beq_eq_false_iff_ne.2 h]
          rfl
  · have hc' : (f.card == .repeated) = false := by simpa using hc
    simp only [hc', Bool.false_eq_true, if_false]
    have hm : f.map = none := by
      cases hm : f.map with
      | none => rfl
      | some md => exact absurd (ff.map md hm).1 hc
    have hn := nullable_iff ff hc ho
    have hct : fieldTy f = cmpTy f.kind f.msg ((E.S.msg t).nullable f) := by
      rw [hn]
      unfold fieldTy cmpTy
      simp only [hm, hc', Bool.false_eq_true, if_false]
      unfold FieldDesc.hasMessage
      cases f.presence <;> cases f.kind <;> simp [scalarKind, elemTy]
    have hp : ∀ x, fieldOK (wtM E.S .typedNil) f x = true → f.kind = .message ∨ f.kind = .group → PtrOK E.S f.msg x := by
      intro x hx hk
      have hpres := ff.singMsg hc (by simpa [FieldDesc.hasMessage] using hk)
      unfold fieldOK at hx
      simp only [hm, hc', Bool.false_eq_true, if_false, hpres, if_true, Bool.or_eq_true, isNil_iff] at hx
      exact hx.elim .inl (ptrOK_of hk)
    rw [hct] at ha hb
    exact compareKind_cmp hS hG H _ (hp v hv) (hp w hw) dv dw la lb ha hb fun g => by rw [← hct]; exact hb' [(.equal, g)] rfl

theorem result_true {C : Ctx} {s : Stmt} {ws : Vars} {r : Res Bool} (h : Cmp C s vs ws r) : result (exec C (s ;; .ret .tt) vs) = r := by
  unfold Cmp at h
  rw [exec, h]
  rcases r with x | x | x | _
  · cases x <;> rfl
  · rfl
  · rfl
  · rfl

theorem exec_seq {C : Ctx} {s s' : Stmt} {ws : Vars} (h : exec C s vs = .ok (.next ws)) : exec C (s ;; s') vs = exec C s' ws := by
  rw [exec, h]
  rfl

theorem exec_ret {C : Ctx} {s s' : Stmt} {x : Bool} (h : exec C s vs = .ok (.ret x)) : exec C (s ;; s') vs = .ok (.ret x) := by
  rw [exec, h]
  rfl

/-- The type assertion at the start of a wrapper's `EqualVT`. -/
theorem wrapper_assert {f : FieldDesc} {m slot : Nat} {g : V} {rest : Stmt} (hd : dyn (.val (.iface t slot) b w) = some (t, m, g)) :
    exec (ctx E eq) (.assert .that (.id .thatIface) t f.num (G.wellKnown t) ;;
      .ite (.not (.id .ok))
        (if G.wellKnown t then .ifType .ot (.id .thatIface) t f.num (.assign .that (.known (.id .ot))) (.ret .ff) else .ret .ff) .skip ;; rest)
      [(.thatIface, .val (.iface t slot) b w), (.this, .val (.wrapper t f.num) a v)] =
    if m = f.num then exec (ctx E eq) rest [(.ok, .bool !(G.wellKnown t)), (.that, g), (.thatIface, .val (.iface t slot) b w), (.this, .val (.wrapper t f.num) a v)]
    else .ok (.ret false) := by
  by_cases hm : m = f.num
  · rw [if_pos hm]
    cases hk : G.wellKnown t
    · rw [exec_seq (ws := [(.ok, .bool true), (.that, g), (.thatIface, .val (.iface t slot) b w), (.this, .val (.wrapper t f.num) a v)])
        (by simp [exec, eval, find, assertV, hd, hm])]
      rw [exec_seq (ws := [(.ok, .bool true), (.that, g), (.thatIface, .val (.iface t slot) b w), (.this, .val (.wrapper t f.num) a v)])
        (by simp [exec, eval, find, truth, block])]
      rfl
    · rw [exec_seq (ws := [(.ok, .bool false), (.that, .val (.wrapper t f.num) none (.wrapNil f.num)), (.thatIface, .val (.iface t slot) b w), (.this, .val (.wrapper t f.num) a v)])
        (by simp [exec, eval, find, assertV, hd])]
      rw [exec_seq (ws := [(.ok, .bool false), (.that, g), (.thatIface, .val (.iface t slot) b w), (.this, .val (.wrapper t f.num) a v)])
        (by simp [exec, eval, find, truth, block, assertV, hd, hm, update])]
      rfl
  · rw [if_neg hm]
    rw [exec_seq (ws := [(.ok, .bool false), (.that, .val (.wrapper t f.num) none (.wrapNil f.num)), (.thatIface, .val (.iface t slot) b w), (.this, .val (.wrapper t f.num) a v)])
        (by simp [exec, eval, find, assertV, hd, hm])]
    refine exec_ret ?_
    cases G.wellKnown t <;> simp [exec, eval, find, truth, block, assertV, hd, hm]

/-- The wrapper a pointer points to, or nil. -/
def wrapNum : Val → Option Nat
  | .wrap n _ => some n
  | .wrapNil n => some n
  | _ => none

theorem wrapper_eq (hS : schemaOK E.S = true) (hG : G.OK E.S) (H : SubEqual E eq rec n) {f : FieldDesc} (hf : f ∈ (E.S.msg t).fields) {slot : Nat}
    (hv : oneofOK .typedNil (wtM E.S .typedNil) (E.S.msg t) slot v = true) (hw : oneofOK .typedNil (wtM E.S .typedNil) (E.S.msg t) slot w = true)
    (hmem : (E.S.msg t).member slot f.num = some f) (hn : wrapNum v = some f.num) {m : Nat} (hm : wrapNum w = some m)
    (dv : v.depth ≤ n) (dw : w.depth ≤ n) :
    result (exec (ctx E eq) (Emit.wrapper G t f) [(.thatIface, .val (.iface t slot) (some path) w), (.this, .val (.wrapper t f.num) (some path) v)]) =
      wrapperEqual E rec path f v w := by
  have hd := schemaOK_msg hS t
  have hty := Go.memberTy_field hd hf
  have hdyn : dyn (.val (.iface t slot) (some path) w) = some (t, m, .val (.wrapper t m) (some path) w) := by
    cases w <;> simp only [wrapNum, Option.some.injEq, reduceCtorEq] at hm <;> subst hm <;> rfl
  unfold Emit.wrapper
  rw [wrapper_assert hdyn]
  cases v <;> simp only [wrapNum, Option.some.injEq, reduceCtorEq] at hn
  case wrap n0 x =>
    subst hn
    cases w <;> simp only [wrapNum, Option.some.injEq, reduceCtorEq] at hm
    case wrap n1 y =>
      subst hm
      unfold wrapperEqual
      by_cases hq : n1 = f.num
      · subst hq
        simp only [if_true, ne_eq, not_true_eq_false, if_false]
        simp only [oneofOK, hmem, Bool.and_eq_true] at hv hw
        simp only [Val.depth] at dv dw
        generalize hvs : ([(.ok, .bool !(G.wellKnown t)), (.that, .val (.wrapper t f.num) (some path) (.wrap f.num y)),
          (.thatIface, .val (.iface t slot) (some path) (.wrap f.num y)), (.this, .val (.wrapper t f.num) (some path) (.wrap f.num x))] : Vars) = us
        have h1 : find .this us = .ok (.val (.wrapper t f.num) (some path) (.wrap f.num x)) := by subst hvs; rfl
        have h2 : find .that us = .ok (.val (.wrapper t f.num) (some path) (.wrap f.num y)) := by subst hvs; rfl
        have he : eqV (ctx E eq) (.val (.wrapper t f.num) (some path) (.wrap f.num x)) (.val (.wrapper t f.num) (some path) (.wrap f.num y)) =
            .ok (E.ptrEq path (.wrap f.num x) (.wrap f.num y)) := by
          simp [eqV, ptrEq, Go.isNilG, CEnv.ptrEq, Val.isNil]
        cases hp : E.ptrEq path (.wrap f.num x) (.wrap f.num y) with
        | true =>
          rw [hp] at he
          rw [exec_ret (x := true)]
          · rfl
          · simp [exec, eval, h1, h2, he, truth, block]
        | false =>
          rw [hp] at he
          rw [exec_seq (ws := us) (by simp [exec, eval, h1, h2, he, truth, block])]
          rw [exec_seq (ws := us) (by simp [exec, eval, h1, h2, truth, block, eqV, nilable, Go.isNilG])]
          simp only [Bool.false_eq_true, if_false]
          refine result_true (ws := us) ?_
          refine compareKind_cmp (a := some (path ++ [0])) (b := some (path ++ [0])) hS hG H false (elemOK_ptr hv.1) (elemOK_ptr hw.1) (by omega) (by omega) (.inl rfl) (.inl rfl) ?_ ?_ fun g => ?_
          · simp [eval, h1, selV, hty, cmpTy]
          · simp [eval, h2, selV, hty, cmpTy]
          · simp [eval, find, h2, selV, hty, cmpTy]
      · simp [hq, result]
    case wrapNil n1 =>
      subst hm
      unfold wrapperEqual
      by_cases hq : n1 = f.num
      · subst hq
        simp [exec, eval, find, eqV, ptrEq, Go.isNilG, truth, block, nilable, result]
      · rw [if_neg hq]; rfl
  case wrapNil n0 =>
    subst hn
    cases w <;> simp only [wrapNum, Option.some.injEq, reduceCtorEq] at hm
    case wrap n1 y =>
      subst hm
      unfold wrapperEqual
      by_cases hq : n1 = f.num
      · subst hq
        simp [exec, eval, find, eqV, ptrEq, Go.isNilG, truth, block, nilable, result]
      · rw [if_neg hq]; rfl
    case wrapNil n1 =>
      subst hm
      unfold wrapperEqual
      by_cases hq : n1 = f.num
      · subst hq
        simp [exec, eval, find, eqV, ptrEq, Go.isNilG, truth, block, result]
      · simp [hq, result]

/-- `EqualVT` of oneof wrappers behaves like `wrapperEqual` up to a depth. -/
def SubWrapEqual (E : CEnv) (eq : GTy → V → V → Res Bool) (rec : SubEq) (n : Nat) : Prop :=
  ∀ path t slot f v w m, f ∈ (E.S.msg t).fields → oneofOK .typedNil (wtM E.S .typedNil) (E.S.msg t) slot v = true →
    oneofOK .typedNil (wtM E.S .typedNil) (E.S.msg t) slot w = true → (E.S.msg t).member slot f.num = some f → wrapNum v = some f.num → wrapNum w = some m →
    v.depth ≤ n → w.depth ≤ n →
    eq (.wrapper t f.num) (.val (.wrapper t f.num) (some path) v) (.val (.iface t slot) (some path) w) = wrapperEqual E rec path f v w

theorem oneofCases_cmp {r : Res Bool} {m slot : Nat} {g g' : V} (hl : eval (ctx E eq) vs lhs = .ok g') (hdyn : dyn g' = some (t, m, g))
    (hc : Cmp (ctx E eq) (.ite (.not (.call (.known (.id .c)) rhs)) (.ret .ff) .skip) ((.c, g) :: vs) ((.c, g) :: vs) r) :
    ∀ {fs : List FieldDesc}, (∃ f ∈ fs, f.num = m) → Cmp (ctx E eq) (Emit.oneofCases lhs rhs t fs) vs vs r
  | [], h => by obtain ⟨f, hf, _⟩ := h; cases hf
  | f :: fs, h => by
    unfold Cmp
    rw [Emit.oneofCases, exec, hl]
    simp only [Res.bind_ok, assertV, hdyn]
    by_cases hm : m = f.num
    · simp only [hm, and_self, if_true]
      exact Cmp.block (bind := [(.c, g)]) (bind' := [(.c, g)]) rfl hc
    · simp only [hm, false_and, and_false, if_false]
      have ih := oneofCases_cmp (slot := slot) hl hdyn hc (fs := fs) (by
        obtain ⟨f', hf, h2⟩ := h
        rcases List.mem_cons.1 hf with rfl | hf
        · exact absurd h2.symm hm
        · exact ⟨f', hf, h2⟩)
      exact Cmp.block (bind := []) (bind' := []) rfl ih

theorem compareOneof_eq (d : MsgDesc) (slot : Nat) : compareOneof E rec path d slot v w =
    if v.isNil && !w.isNil then .ok false else if !v.isNil then if w.isNil then .ok false else match d.member slot ((wrapNum v).getD 0) with
      | some f => wrapperEqual E rec path f v w
      | none => .panic .typeAssertion
    else .ok true := by
  unfold compareOneof
  cases v <;> rfl

theorem oneof_cmp (hS : schemaOK E.S = true) (W : SubWrapEqual E eq rec n) {s s' : List Val} {u u' e e' : Bytes}
    (A : Sees E vs .this path t s u e) (B : Sees E vs .that path t s' u' e') {f : FieldDesc} (hf : f ∈ (E.S.msg t).fields) (ho : f.oneof = true)
    (hv : oneofOK .typedNil (wtM E.S .typedNil) (E.S.msg t) f.slot (slotOf s f) = true)
    (hw : oneofOK .typedNil (wtM E.S .typedNil) (E.S.msg t) f.slot (slotOf s' f) = true)
    (dv : (slotOf s f).depth ≤ n) (dw : (slotOf s' f).depth ≤ n) :
    Cmp (ctx E eq) (Emit.oneof G (E.S.msg t) t f.slot) vs vs
      (compareOneof E rec (path ++ [f.slot]) (E.S.msg t) f.slot (slotOf s f) (slotOf s' f)) := by
  have hd := schemaOK_msg hS t
  have hty := Go.slotTy_oneof hd hf ho
  have ha := eval_this (E := E) (eq := eq) A.find f.slot
  have hb := eval_this (E := E) (eq := eq) B.find f.slot
  have la := A.slot f.slot
  have lb := B.slot f.slot
  rw [hty] at ha hb
  change eval (ctx E eq) vs (.sel (.id .this) (.slot t f.slot)) = .ok (.val (.iface t f.slot) _ (slotOf s f)) at ha
  change eval (ctx E eq) vs (.sel (.id .that) (.slot t f.slot)) = .ok (.val (.iface t f.slot) _ (slotOf s' f)) at hb
  change Loc _ _ (slotOf s f) at la
  change Loc _ _ (slotOf s' f) at lb
  have hb' : ∀ g, eval (ctx E eq) ((.c, g) :: vs) (.sel (.id .that) (.slot t f.slot)) = .ok (.val (.iface t f.slot) (B.at_.map (· ++ [f.slot])) (slotOf s' f)) := by
    intro g
    have := eval_this (E := E) (eq := eq) ((find_append (pre := [(.c, g)]) rfl).trans B.find) f.slot
    rw [hty] at this
    exact this
  generalize A.at_.map (· ++ [f.slot]) = a at *
  generalize B.at_.map (· ++ [f.slot]) = b at *
  generalize slotOf s f = v at *
  generalize slotOf s' f = w at *
  have hx : ∀ x, oneofOK .typedNil (wtM E.S .typedNil) (E.S.msg t) f.slot x = true →
      x = .nil ∨ (x.isNil = false ∧ leaf x = false ∧ ∃ m g, wrapNum x = some m ∧ (E.S.msg t).member f.slot m = some g) := by
    intro x hx
    cases x <;> simp only [oneofOK, Bool.false_eq_true] at hx
    case nil => exact .inl rfl
    case wrap m y =>
      refine .inr ⟨rfl, rfl, m, ?_⟩
      cases hm : (E.S.msg t).member f.slot m with
      | none => simp [hm] at hx
      | some g => exact ⟨g, rfl, rfl⟩
    case wrapNil m =>
      refine .inr ⟨rfl, rfl, m, ?_⟩
      cases hm : (E.S.msg t).member f.slot m with
      | none => simp [hm] at hx
      | some g => exact ⟨g, rfl, rfl⟩
  have na := eval_eqNil (C := ctx E eq) ha rfl
  have nb := eval_eqNil (C := ctx E eq) hb rfl
  have ma := eval_neNil (C := ctx E eq) ha rfl
  have mb := eval_neNil (C := ctx E eq) hb rfl
  simp only [Go.isNilG] at na nb ma mb
  have hc1 : (eval (ctx E eq) vs (.land (.eq (.sel (.id .this) (.slot t f.slot)) .nil) (.ne (.sel (.id .that) (.slot t f.slot)) .nil)) >>= truth) =
      .ok (v.isNil && !w.isNil) := by
    rw [eval, na]
    cases hvn : v.isNil
    · rfl
    · simp only [Res.bind_ok, truth, if_true]
      rw [mb]
      rfl
  have hc2 : (eval (ctx E eq) vs (.ne (.sel (.id .this) (.slot t f.slot)) .nil) >>= truth) = .ok !v.isNil := by rw [ma]; rfl
  have hc3 : (eval (ctx E eq) vs (.eq (.sel (.id .that) (.slot t f.slot)) .nil) >>= truth) = .ok w.isNil := by rw [nb]; rfl
  rw [compareOneof_eq]
  unfold Emit.oneof
  refine Cmp.ite hc1 (fun h => ?_) (fun h => ?_)
  · rw [if_pos h]; exact Cmp.retFalse
  · rw [if_neg (c := (v.isNil && !w.isNil) = true) (by simp [h])]
    refine Cmp.ite hc2 (fun h2 => ?_) (fun h2 => ?_)
    · rw [if_pos h2]
      refine (Cmp.seq (us := vs) (r' := match (E.S.msg t).member f.slot ((wrapNum v).getD 0) with
        | some g => wrapperEqual E rec (path ++ [f.slot]) g v w
        | none => .panic .typeAssertion) (Cmp.ifRet (r := .ok !w.isNil) (by rw [hc3]; simp)) fun h3 => ?_).cast ?_
      · have h3 : w.isNil = false := by simpa using h3
        rcases hx v hv with rfl | ⟨_, hlv, m, g, hm, hg⟩
        · cases h2
        rcases hx w hw with rfl | ⟨_, hlw, m', g', hm', hg'⟩
        · cases h3
        have ea : a = some (path ++ [f.slot]) := la.resolve_right (by simp [hlv])
        have eb : b = some (path ++ [f.slot]) := lb.resolve_right (by simp [hlw])
        subst ea eb
        rw [hm, Option.getD_some, hg]
        simp only
        have hgs := member_some hg
        have hgn : g.num = m := hgs.2.2.2
        subst hgn
        have hdyn : dyn (.val (.iface t f.slot) (some (path ++ [f.slot])) v) = some (t, g.num, .val (.wrapper t g.num) (some (path ++ [f.slot])) v) := by
          cases v <;> simp only [wrapNum, Option.some.injEq, reduceCtorEq] at hm <;> subst hm <;> rfl
        have hW := W (path ++ [f.slot]) t f.slot g v w m' hgs.1 hv hw hg hm hm' dv dw
        have hcv : (callV (ctx E eq) (.val (.wrapper t g.num) (some (path ++ [f.slot])) v) (.val (.iface t f.slot) (some (path ++ [f.slot])) w) >>= truth) =
            wrapperEqual E rec (path ++ [f.slot]) g v w := by
          rw [callV]
          change (eq _ _ _ >>= _) >>= _ = _
          rw [hW]
          rcases wrapperEqual E rec (path ++ [f.slot]) g v w with z | z | z | _ <;> rfl
        by_cases hk : G.wellKnown t = true
        · rw [if_pos hk]
          refine oneofCases_cmp (slot := f.slot) ha hdyn (Cmp.ifNot ?_) ⟨g, ?_, rfl⟩
          · rw [eval, hb']
            simp only [eval, find, if_true, Res.bind_ok]
            exact hcv
          · unfold Go.Emit.members
            rw [List.mem_filter]
            exact ⟨hgs.1, by simp [hgs.2.1, hgs.2.2.1]⟩
        · rw [if_neg hk]
          refine Cmp.ifNot ?_
          rw [eval, ha, hb]
          simp only [Res.bind_ok]
          have : callIfaceV (ctx E eq) (.val (.iface t f.slot) (some (path ++ [f.slot])) v) (.val (.iface t f.slot) (some (path ++ [f.slot])) w) =
              callV (ctx E eq) (.val (.wrapper t g.num) (some (path ++ [f.slot])) v) (.val (.iface t f.slot) (some (path ++ [f.slot])) w) := by
            unfold callIfaceV
            simp only
            rw [hdyn]
            simp only [hg]
          rw [this]
          exact hcv
      · cases hwn : w.isNil <;> rfl
    · rw [if_neg (by simp [h2])]; exact Cmp.skip

theorem result_seq {C : Ctx} {s s' : Stmt} {ws : Vars} {r : Res Bool} (h : Cmp C s vs ws r) :
    result (exec C (s ;; s') vs) = r >>= fun b => if b then result (exec C s' ws) else .ok false := by
  unfold Cmp at h
  rw [exec, h]
  rcases r with x | x | x | _
  · cases x <;> rfl
  · rfl
  · rfl
  · rfl

theorem oneofs_cmp {c : FieldDesc → Res Bool} {d : MsgDesc} : ∀ (fs : List FieldDesc) (seen : List Nat),
    (∀ f ∈ oneofFirst seen fs, Cmp (ctx E eq) (Emit.oneof G d t f.slot) vs vs (c f)) →
    Cmp (ctx E eq) (Emit.oneofs G d t seen fs) vs vs (allRes c (oneofFirst seen fs))
  | [], _, _ => Cmp.skip
  | f :: fs, seen, h => by
    rw [Emit.oneofs]
    rw [oneofFirst] at h ⊢
    cases ho : f.oneof with
    | false =>
      simp only [ho, Bool.false_eq_true, if_false] at h ⊢
      exact oneofs_cmp fs seen h
    | true =>
      simp only [ho, if_true] at h ⊢
      cases hc : seen.contains f.slot with
      | true =>
        simp only [hc, if_true] at h ⊢
        exact oneofs_cmp fs seen h
      | false =>
        simp only [hc, Bool.false_eq_true, if_false] at h ⊢
        rw [allRes]
        exact Cmp.seq (h f (by simp)) fun _ => oneofs_cmp fs _ fun g hg => h g (by simp [hg])

theorem fields_cmp {c : FieldDesc → Res Bool} {d : MsgDesc} : ∀ (fs : List FieldDesc),
    (∀ f ∈ fs.filter fun f => !f.oneof, Cmp (ctx E eq) (Emit.field G t f (d.nullable f)) vs vs (c f)) →
    Cmp (ctx E eq) (Emit.fields G d t fs) vs vs (allRes c (fs.filter fun f => !f.oneof))
  | [], _ => Cmp.skip
  | f :: fs, h => by
    rw [Emit.fields]
    cases ho : f.oneof with
    | true =>
      have hfl : (f :: fs).filter (fun f => !f.oneof) = fs.filter (fun f => !f.oneof) := by simp [ho]
      rw [hfl] at h ⊢
      simp only [if_true]
      exact Cmp.next rfl (fields_cmp fs h)
    | false =>
      have hfl : (f :: fs).filter (fun f => !f.oneof) = f :: fs.filter (fun f => !f.oneof) := by simp [ho]
      rw [hfl] at h ⊢
      simp only [Bool.false_eq_true, if_false]
      rw [allRes]
      exact Cmp.seq (h f (by simp)) fun _ => fields_cmp fs fun g hg => h g (List.mem_cons_of_mem _ hg)

/-- `EqualVT` after the nil tests. -/
theorem body_eq (hS : schemaOK E.S = true) (hG : G.OK E.S) (H : SubEqual E eq rec n) (W : SubWrapEqual E eq rec n) {s s' : List Val} {u u' e e' : Bytes}
    (A : Sees E vs .this path t s u e) (B : Sees E vs .that path t s' u' e') (hf : (E.S.msg t).foreign = false)
    (hv : wtM E.S .typedNil t (.msg s u e) = true) (hw : wtM E.S .typedNil t (.msg s' u' e') = true)
    (dv : (Val.msg s u e).depth ≤ n + 1) (dw : (Val.msg s' u' e').depth ≤ n + 1) :
    result (exec (ctx E eq) (Emit.oneofs G (E.S.msg t) t [] (sortFields (E.S.msg t).fields) ;; Emit.fields G (E.S.msg t) t (sortFields (E.S.msg t).fields) ;;
      (if (E.S.msg t).keepUnknown then .ret (.eq (.str (.sel (.id .this) .unknown)) (.str (.sel (.id .that) .unknown))) else .ret .tt)) vs) =
    equalBody E rec path (E.S.msg t) s s' u u' := by
  have hd := schemaOK_msg hS t
  rw [wtM_msg, hf] at hv hw
  simp only [Bool.false_or, Bool.and_eq_true, decide_eq_true_iff, List.all_eq_true] at hv hw
  have hperm : (sortFields (E.S.msg t).fields).Perm (E.S.msg t).fields := ascending_perm _
  unfold equalBody
  rw [result_seq (oneofs_cmp (c := fun f => compareOneof E rec (path ++ [f.slot]) (E.S.msg t) f.slot (slotOf s f) (slotOf s' f)) _ _ fun f hfm => ?_)]
  · congr 1
    funext x
    split
    · rw [result_seq (fields_cmp (c := fun f => compareField E rec (path ++ [f.slot]) f ((E.S.msg t).nullable f) (slotOf s f) (slotOf s' f)) _ fun f hfm => ?_)]
      · congr 1
        funext y
        split
        · cases (E.S.msg t).keepUnknown with
          | true => simp [exec, eval, A.find, B.find, selV, strV, eqV, truth, result, Val.bytes]
          | false => rfl
        · rfl
      · rw [List.mem_filter] at hfm
        have hmem := hperm.mem_iff.1 hfm.1
        have ho : f.oneof = false := by simpa using hfm.2
        have a := hv.2 f hmem
        have b := hw.2 f hmem
        rw [if_neg (by simp [ho])] at a b
        exact field_cmp hS hG H A B hmem ho a b (depth_slot f dv) (depth_slot f dw)
    · rfl
  · rw [oneofFirst_eq] at hfm
    obtain ⟨hmem, ho, _⟩ := firsts_mem _ _ hfm
    have hmem := hperm.mem_iff.1 hmem
    have a := hv.2 f hmem
    have b := hw.2 f hmem
    rw [if_pos ho] at a b
    exact oneof_cmp hS W A B hmem ho a b (depth_slot f dv) (depth_slot f dw)

theorem nilTests {q : Bool} (he : eqV (ctx E eq) (.val (.msg t) a v) (.val (.msg t) b w) = .ok q) :
    exec (ctx E eq) (.ite (.eq (.id .this) (.id .that)) (.ret .tt) (.ite (.lor (.eq (.id .this) .nil) (.eq (.id .that) .nil)) (.ret .ff) .skip))
      [(.that, .val (.msg t) b w), (.this, .val (.msg t) a v)] =
    .ok (if q then .ret true else if v.isNil || w.isNil then .ret false else .next [(.that, .val (.msg t) b w), (.this, .val (.msg t) a v)]) := by
  have h0 := eval_eq (C := ctx E eq) (vs := [(.that, .val (.msg t) b w), (.this, .val (.msg t) a v)]) (lhs := .id .this) (rhs := .id .that) (by simp [eval, find]) (by simp [eval, find]) he
  have h1 := eval_eqNil (C := ctx E eq) (vs := [(.that, .val (.msg t) b w), (.this, .val (.msg t) a v)]) (e := .id .this) (T := .msg t) (x := a) (v := v) (by simp [eval, find]) rfl
  have h2 := eval_eqNil (C := ctx E eq) (vs := [(.that, .val (.msg t) b w), (.this, .val (.msg t) a v)]) (e := .id .that) (T := .msg t) (x := b) (v := w) (by simp [eval, find]) rfl
  have h3 : (eval (ctx E eq) [(.that, .val (.msg t) b w), (.this, .val (.msg t) a v)] (.lor (.eq (.id .this) .nil) (.eq (.id .that) .nil)) >>= truth) = .ok (v.isNil || w.isNil) := by
    rw [eval, h1, h2]
    simp only [Go.isNilG]
    cases v.isNil <;> rfl
  rw [exec, h0]
  cases q
  · simp only [Res.bind_ok, Bool.false_eq_true, if_false]
    unfold block
    simp only [List.nil_append]
    rw [exec, h3]
    cases (v.isNil || w.isNil) <;> simp [block, exec, eval, truth]
  · simp [block, exec, eval, truth]

theorem method_eq (hS : schemaOK E.S = true) (hG : G.OK E.S) (hR : RuntimeEqual E.R) (hf : (E.S.msg t).foreign = false)
    (hv : PtrOK E.S t v) (hw : PtrOK E.S t w) (la : MLoc E.S path t a v) (lb : MLoc E.S path t b w)
    (dv : v.depth ≤ n) (dw : w.depth ≤ n)
    (H : ∀ m, n = m + 1 → SubEqual E eq (equalN E n) m) (W : ∀ m, n = m + 1 → SubWrapEqual E eq (equalN E n) m) :
    result (exec (ctx E eq) (Emit.method G E.S t) [(.that, .val (.msg t) b w), (.this, .val (.msg t) a v)]) = equalN E (n + 1) path t v w := by
  unfold Emit.method
  rcases hv with rfl | hv
  · rcases hw with rfl | hw
    · rw [exec_ret (x := true) (by simp [exec, eval, find, eqV, ptrEq, Go.isNilG, Val.isNil, truth, block])]
      simp [equalN, CEnv.ptrEq, Val.isNil, result]
    · obtain ⟨s', u', e', rfl⟩ := wtM_isMsg hw
      have he : eqV (ctx E eq) (.val (.msg t) a .nil) (.val (.msg t) b (.msg s' u' e')) = .ok false := by
        rcases la with rfl | ⟨rfl, _⟩ <;> rcases lb with rfl | ⟨rfl, _⟩ <;> simp [eqV, ptrEq, Go.isNilG, Val.isNil]
      rw [exec_ret (x := false) (by rw [nilTests he]; simp [Val.isNil])]
      simp [equalN, CEnv.ptrEq, Val.isNil, result]
  · obtain ⟨s, u, e, rfl⟩ := wtM_isMsg hv
    rcases hw with rfl | hw
    · have he : eqV (ctx E eq) (.val (.msg t) a (.msg s u e)) (.val (.msg t) b .nil) = .ok false := by
        rcases la with rfl | ⟨rfl, _⟩ <;> rcases lb with rfl | ⟨rfl, _⟩ <;> simp [eqV, ptrEq, Go.isNilG, Val.isNil]
      rw [exec_ret (x := false) (by rw [nilTests he]; simp [Val.isNil])]
      simp [equalN, CEnv.ptrEq, Val.isNil, result]
    · obtain ⟨s', u', e', rfl⟩ := wtM_isMsg hw
      obtain ⟨m, rfl⟩ : ∃ m, n = m + 1 := ⟨n - 1, by rw [Val.depth] at dv; omega⟩
      have hbody := body_eq (vs := [(.that, .val (.msg t) b (.msg s' u' e')), (.this, .val (.msg t) a (.msg s u e))]) hS hG (H m rfl) (W m rfl)
        ⟨a, rfl, la⟩ ⟨b, rfl, lb⟩ hf hv hw dv dw
      have hrun : ∀ {q : Bool}, eqV (ctx E eq) (.val (.msg t) a (.msg s u e)) (.val (.msg t) b (.msg s' u' e')) = .ok q →
          result (exec (ctx E eq) (.ite (.eq (.id .this) (.id .that)) (.ret .tt) (.ite (.lor (.eq (.id .this) .nil) (.eq (.id .that) .nil)) (.ret .ff) .skip) ;;
            Emit.oneofs G (E.S.msg t) t [] (sortFields (E.S.msg t).fields) ;; Emit.fields G (E.S.msg t) t (sortFields (E.S.msg t).fields) ;;
            (if (E.S.msg t).keepUnknown then .ret (.eq (.str (.sel (.id .this) .unknown)) (.str (.sel (.id .that) .unknown))) else .ret .tt))
            [(.that, .val (.msg t) b (.msg s' u' e')), (.this, .val (.msg t) a (.msg s u e))]) =
          if q then .ok true else equalBody E (equalN E (m + 1)) path (E.S.msg t) s s' u u' := by
        intro q he
        cases q with
        | true =>
          rw [exec_ret (x := true) (by rw [nilTests he]; rfl)]
          rfl
        | false =>
          rw [exec_seq (ws := [(.that, .val (.msg t) b (.msg s' u' e')), (.this, .val (.msg t) a (.msg s u e))])
            (by rw [nilTests he]; simp [Val.isNil])]
          exact hbody
      have hnew : (Val.msg s u e = zeroMsg E.S t ∨ Val.msg s' u' e' = zeroMsg E.S t) → eqV (ctx E eq) (.val (.msg t) a (.msg s u e)) (.val (.msg t) b (.msg s' u' e')) = .ok false →
          result (exec (ctx E eq) (.ite (.eq (.id .this) (.id .that)) (.ret .tt) (.ite (.lor (.eq (.id .this) .nil) (.eq (.id .that) .nil)) (.ret .ff) .skip) ;;
            Emit.oneofs G (E.S.msg t) t [] (sortFields (E.S.msg t).fields) ;; Emit.fields G (E.S.msg t) t (sortFields (E.S.msg t).fields) ;;
            (if (E.S.msg t).keepUnknown then .ret (.eq (.str (.sel (.id .this) .unknown)) (.str (.sel (.id .that) .unknown))) else .ret .tt))
            [(.that, .val (.msg t) b (.msg s' u' e')), (.this, .val (.msg t) a (.msg s u e))]) =
          if E.ptrEq path (.msg s u e) (.msg s' u' e') then .ok true else equalBody E (equalN E (m + 1)) path (E.S.msg t) s s' u u' := by
        intro hz he
        rw [hrun he]
        cases hp : E.ptrEq path (.msg s u e) (.msg s' u' e') with
        | false => rfl
        | true =>
          simp only [Bool.false_eq_true, if_false, if_true]
          have hvw : Val.msg s u e = .msg s' u' e' := by
            simp only [CEnv.ptrEq, Val.isNil, Bool.false_and, Bool.false_or, Bool.and_eq_true, decide_eq_true_iff] at hp
            exact hp.2
          have hz : Val.msg s u e = zeroMsg E.S t := hz.elim id (hvw.trans ·)
          obtain ⟨q, h1, h2, _⟩ := dec_body hS hR (dec_equalN hS hR m) path t hf hv hw dv dw
          rw [h1, h2 (by rw [← hvw, hz]; exact same_zero hS t)]
      rw [equalN]
      rcases la with rfl | ⟨rfl, la⟩
      · rcases lb with rfl | ⟨rfl, lb⟩
        · exact hrun (by simp [eqV, ptrEq, Go.isNilG, CEnv.ptrEq, Val.isNil])
        · exact hnew (.inr (lb.resolve_left (by simp))) (by simp [eqV, ptrEq, Go.isNilG, Val.isNil])
      · exact hnew (.inl (la.resolve_left (by simp))) (by simp [eqV, ptrEq, Go.isNilG, Val.isNil])

/-- The printed methods, calling each other, do what the model of `EqualVT` does. -/
theorem runEqualN_eq (hS : schemaOK E.S = true) (hG : G.OK E.S) (hR : RuntimeEqual E.R) : ∀ (n K : Nat) (path : List Nat) (t : Nat) (a b : Option (List Nat)) (v w : Val),
    n < K → (E.S.msg t).foreign = false → PtrOK E.S t v → PtrOK E.S t w → v.depth ≤ n → w.depth ≤ n → MLoc E.S path t a v → MLoc E.S path t b w →
    runEqualN G E K t (.val (.msg t) a v) (.val (.msg t) b w) = equalN E (n + 1) path t v w := by
  intro n
  induction n with
  | zero =>
    intro K path t a b v w hK hf hv hw dv dw la lb
    obtain ⟨K, rfl⟩ : ∃ k, K = k + 1 := ⟨K - 1, by omega⟩
    rw [runEqualN]
    exact method_eq hS hG hR hf hv hw la lb dv dw (fun m h => by cases h) (fun m h => by cases h)
  | succ n ih =>
    intro K path t a b v w hK hf hv hw dv dw la lb
    obtain ⟨K, rfl⟩ : ∃ k, K = k + 1 := ⟨K - 1, by omega⟩
    rw [runEqualN]
    refine method_eq hS hG hR hf hv hw la lb dv dw (fun m h => ?_) (fun m h => ?_)
    · obtain rfl : m = n := by omega
      intro path t a b v w hf hv hw dv dw la lb
      exact ih K path t a b v w (by omega) hf hv hw dv dw la lb
    · obtain rfl : m = n := by omega
      intro path t slot f v w j hfm hv hw hmem hn hj dv dw
      simp only [runWrapper]
      rw [Go.find_num (schemaOK_msg hS t) hfm]
      refine wrapper_eq (n := m) hS hG ?_ hfm hv hw hmem hn hj dv dw
      intro path t a b v w hf hv hw dv dw la lb
      exact ih K path t a b v w (by omega) hf hv hw dv dw la lb

end Vtp.GoE
