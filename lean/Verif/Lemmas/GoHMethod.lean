import Verif.Lemmas.GoHClone
/-!
# The code printed for `CloneVT`: oneofs, and the methods
-/

namespace Vtp.GoH
open Spec hiding elemTy fieldTy
open Go (GTy GenCfg elemTy fieldTy slotTy memberTy numTy Sel)

section
variable {G : GenCfg} {E : HKEnv} {C : Ctx} {rec : HSubClone} {vs : Vars}

theorem find_skip {x : Id} {ds : Vars} (h : ∀ d ∈ ds, d.1 ≠ x) : find x (ds ++ vs) = find x vs := by
  induction ds with
  | nil => rfl
  | cons d ds ih => rw [List.cons_append, show d = (d.1, d.2) from rfl, find_cons_ne fun e => h d (.head _) e.symm, ih fun e he => h e (.tail _ he)]

theorem bind_at {α β : Type} {x y : HM α} {σ : HState} (h : x σ = y σ) (f : α → HM β) : (x >>= f) σ = (y >>= f) σ := by
  show HM.bind x f σ = HM.bind y f σ
  simp only [HM.bind, h]

theorem isNilH_elem (k : Kind) (t : Nat) (v : HV) : isNilH (elemTy k t) v = v.isNil := by cases k <;> rfl

theorem scalar_cases {f : FieldDesc} (hc : f.card ≠ .repeated) : (f.hasMessage || f.card == .repeated || f.kind == .bytes) = !isScalarKind f.kind := by
  rw [beq_eq_false_iff_ne.2 hc]
  unfold FieldDesc.hasMessage isScalarKind
  cases f.kind <;> rfl

theorem cloneTy_member {f : FieldDesc} (hc : f.card ≠ .repeated) (hm : f.map = none) (hs : isScalarKind f.kind = false) : CloneTy f (elemTy f.kind f.msg) where
  nil := by revert hs; cases f.kind <;> simp [isScalarKind, elemTy, nilable]
  ptr := isNilH_elem _ _
  map := by simp [hm]
  list := fun h => absurd h hc
  scalar := fun _ h => by rw [hs] at h; cases h
  other := fun _ _ => rfl

/-- The `CloneVT` methods of messages, as a wrapper's method finds them. -/
theorem good_wrapper (hG : G.OK E.S) (hD : ∀ t, E.direct t = (G.wellKnown t || G.isLocal t)) (p : List Nat) :
    Good G E (cloneCtx E p fun T p v => match T with
      | .msg t => rec p t v
      | _ => confused) rec := ⟨rfl, rfl, fun _ _ _ => rfl, hG, hD⟩

theorem direct_eq (hG : G.OK E.S) (hD : ∀ t, E.direct t = (G.wellKnown t || G.isLocal t)) (t : Nat) :
    (E.direct t && !(E.S.msg t).foreign) = (G.wellKnown t || G.isLocal t) := by
  rw [hD]
  cases hf : (E.S.msg t).foreign with
  | false => simp
  | true => rw [(hG t hf).1, (hG t hf).2]; rfl

theorem wrapper_nil {t n : Nat} {f : FieldDesc} (hd : MsgFacts (E.S.msg t)) (hf : f ∈ (E.S.msg t).fields) (hn : f.num = n) (p : List Nat) :
    runCloneWrapper G E rec t n p (.wrapNil n) = pure (.wrapNil n) := by
  unfold runCloneWrapper
  rw [← hn, Go.find_num hd hf]
  simp only [Emit.cloneWrapper, exec, eval, find_cons_self, HM.pure_bind, eqV, nilable, isNilH, if_true, truth, block, typedNilV, List.nil_append, result]

theorem hgetMember_grow {a : Addr} {n : Nat} {x : HV} {c : Cell} {σ : HState} (h : σ.heap[a]? = some (.wrap n x)) :
    hgetMember (.ptr a) n (σ.grow c) = (σ.grow c, .ok x) := by
  unfold hgetMember
  simp only
  rw [HM.bind_ok (read_grow h (by simp))]
  simp only [if_true]
  rfl

theorem setMember_new {n : Nat} {x y : HV} {σ : HState} : hsetMember (.ptr σ.next) n y (σ.grow (.wrap n x)) = (σ.grow (.wrap n y), .ok ()) := by
  unfold hsetMember
  simp only
  rw [HM.bind_ok read_new]
  simp only [if_true]
  exact write_new

theorem wrapper_ptr (hG : G.OK E.S) (hD : ∀ t, E.direct t = (G.wellKnown t || G.isLocal t)) {t n : Nat} {f : FieldDesc} (hd : MsgFacts (E.S.msg t)) (hf : f ∈ (E.S.msg t).fields)
    (ho : f.oneof = true) (hn : f.num = n) (p : List Nat) {a : Addr} {x : HV} {σ : HState} (h : σ.heap[a]? = some (.wrap n x)) :
    runCloneWrapper G E rec t n p (.ptr a) σ =
      (halloc (.wrap n (hzeroScalar f.kind)) >>= fun b => hcloneMember E rec f p x >>= fun y => hsetMember (.ptr b) n y >>= fun _ => pure (.ptr b)) σ := by
  have hff := hd.fields f hf
  obtain ⟨hopt, -, -, -⟩ := hff.oneof ho
  have hc : f.card ≠ .repeated := by rw [hopt]; simp
  have hmap : f.map = none := by
    cases hm : f.map with
    | none => rfl
    | some md => exact absurd (hff.map md hm).1 hc
  unfold runCloneWrapper
  rw [← hn, Go.find_num hd hf]
  subst hn
  have hz : zeroMember E.S t f.num = hzeroScalar f.kind := by unfold zeroMember; rw [Go.find_num hd hf]
  have hC := good_wrapper (rec := rec) hG hD p
  generalize hCC : (cloneCtx E p fun T p v => match T with
      | .msg t => rec p t v
      | _ => confused) = C at hC ⊢
  have hCS : C.S = E.S := hC.S
  have hty : memberTy C.S t f.num = elemTy f.kind f.msg := by rw [hCS]; exact Go.memberTy_field hd hf
  -- the field read from the old wrapper
  have hget : ∀ b, eval C [(.r, .val (.wrapper t f.num) [] b), (.m, .val (.wrapper t f.num) p (.ptr a))] (.sel (.id .m) (.member t f.num)) =
      hgetMember (.ptr a) f.num >>= fun v => pure (.val (elemTy f.kind f.msg) p v) := by
    intro b
    simp only [eval, find_cons_ne (show (Id.m ≠ .r) by simp), find_cons_self, HM.pure_bind, selV, and_self, if_true, hty]
  have hset : ∀ (b : HV) (ds : Vars), (∀ d ∈ ds, d.1 = Id.tmpContainer ∨ d.1 = .rhs ∨ d.1 = .tmpVal) → LhsDoes C (.field (.member t f.num))
      (ds ++ [(.r, .val (.wrapper t f.num) [] b), (.m, .val (.wrapper t f.num) p (.ptr a))]) (hsetMember b f.num) := by
    intro b ds hds
    refine LhsDoes.member (q := []) ?_
    rw [find_skip fun d hd => ?_]
    · exact find_cons_self
    · rcases hds d hd with h | h | h <;> rw [h] <;> simp
  -- up to the new wrapper
  unfold Emit.cloneWrapper
  generalize hrest : (if (!(f.hasMessage || f.card == .repeated || f.kind == .bytes)) = true then _ else _ : Stmt) = rest
  simp only [HM.pure_bind, find_cons_self, eval, eqV, nilable, isNilH, if_true, truth, Bool.false_eq_true, if_false, block, exec, List.nil_append, List.length_cons, List.length_nil,
    Nat.sub_self, List.drop_zero, newV, hCS, hz, HM.bind_assoc]
  rw [alloc_bind, alloc_bind]
  -- the rest
  have key : ∀ (st : Stmt) (Y : HM HV), exec C st [(.r, .val (.wrapper t f.num) [] (.ptr σ.next)), (.m, .val (.wrapper t f.num) p (.ptr a))] (σ.grow (.wrap f.num (hzeroScalar f.kind))) =
      (Y >>= fun y => hsetMember (.ptr σ.next) f.num y >>= fun _ => pure (.next [(.r, .val (.wrapper t f.num) [] (.ptr σ.next)), (.m, .val (.wrapper t f.num) p (.ptr a))]))
        (σ.grow (.wrap f.num (hzeroScalar f.kind))) →
      (exec C (st ;; .ret (.id .r)) [(.r, .val (.wrapper t f.num) [] (.ptr σ.next)), (.m, .val (.wrapper t f.num) p (.ptr a))] >>= result) (σ.grow (.wrap f.num (hzeroScalar f.kind))) =
      (Y >>= fun y => hsetMember (.ptr σ.next) f.num y >>= fun _ => pure (.ptr σ.next)) (σ.grow (.wrap f.num (hzeroScalar f.kind))) := by
    intro st Y hst
    rw [exec]
    refine (bind_at (bind_at hst _) _).trans ?_
    simp only [HM.bind_assoc, HM.pure_bind, exec, eval, find_cons_self, result]
  have hsetDoes : ∀ (e : Expr) (Y : HM HV), eval C [(.r, .val (.wrapper t f.num) [] (.ptr σ.next)), (.m, .val (.wrapper t f.num) p (.ptr a))] e =
      (Y >>= fun y => pure (.val (elemTy f.kind f.msg) p y)) →
      exec C (.setField (.id .r) (.member t f.num) e) [(.r, .val (.wrapper t f.num) [] (.ptr σ.next)), (.m, .val (.wrapper t f.num) p (.ptr a))] =
      Y >>= fun y => hsetMember (.ptr σ.next) f.num y >>= fun _ => pure (.next [(.r, .val (.wrapper t f.num) [] (.ptr σ.next)), (.m, .val (.wrapper t f.num) p (.ptr a))]) :=
    fun e Y he => hset (.ptr σ.next) [] (by simp) [] e _ (fun _ => elemTy f.kind f.msg) (fun _ => p) Y (by simp) he rfl
  subst hrest
  rw [scalar_cases hc]
  unfold hcloneMember
  by_cases hs : isScalarKind f.kind = true
  · simp only [hs, Bool.not_true, Bool.not_false, if_true]
    refine (key _ (hgetMember (.ptr a) f.num) (congrFun (hsetDoes _ _ (hget _)) _)).trans ?_
    rw [HM.bind_ok (hgetMember_grow h)]
    rfl
  have hs' : isScalarKind f.kind = false := by simpa using hs
  simp only [hs', Bool.not_true, Bool.not_false, Bool.false_eq_true, if_false]
  rw [direct_eq hG hD]
  have hrec : ∀ e, (∀ vs, eval C vs e = eval C vs (.sel (.id .m) (.member t f.num)) >>= callV C) → f.hasMessage = true →
      (exec C (.setField (.id .r) (.member t f.num) e ;; .ret (.id .r)) [(.r, .val (.wrapper t f.num) [] (.ptr σ.next)), (.m, .val (.wrapper t f.num) p (.ptr a))] >>= result)
        (σ.grow (.wrap f.num (hzeroScalar f.kind))) =
      (rec p f.msg x >>= fun y => hsetMember (.ptr σ.next) f.num y >>= fun _ => pure (.ptr σ.next)) (σ.grow (.wrap f.num (hzeroScalar f.kind))) := by
    intro e he hmsg
    have hT : elemTy f.kind f.msg = .msg f.msg := by
      simp only [FieldDesc.hasMessage, Bool.or_eq_true, beq_iff_eq] at hmsg
      rcases hmsg with h | h <;> rw [h] <;> rfl
    refine (key _ (hgetMember (.ptr a) f.num >>= fun v => rec p f.msg v) (congrFun (hsetDoes _ _ ?_) _)).trans ?_
    · rw [he, hget, hT]
      simp only [HM.bind_assoc, HM.pure_bind, callV, hC.clone]
    · rw [HM.bind_assoc, HM.bind_ok (hgetMember_grow h)]
  by_cases hwk : (f.hasMessage && G.wellKnown f.msg) = true
  · have hw2 := hwk
    simp only [Bool.and_eq_true] at hw2
    simp only [hwk, if_true, hw2.1, hw2.2, Bool.true_or, Bool.and_self]
    exact hrec _ (fun vs => by simp only [eval]) hw2.1
  simp only [hwk, Bool.false_eq_true, if_false]
  by_cases hlo : (f.hasMessage && G.isLocal f.msg) = true
  · have hl2 := hlo
    simp only [Bool.and_eq_true] at hl2
    simp only [hlo, if_true, hl2.1, hl2.2, Bool.or_true, Bool.and_self]
    exact hrec _ (fun vs => by simp only [eval]) hl2.1
  have hnd : (f.hasMessage && (G.wellKnown f.msg || G.isLocal f.msg)) = false := by
    revert hwk hlo
    cases f.hasMessage <;> cases G.wellKnown f.msg <;> cases G.isLocal f.msg <;> simp
  simp only [hlo, hnd, Bool.false_eq_true, if_false]
  have hcf := exec_cloneField hC (hset (.ptr σ.next)) (hget _) (cloneTy_member hc hmap hs') (fun h => absurd h hc)
  rw [exec, hcf]
  simp only [HM.bind_assoc, HM.pure_bind, exec, eval, find_cons_self, result]
  rw [HM.bind_ok (hgetMember_grow h)]
  unfold hcloneField
  by_cases hx : x.isNil = true
  · have hz' : hzeroScalar f.kind = .nil := by revert hs'; cases f.kind <;> simp [isScalarKind, hzeroScalar]
    simp only [hx, if_true, HM.pure_bind, assignOpt, hz']
    rw [HM.bind_ok setMember_new]
  · simp only [hx, Bool.false_eq_true, if_false, beq_eq_false_iff_ne.2 hc, hs', HM.bind_assoc, HM.pure_bind, assignOpt]

/-! ## Oneofs -/

/-- What a printed `CloneVT` of a message finds around it. -/
structure GoodM (G : GenCfg) (E : HKEnv) (C : Ctx) (rec : HSubClone) : Prop extends Good G E C rec where
  wrapper : ∀ t n p v, C.clone (.wrapper t n) p v = runCloneWrapper G E rec t n p v

variable {t slot : Nat} {p q : List Nat} {m r : HV}

theorem bind_run {α β : Type} {x : HM α} {σ : HState} {res : Res α} (h : x σ = (σ, res)) (f : α → HM β) :
    (x >>= f) σ = match res with
      | .ok a => f a σ
      | .err e => (σ, .err e)
      | .panic e => (σ, .panic e)
      | .diverge => (σ, .diverge) := by
  show HM.bind x f σ = _
  simp only [HM.bind, h]
  cases res <;> rfl

/-- The wrapper of number `n` cloned and assigned. -/
def wrapOut (G : GenCfg) (E : HKEnv) (rec : HSubClone) (t slot : Nat) (p : List Nat) (r : HV) (vs : Vars) (v : HV) (n : Nat) : HM Flow :=
  runCloneWrapper G E rec t n (p ++ [slot]) v >>= fun w => hsetSlot r slot w >>= fun _ => pure (.next vs)

theorem eval_slot (hS : C.S = E.S) {i : Nat} (hm : find .m vs = pure (.val (.msg t) p m)) : eval C vs (.sel (.id .m) (.slot t i)) =
    hgetSlot m i >>= fun x => pure (.val (slotTy E.S t i) (p ++ [i]) x) := by
  simp only [eval, hm, HM.pure_bind, selV, if_true, hS]

theorem exec_cases (hg : GoodM G E C rec) (hT : slotTy E.S t slot = .iface t slot) (hm : find .m vs = pure (.val (.msg t) p m)) (hr : find .r vs = pure (.val (.msg t) q r))
    {v : HV} {σ : HState} (hv : hgetSlot m slot σ = (σ, .ok v)) {o : Option Nat} (hdyn' : hdyn E.S t slot v σ = (σ, .ok o)) :
    ∀ fs : List FieldDesc, exec C (Emit.oneofCases t slot fs) vs σ = (match o with
      | some n => if n ∈ fs.map FieldDesc.num then wrapOut G E rec t slot p r vs v n else pure (.next vs)
      | none => pure (.next vs)) σ
  | [] => by cases o <;> simp [Emit.oneofCases, exec]
  | f :: fs => by
    have ih := exec_cases hg hT hm hr hv hdyn' fs
    rw [Emit.oneofCases, exec, eval_slot hg.S hm, HM.bind_assoc, HM.bind_ok hv, HM.pure_bind, hT]
    simp only [assertV, HM.bind_assoc, HM.pure_bind, hg.S]
    rw [HM.bind_ok hdyn']
    by_cases ho : o = some f.num
    · subst ho
      simp only [and_self, if_true, List.map_cons, List.mem_cons, true_or]
      unfold wrapOut
      rw [← HM.bind_assoc]
      refine congrFun (block_same ?_) σ
      simp only [exec, List.cons_append, List.nil_append, eval, find_cons_self, find_cons_ne (show (Id.r ≠ .c) by simp), hr, HM.pure_bind, callV, hg.wrapper, HM.bind_assoc, setV,
        if_true]
    · simp only [ho, and_false, if_false]
      unfold block
      rw [List.nil_append]
      show HM.bind _ _ σ = _
      simp only [HM.bind]
      rw [ih]
      cases o with
      | none =>
        simp [Pure.pure]
      | some n =>
        have hne : n ≠ f.num := fun e => ho (by rw [e])
        simp only [List.map_cons, List.mem_cons, hne, false_or]
        by_cases hn : n ∈ fs.map FieldDesc.num
        · simp only [hn, if_true]
          have : (wrapOut G E rec t slot p r vs v n >>= fun r => match r with
            | .next ws => pure (.next (ws.drop (ws.length - vs.length)))
            | .ret b => pure (.ret b)) = wrapOut G E rec t slot p r vs v n := by
            unfold wrapOut
            simp only [HM.bind_assoc, HM.pure_bind, Nat.sub_self, List.drop_zero]
          exact congrFun this σ
        · simp only [hn, if_false]
          simp [Pure.pure]

theorem dyn_ok {S : Schema} {v : HV} {σ σ' : HState} {o : Option Nat} (h : hdyn S t slot v σ = (σ', .ok o)) :
    (o = none ∧ v = .nil) ∨ ∃ n, o = some n ∧ ((S.msg t).member slot n).isSome = true := by
  cases v with
  | nil => cases h; exact .inl ⟨rfl, rfl⟩
  | ptr a =>
    obtain ⟨σ1, c, h1, h2⟩ := bind_inv h
    cases c with
    | wrap n x =>
      by_cases hm : ((S.msg t).member slot n).isSome = true
      · simp only [hm, if_true] at h2
        cases h2
        exact .inr ⟨n, rfl, hm⟩
      · simp only [hm, if_false] at h2
        exact absurd (congrArg Prod.snd h2) (by simp [HM.lift])
    | _ => exact absurd (congrArg Prod.snd h2) (by simp [HM.lift])
  | wrapNil n =>
    by_cases hm : ((S.msg t).member slot n).isSome = true
    · simp only [hdyn, hm, if_true] at h
      cases h
      exact .inr ⟨n, rfl, hm⟩
    · simp only [hdyn, hm, if_false] at h
      exact absurd (congrArg Prod.snd h) (by simp [HM.lift])
  | _ => exact absurd (congrArg Prod.snd h) (by simp [hdyn, HM.lift])

theorem exec_oneof (hg : GoodM G E C rec) {f : FieldDesc} (hd : MsgFacts (E.S.msg t)) (hf : f ∈ (E.S.msg t).fields) (ho : f.oneof = true)
    (hm : find .m vs = pure (.val (.msg t) p m)) (hr : find .r vs = pure (.val (.msg t) q r)) :
    exec C (Emit.cloneOneofField G (E.S.msg t) t f.slot) vs =
      hgetSlot m f.slot >>= fun v => hcloneOneof E rec (E.S.msg t) f.slot (p ++ [f.slot]) v >>= fun o => hassignTo r f.slot o >>= fun _ => pure (.next vs) := by
  have hT := Go.slotTy_oneof hd hf ho
  unfold Emit.cloneOneofField
  rw [exec, eval, eval_slot hg.S hm, hT]
  simp only [HM.bind_assoc, HM.pure_bind, eval, eqV, nilable, if_true, isNilH, truth]
  refine (readOnly_getSlot m f.slot).congr fun σ v hv => ?_
  by_cases hnil : v.isNil = true
  · obtain rfl : v = .nil := by revert hnil; cases v <;> simp [HV.isNil]
    simp only [HV.isNil, Bool.not_true, Bool.false_eq_true]
    rw [if_neg (by simp)]
    simp only [exec, block, List.nil_append, HM.pure_bind, Nat.sub_self, List.drop_zero, hcloneOneof, hassignTo]
  simp only [hnil, Bool.not_false, if_true]
  -- the call, whichever way it is printed
  have step : exec C (if G.wellKnown t then Emit.oneofCases t f.slot (Go.Emit.members (E.S.msg t) f.slot)
     else .setField (.id .r) (.slot t f.slot) (.callIface (.sel (.id .m) (.slot t f.slot)))) vs σ = (hdyn E.S t f.slot v >>= fun o => match o with
      | some n => wrapOut G E rec t f.slot p r vs v n
      | none => HM.lift (.panic .typeAssertion)) σ := by
    have hro := (readOnly_dyn E.S t f.slot v).eq σ
    by_cases hwk : G.wellKnown t = true
    · rw [if_pos hwk]
      cases hdy : (hdyn E.S t f.slot v σ).2 with
      | ok o =>
        rw [hdy] at hro
        rw [exec_cases hg hT hm hr hv hro, HM.bind_ok hro]
        cases o with
        | none =>
          rcases dyn_ok hro with ⟨-, rfl⟩ | ⟨n, h, -⟩
          · exact absurd rfl hnil
          · cases h
        | some n =>
          have hmem : ((E.S.msg t).member f.slot n).isSome = true := by
            rcases dyn_ok hro with ⟨h, -⟩ | ⟨n', h, h'⟩
            · cases h
            · cases h; exact h'
          obtain ⟨g, hg'⟩ := Option.isSome_iff_exists.1 hmem
          obtain ⟨h1, h2, h3, h4⟩ := member_some hg'
          have : n ∈ (Go.Emit.members (E.S.msg t) f.slot).map FieldDesc.num := List.mem_map.2 ⟨g, List.mem_filter.2 ⟨h1, by simp [h2, h3]⟩, h4⟩
          simp only [this, if_true]
      | _ =>
        rw [hdy] at hro
        have hmf : f ∈ Go.Emit.members (E.S.msg t) f.slot := List.mem_filter.2 ⟨hf, by simp [ho]⟩
        cases hl : Go.Emit.members (E.S.msg t) f.slot with
        | nil => rw [hl] at hmf; cases hmf
        | cons f' fs =>
          rw [Emit.oneofCases, exec, eval_slot hg.S hm, HM.bind_assoc, HM.bind_ok hv, HM.pure_bind, hT]
          simp only [assertV, HM.bind_assoc, HM.pure_bind, hg.S]
          rw [bind_run hro, bind_run hro]
    · rw [if_neg hwk]
      rw [exec, eval, hr, HM.pure_bind, eval, eval_slot hg.S hm, HM.bind_assoc, HM.bind_assoc, HM.bind_ok hv, HM.pure_bind, hT]
      simp only [callIfaceV, HM.bind_assoc, hg.S]
      show HM.bind _ _ σ = HM.bind _ _ σ
      unfold HM.bind
      rw [hro]
      cases (hdyn E.S t f.slot v σ).2 with
      | ok o =>
        cases o with
        | none => rfl
        | some n =>
          simp only [callV, hg.wrapper, HM.bind_assoc, HM.pure_bind, setV, if_true, wrapOut]
      | _ => rfl
  have hblock : block [] (exec C (if G.wellKnown t then Emit.oneofCases t f.slot (Go.Emit.members (E.S.msg t) f.slot)
     else .setField (.id .r) (.slot t f.slot) (.callIface (.sel (.id .m) (.slot t f.slot))))) vs σ = (hdyn E.S t f.slot v >>= fun o => match o with
      | some n => wrapOut G E rec t f.slot p r vs v n
      | none => HM.lift (.panic .typeAssertion)) σ := by
    unfold block
    rw [List.nil_append]
    have e : (hdyn E.S t f.slot v >>= fun o => match o with
      | some n => wrapOut G E rec t f.slot p r vs v n
      | none => HM.lift (.panic .typeAssertion)) = (hdyn E.S t f.slot v >>= fun o => match o with
      | some n => wrapOut G E rec t f.slot p r vs v n
      | none => HM.lift (.panic .typeAssertion)) >>= fun r => match r with
        | .next ws => pure (.next (ws.drop (ws.length - vs.length)))
        | .ret b => pure (.ret b) := by
      rw [HM.bind_assoc]
      congr 1
      funext o
      cases o with
      | none => rfl
      | some n =>
        unfold wrapOut
        simp only [HM.bind_assoc, HM.pure_bind, Nat.sub_self, List.drop_zero]
    rw [e]
    show HM.bind _ _ σ = HM.bind _ _ σ
    unfold HM.bind
    rw [step]
    rfl
  rw [hblock]
  cases v with
  | nil => simp [HV.isNil] at hnil
  | ptr a =>
    simp only [hdyn, hcloneOneof, HM.bind_assoc]
    refine congrFun ((readOnly_read a).congr fun σ c hc => ?_) σ
    cases c with
    | wrap n x =>
      dsimp only
      cases hmb : (E.S.msg t).member f.slot n with
      | none => simp only [Option.isSome_none, Bool.false_eq_true, if_false, HM.fail_bind]
      | some g =>
        obtain ⟨h1, h2, h3, h4⟩ := member_some hmb
        simp only [Option.isSome_some, if_true, HM.pure_bind, wrapOut]
        refine (bind_at (wrapper_ptr hg.gen hg.direct hd h1 h2 h4 _ (read_inv hc)) _).trans ?_
        simp only [HM.bind_assoc, HM.pure_bind, hassignTo]
    | _ => rfl
  | wrapNil n =>
    simp only [hdyn, hcloneOneof]
    cases hmb : (E.S.msg t).member f.slot n with
    | none => simp only [Option.isSome_none, Bool.false_eq_true, if_false, HM.fail_bind]
    | some g =>
      obtain ⟨h1, h2, h3, h4⟩ := member_some hmb
      simp only [Option.isSome_some, if_true, HM.pure_bind, wrapOut, hassignTo]
      rw [wrapper_nil hd h1 h4, HM.pure_bind]
  | _ => rfl

/-! ## The passes over the fields -/

theorem cloneTy_slot {d : MsgDesc} {f : FieldDesc} (hff : FieldFacts d f) (ho : f.oneof = false) (hr : isReference d.proto3 f = true) : CloneTy f (fieldTy f) := by
  have hw : ∀ v, isNilH (fieldTy f) v = v.isNil := by
    intro v
    unfold fieldTy
    split
    · rfl
    · split
      · rfl
      split
      · rfl
      split
      · rfl
      split
      · rfl
      exact isNilH_elem _ _ _
  cases hm : f.map with
  | some md =>
    have hc := (hff.map md hm).1
    have hT : fieldTy f = .map md := by unfold fieldTy; rw [hm]
    refine ⟨by rw [hT]; rfl, hw, ?_, ?_, ?_, ?_⟩
    · intro md' h
      rw [hm] at h
      cases h
      exact ⟨hc, hT⟩
    · intro _ h; rw [hm] at h; cases h
    · intro h; exact absurd hc h
    · intro h; exact absurd hc h
  | none =>
    by_cases hc : f.card = .repeated
    · have hT : fieldTy f = .list f.kind f.msg := by unfold fieldTy; rw [hm]; simp [hc]
      exact ⟨by rw [hT]; rfl, hw, by simp [hm], fun _ _ => hT, fun h => absurd hc h, fun h => absurd hc h⟩
    · have hc' := beq_eq_false_iff_ne.2 hc
      have hpres : isScalarKind f.kind = true → f.presence = true := by
        intro hs
        have hnm : f.hasMessage = false := by revert hs; unfold isScalarKind FieldDesc.hasMessage; cases f.kind <;> simp
        have hnb : (f.kind == .bytes) = false := by revert hs; unfold isScalarKind; cases f.kind <;> simp
        unfold isReference at hr
        rw [ho, hnm, hc', hnb] at hr
        simp only [Bool.or_false, Bool.or_eq_true, Bool.not_eq_true'] at hr
        rcases hr with h | h
        · exact hff.proto2 hc h
        · exact (hff.synth h).2
      have hT : isScalarKind f.kind = true → fieldTy f = .ptr f.kind := by
        intro hs
        unfold fieldTy
        rw [hm]
        have := hpres hs
        revert hs
        simp only [hc', FieldDesc.hasMessage, this]
        unfold isScalarKind
        cases f.kind <;> simp
      have hT' : isScalarKind f.kind = false → fieldTy f = elemTy f.kind f.msg := by
        intro hs
        unfold fieldTy
        rw [hm]
        have hk : f.kind = .message ∨ f.kind = .group ∨ f.kind = .bytes := by revert hs; unfold isScalarKind; cases f.kind <;> simp
        rcases hk with h | h | h <;> simp [hc', FieldDesc.hasMessage, h, elemTy]
      refine ⟨?_, hw, by simp [hm], fun h => absurd h hc, fun _ => hT, fun _ => hT'⟩
      cases hs : isScalarKind f.kind with
      | true => rw [hT hs]; rfl
      | false => rw [hT' hs]; revert hs; cases f.kind <;> simp [isScalarKind, elemTy, nilable]

theorem slotDoes (hr : find .r vs = pure (.val (.msg t) q r)) (i : Nat) (ds : Vars) (hds : ∀ d ∈ ds, d.1 = Id.tmpContainer ∨ d.1 = .rhs ∨ d.1 = .tmpVal) :
    LhsDoes C (.field (.slot t i)) (ds ++ vs) (hsetSlot r i) := by
  refine LhsDoes.slot (q := q) ?_
  rw [find_skip fun d hd => ?_, hr]
  rcases hds d hd with h | h | h <;> rw [h] <;> simp

theorem assignOpt_slot (i : Nat) (o : Option HV) : assignOpt (hsetSlot r i) o = hassignTo r i o := by cases o <;> rfl

theorem exec_second (hg : GoodM G E C rec) (hd : MsgFacts (E.S.msg t)) (hm : find .m vs = pure (.val (.msg t) p m)) (hr : find .r vs = pure (.val (.msg t) q r)) :
    ∀ fs : List FieldDesc, (∀ f ∈ fs, f ∈ (E.S.msg t).fields ∧ (f.oneof = false → isReference (E.S.msg t).proto3 f = true)) →
    exec C (Emit.second G (E.S.msg t) t fs) vs = hcloneSecond E rec (E.S.msg t) p m r fs >>= fun _ => pure (.next vs)
  | [], _ => rfl
  | f :: fs, hfs => by
    have ih := exec_second hg hd hm hr fs fun g hgm => hfs g (.tail _ hgm)
    obtain ⟨hf, href⟩ := hfs f (.head _)
    rw [Emit.second, exec, hcloneSecond]
    unfold hcloneOut
    by_cases ho : f.oneof = true
    · rw [if_pos ho, exec_oneof hg hd hf ho hm hr]
      simp only [HM.bind_assoc, HM.pure_bind, ih, ho, if_true]
    · have ho' : f.oneof = false := by simpa using ho
      have hT := Go.slotTy_field hd hf ho'
      rw [if_neg ho, exec_cloneField hg.toGood (slotDoes hr f.slot) (X := hgetSlot m f.slot) (T := fieldTy f) (p := p ++ [f.slot]) (by rw [eval_slot hg.S hm, hT])
        (cloneTy_slot (hd.fields f hf) ho' (href ho')) (fun _ => rfl)]
      simp only [HM.bind_assoc, HM.pure_bind, ih, ho', Bool.false_eq_true, if_false, assignOpt_slot]

theorem first_split (hG : G.OK E.S) (hD : ∀ t, E.direct t = (G.wellKnown t || G.isLocal t)) (d : MsgDesc) : ∀ (fs : List FieldDesc) (seen : List Nat),
    (Emit.first G d t seen fs).2 = (cloneSplit E.S E.direct d seen fs).2
  | [], _ => rfl
  | f :: fs, seen => by
    rw [Emit.first, cloneSplit, direct_eq hG hD]
    by_cases ho : f.oneof = true
    · simp only [ho, if_true]
      split
      · exact first_split hG hD d fs seen
      · simp only [first_split hG hD d fs]
    · simp only [ho, Bool.false_eq_true, if_false]
      by_cases hr : (!isReference d.proto3 f) = true
      · simp only [hr, if_true, first_split hG hD d fs]
      · simp only [hr, Bool.false_eq_true, if_false]
        cases h1 : (f.card != .repeated && f.hasMessage) with
        | false => simp only [Bool.false_and, Bool.false_eq_true, if_false, first_split hG hD d fs]
        | true =>
          simp only [Bool.true_and]
          cases G.wellKnown f.msg <;> cases G.isLocal f.msg <;> simp only [Bool.or_self, Bool.true_or, Bool.or_true, Bool.false_eq_true, if_true, if_false, first_split hG hD d fs]

theorem exec_first (hg : GoodM G E C rec) (hd : MsgFacts (E.S.msg t)) (hm : find .m vs = pure (.val (.msg t) p m)) (hr : find .r vs = pure (.val (.msg t) q r)) :
    ∀ (fs : List FieldDesc) (seen : List Nat), (∀ f ∈ fs, f ∈ (E.S.msg t).fields) →
    exec C (Emit.first G (E.S.msg t) t seen fs).1 vs =
      hcloneFirst E rec (E.S.msg t) p m r (cloneSplit E.S E.direct (E.S.msg t) seen fs).1 >>= fun _ => pure (.next vs)
  | [], _, _ => rfl
  | f :: fs, seen, hfs => by
    have ih := fun seen => exec_first hg hd hm hr fs seen fun g hgm => hfs g (.tail _ hgm)
    have hf := hfs f (.head _)
    rw [Emit.first, cloneSplit, direct_eq hg.gen hg.direct]
    by_cases ho : f.oneof = true
    · simp only [ho, if_true]
      split
      · exact ih seen
      · exact ih _
    · have ho' : f.oneof = false := by simpa using ho
      have hT := Go.slotTy_field hd hf ho'
      simp only [ho', Bool.false_eq_true, if_false]
      have hset : ∀ (e : Expr) (Y : HM HV) (T : GTy), eval C vs e = (Y >>= fun y => pure (.val T (p ++ [f.slot]) y)) →
          exec C (.setField (.id .r) (.slot t f.slot) e) vs = Y >>= fun y => hsetSlot r f.slot y >>= fun _ => pure (.next vs) :=
        fun e Y T he => slotDoes hr f.slot [] (by simp) [] e _ (fun _ => T) (fun _ => p ++ [f.slot]) Y (by simp) he rfl
      by_cases hr' : (!isReference (E.S.msg t).proto3 f) = true
      · simp only [hr', if_true]
        rw [exec, hset _ (hgetSlot m f.slot) (fieldTy f) (by rw [eval_slot hg.S hm, hT]), hcloneFirst, if_pos hr']
        simp only [HM.bind_assoc, HM.pure_bind, ih]
      · simp only [hr', Bool.false_eq_true, if_false]
        have hrec : (f.card != .repeated && f.hasMessage) = true → ∀ e, eval C vs e = eval C vs (.sel (.id .m) (.slot t f.slot)) >>= callV C →
            exec C (.setField (.id .r) (.slot t f.slot) e ;; (Emit.first G (E.S.msg t) t seen fs).1) vs =
            hcloneFirst E rec (E.S.msg t) p m r (f :: (cloneSplit E.S E.direct (E.S.msg t) seen fs).1) >>= fun _ => pure (.next vs) := by
          intro h1 e he
          simp only [Bool.and_eq_true, bne_iff_ne] at h1
          have hmap : f.map = none := by
            cases hmm : f.map with
            | none => rfl
            | some md => exact absurd ((hd.fields f hf).map md hmm).1 h1.1
          have hT' : fieldTy f = .msg f.msg := by
            unfold fieldTy
            rw [hmap, beq_eq_false_iff_ne.2 h1.1, h1.2]
            rfl
          rw [exec, hset e (hgetSlot m f.slot >>= fun v => rec (p ++ [f.slot]) f.msg v) (.msg f.msg), hcloneFirst, if_neg hr']
          · simp only [HM.bind_assoc, HM.pure_bind, ih]
          · rw [he, eval_slot hg.S hm, hT, hT']
            simp only [HM.bind_assoc, HM.pure_bind, callV, hg.clone]
        cases h1 : (f.card != .repeated && f.hasMessage) with
        | false => simp only [Bool.false_and, Bool.false_eq_true, if_false, ih]
        | true =>
          simp only [Bool.true_and]
          cases hwk : G.wellKnown f.msg with
          | true => simp only [Bool.true_or, if_true]; exact hrec h1 _ (by simp only [eval])
          | false =>
            cases hlo : G.isLocal f.msg with
            | true => simp only [Bool.or_true, Bool.false_eq_true, if_true, if_false]; exact hrec h1 _ (by simp only [eval])
            | false => simp only [Bool.or_self, Bool.false_eq_true, if_false, ih]

theorem split_second (S : Schema) (dir : Nat → Bool) (d : MsgDesc) : ∀ (fs : List FieldDesc) (seen : List Nat),
    ∀ f ∈ (cloneSplit S dir d seen fs).2, f ∈ fs ∧ (f.oneof = false → isReference d.proto3 f = true)
  | [], _, f, hf => by cases hf
  | g :: fs, seen, f, hf => by
    have ih := fun seen => split_second S dir d fs seen f
    rw [cloneSplit] at hf
    by_cases ho : g.oneof = true
    · simp only [ho, if_true] at hf
      split at hf
      · exact ⟨.tail _ (ih _ hf).1, (ih _ hf).2⟩
      · rcases List.mem_cons.1 hf with rfl | hf
        · exact ⟨.head _, fun h => by rw [ho] at h; cases h⟩
        · exact ⟨.tail _ (ih _ hf).1, (ih _ hf).2⟩
    · simp only [ho, Bool.false_eq_true, if_false] at hf
      by_cases hr : (!isReference d.proto3 g) = true
      · simp only [hr, if_true] at hf
        exact ⟨.tail _ (ih _ hf).1, (ih _ hf).2⟩
      · simp only [hr, Bool.false_eq_true, if_false] at hf
        split at hf
        · exact ⟨.tail _ (ih _ hf).1, (ih _ hf).2⟩
        · rcases List.mem_cons.1 hf with rfl | hf
          · exact ⟨.head _, fun _ => by simpa using hr⟩
          · exact ⟨.tail _ (ih _ hf).1, (ih _ hf).2⟩

theorem exec_unknown (hm : find .m vs = pure (.val (.msg t) p m)) (hr : find .r vs = pure (.val (.msg t) q r)) :
    exec C (if (E.S.msg t).keepUnknown then
      Emit.when (.gt (.len (.sel (.id .m) .unknown)) (.lit 0))
        (.setField (.id .r) .unknown (.make .bytes (.len (.sel (.id .m) .unknown))) ;;
         .copy (.sel (.id .r) .unknown) (.sel (.id .m) .unknown))
      else .skip) vs = hcloneUnknown E t m r >>= fun _ => pure (.next vs) := by
  unfold hcloneUnknown
  by_cases hk : (E.S.msg t).keepUnknown = true
  · simp only [hk, if_true]
    simp only [exec, eval, hm, hr, HM.pure_bind, HM.bind_assoc, selV, lenV, gtV, truth, makeV, setV, copyV, block, List.nil_append]
    refine (readOnly_getUnknown m).congr fun σ u hu => ?_
    obtain ⟨res, hb⟩ : ∃ res, hreadBytes u σ = (σ, res) := ⟨_, (readOnly_readBytes u).eq σ⟩
    cases res with
    | ok b =>
      rw [HM.bind_ok hb, HM.bind_ok hb]
      by_cases h0 : b.length > 0
      · simp only [h0, decide_true, if_true, HM.bind_assoc]
        rw [HM.bind_ok hu, HM.bind_ok hb]
        simp only [HM.bind_assoc, HM.pure_bind, Nat.sub_self, List.drop_zero]
      · simp only [h0, decide_false, Bool.false_eq_true, if_false, HM.pure_bind, Nat.sub_self, List.drop_zero]
    | _ => rw [bind_run hb, bind_run hb]
  · simp only [hk, Bool.false_eq_true, if_false]
    rfl

/-! ## The methods -/

theorem exec_method (hg : GoodM G E C rec) (hfresh : ∀ p t, C.fresh p t = poolGet E.S (E.pick p) t) (hp : C.here = p) (hd : MsgFacts (E.S.msg t)) (v : HV) :
    (exec C (Emit.cloneMethod G E.S t) [(.m, .val (.msg t) p v)] >>= result) = hcloneBody E rec p t v := by
  unfold Emit.cloneMethod hcloneBody
  dsimp only
  rw [exec]
  by_cases hv : v.isNil = true
  · obtain rfl : v = .nil := by revert hv; cases v <;> simp [HV.isNil]
    simp only [exec, eval, find_cons_self, HM.pure_bind, eqV, nilable, if_true, isNilH, HV.isNil, truth, block, typedNilV, result]
  · have e1 : exec C (Emit.when (.eq (.id .m) .nil) (.ret (.typedNil (.msg t)))) [(.m, .val (.msg t) p v)] = pure (.next [(.m, .val (.msg t) p v)]) := by
      simp only [exec, eval, find_cons_self, HM.pure_bind, eqV, nilable, if_true, isNilH, truth, block, hv]
      rfl
    have e2 : exec C (Emit.alloc E.S t) [(.m, .val (.msg t) p v)] = hcloneAlloc E p t >>= fun r => pure (.next [(.r, .val (.msg t) [] r), (.m, .val (.msg t) p v)]) := by
      unfold Emit.alloc hcloneAlloc
      split
      · simp only [exec, eval, hfresh, hp, HM.bind_assoc, HM.pure_bind]
      · simp only [exec, eval, newV, hg.S, HM.bind_assoc, HM.pure_bind]
    rw [e1, HM.pure_bind]
    dsimp only
    rw [exec, e2]
    simp only [hv, Bool.false_eq_true, if_false, HM.bind_assoc, HM.pure_bind]
    congr 1
    funext r
    have hr : find .r [(.r, .val (.msg t) [] r), (.m, .val (.msg t) p v)] = pure (.val (.msg t) [] r) := find_cons_self
    have hm : find .m [(.r, .val (.msg t) [] r), (.m, .val (.msg t) p v)] = pure (.val (.msg t) p v) := by rw [find_cons_ne (by simp)]; exact find_cons_self
    rw [exec, exec_first hg hd hm hr _ _ fun f hf => hf]
    simp only [HM.bind_assoc, HM.pure_bind]
    congr 1
    funext _
    rw [exec, first_split hg.gen hg.direct, exec_second hg hd hm hr _ fun f hf => split_second _ _ _ _ _ f hf]
    simp only [HM.bind_assoc, HM.pure_bind]
    congr 1
    funext _
    rw [exec, exec_unknown hm hr]
    simp only [HM.bind_assoc, HM.pure_bind, exec, eval, hr, result]

/-- The printed methods are the methods described. -/
theorem runCloneN_eq (hG : G.OK E.S) (hD : ∀ t, E.direct t = (G.wellKnown t || G.isLocal t)) (hS : schemaOK E.S = true) : ∀ n, runCloneN G E n = hcloneN E n
  | 0 => rfl
  | n + 1 => by
    funext p t v
    rw [runCloneN, hcloneN, ← runCloneN_eq hG hD hS n]
    exact exec_method ⟨⟨rfl, rfl, fun _ _ _ => rfl, hG, hD⟩, fun _ _ _ _ => rfl⟩ (fun _ _ => rfl) rfl (schemaOK_msg hS t) v

end
end Vtp.GoH
