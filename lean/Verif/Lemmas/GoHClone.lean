import Verif.Lemmas.GoH
/-!
# The code printed for `CloneVT`: fields
-/

namespace Vtp.GoH
open Spec hiding elemTy fieldTy
open Go (GTy GenCfg elemTy fieldTy slotTy memberTy numTy Sel)

/-- What the methods find around them, for a recursive call `rec`. -/
structure Good (G : GenCfg) (E : HKEnv) (C : Ctx) (rec : HSubClone) : Prop where
  S : C.S = E.S
  R : C.R = E.R
  clone : ∀ t p v, C.clone (.msg t) p v = rec p t v
  gen : G.OK E.S
  direct : ∀ t, E.direct t = (G.wellKnown t || G.isLocal t)

section
variable {G : GenCfg} {E : HKEnv} {C : Ctx} {rec : HSubClone} {vs : Vars}

theorem find_cons_ne {x y : Id} {v : V} (h : x ≠ y) : find x ((y, v) :: vs) = find x vs := by rw [find, if_neg h]
theorem find_cons_self {x : Id} {v : V} : find x ((x, v) :: vs) = pure v := by rw [find, if_pos rfl]

theorem drop_vars (ds vs : Vars) : (ds ++ vs).drop ((ds ++ vs).length - vs.length) = vs := by simp

theorem block_eq {α : Type} {bind : Vars} {f : Vars → HM Flow} {X : HM α} {ds : α → Vars} (h : f (bind ++ vs) = X >>= fun a => pure (.next (ds a ++ bind ++ vs))) :
    block bind f vs = X >>= fun _ => pure (.next vs) := by
  unfold block
  rw [h, HM.bind_assoc]
  simp only [HM.pure_bind, drop_vars]

/-- A block at whose end nothing else is declared. -/
theorem block_same {bind : Vars} {f : Vars → HM Flow} {X : HM Unit} (h : f (bind ++ vs) = X >>= fun _ => pure (.next (bind ++ vs))) :
    block bind f vs = X >>= fun _ => pure (.next vs) := block_eq (ds := fun _ => []) h

/-- `lhs = e` does `w`, also where the variables of `cloneFieldSingular` are declared. -/
def LhsDoes (C : Ctx) (l : Emit.Lhs) (vs : Vars) (w : HV → HM Unit) : Prop :=
  ∀ (ds : Vars) (e : Expr) (X : HM V) (T : HV → GTy) (p : HV → List Nat) (Y : HM HV), (∀ d ∈ ds, d.1 = .tmpBytes ∨ d.1 = .vtpb) →
    eval C (ds ++ vs) e = X → (X = Y >>= fun y => pure (.val (T y) (p y) y)) →
    exec C (l.set e) (ds ++ vs) = Y >>= fun y => w y >>= fun _ => pure (.next (ds ++ vs))

theorem find_decls {x : Id} {ds : Vars} (hx : x ≠ .tmpBytes ∧ x ≠ .vtpb) (h : ∀ d ∈ ds, d.1 = .tmpBytes ∨ d.1 = .vtpb) : find x (ds ++ vs) = find x vs := by
  induction ds with
  | nil => rfl
  | cons d ds ih =>
    rw [List.cons_append, show d = (d.1, d.2) from rfl, find_cons_ne, ih fun e he => h e (.tail _ he)]
    rcases h d (.head _) with h | h <;> rw [h]
    exacts [hx.1, hx.2]

theorem LhsDoes.slot {t i : Nat} {q : List Nat} {r : HV} (hr : find .r vs = pure (.val (.msg t) q r)) : LhsDoes C (.field (.slot t i)) vs (hsetSlot r i) := by
  intro ds e X T p Y hd he hX
  subst he
  rw [Emit.Lhs.set, exec, eval, find_decls ⟨by simp, by simp⟩ hd, hr, hX]
  simp only [HM.pure_bind, HM.bind_assoc, setV, if_true]

theorem LhsDoes.member {t n : Nat} {q : List Nat} {r : HV} (hr : find .r vs = pure (.val (.wrapper t n) q r)) :
    LhsDoes C (.field (.member t n)) vs (hsetMember r n) := by
  intro ds e X T p Y hd he hX
  subst he
  rw [Emit.Lhs.set, exec, eval, find_decls ⟨by simp, by simp⟩ hd, hr, hX]
  simp only [HM.pure_bind, HM.bind_assoc, setV, and_self, if_true]

theorem LhsDoes.elem {k : Kind} {t i : Nat} {q : List Nat} {d : HV} (hc : find .tmpContainer vs = pure (.val (.list k t) q d)) (hk : find .k vs = pure (.int i)) :
    LhsDoes C .elem vs (hsetIndex d i) := by
  intro ds e X T p Y hd he hX
  subst he
  rw [Emit.Lhs.set, exec, eval, eval, find_decls ⟨by simp, by simp⟩ hd, hc, find_decls ⟨by simp, by simp⟩ hd, hk, hX]
  simp only [HM.pure_bind, HM.bind_assoc, setIndexV]

theorem LhsDoes.entry {md : MapDesc} {key : Key} {q : List Nat} {d : HV} (hc : find .tmpContainer vs = pure (.val (.map md) q d)) (hk : find .k vs = pure (.key key)) :
    LhsDoes C .elem vs (hmapPut d key) := by
  intro ds e X T p Y hd he hX
  subst he
  rw [Emit.Lhs.set, exec, eval, eval, find_decls ⟨by simp, by simp⟩ hd, hc, find_decls ⟨by simp, by simp⟩ hd, hk, hX]
  simp only [HM.pure_bind, HM.bind_assoc, setIndexV]

/-- What `cloneFieldSingular` declares. -/
def decls (k : Kind) (y : HV) : Vars := if k = .bytes then [(.tmpBytes, .val .bytes [] y)] else []

theorem exec_singular (hg : Good G E C rec) {l : Emit.Lhs} {w : HV → HM Unit} (hl : LhsDoes C l vs w) {x : Id} (hx : x ≠ .tmpBytes ∧ x ≠ .vtpb) {k : Kind} {t : Nat}
    {p : List Nat} {v : HV} (hr : find x vs = pure (.val (elemTy k t) p v)) :
    exec C (Emit.cloneFieldSingular G l (.id x) k t) vs =
      hcloneSingular E rec k t p v >>= fun y => w y >>= fun _ => pure (.next (decls k y ++ vs)) := by
  unfold Emit.cloneFieldSingular hcloneSingular decls
  by_cases hm : k = .message ∨ k = .group
  · have hT : elemTy k t = .msg t := by rcases hm with rfl | rfl <;> rfl
    have hb : k ≠ .bytes := by rcases hm with rfl | rfl <;> simp
    rw [if_pos hm, if_pos hm]
    simp only [if_neg hb]
    rw [hT] at hr
    by_cases hwk : G.wellKnown t = true
    · have hf : (E.S.msg t).foreign = false := by
        cases h : (E.S.msg t).foreign with
        | false => rfl
        | true => rw [(hg.gen t h).1] at hwk; cases hwk
      rw [if_pos hwk, if_neg (by rw [hf]; simp)]
      refine hl [] _ _ (fun _ => .msg t) (fun _ => p) _ (by simp) rfl ?_
      simp only [eval, List.nil_append, hr, HM.pure_bind, callV, hg.clone]
    rw [if_neg hwk]
    by_cases hlo : G.isLocal t = true
    · have hf : (E.S.msg t).foreign = false := by
        cases h : (E.S.msg t).foreign with
        | false => rfl
        | true => rw [(hg.gen t h).2] at hlo; cases hlo
      rw [if_pos hlo, if_neg (by rw [hf]; simp)]
      refine hl [] _ _ (fun _ => .msg t) (fun _ => p) _ (by simp) rfl ?_
      simp only [eval, List.nil_append, hr, HM.pure_bind, callV, hg.clone]
    rw [if_neg hlo, exec, eval, hr]
    simp only [HM.pure_bind, implements, hg.S]
    by_cases hf : (E.S.msg t).foreign = true
    · rw [if_pos hf]
      simp only [hf, Bool.not_true, Bool.false_eq_true, if_false]
      rw [← HM.bind_assoc]
      refine block_same (bind := []) ?_
      rw [HM.bind_assoc]
      refine hl [] _ _ (fun _ => .msg t) (fun _ => p) _ (by simp) rfl ?_
      simp only [eval, List.nil_append, hr, HM.pure_bind, protoCloneV, hg.S, hg.R]
      rfl
    · rw [if_neg hf]
      simp only [hf, Bool.not_false, if_true]
      rw [← HM.bind_assoc]
      refine block_same ?_
      rw [HM.bind_assoc]
      refine hl [(.vtpb, .val (.msg t) p v)] _ _ (fun _ => .msg t) (fun _ => p) _ (by simp) rfl ?_
      simp only [eval, List.cons_append, List.nil_append, find_cons_self, HM.pure_bind, callV, hg.clone]
  · rw [if_neg hm, if_neg hm]
    by_cases hb : k = .bytes
    · subst hb
      simp only [if_true]
      have hT : elemTy .bytes t = .bytes := rfl
      rw [hT] at hr
      have hset : ∀ d : HV, exec C (l.set (.id .tmpBytes)) ((.tmpBytes, .val .bytes [] d) :: vs) = w d >>= fun _ => pure (.next ((.tmpBytes, .val .bytes [] d) :: vs)) := by
        intro d
        refine hl [(.tmpBytes, .val .bytes [] d)] (.id .tmpBytes) (pure (.val .bytes [] d)) (fun _ => .bytes) (fun _ => []) (pure d) (by simp) ?_ rfl
        rw [eval]; exact find_cons_self
      rw [exec, exec, eval, eval, eval, hr]
      simp only [HM.pure_bind, lenV, HM.bind_assoc, makeV, exec]
      simp only [eval, find_cons_self, find_cons_ne hx.1, hr, HM.pure_bind, HM.bind_assoc, copyV, hset]
      have := makeCopyBytes v (fun d => w d >>= fun _ => pure (Flow.next ((.tmpBytes, .val .bytes [] d) :: vs)))
      rw [this, HM.bind_assoc]
      rfl
    · rw [if_neg hb, if_neg hb]
      simp only [if_neg hb]
      refine hl [] _ (pure (.val (elemTy k t) p v)) (fun _ => elemTy k t) (fun _ => p) (pure v) (by simp) ?_ rfl
      simp only [eval, List.nil_append, hr]

/-- One iteration of the loops of `cloneField`. -/
theorem block_singular (hg : Good G E C rec) {w : HV → HM Unit} {key : V} (hw : ∀ b, LhsDoes C .elem ([(.v, b), (.k, key)] ++ vs) w) {k : Kind} {t : Nat} {p : List Nat} {v : HV} :
    block (loopVars (some .k) .v key (.val (elemTy k t) p v)) (exec C (Emit.cloneFieldSingular G .elem (.id .v) k t)) vs =
      hcloneSingular E rec k t p v >>= fun y => w y >>= fun _ => pure (.next vs) := by
  have h := exec_singular hg (hw (.val (elemTy k t) p v)) (x := .v) ⟨by simp, by simp⟩ (k := k) (t := t) (p := p) (v := v) find_cons_self
  have h' : exec C (Emit.cloneFieldSingular G .elem (.id .v) k t) (loopVars (some .k) .v key (.val (elemTy k t) p v) ++ vs) =
      (hcloneSingular E rec k t p v >>= fun y => w y >>= fun _ => pure y) >>= fun y =>
        pure (.next (decls k y ++ loopVars (some .k) .v key (.val (elemTy k t) p v) ++ vs)) := by
    simp only [HM.bind_assoc, HM.pure_bind, List.append_assoc]
    exact h
  rw [block_eq (ds := decls k) h']
  simp only [HM.bind_assoc, HM.pure_bind]

theorem exec_elems (hg : Good G E C rec) {k : Kind} {t : Nat} {q p : List Nat} {d s : HV} (hc : find .tmpContainer vs = pure (.val (.list k t) q d)) : ∀ (n i : Nat),
    loopList (fun a b => block (loopVars (some .k) .v a b) (exec C (Emit.cloneFieldSingular G .elem (.id .v) k t))) (elemTy k t) p s i n vs =
      hcloneElems E rec k t p s d i n >>= fun _ => pure (.next vs)
  | 0, i => rfl
  | n + 1, i => by
    rw [loopList, hcloneElems]
    simp only [HM.bind_assoc]
    congr 1
    funext x
    rw [block_singular hg fun b => LhsDoes.elem (k := k) (t := t) (q := q) (d := d) (by
      rw [List.cons_append, find_cons_ne (by simp), List.cons_append, find_cons_ne (by simp)]; exact hc) (by
      rw [List.cons_append, find_cons_ne (by simp), List.cons_append]; exact find_cons_self)]
    simp only [HM.bind_assoc, HM.pure_bind, exec_elems hg hc n]

theorem exec_entries (hg : Good G E C rec) {md : MapDesc} {q p : List Nat} {d : HV} (hc : find .tmpContainer vs = pure (.val (.map md) q d)) :
    ∀ (es : List (Key × HV)) (i : Nat),
    loopMap (fun a b => block (loopVars (some .k) .v a b) (exec C (Emit.cloneFieldSingular G .elem (.id .v) md.val md.valMsg))) (elemTy md.val md.valMsg) p i es vs =
      hcloneEntries E rec md.val md.valMsg p d i es >>= fun _ => pure (.next vs)
  | [], i => rfl
  | (key, x) :: es, i => by
    rw [loopMap, hcloneEntries]
    simp only [HM.bind_assoc]
    rw [block_singular hg fun b => LhsDoes.entry (md := md) (q := q) (d := d) (key := key) (by
      rw [List.cons_append, find_cons_ne (by simp), List.cons_append, find_cons_ne (by simp)]; exact hc) (by
      rw [List.cons_append, find_cons_ne (by simp), List.cons_append]; exact find_cons_self)]
    simp only [HM.bind_assoc, HM.pure_bind, exec_entries hg hc es]

/-- The type of a struct field as `cloneField` sees it. -/
structure CloneTy (f : FieldDesc) (T : GTy) : Prop where
  nil : nilable T = true
  ptr : ∀ v, isNilH T v = v.isNil
  map : ∀ md, f.map = some md → f.card = .repeated ∧ T = .map md
  list : f.card = .repeated → f.map = none → T = .list f.kind f.msg
  scalar : f.card ≠ .repeated → isScalarKind f.kind = true → T = .ptr f.kind
  other : f.card ≠ .repeated → isScalarKind f.kind = false → T = elemTy f.kind f.msg

/-- `tmpContainer` for a list or map, and the assignment. -/
theorem exec_container (hg : Good G E C rec) {s : Sel} {w : HV → HM Unit} {f : FieldDesc} {T : GTy} {p : List Nat} {v : HV}
    (hw : ∀ c, LhsDoes C (.field s) ([(.tmpContainer, c), (.rhs, .val T p v)] ++ vs) w)
    (hT : CloneTy f T) (hF : fieldTy f = T) (hrep : f.card = .repeated) (hv : v.isNil = false) :
    exec C (.define .tmpContainer (.make (fieldTy f) (.len (.id .rhs))) ;;
      (match f.map with
        | some md => .range (some .k) .v (.id .rhs) (Emit.cloneFieldSingular G .elem (.id .v) md.val md.valMsg)
        | none => if isScalarKind f.kind then .copy (.id .tmpContainer) (.id .rhs)
          else .range (some .k) .v (.id .rhs) (Emit.cloneFieldSingular G .elem (.id .v) f.kind f.msg)) ;;
      .setField (.id .r) s (.id .tmpContainer)) ((.rhs, .val T p v) :: vs) =
    hcloneContainer E rec f p v >>= fun y => w y >>= fun _ => pure (.next ((.tmpContainer, .val T [] y) :: (.rhs, .val T p v) :: vs)) := by
  have hset : ∀ d : HV, exec C (.setField (.id .r) s (.id .tmpContainer)) ((.tmpContainer, .val T [] d) :: (.rhs, .val T p v) :: vs) =
      w d >>= fun _ => pure (.next ((.tmpContainer, .val T [] d) :: (.rhs, .val T p v) :: vs)) := by
    intro d
    refine hw (.val T [] d) [] (.id .tmpContainer) (pure (.val T [] d)) (fun _ => T) (fun _ => []) (pure d) (by simp) ?_ rfl
    rw [eval]; exact find_cons_self
  rw [hF]
  cases hm : f.map with
  | some md =>
    obtain ⟨-, rfl⟩ := hT.map md hm
    unfold hcloneContainer hcloneMap
    rw [hm]
    simp only [exec, eval, find_cons_self, HM.pure_bind, HM.bind_assoc, lenV, makeV, find_cons_ne (show (Id.rhs ≠ .tmpContainer) by simp), rangeV]
    simp only [exec_entries hg (find_cons_self), HM.bind_assoc, HM.pure_bind]
    have hset' := hset
    simp only [exec, eval, find_cons_self, HM.pure_bind, HM.bind_assoc] at hset'
    simp only [find_cons_self, HM.pure_bind, hset']
    rw [makeMap v fun a es => hcloneEntries E rec md.val md.valMsg p (.ptr a) 0 es >>= fun _ => w (.ptr a) >>= fun _ =>
      pure (Flow.next ((.tmpContainer, .val (.map md) [] (.ptr a)) :: (.rhs, .val (.map md) p v) :: vs))]
    cases v with
    | nil => simp [HV.isNil] at hv
    | ptr a =>
      simp only [hentries, HM.bind_assoc]
      congr 1
      funext c
      cases c <;> simp only [HM.fail_bind, HM.pure_bind, HM.bind_assoc]
    | _ => rfl
  | none =>
    obtain rfl := hT.list hrep hm
    unfold hcloneContainer hcloneList
    rw [hm]
    have hset' := hset
    simp only [exec, eval, find_cons_self, HM.pure_bind, HM.bind_assoc] at hset'
    by_cases hs : isScalarKind f.kind = true
    · simp only [hs, if_true]
      simp only [exec, eval, find_cons_self, HM.pure_bind, HM.bind_assoc, lenV, makeV, find_cons_ne (show (Id.rhs ≠ .tmpContainer) by simp), copyV]
      simp only [hset']
      cases v with
      | nil => simp [HV.isNil] at hv
      | slice a len =>
        rw [makeCopyList a len f.kind fun d => w d >>= fun _ => pure (Flow.next ((.tmpContainer, .val (.list f.kind f.msg) [] d) :: (.rhs, .val (.list f.kind f.msg) p (.slice a len)) :: vs))]
        simp only [HM.bind_assoc]
        congr 1
        funext c
        cases c <;> simp only [HM.fail_bind, HM.pure_bind, HM.bind_assoc]
      | _ => rfl
    · simp only [hs, if_false, Bool.false_eq_true]
      simp only [exec, eval, find_cons_self, HM.pure_bind, HM.bind_assoc, lenV, makeV, find_cons_ne (show (Id.rhs ≠ .tmpContainer) by simp), rangeV]
      simp only [exec_elems hg (find_cons_self), HM.bind_assoc, HM.pure_bind]
      simp only [find_cons_self, HM.pure_bind, hset']
      rw [makeLen v f.kind fun d n => hcloneElems E rec f.kind f.msg p v d 0 n >>= fun _ => w d >>= fun _ =>
        pure (Flow.next ((.tmpContainer, .val (.list f.kind f.msg) [] d) :: (.rhs, .val (.list f.kind f.msg) p v) :: vs))]
      cases v with
      | nil => simp [HV.isNil] at hv
      | slice a len =>
        simp only [hlen, HM.bind_assoc]
        congr 1
        funext c
        cases c <;> simp only [HM.fail_bind, HM.pure_bind, HM.bind_assoc]
      | _ => rfl

/-- An assignment that may not take place. -/
def assignOpt (w : HV → HM Unit) : Option HV → HM Unit
  | some y => w y
  | none => pure ()

theorem exec_cloneField (hg : Good G E C rec) {s : Sel} {w : HV → HM Unit} {f : FieldDesc} {T : GTy} {p : List Nat} {X : HM HV}
    (hw : ∀ ds, (∀ d ∈ ds, d.1 = Id.tmpContainer ∨ d.1 = .rhs ∨ d.1 = .tmpVal) → LhsDoes C (.field s) (ds ++ vs) w)
    (hX : eval C vs (.sel (.id .m) s) = X >>= fun v => pure (.val T p v))
    (hT : CloneTy f T) (hF : f.card = .repeated → fieldTy f = T) :
    exec C (Emit.cloneField G s f) vs = X >>= fun v => hcloneField E rec f p v >>= fun o => assignOpt w o >>= fun _ => pure (.next vs) := by
  unfold Emit.cloneField
  rw [exec, hX, HM.bind_assoc]
  congr 1
  funext v
  rw [HM.pure_bind]
  have hcond : (eval C ([(Id.rhs, V.val T p v)] ++ vs) (.ne (.id .rhs) .nil) >>= truth) = pure !v.isNil := by
    simp only [List.cons_append, List.nil_append, eval, find_cons_self, HM.pure_bind, eqV, hT.nil, if_true, hT.ptr, truth]
  unfold hcloneField
  cases hv : v.isNil with
  | true =>
    simp only [if_true, HM.pure_bind, assignOpt]
    rw [block_same (X := pure ())]
    · rfl
    · rw [hcond, hv]; rfl
  | false =>
    simp only [Bool.false_eq_true, if_false]
    rw [hv] at hcond
    have go : ∀ (st : Stmt) (Y : HM HV) (ds : HV → Vars), exec C st ((.rhs, .val T p v) :: vs) = (Y >>= fun y => w y >>= fun _ => pure (.next (ds y ++ (.rhs, .val T p v) :: vs))) →
        block [(.rhs, .val T p v)] (fun vs => eval C vs (.ne (.id .rhs) .nil) >>= truth >>= fun t => if t then block [] (exec C st) vs else pure (.next vs)) vs =
          Y >>= fun y => w y >>= fun _ => pure (.next vs) := by
      intro st Y ds h
      have h1 : block [] (exec C st) ([(.rhs, .val T p v)] ++ vs) = (Y >>= fun y => w y) >>= fun _ => pure (.next ([(.rhs, .val T p v)] ++ vs)) := by
        rw [block_eq (X := Y >>= fun y => w y >>= fun _ => pure y) (ds := ds)]
        · simp only [HM.bind_assoc, HM.pure_bind]
        · simp only [HM.bind_assoc, HM.pure_bind, List.append_assoc, List.nil_append]
          exact h
      rw [block_same (X := Y >>= fun y => w y)]
      · simp only [HM.bind_assoc]
      · rw [hcond, HM.pure_bind]
        simp only [Bool.not_false, if_true]
        exact h1
    by_cases hrep : f.card = .repeated
    · simp only [hrep, beq_self_eq_true, if_true]
      conv => rhs; simp only [HM.bind_assoc, HM.pure_bind, assignOpt]
      exact go _ _ (fun y => [(.tmpContainer, .val T [] y)]) (exec_container hg (fun c => hw _ (by simp)) hT (hF hrep) hrep hv)
    · simp only [beq_eq_false_iff_ne.2 hrep, Bool.false_eq_true, if_false]
      by_cases hs : isScalarKind f.kind = true
      · obtain rfl := hT.scalar hrep hs
        simp only [hs, if_true]
        conv => rhs; simp only [HM.bind_assoc, HM.pure_bind, assignOpt]
        cases v with
        | nil => simp [HV.isNil] at hv
        | ptr a =>
          unfold hcloneBox
          -- the box is read when `tmpVal` is defined
          have : exec C (.define .tmpVal (.star (.id .rhs)) ;; .setField (.id .r) s (.addr .tmpVal f.kind)) ((.rhs, .val (.ptr f.kind) p (.ptr a)) :: vs) =
              hread a >>= fun c => match c with
                | .box x => halloc (.box x) >>= fun b => w (.ptr b) >>= fun _ => pure (.next ((.tmpVal, .val (elemTy f.kind 0) p x) :: (.rhs, .val (.ptr f.kind) p (.ptr a)) :: vs))
                | _ => confused := by
            rw [exec, exec, eval, eval, find_cons_self]
            simp only [HM.pure_bind, starV, HM.bind_assoc]
            congr 1
            funext c
            cases c with
            | box x =>
              simp only [HM.pure_bind]
              erw [hw [(.tmpVal, .val (elemTy f.kind 0) p x), (.rhs, .val (.ptr f.kind) p (.ptr a))] (by simp) [] (.addr .tmpVal f.kind) _ (fun _ => .ptr f.kind) (fun _ => p)
                (halloc (.box x) >>= fun b => pure (.ptr b)) (by simp) rfl (by
                  simp only [List.nil_append, List.cons_append, eval, find_cons_self, HM.pure_bind, addrV, if_true, HM.bind_assoc])]
              simp only [HM.bind_assoc, HM.pure_bind, List.nil_append, List.cons_append]
            | _ => rfl
          have hb : block [] (exec C (.define .tmpVal (.star (.id .rhs)) ;; .setField (.id .r) s (.addr .tmpVal f.kind))) ([(.rhs, .val (.ptr f.kind) p (.ptr a))] ++ vs) =
              (hread a >>= fun c => match c with
                | .box x => halloc (.box x) >>= fun b => w (.ptr b)
                | _ => confused) >>= fun _ => pure (.next ([(.rhs, .val (.ptr f.kind) p (.ptr a))] ++ vs)) := by
            unfold block
            rw [List.nil_append, List.cons_append, List.nil_append, this]
            simp only [HM.bind_assoc]
            congr 1
            funext c
            cases c with
            | box x => simp only [HM.bind_assoc, HM.pure_bind]; simp
            | _ => rfl
          rw [block_same (X := hread a >>= fun c => match c with
                | .box x => halloc (.box x) >>= fun b => w (.ptr b)
                | _ => confused)]
          · simp only [HM.bind_assoc]
            congr 1
            funext c
            cases c <;> simp only [HM.bind_assoc, HM.pure_bind, HM.fail_bind]
          · rw [hcond, HM.pure_bind]
            simp only [Bool.not_false, if_true]
            exact hb
        | _ =>
          rw [block_same (X := confused)]
          · rfl
          · rw [hcond, HM.pure_bind]
            simp only [Bool.not_false, if_true]
            unfold block
            simp only [exec, eval, List.nil_append, List.cons_append, find_cons_self, HM.pure_bind]
            rfl
      · have hs' : isScalarKind f.kind = false := by simpa using hs
        obtain rfl := hT.other hrep hs'
        simp only [hs', Bool.false_eq_true, if_false]
        conv => rhs; simp only [HM.bind_assoc, HM.pure_bind, assignOpt]
        exact go _ _ (decls f.kind) (exec_singular hg (hw [(.rhs, _)] (by simp)) ⟨by simp, by simp⟩ find_cons_self)

end
end Vtp.GoH
