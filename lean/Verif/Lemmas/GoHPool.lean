import Verif.Model.EmitPool
import Verif.Lemmas.GoHMethod
/-!
# The code printed for `ResetVT`, `ReturnToVTPool` and `TFromVTPool`
-/

namespace Vtp

/-- Code always ends with a result of which something holds. -/
def HGives {α : Type} (x : HM α) (P : α → Prop) : Prop := ∀ σ σ' a, x σ = (σ', .ok a) → P a

theorem HGives.pure {α : Type} {a : α} {P : α → Prop} (h : P a) : HGives (Pure.pure a : HM α) P := fun _ _ _ e => by cases e; exact h

theorem HGives.lift {α : Type} {r : Panic} {P : α → Prop} : HGives (HM.lift (.panic r) : HM α) P := fun _ _ _ e => by
  have := congrArg Prod.snd e
  simp [HM.lift] at this

theorem HGives.bind {α β : Type} {x : HM α} {f : α → HM β} {P : β → Prop} (h : ∀ a, HGives (f a) P) : HGives (x >>= f) P := fun _ _ _ e => by
  obtain ⟨σ1, a, _, h2⟩ := bind_inv e
  exact h a _ _ _ h2

theorem HGives.bind' {α β : Type} {x : HM α} {f : α → HM β} {Q : α → Prop} {P : β → Prop} (hx : HGives x Q) (h : ∀ a, Q a → HGives (f a) P) : HGives (x >>= f) P := fun _ _ _ e => by
  obtain ⟨σ1, a, h1, h2⟩ := bind_inv e
  exact h a (hx _ _ _ h1) _ _ _ h2

theorem HGives.congr {α β : Type} {x : HM α} {P : α → Prop} (hx : HGives x P) {f g : α → HM β} (h : ∀ a, P a → f a = g a) : (x >>= f) = (x >>= g) := by
  funext σ
  show HM.bind x f σ = HM.bind x g σ
  simp only [HM.bind]
  rcases e : x σ with ⟨σ', r⟩
  cases r with
  | ok a => simp only [h a (hx _ _ _ e)]
  | _ => rfl

end Vtp

namespace Vtp.GoH
open Spec hiding elemTy fieldTy
open Go (GTy GenCfg elemTy fieldTy slotTy memberTy numTy Sel)

section
variable {S : Schema} {C : Ctx} {rec : HSubReset} {vs : Vars} {t : Nat} {p : HV}

/-- Around a printed `ResetVT`: the methods of other messages. -/
structure PoolGood (S : Schema) (C : Ctx) (rec : HSubReset) : Prop where
  S : C.S = S
  reset : ∀ t v, C.reset t v = if v.isNil then pure () else rec t v
  back : ∀ t v, C.back t v = hreturnWith rec t v

theorem resetField_saves (n : Nat) (f : FieldDesc) : HGives (hresetField S rec p f) fun o => o.isSome = (Emit.resetField S t n f).2 := by
  unfold hresetField Emit.resetField
  dsimp only
  split
  · exact .bind fun _ => .bind fun _ => .bind fun _ => .pure rfl
  · split
    · split
      · refine .bind fun _ => .bind fun o => ?_
        cases o
        · exact .pure rfl
        · exact .bind fun _ => .bind fun _ => .pure rfl
      · exact .pure rfl
    · split
      · split
        · exact .bind fun _ => .bind fun _ => .pure rfl
        · exact .pure rfl
      · split
        · exact .bind fun _ => .bind fun _ => .pure rfl
        · exact .pure rfl

theorem exec_resetElems (hg : PoolGood S C rec) (q : List Nat) (k : Kind) (mt : Nat) (hk : elemTy k mt = .msg mt) (s : HV) : ∀ (n i : Nat),
    loopList (fun a b => block (loopVars none .mm a b) (exec C (if (S.msg mt).pooled then .resetVT (.id .mm) else .reset (.id .mm)))) (elemTy k mt) q s i n vs =
      hresetElems S rec mt s i n >>= fun _ => pure (.next vs)
  | 0, _ => rfl
  | n + 1, i => by
    rw [loopList, hresetElems]
    simp only [HM.bind_assoc]
    congr 1; funext x
    have hb : block (loopVars none .mm (.int i) (.val (elemTy k mt) (q ++ [i]) x)) (exec C (if (S.msg mt).pooled then .resetVT (.id .mm) else .reset (.id .mm))) vs =
        hresetElem S rec mt x >>= fun _ => pure (.next vs) := by
      refine block_same ?_
      unfold hresetElem
      split
      · simp only [exec, eval, loopVars, List.cons_append, List.nil_append, find_cons_self, HM.pure_bind, hk, onMsg, hg.reset]
      · simp only [exec, eval, loopVars, List.cons_append, List.nil_append, find_cons_self, HM.pure_bind, hk, resetV, hg.S]
        cases x <;> rfl
    rw [hb, HM.bind_assoc]
    congr 1; funext _
    rw [HM.pure_bind]
    exact exec_resetElems hg q k mt hk s n (i + 1)

theorem fieldTy_list {f : FieldDesc} (hl : f.isList = true) : fieldTy f = .list f.kind f.msg := by
  simp only [FieldDesc.isList, Bool.and_eq_true] at hl
  unfold fieldTy
  cases hm : f.map with
  | some md => rw [hm] at hl; simp at hl
  | none => simp only [hl.1, if_true]

theorem elemTy_msg {k : Kind} (h : k = .message ∨ k = .group) (t : Nat) : elemTy k t = .msg t := by
  rcases h with rfl | rfl <;> rfl

theorem kind_msg {f : FieldDesc} (h : f.hasMessage = true) : f.kind = .message ∨ f.kind = .group := by
  simpa [FieldDesc.hasMessage] using h

theorem exec_resetField (hg : PoolGood S C rec) (hd : MsgFacts (S.msg t)) {f : FieldDesc} (hf : f ∈ (S.msg t).fields)
    (hm : find .m vs = pure (.val (.msg t) [] p)) (n : Nat) :
    exec C (Emit.resetField S t n f).1 vs = hresetField S rec p f >>= fun o => pure (.next (match o with
      | some v => (.f n, .val (slotTy S t f.slot) [f.slot] v) :: vs
      | none => vs)) := by
  have hE : eval C vs (.sel (.id .m) (.slot t f.slot)) = hgetSlot p f.slot >>= fun x => pure (.val (slotTy S t f.slot) [f.slot] x) := by
    simp only [eval, hm, HM.pure_bind, selV, if_true, hg.S, List.nil_append]
  have hff := hd.fields f hf
  unfold Emit.resetField hresetField
  dsimp only
  by_cases hl : f.isList = true
  · simp only [hl, if_true]
    have ho : f.oneof = false := by
      by_contra h
      have := (hff.oneof (by simpa using h)).1
      simp [FieldDesc.isList, this] at hl
    have hT := Go.slotTy_field hd hf ho
    rw [fieldTy_list hl] at hT
    have hcut : exec C (.define (.f n) (.cut (.sel (.id .m) (.slot t f.slot)))) vs = hgetSlot p f.slot >>= fun s => hcutList s >>= fun s =>
        pure (.next ((.f n, .val (slotTy S t f.slot) [f.slot] s) :: vs)) := by
      rw [exec, eval, hE]
      simp only [HM.bind_assoc, HM.pure_bind, hT, cutV]
    rw [exec]
    have hlist : exec C (if f.hasMessage = true then
            .range none .mm (.sel (.id .m) (.slot t f.slot)) (if (S.msg f.msg).pooled = true then .resetVT (.id .mm) else .reset (.id .mm))
          else if f.kind = .bytes ∨ f.kind = .string then .clear (.sel (.id .m) (.slot t f.slot)) else .skip) vs =
        hresetList S rec p f >>= fun _ => pure (.next vs) := by
      unfold hresetList
      split
      · rename_i hmsg
        rw [exec, hE]
        simp only [HM.bind_assoc, HM.pure_bind, hT, rangeV]
        congr 1; funext s
        congr 1; funext k
        exact exec_resetElems hg [f.slot] f.kind f.msg (elemTy_msg (kind_msg hmsg) _) s k 0
      · split
        · rw [exec, hE]
          simp only [HM.bind_assoc, HM.pure_bind, hT, clearV]
        · rfl
    rw [hlist]
    simp only [HM.bind_assoc, HM.pure_bind, hcut]
  · simp only [hl, Bool.false_eq_true, if_false]
    by_cases ho : f.oneof = true
    · simp only [ho, if_true]
      split
      · rename_i hp
        have hmsg : f.hasMessage = true := by simp only [Bool.and_eq_true] at hp; exact hp.1
        have hT := Go.slotTy_oneof hd hf ho
        simp only [exec, hE, HM.bind_assoc, HM.pure_bind, hT, holdsV, if_true]
        congr 1; funext s
        have hMT : memberTy S t f.num = .msg f.msg := by
          unfold memberTy
          rw [Go.find_num hd hf]
          exact elemTy_msg (kind_msg hmsg) _
        have hblock : block [(.oneof, .val (.wrapper t f.num) [f.slot] s)] (fun vs => eval C vs (.sel (.id .oneof) (.member t f.num)) >>= fun x => onMsg C.back x >>= fun _ => pure (.next vs)) vs =
            (hgetMember s f.num >>= fun x => hreturnWith rec f.msg x) >>= fun _ => pure (.next vs) := by
          refine block_same ?_
          simp only [eval, List.cons_append, List.nil_append, find_cons_self, HM.pure_bind, selV, and_self, if_true, HM.bind_assoc, hg.S, hMT, onMsg, hg.back]
        have hro : ReadOnly (hholds s f.num) := by
          unfold hholds
          split
          · exact readOnly_pure _
          · exact readOnly_pure _
          · exact (readOnly_read _).bind fun c => by split <;> first | exact readOnly_pure _ | exact readOnly_lift _
          · exact readOnly_lift _
        refine hro.congr fun σ o h => ?_
        cases o with
        | none => rfl
        | some w =>
          simp only [Option.map_some]
          rw [hblock]
          simp only [HM.bind_assoc, HM.pure_bind]
          refine bind_at ?_ _
          unfold hholds at h
          cases s with
          | nil => cases h
          | wrapNil n' =>
            obtain ⟨-, h⟩ := Prod.mk.inj h
            by_cases hn : n' = f.num
            · simp only [hn, if_true, Res.ok.injEq, Option.some.injEq] at h
              subst h
              rfl
            · simp [hn] at h
          | ptr a =>
            simp only at h
            obtain ⟨σ1, c, h1, h2⟩ := bind_inv h
            have hr := read_inv h1
            cases c with
            | wrap n' x =>
              obtain ⟨-, h2⟩ := Prod.mk.inj h2
              by_cases hn : n' = f.num
              · simp only [hn, if_true, Res.ok.injEq, Option.some.injEq] at h2
                subst h2
                unfold hgetMember hmember
                simp only
                rw [HM.bind_ok (read_ok hr), HM.bind_ok (read_ok hr)]
                simp only [hn, if_true]
              · simp [hn] at h2
            | _ => exact absurd (congrArg Prod.snd h2) (by simp [HM.lift])
          | _ => exact absurd (congrArg Prod.snd h) (by simp [HM.lift])
      · rfl
    · simp only [ho, Bool.false_eq_true, if_false]
      have hT := Go.slotTy_field hd hf (by simpa using ho)
      by_cases hmsg : f.hasMessage = true
      · simp only [hmsg, if_true]
        split
        · rename_i hp
          simp only [Bool.and_eq_true, Option.isNone_iff_eq_none] at hp
          have hc : ¬ f.card = .repeated := fun h => hl (by simp [FieldDesc.isList, h, hp.1])
          have hFT : fieldTy f = .msg f.msg := by
            unfold fieldTy
            simp [hp.1, hc, hmsg]
          rw [hFT] at hT
          rw [exec, hE]
          simp only [HM.bind_assoc, HM.pure_bind, hT, onMsg, hg.back]
        · rfl
      · simp only [hmsg, Bool.false_eq_true, if_false]
        split
        · rename_i hk
          have hmap : f.map = none := by
            cases hmm : f.map with
            | none => rfl
            | some md => have := (hff.map md hmm).2.1; rw [hk] at this; cases this
          have hc : ¬ f.card = .repeated := fun h => hl (by simp [FieldDesc.isList, h, hmap])
          have hFT : fieldTy f = .bytes := by
            unfold fieldTy
            simp [hmap, hc, hmsg, hk]
          rw [hFT] at hT
          rw [exec, eval, hE]
          simp only [HM.bind_assoc, HM.pure_bind, hT, cutV]
        · rfl

/-- The variables declared for what is saved. -/
def savedVars (S : Schema) (t : Nat) : Nat → List (Nat × HV) → Vars
  | _, [] => []
  | n, (i, v) :: saved => savedVars S t (n + 1) saved ++ [(.f n, .val (slotTy S t i) [i] v)]

theorem savedVars_mem : ∀ (n : Nat) (saved : List (Nat × HV)) (d : Id × V), d ∈ savedVars S t n saved → ∃ k, n ≤ k ∧ d.1 = .f k
  | _, [], _, h => by cases h
  | n, (i, v) :: saved, d, h => by
    rw [savedVars, List.mem_append] at h
    rcases h with h | h
    · obtain ⟨k, hk, e⟩ := savedVars_mem (n + 1) saved d h
      exact ⟨k, by omega, e⟩
    · obtain rfl := List.mem_singleton.1 h
      exact ⟨n, le_rfl, rfl⟩

theorem exec_resetFields (hg : PoolGood S C rec) (hd : MsgFacts (S.msg t)) : ∀ (fs : List FieldDesc) (n : Nat) (vs : Vars), (∀ f ∈ fs, f ∈ (S.msg t).fields) →
    find .m vs = pure (.val (.msg t) [] p) →
    exec C (Emit.resetFields S t n fs).1 vs = hresetFields S rec p fs >>= fun saved => pure (.next (savedVars S t n saved ++ vs))
  | [], _, _, _, _ => rfl
  | f :: fs, n, vs, hfs, hm => by
    have h1 := exec_resetField hg hd (hfs f (.head _)) hm n
    have hs := resetField_saves (S := S) (rec := rec) (p := p) (t := t) n f
    have ih := fun n vs => exec_resetFields hg hd fs n vs fun g hgm => hfs g (.tail _ hgm)
    rw [Emit.resetFields, hresetFields]
    rcases e : Emit.resetField S t n f with ⟨a, save⟩
    rw [e] at h1 hs
    dsimp only at h1 hs ⊢
    cases save with
    | true =>
      simp only [if_true]
      rw [exec, h1]
      simp only [HM.bind_assoc, HM.pure_bind]
      refine hs.congr fun o ho => ?_
      cases o with
      | none => cases ho
      | some v =>
        dsimp only
        rw [ih (n + 1) _ (by rw [find_cons_ne (by simp)]; exact hm)]
        simp only [savedVars, List.append_assoc, List.cons_append, List.nil_append]
    | false =>
      simp only [Bool.false_eq_true, if_false]
      rw [exec, h1]
      simp only [HM.bind_assoc, HM.pure_bind]
      refine hs.congr fun o ho => ?_
      cases o with
      | some _ => cases ho
      | none => exact ih n _ hm

theorem resetFields_saved : ∀ (fs : List FieldDesc) (n : Nat), HGives (hresetFields S rec p fs) fun saved => saved.map (·.1) = (Emit.resetFields S t n fs).2
  | [], _ => .pure rfl
  | f :: fs, n => by
    have hs := resetField_saves (S := S) (rec := rec) (p := p) (t := t) n f
    rw [Emit.resetFields, hresetFields]
    rcases e : Emit.resetField S t n f with ⟨a, save⟩
    rw [e] at hs
    dsimp only at hs ⊢
    cases save with
    | true =>
      refine hs.bind' fun o ho => (resetFields_saved fs (n + 1)).bind' fun saved h => .pure ?_
      cases o with
      | none => cases ho
      | some v => simpa using h
    | false =>
      refine hs.bind' fun o ho => (resetFields_saved fs n).bind' fun saved h => .pure ?_
      cases o with
      | some _ => cases ho
      | none => simpa using h

theorem exec_restore {vs : Vars} (hm : find .m vs = pure (.val (.msg t) [] p)) : ∀ (saved : List (Nat × HV)) (n : Nat),
    (∀ j i v, saved[j]? = some (i, v) → ∃ T q, find (.f (n + j)) vs = pure (.val T q v)) →
    exec C (Emit.restore t n (saved.map (·.1))) vs = hrestore p saved >>= fun _ => pure (.next vs)
  | [], _, _ => rfl
  | (i, v) :: saved, n, h => by
    obtain ⟨T, q, h0⟩ := h 0 i v rfl
    rw [Nat.add_zero] at h0
    rw [List.map_cons, Emit.restore, hrestore, exec]
    simp only [exec, eval, hm, h0, HM.pure_bind, setV, if_true, HM.bind_assoc]
    congr 1; funext _
    refine exec_restore hm saved (n + 1) fun j i v hj => ?_
    have := h (j + 1) i v (by simpa using hj)
    rwa [show n + 1 + j = n + (j + 1) by omega]

theorem find_saved {vs : Vars} : ∀ (saved : List (Nat × HV)) (n j i : Nat) (v : HV), saved[j]? = some (i, v) →
    find (.f (n + j)) (savedVars S t n saved ++ vs) = pure (.val (slotTy S t i) [i] v)
  | [], _, _, _, _, h => by simp at h
  | (i0, v0) :: saved, n, 0, i, v, h => by
    simp only [List.getElem?_cons_zero, Option.some.injEq, Prod.mk.injEq] at h
    obtain ⟨rfl, rfl⟩ := h
    rw [savedVars, List.append_assoc, find_skip, Nat.add_zero, List.singleton_append, find_cons_self]
    intro d hd e
    obtain ⟨k, hk, e'⟩ := savedVars_mem _ _ d hd
    rw [e'] at e
    simp only [Id.f.injEq] at e
    omega
  | (i0, v0) :: saved, n, j + 1, i, v, h => by
    rw [savedVars, List.append_assoc, show n + (j + 1) = n + 1 + j by omega]
    exact find_saved saved (n + 1) j i v (by simpa using h)

theorem runReturn_eq {reset : Nat → HV → HM Unit} (hreset : ∀ t v, reset t v = if v.isNil then pure () else rec t v) (t : Nat) (v : HV) :
    runReturn S reset t v = hreturnWith rec t v := by
  unfold runReturn Emit.returnMethod hreturnWith
  simp only [exec, eval, find_cons_self, HM.pure_bind, eqV, nilable, isNilH, if_true, truth, HM.bind_assoc]
  cases hn : v.isNil with
  | true => simp [block, exec, HM.pure_bind, finish]
  | false =>
    simp only [Bool.not_false, if_true, Bool.false_eq_true, if_false]
    rw [block_same (X := rec t v >>= fun _ => hput t v)]
    · simp only [HM.bind_assoc, HM.pure_bind, finish, HM.bind_pure]
      congr 1; funext _
      exact HM.bind_pure _
    · simp [exec, eval, find_cons_self, HM.pure_bind, onMsg, poolCtx, hreset, hn, HM.bind_assoc, putV]

theorem exec_resetMethod {G : GenCfg} (hg : PoolGood S C rec) (hd : MsgFacts (S.msg t)) :
    exec C (Emit.resetMethod G S t) [(.m, .val (.msg t) [] p)] >>= finish =
      if p.isNil then pure () else
        hresetFields S rec p (Go.Emit.messageFields G (S.msg t)) >>= fun saved => hzero S t p >>= fun _ => hrestore p saved := by
  have hfs : ∀ f ∈ Go.Emit.messageFields G (S.msg t), f ∈ (S.msg t).fields := fun f hf => by
    unfold Go.Emit.messageFields at hf
    split at hf
    · exact (List.perm_insertionSort _ _).mem_iff.1 hf
    · exact hf
  unfold Emit.resetMethod
  generalize Go.Emit.messageFields G (S.msg t) = fs at hfs
  have h1 := exec_resetFields (rec := rec) hg hd fs 0 [(.m, .val (.msg t) [] p)] hfs find_cons_self
  have h2 := resetFields_saved (S := S) (rec := rec) (p := p) (t := t) fs 0
  rcases e : Emit.resetFields S t 0 fs with ⟨a, saved⟩
  rw [e] at h1 h2
  dsimp only at h1 h2 ⊢
  rw [exec]
  simp only [eval, find_cons_self, HM.pure_bind, eqV, nilable, isNilH, if_true, truth, HM.bind_assoc]
  cases hn : p.isNil with
  | true => simp [block, exec, HM.pure_bind, finish]
  | false =>
    simp only [Bool.not_false, if_true, Bool.false_eq_true, if_false]
    rw [block_eq (ds := fun saved => savedVars S t 0 saved) (X := hresetFields S rec p fs >>= fun saved => hzero S t p >>= fun _ => hrestore p saved >>= fun _ => pure saved)]
    · simp only [HM.bind_assoc, HM.pure_bind, finish]
      congr 1; funext _
      congr 1; funext _
      exact HM.bind_pure _
    · rw [List.nil_append, exec, h1]
      simp only [HM.bind_assoc, HM.pure_bind, List.append_nil]
      refine h2.congr fun sv hsv => ?_
      subst hsv
      have hm : find .m (savedVars S t 0 sv ++ [(.m, .val (.msg t) [] p)]) = pure (.val (.msg t) [] p) := by
        rw [find_skip, find_cons_self]
        intro d hd e
        obtain ⟨k, _, e'⟩ := savedVars_mem _ _ d hd
        rw [e'] at e
        cases e
      have hz : resetV C.S (.val (.msg t) [] p) = hzero S t p := by
        rw [hg.S]
        cases p <;> first | rfl | cases hn
      simp only [exec, eval, hm, HM.pure_bind, HM.bind_assoc, hz]
      congr 1; funext _
      rw [exec_restore hm sv 0 fun j i v hj => ⟨_, _, find_saved sv 0 j i v hj⟩]

end

/-! ## The order of the fields -/

section
variable {G : GenCfg} {S : Schema} {t : Nat}

theorem messageFields_perm (d : MsgDesc) : (Go.Emit.messageFields G d).Perm d.fields := by
  unfold Go.Emit.messageFields
  split
  · exact List.perm_insertionSort _ _
  · exact .refl _

theorem arranged_msg : (arranged G S).msg t = { S.msg t with fields := Go.Emit.messageFields G (S.msg t) } := by
  unfold arranged Schema.msg
  rw [List.getD_eq_getElem?_getD, List.getD_eq_getElem?_getD, List.getElem?_map]
  cases S[t]? with
  | some d => rfl
  | none =>
    have : Go.Emit.messageFields G ⟨[], 0, true, true, [], false, false⟩ = [] := (messageFields_perm _).eq_nil
    simp [this]

theorem arranged_ok (hS : schemaOK S = true) : schemaOK (arranged G S) = true := by
  unfold schemaOK at *
  rw [List.all_eq_true] at *
  intro d' hd'
  obtain ⟨d, hd, rfl⟩ := List.mem_map.1 hd'
  have h := hS d hd
  have hp := messageFields_perm (G := G) d
  unfold msgDescOK at *
  simp only [Bool.and_eq_true, List.all_eq_true, List.any_eq_true, decide_eq_true_eq] at h ⊢
  obtain ⟨⟨⟨h1, h2⟩, h3⟩, h4⟩ := h
  refine ⟨⟨⟨fun f hf => h1 f (hp.mem_iff.1 hf), (hp.map _).nodup_iff.2 h2⟩, fun f hf g hg => h3 f (hp.mem_iff.1 hf) g (hp.mem_iff.1 hg)⟩, fun s hs => ?_⟩
  obtain ⟨f, hf, e⟩ := h4 s hs
  exact ⟨f, hp.mem_iff.2 hf, e⟩

/-- The zero value of a struct field does not depend on the order of the fields. -/
theorem arranged_slot {α : Type} {d : MsgDesc} (hd : MsgFacts d) (z : FieldDesc → α) (y : α) (hz : ∀ f, f.oneof = true → z f = y) (s : Nat) :
    (match (Go.Emit.messageFields G d).find? (fun f => f.slot == s) with
      | some f => z f
      | none => y) = match d.fields.find? (fun f => f.slot == s) with
      | some f => z f
      | none => y := by
  have hp := messageFields_perm (G := G) d
  cases h1 : (Go.Emit.messageFields G d).find? (fun f => f.slot == s) with
  | none =>
    cases h2 : d.fields.find? (fun f => f.slot == s) with
    | none => rfl
    | some g =>
      rw [List.find?_eq_none] at h1
      exact absurd (List.find?_some h2) (h1 g (hp.mem_iff.2 (List.mem_of_find?_eq_some h2)))
  | some f =>
    have hf := hp.mem_iff.1 (List.mem_of_find?_eq_some h1)
    have ef : f.slot = s := by simpa using List.find?_some h1
    cases h2 : d.fields.find? (fun f => f.slot == s) with
    | none =>
      rw [List.find?_eq_none] at h2
      exact absurd (List.find?_some h1) (h2 f hf)
    | some g =>
      have hg := List.mem_of_find?_eq_some h2
      have eg : g.slot = s := by simpa using List.find?_some h2
      dsimp only
      by_cases e : f.num = g.num
      · rw [hd.num_inj hf hg e]
      · obtain ⟨h3, h4⟩ := hd.share f hf g hg e (ef.trans eg.symm)
        rw [hz f h3, hz g h4]

theorem arranged_zero (hS : schemaOK S = true) : hzeroCell (arranged G S) t = hzeroCell S t := by
  have hd := schemaOK_msg hS t
  unfold hzeroCell zeroMsg
  rw [arranged_msg]
  dsimp only
  have h1 : ∀ s, hzeroSlot { S.msg t with fields := Go.Emit.messageFields G (S.msg t) } s = hzeroSlot (S.msg t) s := fun s =>
    arranged_slot hd hzeroField .nil (fun f ho => by simp [hzeroField, ho]) s
  have h2 : ∀ s, zeroSlot { S.msg t with fields := Go.Emit.messageFields G (S.msg t) } s = zeroSlot (S.msg t) s := fun s =>
    arranged_slot hd zeroField .nil (fun f ho => by simp [zeroField, ho]) s
  rw [funext h1, funext h2]

variable {rec : HSubReset} {p : HV}

theorem arranged_elems (hS : schemaOK S = true) (s : HV) : ∀ (n i : Nat), hresetElems (arranged G S) rec t s i n = hresetElems S rec t s i n
  | 0, _ => rfl
  | n + 1, i => by
    have h : hresetElem (arranged G S) rec t = hresetElem S rec t := by
      funext x
      unfold hresetElem
      rw [arranged_zero hS, arranged_msg]
    simp only [hresetElems, h, arranged_elems hS s n]

theorem arranged_field (hS : schemaOK S = true) (f : FieldDesc) : hresetField (arranged G S) rec p f = hresetField S rec p f := by
  have h : hresetList (arranged G S) rec p f = hresetList S rec p f := by
    unfold hresetList
    simp only [arranged_elems hS]
  unfold hresetField
  rw [h, arranged_msg]

theorem arranged_fields (hS : schemaOK S = true) : ∀ fs, hresetFields (arranged G S) rec p fs = hresetFields S rec p fs
  | [] => rfl
  | f :: fs => by simp only [hresetFields, arranged_field hS, arranged_fields hS fs]

theorem arranged_hzero (hS : schemaOK S = true) : hzero (arranged G S) t p = hzero S t p := by
  unfold hzero
  rw [arranged_zero hS]

/-- The printed `ResetVT` methods. -/
theorem runResetN_eq (hS : schemaOK S = true) : ∀ (n t : Nat) (v : HV), runResetN G S n t v = if v.isNil then pure () else hresetN (arranged G S) n t v
  | 0, _, _ => rfl
  | n + 1, t, v => by
    have ih := runResetN_eq hS n
    show exec _ _ _ >>= finish = _
    rw [exec_resetMethod (S := S) (rec := hresetN (arranged G S) n) ⟨rfl, ih, fun t v => runReturn_eq ih t v⟩ (schemaOK_msg hS t), hresetN]
    dsimp only
    rw [arranged_fields hS, arranged_hzero hS, arranged_msg]

end

end Vtp.GoH
