import Verif.Spec.HeapProgram
import Verif.Lemmas.HeapPoolDec
import Verif.Lemmas.HeapSimReset
import Verif.Lemmas.PoolHistory
/-! # Running programs with memory and pools, and on values -/

namespace Vtp
open Spec

/-! ## Whether a reset panics does not depend on memory kept for reuse -/

theorem outcome_bind {α α' β β' : Type} {x : Res α} {x' : Res α'} {f : α → Res β} {f' : α' → Res β'} (h : x.outcome = x'.outcome)
    (hf : ∀ a a', (f a).outcome = (f' a').outcome) : (x >>= f).outcome = (x' >>= f').outcome := by
  cases x <;> cases x' <;> first | exact hf _ _ | rfl | (simp [Res.outcome] at h; try subst h; try rfl)

section
variable {S : Schema} {rec rec' : SubReset} {N N' : Nat}

theorem returnWith_outcome {t : Nat} {v w : Val} (hn : v.isNil = w.isNil) (h : v ≠ .nil → w ≠ .nil → (rec t v).outcome = (rec' t w).outcome) :
    (returnWith rec t v).outcome = (returnWith rec' t w).outcome := by
  unfold returnWith
  cases hv : v.isNil with
  | true => rw [hv] at hn; rw [← hn]; rfl
  | false =>
    rw [hv] at hn; rw [← hn]
    simp only [Bool.false_eq_true, if_false]
    refine outcome_bind (h ?_ ?_) fun _ _ => rfl
    · rintro rfl; simp [Val.isNil] at hv
    · rintro rfl; simp [Val.isNil] at hn

variable (H : ∀ t v w, v.depth < N → w.depth < N' → (S.msg t).pooled = true → Reuse S t v w → (rec t v).outcome = (rec' t w).outcome)
include H

theorem resetElems_outcome {t : Nat} {k : Kind} (hk : k = .message ∨ k = .group) : ∀ {vs ws : List Val}, List.Forall₂ (ReuseElem (Reuse S) k t) vs ws →
    (∀ v ∈ vs, v.depth < N) → (∀ w ∈ ws, w.depth < N') → (resetElems S rec t vs).outcome = (resetElems S rec' t ws).outcome
  | _, _, .nil, _, _ => rfl
  | v :: vs, w :: ws, .cons h hs, hv, hw => by
    simp only [resetElems]
    refine outcome_bind ?_ fun _ _ => outcome_bind (resetElems_outcome hk hs (fun x hx => hv x (.tail _ hx)) fun x hx => hw x (.tail _ hx)) fun _ _ => rfl
    unfold ReuseElem at h
    rw [if_pos hk] at h
    unfold resetElem
    rcases h with ⟨rfl, rfl⟩ | ⟨h1, h2, h3⟩
    · rfl
    · have h1' : v.isNil = false := by cases v <;> simp_all [Val.isNil]
      have h2' : w.isNil = false := by cases w <;> simp_all [Val.isNil]
      simp only [h1', h2', Bool.false_eq_true, if_false]
      split
      · rename_i hp; exact H t v w (hv v (.head _)) (hw w (.head _)) hp h3
      · rfl

theorem resetField_outcome {d : MsgDesc} {f : FieldDesc} (hd : MsgFacts d) (hfm : f ∈ d.fields) {v w : Val} (hv : v.depth < N) (hw : w.depth < N')
    (h : if f.oneof then ReuseOneof (Reuse S) d f.slot v w else ReuseField S (Reuse S) d f v w) :
    (resetField S rec f v).outcome = (resetField S rec' f w).outcome := by
  have hf := hd.fields f hfm
  unfold resetField
  by_cases hl : f.isList = true
  · have hl' : f.card = .repeated ∧ f.map = none := by simpa [FieldDesc.isList] using hl
    have ho : f.oneof = false := by
      cases hc : f.oneof with
      | false => rfl
      | true => have := (hf.oneof hc).1; rw [hl'.1] at this; cases this
    rw [ho] at h
    simp only [Bool.false_eq_true, if_false] at h
    unfold ReuseField at h
    simp only [hl'.1, hl'.2, if_true] at h
    obtain ⟨h1, h2, h3, h4, h5, -, -⟩ := h
    simp only [hl, if_true]
    have nilE : ∀ (r : SubReset) sp, (match (Val.list [] sp : Val) with
        | .nil => (.ok (some .nil, []) : Res (Option Val × Puts))
        | .list xs sp => if f.hasMessage then do
            let (xs', ps) ← resetElems S r f.msg xs
            .ok (some (.list [] (xs' ++ sp)), ps)
          else .ok (some (.list [] []), [])
        | _ => .panic .typeConfusion).outcome = .ok () := by
      intro r sp
      simp only
      split <;> rfl
    cases v with
    | nil =>
      cases w with
      | nil => rfl
      | list ys sp' => simp [Val.elems] at h3; subst h3; exact (nilE rec' sp').symm
      | _ => simp [isSlice] at h2
    | list xs sp =>
      cases w with
      | nil => simp [Val.elems] at h3; subst h3; exact nilE rec sp
      | list ys sp' =>
        simp only
        by_cases hm : f.hasMessage = true
        · simp only [hm, if_true]
          have hk : f.kind = .message ∨ f.kind = .group := by simpa [FieldDesc.hasMessage] using hm
          refine outcome_bind (resetElems_outcome H hk h3 (fun x hx => ?_) fun x hx => ?_) fun _ _ => rfl
          · exact Nat.lt_of_le_of_lt (depth_elems (v := .list xs sp) hx) hv
          · exact Nat.lt_of_le_of_lt (depth_elems (v := .list ys sp') hx) hw
        · simp only [hm]; rfl
      | _ => simp [isSlice] at h2
    | _ => simp [isSlice] at h1
  · simp only [hl, Bool.false_eq_true, if_false]
    by_cases ho : f.oneof = true
    · simp only [ho, if_true] at h ⊢
      by_cases hm : (f.hasMessage && (S.msg f.msg).pooled) = true
      · simp only [hm, if_true]
        rw [Bool.and_eq_true] at hm
        have hk : f.kind = .message ∨ f.kind = .group := by simpa [FieldDesc.hasMessage] using hm.1
        unfold ReuseOneof at h
        split at h
        · rename_i n x n' y
          obtain ⟨rfl, g, h1, h2⟩ := h
          simp only
          split
          · rename_i hn
            rw [hn, member_of hd hfm ho] at h1
            cases h1
            unfold ReuseElem at h2
            rw [if_pos hk] at h2
            refine outcome_bind (returnWith_outcome ?_ fun hx hy => ?_) fun _ _ => rfl
            · rcases h2 with ⟨rfl, rfl⟩ | ⟨-, -, h2⟩
              · rfl
              · exact reuse_nil h2
            · rcases h2 with ⟨rfl, -⟩ | ⟨-, -, h2⟩
              · exact absurd rfl hx
              · refine H _ _ _ ?_ ?_ hm.2 h2
                · simp only [Val.depth] at hv; omega
                · simp only [Val.depth] at hw; omega
          · rfl
        · subst h
          cases v with
          | wrap n x => rename_i hne; exact (hne _ _ _ _ rfl rfl).elim
          | wrapNil n => rfl
          | _ => rfl
      · simp only [hm]; rfl
    · simp only [ho] at h ⊢
      simp only [Bool.false_eq_true, if_false] at h ⊢
      by_cases hm : f.hasMessage = true
      · simp only [hm, if_true]
        by_cases hp : (f.map.isNone && (S.msg f.msg).pooled) = true
        · simp only [hp, if_true]
          rw [Bool.and_eq_true] at hp
          have hk : f.kind = .message ∨ f.kind = .group := by simpa [FieldDesc.hasMessage] using hm
          have hmap : f.map = none := by simpa using hp.1
          have hc : f.card ≠ .repeated := by
            intro hc; apply hl; simp [FieldDesc.isList, hc, hmap]
          have hb : f.kind ≠ .bytes := by rcases hk with hk | hk <;> rw [hk] <;> decide
          unfold ReuseField at h
          simp only [hmap, hc, hb, if_false] at h
          unfold ReuseElem at h
          rw [if_pos hk] at h
          refine outcome_bind (returnWith_outcome ?_ fun hx hy => ?_) fun _ _ => rfl
          · rcases h with ⟨rfl, rfl⟩ | ⟨-, -, h⟩
            · rfl
            · exact reuse_nil h
          · rcases h with ⟨rfl, -⟩ | ⟨-, -, h⟩
            · exact absurd rfl hx
            · exact H _ _ _ hv hw hp.2 h
        · simp only [hp]; rfl
      · simp only [hm, Bool.false_eq_true, if_false]
        split <;> rfl

theorem resetFields_outcome {d : MsgDesc} {s s' : List Val} (hs : ∀ x : Val, x.depth ≤ Val.depthList s → x.depth < N) (hs' : ∀ x : Val, x.depth ≤ Val.depthList s' → x.depth < N')
    (hd : MsgFacts d) :
    ∀ fs : List FieldDesc, (∀ f ∈ fs, f ∈ d.fields ∧ if f.oneof then ReuseOneof (Reuse S) d f.slot (slotOf s f) (slotOf s' f)
      else ReuseField S (Reuse S) d f (slotOf s f) (slotOf s' f)) → (resetFields S rec s fs).outcome = (resetFields S rec' s' fs).outcome
  | [], _ => rfl
  | f :: fs, h => by
    simp only [resetFields]
    refine outcome_bind (resetField_outcome H hd (h f (.head _)).1 (hs _ (depth_slotOf s f)) (hs' _ (depth_slotOf s' f)) (h f (.head _)).2)
      fun _ _ => outcome_bind (resetFields_outcome hs hs' hd fs fun g hg => h g (.tail _ hg)) fun _ _ => rfl

end

theorem resetN_outcome {S : Schema} (hS : schemaOK S = true) (hL : poolsLocal S) : ∀ n n' t v w, v.depth < n → w.depth < n' → (S.msg t).pooled = true → Reuse S t v w →
    (resetN S n t v).outcome = (resetN S n' t w).outcome
  | 0, _, _, _, _, h, _, _, _ => absurd h (Nat.not_lt_zero _)
  | _, 0, _, _, _, _, h, _, _ => absurd h (Nat.not_lt_zero _)
  | n + 1, n' + 1, t, v, w, hv, hw, hp, hr => by
    rcases reuse_cases (hL t hp) hr with ⟨s, u, e, s', u', e', rfl, rfl⟩ | ⟨rfl, hne⟩
    · rw [reuse_msg (hL t hp)] at hr
      simp only [resetN]
      have hd := schemaOK_msg hS t
      refine outcome_bind (resetFields_outcome (d := S.msg t) (N := n) (N' := n') (fun t v w => resetN_outcome hS hL n n' t v w) (fun x hx => ?_) (fun x hx => ?_) hd _
        fun f hf => ⟨hf, hr.2.2.2.2 f hf⟩) fun _ _ => rfl
      · simp only [Val.depth] at hv; omega
      · simp only [Val.depth] at hw; omega
    · cases v with
      | msg s u e => exact absurd rfl (hne s u e)
      | _ => rfl

theorem resetVT_outcome {S : Schema} (hS : schemaOK S = true) (hL : poolsLocal S) {t : Nat} (hp : (S.msg t).pooled = true) {v w : Val} (h : Reuse S t v w) :
    (resetVT S t v).outcome = (resetVT S t w).outcome := by
  unfold resetVT
  rw [reuse_nil h]
  split
  · rfl
  · exact resetN_outcome hS hL _ _ t v w (Nat.lt_succ_self _) (Nat.lt_succ_self _) hp h

/-! ## A reset does not fail -/

theorem noErr_bind {α β : Type} {x : Res α} {f : α → Res β} (h : ∀ e, x ≠ .err e) (hf : ∀ a e, f a ≠ .err e) (e : Err) : x >>= f ≠ .err e := by
  cases x with
  | ok a => exact hf a e
  | err e' => exact absurd rfl (h e')
  | _ => intro h; cases h

section
variable {S : Schema} {rec : SubReset} (H : ∀ t v e, rec t v ≠ .err e)
include H

theorem returnWith_noErr (t : Nat) (v : Val) (e : Err) : returnWith rec t v ≠ .err e := by
  unfold returnWith
  split
  · nofun
  · exact noErr_bind (H _ _) (fun _ _ => by nofun) e

theorem resetElems_noErr (t : Nat) : ∀ (vs : List Val) (e : Err), resetElems S rec t vs ≠ .err e
  | [], e => by nofun
  | v :: vs, e => by
    simp only [resetElems]
    refine noErr_bind (fun e => ?_) (fun _ e => noErr_bind (resetElems_noErr t vs) (fun _ _ => by nofun) e) e
    unfold resetElem
    split
    · split
      · nofun
      · exact H _ _ _
    · split <;> nofun

theorem resetField_noErr (f : FieldDesc) (v : Val) (e : Err) : resetField S rec f v ≠ .err e := by
  unfold resetField
  split
  · split
    · nofun
    · split
      · exact noErr_bind (resetElems_noErr H _ _) (fun _ _ => by nofun) e
      · nofun
    · nofun
  · split
    · split
      · split
        · split
          · exact noErr_bind (returnWith_noErr H _ _) (fun _ _ => by nofun) e
          · nofun
        · split <;> nofun
        · nofun
      · nofun
    · split
      · split
        · exact noErr_bind (returnWith_noErr H _ _) (fun _ _ => by nofun) e
        · nofun
      · split <;> nofun

theorem resetFields_noErr (s : List Val) : ∀ (fs : List FieldDesc) (e : Err), resetFields S rec s fs ≠ .err e
  | [], e => by nofun
  | f :: fs, e => by
    simp only [resetFields]
    exact noErr_bind (resetField_noErr H f _) (fun _ e => noErr_bind (resetFields_noErr s fs) (fun _ _ => by nofun) e) e

end

theorem resetN_noErr {S : Schema} : ∀ (n t : Nat) (v : Val) (e : Err), resetN S n t v ≠ .err e
  | 0, t, v, e => by nofun
  | n + 1, t, v, e => by
    simp only [resetN]
    split
    · exact noErr_bind (resetFields_noErr (resetN_noErr n) _ _) (fun _ _ => by nofun) e
    · nofun

/-- Pools may lose messages. -/
theorem Spec.HoldsPool.lose {S : Schema} {B : Bufs} {σ : HState} {I : List VItem} {pool : List (Nat × Addr)} (h : HoldsPool S B σ I) (hp : pool.Sublist σ.pool) :
    HoldsPool S B { σ with pool := pool } I := by
  obtain ⟨P, h1, h2, h3⟩ := h
  rw [← h1] at hp
  obtain ⟨P', h4, rfl⟩ := List.sublist_map_iff.1 hp
  refine ⟨P', rfl, fun q hq => h2 q (h4.subset hq), ?_⟩
  obtain ⟨Q, hQ⟩ := h4.exists_perm_append
  have h5 := h3.perm (List.Perm.append_left I (hQ.map fun q => ((Ty.msg q.1, HV.ptr q.2.1, q.2.2) : VItem)))
  rw [List.map_append, ← List.append_assoc] at h5
  have h6 := (h5.perm List.perm_append_comm).dropLeft
  exact h6.same rfl rfl

/-! ## Resetting and returning with empty messages in the pools -/

section
variable {S : Schema} {B : Bufs} {σ : HState} {R : List VItem}

/-- Messages put into the pools become part of what these hold. -/
theorem Spec.HoldsPool.puts {P L : List (Nat × Addr × Val)} {σ' : HState} {I : List VItem} (h1 : P.map (fun q => (q.1, q.2.1)) = σ.pool)
    (h2 : ∀ q ∈ P, Blank S q.1 q.2.2) (h3 : σ'.pool = putPool L ++ σ.pool) (h4 : PutsOK S (putVals L))
    (h5 : Holds S B σ' (I ++ (putItems L ++ (R ++ P.map fun q => (.msg q.1, .ptr q.2.1, q.2.2))))) : HoldsPool S B σ' (I ++ R) := by
  refine ⟨L.reverse ++ P, ?_, ?_, h5.perm ?_⟩
  · rw [h3, List.map_append, h1, List.map_reverse]
  · intro q hq
    rcases List.mem_append.1 hq with hq | hq
    · exact (h4 (q.1, q.2.2) (List.mem_map.2 ⟨q, List.mem_reverse.1 hq, rfl⟩)).2
    · exact h2 q hq
  · rw [List.append_assoc]
    refine List.Perm.append_left _ ?_
    rw [List.map_append, List.map_reverse, ← List.append_assoc, ← List.append_assoc]
    refine List.Perm.append_right _ ?_
    exact List.perm_append_comm.trans (List.Perm.append_left _ (List.reverse_perm _).symm)

theorem reset_simP (hS : schemaOK S = true) (hL : poolsLocal S) {t : Nat} (hp : (S.msg t).pooled = true) {p : HV} {m w : Val} (hm : m ≠ .nil)
    (hr : Reuse S t m w) (h : HoldsPool S B σ ((.msg t, p, m) :: R)) :
    (hresetVT S t p σ).2 = (resetVT S t w).outcome ∧
    ((resetVT S t w).outcome.settled = true → ∃ m', Blank S t m' ∧ HoldsPool S B (hresetVT S t p σ).1 ((.msg t, p, m') :: R)) := by
  rw [← resetVT_outcome hS hL hp hr]
  obtain ⟨P, h1, h2, h3⟩ := h
  have h4 := resetVT_sim hS hL (hL t hp) h3
  unfold PutSim at h4
  cases hv : resetVT S t m with
  | ok q =>
    rw [hv] at h4
    obtain ⟨σ', a, L, h5, h6, h7, -, h8⟩ := h4
    rw [h5]
    refine ⟨rfl, fun _ => ?_⟩
    obtain ⟨m', ps⟩ := q
    have hn : m.isNil = false := by cases m <;> simp_all [Val.isNil]
    rw [resetVT, hn] at hv
    obtain ⟨h9, h10⟩ := resetN_blank hS hL _ t m m' ps w hp hr hv
    exact ⟨m', h9, Spec.HoldsPool.puts (I := [(.msg t, p, m')]) (L := L) h1 h2 h7 (h6 ▸ h10) h8⟩
  | err e =>
    exfalso
    have hn : m.isNil = false := by cases m <;> simp_all [Val.isNil]
    rw [resetVT, hn] at hv
    exact resetN_noErr _ _ _ _ hv
  | panic e => rw [hv] at h4; exact ⟨h4, fun h => by cases h⟩
  | diverge => rw [hv] at h4; exact ⟨h4, fun h => by cases h⟩

theorem return_simP (hS : schemaOK S = true) (hL : poolsLocal S) {t : Nat} (hp : (S.msg t).pooled = true) {p : HV} {m w : Val} (hm : m ≠ .nil)
    (hr : Reuse S t m w) (h : HoldsPool S B σ ((.msg t, p, m) :: R)) :
    (hreturnToVTPool S t p σ).2 = (resetVT S t w).outcome ∧
    ((resetVT S t w).outcome.settled = true → HoldsPool S B (hreturnToVTPool S t p σ).1 R) := by
  rw [← resetVT_outcome hS hL hp hr]
  obtain ⟨P, h1, h2, h3⟩ := h
  have h4 := returnToVTPool_sim hS hL (hL t hp) h3
  have hn : m.isNil = false := by cases m <;> simp_all [Val.isNil]
  unfold PutSim at h4
  rw [resetVT, hn]
  simp only [Bool.false_eq_true, if_false]
  have hb := fun ps => returnWith_blank (resetN_blank hS hL (m.depth + 1)) hp (.inr hr) (ps := ps)
  unfold returnToVTPool returnWith at h4
  unfold returnWith at hb
  simp only [hn, Bool.false_eq_true, if_false] at h4 hb
  cases hv : resetN S (m.depth + 1) t m with
  | ok q =>
    rw [hv] at h4 hb
    obtain ⟨σ', a, L, h5, h6, h7, -, h8⟩ := h4
    rw [h5]
    refine ⟨rfl, fun _ => ?_⟩
    exact Spec.HoldsPool.puts (I := []) (L := L) h1 h2 h7 (h6 ▸ hb _ rfl) h8
  | err e => exact (resetN_noErr _ _ _ _ hv).elim
  | panic e => rw [hv] at h4; exact ⟨h4, fun h => by cases h⟩
  | diverge => rw [hv] at h4; exact ⟨h4, fun h => by cases h⟩

end

/-! ## Tables -/

section
variable {α : Type}

abbrev tabItems (V : Table (Addr × Val)) : List VItem := V.filterMap (Option.map fun q => (.msg q.1, .ptr q.2.1, q.2.2))
abbrev tabAddrs (V : Table (Addr × Val)) : Table Addr := V.map (Option.map fun q => (q.1, q.2.1))

theorem items_clear : ∀ (V : Table (Addr × Val)) (h : Nat),
    (tabItems V).Perm (((V.at h).map fun q => ((Ty.msg q.1, HV.ptr q.2.1, q.2.2) : VItem)).toList ++ tabItems (V.set h none))
  | [], h => by simp [Table.at]
  | x :: V, 0 => by
    cases x <;> simp [Table.at]
  | x :: V, h + 1 => by
    have ih := items_clear V h
    have e : Table.at (x :: V) (h + 1) = Table.at V h := by simp [Table.at]
    rw [e, List.set_cons_succ]
    cases x with
    | none => simpa using ih
    | some q =>
      simp only [List.filterMap_cons, Option.map_some]
      refine (List.Perm.cons _ ih).trans ?_
      exact List.perm_middle.symm

theorem at_lt {T : Table α} {h : Nat} {q : Nat × α} (e : T.at h = some q) : h < T.length := by
  unfold Table.at at e
  by_contra hl
  rw [List.getElem?_eq_none (by omega)] at e
  cases e

theorem at_set_self {T : Table α} {h : Nat} {q : Nat × α} {o : Option (Nat × α)} (e : T.at h = some q)   : Table.at (T.set h o) h = o := by
  simp [Table.at, at_lt e]

theorem at_set_ne {T : Table α} {h h' : Nat} {o : Option (Nat × α)} (e : h ≠ h') : Table.at (T.set h o) h' = T.at h' := by
  simp [Table.at, List.getElem?_set_ne e]

theorem items_put {V : Table (Addr × Val)} {h : Nat} {q q' : Nat × Addr × Val} (e : V.at h = some q) :
    (tabItems (V.set h (some q'))).Perm ((Ty.msg q'.1, HV.ptr q'.2.1, q'.2.2) :: tabItems (V.set h none)) := by
  have h1 := items_clear (V.set h (some q')) h
  rw [at_set_self e, List.set_set] at h1
  simpa using h1

theorem items_take {V : Table (Addr × Val)} {h : Nat} {q : Nat × Addr × Val} (e : V.at h = some q) :
    (tabItems V).Perm ((Ty.msg q.1, HV.ptr q.2.1, q.2.2) :: tabItems (V.set h none)) := by
  have h1 := items_clear V h
  rw [e] at h1
  simpa using h1

theorem addrs_at {V : Table (Addr × Val)} {h : Nat} : (tabAddrs V).at h = (V.at h).map fun q => (q.1, q.2.1) := by
  unfold Table.at
  rw [List.getElem?_map]
  cases V[h]? <;> rfl

theorem forall₂_set {β : Type} {r : α → β → Prop} {a : α} {b : β} (hr : r a b) : ∀ {V : List α} {W : List β} (h : Nat), List.Forall₂ r V W →
    List.Forall₂ r (V.set h a) (W.set h b)
  | _, _, _, .nil => .nil
  | _ :: _, _ :: _, 0, .cons _ ht => .cons hr ht
  | _ :: _, _ :: _, h + 1, .cons hx ht => .cons hx (forall₂_set hr h ht)

theorem forall₂_clear {S : Schema} : ∀ (hs : List Nat) {V : Table (Addr × Val)} {W : Table Val}, List.Forall₂ (Stands S) V W →
    List.Forall₂ (Stands S) (V.clear hs) (W.clear hs)
  | [], _, _, h => h
  | x :: hs, _, _, h => forall₂_clear hs (forall₂_set (r := Stands S) (a := none) (b := none) trivial x h)

theorem forall₂_at {S : Schema} {h : Nat} : ∀ {V : Table (Addr × Val)} {W : Table Val}, List.Forall₂ (Stands S) V W → Stands S (V.at h) (W.at h) := by
  intro V W hv
  induction hv generalizing h with
  | nil => exact trivial
  | cons hx _ ih =>
    cases h with
    | zero => simpa [Table.at] using hx
    | succ h => simpa [Table.at] using ih (h := h)

theorem addrs_set {V : Table (Addr × Val)} {h : Nat} : tabAddrs (V.set h none) = (tabAddrs V).set h none := by simp [tabAddrs]

theorem addrs_clear : ∀ (hs : List Nat) {V : Table (Addr × Val)}, tabAddrs (V.clear hs) = (tabAddrs V).clear hs
  | [], _ => rfl
  | x :: hs, V => (addrs_clear hs).trans (by rw [addrs_set]; rfl)

theorem all_cons {T : Table α} {h : Nat} {hs : List Nat} {qs : List (Nat × α)} (e : T.all (h :: hs) = some qs) :
    ∃ q qs', qs = q :: qs' ∧ T.at h = some q ∧ T.all hs = some qs' := by
  unfold Table.all at *
  rw [List.mapM_cons] at e
  cases h1 : T.at h with
  | none => simp [h1] at e
  | some q =>
    cases h2 : List.mapM T.at hs with
    | none => simp [h1, h2] at e
    | some qs' => simp [h1, h2] at e; exact ⟨q, qs', e.symm, rfl, rfl⟩

theorem all_set {T : Table α} {h : Nat} {o : Option (Nat × α)} : ∀ {hs : List Nat}, h ∉ hs → Table.all (T.set h o) hs = T.all hs
  | [], _ => rfl
  | x :: hs, hn => by
    have h1 : h ≠ x := fun e => hn (e ▸ .head _)
    have h2 := all_set (T := T) (o := o) (hs := hs) fun e => hn (.tail _ e)
    unfold Table.all at *
    rw [List.mapM_cons, List.mapM_cons, at_set_ne h1, h2]

/-- The messages at positions, in memory and as values. -/
theorem all_shows {S : Schema} : ∀ {hs : List Nat} {V : Table (Addr × Val)} {W : Table Val} {qs : List (Nat × Addr)}, hs.Nodup → List.Forall₂ (Stands S) V W →
    (tabAddrs V).all hs = some qs → ∃ (vs : List Val) (ys : List (Nat × Val)), W.all hs = some ys ∧ ReuseL S (qs.map (·.1)) vs (ys.map (·.2)) ∧ vs.length = qs.length ∧
      (tabItems V).Perm (msgsAt qs vs ++ tabItems (V.clear hs))
  | [], V, W, qs, _, _, e => by
    cases e
    exact ⟨[], [], rfl, .nil, rfl, .refl _⟩
  | h :: hs, V, W, qs, hn, hv, e => by
    obtain ⟨q, qs', rfl, h1, h2⟩ := all_cons e
    obtain ⟨hn1, hn2⟩ := List.nodup_cons.1 hn
    rw [addrs_at] at h1
    cases hq : V.at h with
    | none => rw [hq] at h1; cases h1
    | some x =>
      rw [hq] at h1
      cases h1
      have hw := forall₂_at (h := h) hv
      rw [hq] at hw
      cases hy : W.at h with
      | none => rw [hy] at hw; exact hw.elim
      | some y =>
        rw [hy] at hw
        have h3 := all_shows (hs := hs) (qs := qs') hn2 (forall₂_set (r := Stands S) (a := none) (b := none) trivial h hv) (by
          rw [addrs_set, all_set hn1]; exact h2)
        obtain ⟨vs, ys, h4, h5, h6, h7⟩ := h3
        rw [all_set hn1] at h4
        refine ⟨x.2.2 :: vs, y :: ys, ?_, .cons hw.2.1 hw.2.2 h5, by simp [h6], ?_⟩
        · unfold Table.all at *
          rw [List.mapM_cons, hy, h4]; rfl
        · exact (items_take hq).trans (List.Perm.cons _ h7)

end

/-! ## One step -/

section
variable {L : Lib} {B : Bufs} {σ σ' : HState} {T : Table Addr} {W : Table Val}

theorem at_shows {S : Schema} {V : Table (Addr × Val)} {h t : Nat} {a : Addr} (hV : List.Forall₂ (Stands S) V W) (hq : (tabAddrs V).at h = some (t, a)) :
    ∃ v w, V.at h = some (t, a, v) ∧ W.at h = some (t, w) ∧ v ≠ .nil ∧ Reuse S t v w := by
  rw [addrs_at] at hq
  cases hv : V.at h with
  | none => rw [hv] at hq; cases hq
  | some x =>
    rw [hv] at hq
    cases hq
    have hw := forall₂_at (h := h) hV
    rw [hv] at hw
    cases hy : W.at h with
    | none => rw [hy] at hw; exact hw.elim
    | some y =>
      rw [hy] at hw
      obtain ⟨h1, h2, h3⟩ := hw
      exact ⟨x.2.2, y.2, rfl, by rw [h1], h2, h3⟩

theorem set_self {α : Type} {T : Table α} {h : Nat} {q : Nat × α} (e : T.at h = some q) : T.set h (some q) = T := by
  have hl := at_lt e
  unfold Table.at at e
  rw [List.getElem?_eq_getElem hl] at e
  have : T[h] = some q := by simpa using e
  rw [← this, List.set_getElem_self]

/-- A message has changed. -/
theorem shows_set {S : Schema} {V : Table (Addr × Val)} {h t : Nat} {a : Addr} {v m w : Val} (hV : List.Forall₂ (Stands S) V W) (hv : V.at h = some (t, a, v))
    (hm : m ≠ .nil) (hr : Reuse S t m w) (hH : HoldsPool S B σ' ((.msg t, .ptr a, m) :: tabItems (V.set h none))) :
    Shows S B ⟨σ', tabAddrs V⟩ (W.set h (some (t, w))) := by
  refine ⟨V.set h (some (t, a, m)), ?_, forall₂_set (r := Stands S) (a := some (t, a, m)) (b := some (t, w)) ⟨rfl, hm, hr⟩ h hV, hH.perm (items_put (q' := (t, a, m)) hv).symm⟩
  have : (tabAddrs V).at h = some (t, a) := by rw [addrs_at, hv]; rfl
  show tabAddrs V = tabAddrs (V.set h (some (t, a, m)))
  unfold tabAddrs
  rw [List.map_set]
  exact (set_self this).symm

/-- There is another message. -/
theorem shows_push {S : Schema} {V : Table (Addr × Val)} {t : Nat} {p : HV} {m w : Val} (hf : (S.msg t).foreign = false ∨ ∃ a, p = .ptr a) (hV : List.Forall₂ (Stands S) V W)
    (hr : Reuse S t m w) (hH : HoldsPool S B σ' ((.msg t, p, m) :: tabItems V)) : Shows S B ⟨σ', tabAddrs V ++ [givenAt t p]⟩ (W ++ [given t w]) := by
  have hn := hH.isNil (ty := .msg t) (fun c e => by cases e) (.head _)
  by_cases hm : m = .nil
  · subst hm
    have hw : w = .nil := isNil_iff.1 (reuse_nil hr).symm
    subst hw
    have : givenAt t p = none := by cases p <;> simp_all [HV.isNil, Val.isNil, givenAt]
    refine ⟨V ++ [none], by simp [tabAddrs, this], List.rel_append hV (.cons trivial .nil), ?_⟩
    simpa [tabItems] using hH.tail
  · have hmn : m.isNil = false := by cases m <;> simp_all [Val.isNil]
    have hp : ∃ a, p = .ptr a := by
      rcases hf with hf | hf
      · rcases hH.openMsg hf (.head _) with ⟨-, h2⟩ | ⟨a, _, _, _, _, _, h2, -⟩
        · exact absurd h2 hm
        · exact ⟨a, h2⟩
      · exact hf
    obtain ⟨a, rfl⟩ := hp
    have hw : w.isNil = false := by rw [← reuse_nil hr]; exact hmn
    refine ⟨V ++ [some (t, a, m)], by simp [tabAddrs, givenAt], List.rel_append hV (.cons ?_ .nil), ?_⟩
    · simp only [given, hw]
      exact ⟨rfl, hm, hr⟩
    · refine hH.perm ?_
      simp only [tabItems, List.filterMap_append, List.filterMap_cons, Option.map_some, List.filterMap_nil]
      exact (List.perm_append_singleton _ _).symm

/-- A message is not used any more. -/
theorem shows_drop {S : Schema} {V : Table (Addr × Val)} {h : Nat} (hV : List.Forall₂ (Stands S) V W) (hH : HoldsPool S B σ' (tabItems (V.set h none))) :
    Shows S B ⟨σ', (tabAddrs V).set h none⟩ (W.set h none) :=
  ⟨V.set h none, addrs_set.symm, forall₂_set (r := Stands S) (a := none) (b := none) trivial h hV, hH⟩

theorem given_zero {S : Schema} (t : Nat) : given t (zeroMsg S t) = some (t, zeroMsg S t) := by
  simp [given, zeroMsg, Val.isNil]

theorem addrs_zip : ∀ {ts : List Nat} {as : List Addr} {vs ws : List Val}, as.length = ts.length → ReuseL S ts vs ws →
    (List.zipWith (fun q v => some (q.1, q.2, v)) (ts.zip as) vs : Table (Addr × Val)).map (Option.map fun q => (q.1, q.2.1)) = (ts.zip as).map some ∧
    List.Forall₂ (Stands S) (List.zipWith (fun q v => some (q.1, q.2, v)) (ts.zip as) vs) ((ts.zip ws).map some) ∧
    tabItems (List.zipWith (fun q v => some (q.1, q.2, v)) (ts.zip as) vs) = msgsAt (ts.zip as) vs
  | [], [], _, _, _, .nil => ⟨rfl, .nil, rfl⟩
  | t :: ts, a :: as, v :: vs, w :: ws, hl, .cons hn h hs => by
    obtain ⟨h1, h2, h3⟩ := addrs_zip (as := as) (by simpa using hl) hs
    refine ⟨?_, .cons ⟨rfl, hn, h⟩ h2, ?_⟩
    · simp only [List.zip_cons_cons, List.zipWith_cons_cons, List.map_cons, Option.map_some]
      rw [h1]
    · simp only [tabItems, List.zip_cons_cons, List.zipWith_cons_cons, List.filterMap_cons, Option.map_some, msgsAt]
      exact congrArg _ h3

theorem step_shows (hL : LibOK L) (hB : B.Live) {s s' : MState} {c : Cmd} {o : Res Unit} (h : Shows L.S B s W) (hs : MStep L B s c o s') :
    ∃ W', vstep L W c = some (o, W') ∧ (o.settled = true → Shows L.S B s' W') := by
  obtain ⟨V, hT, hV, hH⟩ := h
  cases hs with
  | new =>
    rename_i σ T t
    simp only at hT
    subst hT
    obtain ⟨σ', a, h1, h2⟩ := new_simP hL.ok t hH
    refine ⟨_, by rw [h1]; rfl, fun _ => ?_⟩
    rw [h1, ← given_zero]
    exact shows_push (p := .ptr a) (.inr ⟨a, rfl⟩) hV (zeroMsg_reuse hL.ok t) h2
  | get want =>
    rename_i σ T t
    simp only at hT
    subst hT
    obtain ⟨σ', a, m, h1, h2, h3⟩ := poolGet_sim (want := want) (t := t) hL.ok hH
    refine ⟨_, by rw [h1]; rfl, fun _ => ?_⟩
    rw [h1, ← given_zero]
    exact shows_push (p := .ptr a) (.inr ⟨a, rfl⟩) hV h2 h3
  | put hq hp =>
    rename_i σ T h t a
    simp only at hT
    subst hT
    obtain ⟨v, w, h1, h2, h3, h4⟩ := at_shows hV hq
    obtain ⟨h5, h6⟩ := return_simP hL.ok hL.pools hp h3 h4 (hH.perm (items_take h1))
    refine ⟨_, by simp [vstep, h2, hp, h5]; rfl, fun ho => ?_⟩
    rw [h5] at ho
    exact shows_drop hV (h6 ho)
  | reset hq hp =>
    rename_i σ T h t a
    simp only at hT
    subst hT
    obtain ⟨v, w, h1, h2, h3, h4⟩ := at_shows hV hq
    obtain ⟨h5, h6⟩ := reset_simP hL.ok hL.pools hp h3 h4 (hH.perm (items_take h1))
    refine ⟨_, by simp [vstep, h2, hp, h5]; rfl, fun ho => ?_⟩
    rw [h5] at ho
    obtain ⟨m, h7, h8⟩ := h6 ho
    exact shows_set hV h1 (blank_ne_nil h7) h7 h8
  | decode hq hf hb extra pick =>
    rename_i σ T b h t a
    simp only at hT
    subst hT
    obtain ⟨v, w, h1, h2, h3, h4⟩ := at_shows hV hq
    have hE : HPoolEnv L.S B ⟨L.S, L.R, L.A, false, 0, extra, pick⟩ [] :=
      ⟨rfl, hL.ok, hL.ext, hL.run, fun h => (nomatch h), fun _ h => hb h⟩
    obtain ⟨m, h5, h6, h7⟩ := unmarshalVT_simP (b := b) hE hf v w _ σ (hH.perm (items_take h1)) h4
    refine ⟨_, by simp [vstep, h2, hf, h5]; exact ⟨rfl, rfl⟩, fun ho => ?_⟩
    refine shows_set hV h1 ?_ h6 h7
    have hn := h7.isNil (ty := .msg t) (fun c e => by cases e) (.head _)
    rintro rfl
    cases hn
  | view hq hf hb hx extra pick =>
    rename_i σ T b h t a x
    simp only at hT
    subst hT
    obtain ⟨v, w, h1, h2, h3, h4⟩ := at_shows hV hq
    have hE : HPoolEnv L.S B ⟨L.S, L.R, L.A, true, x, extra, pick⟩ b :=
      ⟨rfl, hL.ok, hL.ext, hL.run, fun _ => ⟨hb, hx⟩, fun h => (nomatch h)⟩
    obtain ⟨m, h5, h6, h7⟩ := unmarshalVT_simP (b := b) hE hf v w _ σ (hH.perm (items_take h1)) h4
    refine ⟨_, by simp [vstep, h2, hf, h5]; exact ⟨rfl, rfl⟩, fun ho => ?_⟩
    refine shows_set hV h1 ?_ h6 h7
    have hn := h7.isNil (ty := .msg t) (fun c e => by cases e) (.head _)
    rintro rfl
    cases hn
  | clone hq hf pick =>
    rename_i σ T h t a
    simp only at hT
    subst hT
    obtain ⟨v, w, h1, h2, h3, h4⟩ := at_shows hV hq
    have hE : CloneEnv L.S B ⟨L.S, L.R, pick, L.direct⟩ := ⟨rfl, hL.ok, hB, hL.nil, hL.some⟩
    have hmem : (Ty.msg t, HV.ptr a, v) ∈ tabItems V := ((items_take h1).mem_iff).2 (.head _)
    have h5 := cloneVT_sim hE hf hmem h4 hH
    unfold PoolSim at h5
    have e : (HKEnv.plain ⟨L.S, L.R, pick, L.direct⟩) = L.kenv := rfl
    rw [e] at h5
    cases hr : cloneVT L.kenv t w with
    | ok r =>
      rw [hr] at h5
      obtain ⟨σ', q, I, h6, ⟨r', rfl, h7⟩, h8⟩ := h5
      rw [h6]
      refine ⟨_, by simp [vstep, h2, hf, hr]; exact ⟨rfl, rfl⟩, fun _ => ?_⟩
      exact shows_push (.inl hf) hV h7 h8
    | err e =>
      rw [hr] at h5
      obtain ⟨σ', h6, h7⟩ := h5
      rw [h6]
      refine ⟨_, by simp [vstep, h2, hf, hr]; exact ⟨rfl, rfl⟩, fun _ => ?_⟩
      exact ⟨V, rfl, hV, h7⟩
    | panic e =>
      rw [hr] at h5
      obtain ⟨σ', h6, h7⟩ := h5
      rw [h6]
      refine ⟨_, by simp [vstep, h2, hf, hr]; exact ⟨rfl, rfl⟩, fun ho => (nomatch ho)⟩
    | diverge =>
      rw [hr] at h5
      obtain ⟨σ', h6, h7⟩ := h5
      rw [h6]
      refine ⟨_, by simp [vstep, h2, hf, hr]; exact ⟨rfl, rfl⟩, fun ho => (nomatch ho)⟩
  | drop =>
    rename_i σ T h
    simp only at hT
    subst hT
    refine ⟨_, rfl, fun _ => shows_drop hV ?_⟩
    have h1 := hH.perm (items_clear V h)
    exact h1.dropLeft
  | use hn hq hr hl hp hm =>
    rename_i σ σ' T hs ts f qs as
    simp only at hT
    subst hT
    obtain ⟨vs, ys, h1, h2, h3, h4⟩ := all_shows hn hV hq
    refine ⟨_, by simp [vstep, h1, hn]; rfl, fun _ => ?_⟩
    obtain ⟨h5, h6, h7⟩ := addrs_zip hl (hr _ _ h2)
    refine ⟨V.clear hs ++ List.zipWith (fun q v => some (q.1, q.2, v)) (ts.zip as) (f vs), ?_, List.rel_append (forall₂_clear hs hV) h6, ?_⟩
    · show _ = List.map _ _
      rw [List.map_append, h5]
      exact congrArg (· ++ _) (addrs_clear hs).symm
    · rw [List.filterMap_append]
      have h8 : HoldsPool L.S B σ' (msgsAt (ts.zip as) (f vs) ++ tabItems (V.clear hs)) :=
        (hH.perm h4).step hp fun P hP => by
          rw [List.append_assoc] at hP ⊢
          exact hm vs _ h3 hP
      rw [← h7] at h8
      exact h8.perm List.perm_append_comm

/-- Programs have the same outcomes, and memory shows the values. -/
theorem run_shows (hL : LibOK L) (hB : B.Live) {s s' : MState} {cs : List Cmd} {os : List (Res Unit)} (hr : MRun L B s cs os s') : ∀ {W : Table Val}, Shows L.S B s W →
    ∃ W', vrun L W cs = some (os, W') ∧ ((∀ o ∈ os, o.settled = true) → Shows L.S B s' W') := by
  induction hr with
  | done => exact fun h => ⟨_, rfl, fun _ => h⟩
  | gc hp _ ih =>
    rintro W ⟨V, hT, hV, hH⟩
    exact ih ⟨V, hT, hV, hH.lose hp⟩
  | step hs ho _ ih =>
    intro W h
    obtain ⟨W', h1, h2⟩ := step_shows hL hB h hs
    obtain ⟨W'', h3, h4⟩ := ih (h2 ho)
    exact ⟨W'', by simp [vrun, h1, ho, h3], fun h => h4 fun o hm => h o (.tail _ hm)⟩
  | stop hs ho =>
    intro W h
    obtain ⟨W', h1, h2⟩ := step_shows hL hB h hs
    exact ⟨W', by simp [vrun, h1, ho], fun h => by rw [h _ (.head _)] at ho; cases ho⟩

end

end Vtp
