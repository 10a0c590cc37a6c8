import Verif.Lemmas.ConcVirt
/-! # Calls of goroutines, on values -/

namespace Vtp.Conc
open Spec

section
variable {L : Lib} {S : Schema}

/-! ## What there is at the end of a call -/

/-- The outcome is the one on values, and what the caller has stands for what it should. The pools hold empty messages. -/
def Ends (L : Lib) (op : Op) (v : Val) (σ : HState) (r : Res (List (Nat × Addr))) : Prop :=
  r.outcome = (op.alone L v).1 ∧ ∃ V : List (Nat × Addr × Val), valMsgs V = op.has r ∧
    op.same <+: op.has r ∧ List.Forall₂ (fun q w => q.1 = w.1 ∧ q.2.2 ≠ .nil ∧ Reuse L.S q.1 q.2.2 w.2) V (op.alone L v).2 ∧ HoldsPool L.S .none σ (valItems V)

/-- A message stands for a value, wherever its objects are the same. -/
theorem shows_framed (S : Schema) (v : Nat → Val) : Framed S fun h q => ShowsAt S h q (v q.1) := by
  rintro h h' q G ⟨x, F, h1, h2, h3⟩ ho ha
  obtain rfl := own_unique ho (rep_own h1)
  exact ⟨x, G, h1.frame fun a hm => ha a hm, h2, h3⟩

theorem shows_frame {h h' : Heap} {q : Nat × Addr} {v : Val} {G : Multiset Addr} (hs : ShowsAt S h q v) (ho : OwnL S .none h [(.msg q.1, .ptr q.2)] G) (ha : Agree G h h') :
    ShowsAt S h' q v := shows_framed S (fun _ => v) _ _ _ _ hs ho ha

/-- Messages in memory stand for the values. -/
theorem rep_shows {h : Heap} : ∀ {V : List (Nat × Addr × Val)} {W : List (Nat × Val)} {F : Multiset Addr}, RepL S .none h (valItems V) F →
    List.Forall₂ (fun q w => q.1 = w.1 ∧ q.2.2 ≠ .nil ∧ Reuse S q.1 q.2.2 w.2) V W → List.Forall₂ (ShowsAs S h) (valMsgs V) W := by
  intro V W F hr hf
  induction hf generalizing F with
  | nil => exact .nil
  | @cons q w V W hq _ ih =>
    obtain ⟨F1, F2, -, h1, h2⟩ := RepL.append_iff (I1 := [_]) |>.mp hr
    exact .cons ⟨hq.1, q.2.2, F1, h1, hq.2⟩ (ih h2)

/-- What the caller has at the end, in memory as it is then. -/
theorem ends_shows {h : Heap} {F F' : Multiset Addr} {C : Ctx} {op : Op} {v : Val} {r : Res (List (Nat × Addr))} (hg : Going C (Ends L op v) (.done r) h F) (hi : LInv C h F)
    (hle : F' ≤ F) (ho : OwnL L.S .none h (msgItems (op.has r)) F') :
    r.outcome = (op.alone L v).1 ∧ op.same <+: op.has r ∧ List.Forall₂ (ShowsAs L.S h) (op.has r) (op.alone L v).2 := by
  obtain ⟨σ, ha, h1, V, h2, hleft, h3, P, -, -, F1, h4, -⟩ := hg.done hi
  obtain ⟨F2, F3, -, h5, -⟩ := RepL.append_iff.mp h4
  refine ⟨h1, hleft, ?_⟩
  have e : ((valItems V).map fun i => (i.1, i.2.1)) = msgItems (op.has r) := by
    rw [← h2]
    simp [valItems, valMsgs, msgItems, Function.comp_def]
  have h6 := rep_own h5
  rw [e] at h6
  obtain rfl := own_unique (ho.frame fun a hm => ha a (Multiset.mem_of_le hle hm)) h6
  rw [← h2]
  exact rep_shows (h5.frame fun a hm => (ha a (Multiset.mem_of_le hle hm)).symm) h3

/-! ## Calls begin -/

theorem view_holds {C : Ctx} {h : Heap} {F Fl G : Multiset Addr} {σ : HState} {V : List (Nat × Addr × Val)} {I : List VItem} (hw : View C (fun _ => none) [] h F σ V Fl)
    (hr : RepL C.S .none σ.heap I G) (hn : G.Nodup) (hG : ∀ a ∈ G, a ∈ F ∨ ∃ c, C.Z a c) : HoldsPool C.S .none σ I := by
  have hd : ∀ a ∈ G, a ∉ Fl := fun a ha hb => by
    rcases hG a ha with h1 | ⟨c, h1⟩
    · exact Multiset.disjoint_left.mp (Multiset.nodup_add.mp hw.nodup).2.2 h1 hb
    · exact (hw.apart a hb).1 c h1
  refine ⟨V, ?_, hw.blank, G + Fl, hr.append hw.rep, ?_, fun _ _ => rfl, (fun _ _ h => nomatch h), hw.once, fun a ha => ?_⟩
  · rw [hw.pool, List.append_nil]
  · exact Multiset.nodup_add.mpr ⟨hn, (Multiset.nodup_add.mp hw.nodup).2.1, Multiset.disjoint_left.mpr fun {a} h1 h2 => hd a h1 h2⟩
  · obtain ⟨f1, f2, f3, f4, -⟩ := hw.free a ha
    refine ⟨f1, fun h1 => ?_, rfl⟩
    rcases Multiset.mem_add.mp h1 with h1 | h1
    · rcases hG a h1 with h2 | ⟨c, h2⟩
      · exact f2 h2
      · exact f4 c h2
    · exact f3 h1

theorem resetN_simP {n : Nat} {σ : HState} {R : List VItem} (hS : schemaOK S = true) (hL : poolsLocal S) {t : Nat} (hp : (S.msg t).pooled = true) {p : HV} {m w : Val} (hm : m ≠ .nil)
    (hn : m.depth + 1 ≤ n) (hr : Reuse S t m w) (h : HoldsPool S .none σ ((.msg t, p, m) :: R)) (hset : (resetVT S t w).outcome.settled = true) :
    (Vtp.hresetN S n t p σ).2 = .ok () ∧ (resetVT S t w).outcome = .ok () ∧ ∃ m', Blank S t m' ∧ HoldsPool S .none (Vtp.hresetN S n t p σ).1 ((.msg t, p, m') :: R) := by
  rw [← resetVT_outcome hS hL hp hr] at hset ⊢
  obtain ⟨P, h1, h2, h3⟩ := h
  have h4 := resetN_sim hS hL n t p m _ σ (hL t hp) hm h3
  have hi : m.isNil = false := by cases m <;> simp_all [Val.isNil]
  unfold PutSim at h4
  simp only [resetVT, hi, Bool.false_eq_true, if_false] at hset ⊢
  rw [resetN_eq S hn] at h4
  cases hv : resetN S (m.depth + 1) t m with
  | ok q =>
    rw [hv] at h4
    obtain ⟨σ', a, K, h5, h6, h7, -, h8⟩ := h4
    rw [h5]
    obtain ⟨m', ps⟩ := q
    obtain ⟨h9, h10⟩ := resetN_blank hS hL _ t m m' ps w hp hr hv
    exact ⟨rfl, rfl, m', h9, Spec.HoldsPool.puts (I := [(.msg t, p, m')]) (L := K) h1 h2 h7 (h6 ▸ h10) h8⟩
  | err e => exact (resetN_noErr _ _ _ _ hv).elim
  | panic e => rw [hv] at hset; cases hset
  | diverge => rw [hv] at hset; cases hset

theorem returnN_simP {n : Nat} {σ : HState} {R : List VItem} (hS : schemaOK S = true) (hL : poolsLocal S) {t : Nat} (hp : (S.msg t).pooled = true) {p : HV} {m w : Val} (hm : m ≠ .nil)
    (hn : m.depth + 1 ≤ n) (hr : Reuse S t m w) (h : HoldsPool S .none σ ((.msg t, p, m) :: R)) (hset : (resetVT S t w).outcome.settled = true) :
    (Vtp.hreturnWith (Vtp.hresetN S n) t p σ).2 = .ok () ∧ (resetVT S t w).outcome = .ok () ∧ HoldsPool S .none (Vtp.hreturnWith (Vtp.hresetN S n) t p σ).1 R := by
  rw [← resetVT_outcome hS hL hp hr] at hset ⊢
  obtain ⟨P, h1, h2, h3⟩ := h
  have h4 := returnWith_sim (resetN_sim hS hL n) (hL t hp) h3
  have hi : m.isNil = false := by cases m <;> simp_all [Val.isNil]
  unfold PutSim at h4
  simp only [resetVT, hi, Bool.false_eq_true, if_false] at hset ⊢
  have hb := fun ps => returnWith_blank (resetN_blank hS hL n) hp (.inr hr) (ps := ps)
  unfold returnWith at h4 hb
  simp only [hi, Bool.false_eq_true, if_false] at h4 hb
  rw [resetN_eq S hn] at h4
  simp only [resetN_eq S hn] at hb
  cases hv : resetN S (m.depth + 1) t m with
  | ok q =>
    rw [hv] at h4 hb
    obtain ⟨σ', a, K, h5, h6, h7, -, h8⟩ := h4
    rw [h5]
    exact ⟨rfl, rfl, Spec.HoldsPool.puts (I := []) (L := K) h1 h2 h7 (h6 ▸ hb _ rfl) h8⟩
  | err e => exact (resetN_noErr _ _ _ _ hv).elim
  | panic e => rw [hv] at hset; cases hset
  | diverge => rw [hv] at hset; cases hset

theorem pair_eq {α β : Type} {p : α × β} {b : β} (h : p.2 = b) : p = (p.1, b) := Prod.ext rfl h

/-- The outcome of a call does not depend on which value a message is said to stand for. -/
theorem alone_outcome (hL : LibOK L) {op : Op} {h : Heap} {v w : Val} {held shared : List (Nat × Addr)} (hp : op.permitted L.S held shared) (hfit : op.fits L h) {q : Nat × Addr}
    (hq : op.arg = some q) {x y : Val} {G : Multiset Addr} (h1 : RepL L.S .none h [(.msg q.1, .ptr q.2, x)] G) (hG : G.Nodup) (hx : x ≠ .nil) (hxv : Reuse L.S q.1 x v)
    (h2 : RepL L.S .none h [(.msg q.1, .ptr q.2, y)] G) (hy : y ≠ .nil) (hyw : Reuse L.S q.1 y w) : (op.alone L v).1 = (op.alone L w).1 := by
  have holds : ∀ {z : Val}, RepL L.S .none h [(.msg q.1, .ptr q.2, z)] G → HoldsPool L.S .none ⟨h, [], [], []⟩ [(.msg q.1, .ptr q.2, z)] := fun hz =>
    ⟨[], rfl, (fun _ h => nomatch h), G, by simpa using hz, hG, fun _ _ => rfl, (fun _ _ h => nomatch h), List.nodup_nil, fun _ h => nomatch h⟩
  cases op with
  | new t => cases hq
  | get w t => cases hq
  | put t a => cases hq; exact (reset_simP hL.ok hL.pools hfit.2 hx hxv (holds h1)).1.symm.trans (reset_simP hL.ok hL.pools hfit.2 hy hyw (holds h2)).1
  | reset t a => cases hq; exact (reset_simP hL.ok hL.pools hfit.2 hx hxv (holds h1)).1.symm.trans (reset_simP hL.ok hL.pools hfit.2 hy hyw (holds h2)).1
  | decode E t b a =>
    cases hq
    have hE : HPoolEnv L.S .none ⟨L.S, L.R, L.A, false, 0, E.extra, E.pick⟩ [] := ⟨rfl, hL.ok, hL.ext, hL.run, fun h => (nomatch h), fun _ h => h.elim⟩
    obtain ⟨_, h6, -⟩ := unmarshalVT_simP (b := b) hE hp.2.1 x v _ _ (holds h1) hxv
    obtain ⟨_, h7, -⟩ := unmarshalVT_simP (b := b) hE hp.2.1 y w _ _ (holds h2) hyw
    exact h6.symm.trans h7
  | clone E t a =>
    cases hq
    have hE : CloneEnv L.S .none ⟨L.S, L.R, E.pick, L.direct⟩ := ⟨rfl, hL.ok, fun _ _ h => (nomatch h), hL.nil, hL.some⟩
    have key : ∀ {z u : Val}, Reuse L.S t z u → HoldsPool L.S .none ⟨h, [], [], []⟩ [(.msg t, .ptr a, z)] →
        (cloneVT L.kenv t u).outcome = (hcloneVT ⟨L.S, L.R, E.pick, L.direct⟩ t (.ptr a) ⟨h, [], [], []⟩).2.outcome := by
      intro z u hzu hz
      have h5 := cloneVT_sim hE hp.2.1 (.head _) hzu hz
      unfold PoolSim at h5
      have e : (HKEnv.plain ⟨L.S, L.R, E.pick, L.direct⟩) = L.kenv := rfl
      rw [e] at h5
      cases hr : cloneVT L.kenv t u with
      | ok r => rw [hr] at h5; obtain ⟨_, _, _, h6, -⟩ := h5; rw [h6]; rfl
      | _ => rw [hr] at h5; obtain ⟨_, h6, -⟩ := h5; rw [h6]; rfl
    exact (key hxv (holds h1)).trans (key hyw (holds h2)).symm

/-- A call that begins does, alone, what it does on values. -/
theorem begin_virt (hL : LibOK L) {op : Op} {n : Nat} {h : Heap} {F : Multiset Addr} {Z : Addr → Cell → Prop} {v : Val}
    {held shared : List (Nat × Addr)} (hp : op.permitted L.S held shared) (hfit : op.fits L h) (ho : OwnL L.S .none h (msgItems op.takes) F)
    (harg : ∀ q, op.arg = some q → ∃ x G, RepL L.S .none h [(.msg q.1, .ptr q.2, x)] G ∧ G.Nodup ∧ x ≠ .nil ∧ Reuse L.S q.1 x v ∧ (x.depth + 1 ≤ n ∨ ∃ E t b a, op = .decode E t b a) ∧
      (op.alone L v).1.settled = true ∧ ∀ a ∈ G, a ∈ F ∨ ∃ c, h[a]? = some c ∧ Z a c)
    (hn : ∀ E t b a, op = .decode E t b a → n = b.length + 1) : Virt (opCtx L.S Z op) (fun _ => none) [] (Ends L op v) (op.prog L.S n) h F := by
  intro σ V Fl hl hw
  have hold : ∀ q, op.arg = some q → ∃ x, HoldsPool L.S .none σ [(.msg q.1, .ptr q.2, x)] ∧ x ≠ .nil ∧ Reuse L.S q.1 x v ∧ (x.depth + 1 ≤ n ∨ ∃ E t b a, op = .decode E t b a) ∧
      (op.alone L v).1.settled = true := by
    intro q hq
    obtain ⟨x, G, h1, h2, h3, h4, h5, hset, h6⟩ := harg q hq
    refine ⟨x, view_holds hw (h1.frame fun a ha => ?_) h2 fun a ha => (h6 a ha).imp id fun ⟨c, _, h⟩ => ⟨c, h⟩, h3, h4, h5, hset⟩
    rcases h6 a ha with h7 | ⟨c, h7, h8⟩
    · exact hw.agree a h7
    · rw [h7]; exact (hw.linv.fixed a c h8).1
  have hnone : HoldsPool L.S .none σ [] := view_holds hw .done Multiset.nodup_zero fun a ha => absurd ha (Multiset.notMem_zero a)
  have key : ∀ {α : Type} {x : HM α} {k : α → HM (List (Nat × Addr))} {σ' : HState} {r : α} (_ : x σ = (σ', .ok r)), (x >>= k) σ = k r σ' := by
    intro α x k σ' r e
    show HM.bind x k σ = _
    simp only [HM.bind, e]
  cases op with
  | new t =>
    rw [show (Op.prog L.S n (.new t)).run σ = _ from Runs.bind (runs_hnew L.S t) (fun _ => Runs.pure _) σ]
    obtain ⟨σ', a, h1, h2⟩ := new_simP hL.ok t hnone
    rw [key h1]
    exact ⟨rfl, [(t, a, zeroMsg L.S t)], rfl, List.nil_prefix, .cons ⟨rfl, blank_ne_nil (zeroMsg_reuse hL.ok t), zeroMsg_reuse hL.ok t⟩ .nil, h2⟩
  | get want t =>
    rw [show (Op.prog L.S n (.get want t)).run σ = _ from Runs.bind (runs_poolGet L.S want t) (fun _ => Runs.pure _) σ]
    obtain ⟨σ', a, m, h1, h2, h3⟩ := poolGet_sim (want := want) (t := t) hL.ok hnone
    rw [key h1]
    exact ⟨rfl, [(t, a, m)], rfl, List.nil_prefix, .cons ⟨rfl, blank_ne_nil h2, h2⟩ .nil, h3⟩
  | put t a =>
    rw [show (Op.prog L.S n (.put t a)).run σ = _ from Runs.bind (runs_hreturnWith (fun t p => runs_hresetN L.S n t p) t (.ptr a)) (fun _ => Runs.pure _) σ]
    obtain ⟨x, h1, h2, h3, h4, h5⟩ := hold (t, a) rfl
    have h4 : x.depth + 1 ≤ n := h4.resolve_right fun ⟨_, _, _, _, e⟩ => nomatch e
    obtain ⟨h6, h7, h8⟩ := returnN_simP hL.ok hL.pools hfit.2 h2 h4 h3 h1 h5
    rw [key (pair_eq h6)]
    exact ⟨h7.symm, [], rfl, List.nil_prefix, .nil, h8⟩
  | reset t a =>
    rw [show (Op.prog L.S n (.reset t a)).run σ = _ from Runs.bind (runs_hresetN L.S n t (.ptr a)) (fun _ => Runs.pure _) σ]
    obtain ⟨x, h1, h2, h3, h4, h5⟩ := hold (t, a) rfl
    have h4 : x.depth + 1 ≤ n := h4.resolve_right fun ⟨_, _, _, _, e⟩ => nomatch e
    obtain ⟨h6, h7, m', h8, h9⟩ := resetN_simP hL.ok hL.pools hfit.2 h2 h4 h3 h1 h5
    rw [key (pair_eq h6)]
    exact ⟨h7.symm, [(t, a, m')], rfl, List.prefix_refl _, .cons ⟨rfl, blank_ne_nil h8, h8⟩ .nil, h9⟩
  | decode E t b a =>
    obtain rfl := hn _ _ _ _ rfl
    obtain ⟨-, hf, hES, hal⟩ := hp
    obtain ⟨ES, ER, EA, Eal, Eb, Ee, Ep⟩ := E
    obtain ⟨hR, hA⟩ := hfit.2
    simp only at hES hal hR hA
    subst hES hal hR hA
    rw [show (Op.prog L.S (b.length + 1) (.decode _ t b a)).run σ = _ from Runs.bind (runs_hunmarshalN _ _ 0 t b (.ptr a)) (fun _ => Runs.pure _) σ]
    obtain ⟨x, h1, h2, h3, -, h5⟩ := hold (t, a) rfl
    have hE : HPoolEnv L.S .none ⟨L.S, L.R, L.A, false, Eb, Ee, Ep⟩ [] := ⟨rfl, hL.ok, hL.ext, hL.run, fun h => (nomatch h), fun _ h => h.elim⟩
    obtain ⟨m, h6, h7, h8⟩ := unmarshalVT_simP (b := b) hE hf x v _ σ h1 h3
    have hm : m ≠ .nil := by
      have hn := h8.isNil (ty := .msg t) (fun c e => by cases e) (.head _)
      rintro rfl
      cases hn
    have e : (HEnv.plain ⟨L.S, L.R, L.A, false, Eb, Ee, Ep⟩ []) = L.uenv := rfl
    rw [e] at h6 h7
    simp only [Vtp.hunmarshalVT] at h6 h8
    show Ends L _ v (HM.bind _ _ σ).1 (HM.bind _ _ σ).2
    simp only [HM.bind]
    generalize Vtp.hunmarshalN ⟨L.S, L.R, L.A, false, Eb, Ee, Ep⟩ (b.length + 1) 0 t b (.ptr a) σ = y at h6 h8 ⊢
    obtain ⟨σ', r⟩ := y
    simp only at h6 h8
    cases r with
    | ok u => exact ⟨h6, [(t, a, m)], rfl, List.prefix_refl _, .cons ⟨rfl, hm, h7⟩ .nil, h8⟩
    | err e => exact ⟨h6, [(t, a, m)], rfl, List.prefix_refl _, .cons ⟨rfl, hm, h7⟩ .nil, h8⟩
    | panic e => exact ⟨h6, [(t, a, m)], rfl, List.prefix_refl _, .cons ⟨rfl, hm, h7⟩ .nil, h8⟩
    | diverge => exact ⟨h6, [(t, a, m)], rfl, List.prefix_refl _, .cons ⟨rfl, hm, h7⟩ .nil, h8⟩
  | clone E t a =>
    obtain ⟨-, hf, hES⟩ := hp
    obtain ⟨ES, ER, Ep, Ed⟩ := E
    obtain ⟨hR, hd⟩ := hfit.2
    simp only at hES hR hd
    subst hES hR hd
    rw [show (Op.prog L.S n (.clone _ t a)).run σ = _ from Runs.bind (runs_hcloneN _ n [] t (.ptr a)) (fun _ => Runs.pure _) σ]
    obtain ⟨x, h1, h2, h3, h4, h5⟩ := hold (t, a) rfl
    have h4 : x.depth + 1 ≤ n := h4.resolve_right fun ⟨_, _, _, _, e⟩ => nomatch e
    have hE : CloneEnv L.S .none ⟨L.S, L.R, Ep, L.direct⟩ := ⟨rfl, hL.ok, fun _ _ h => (nomatch h), hL.nil, hL.some⟩
    obtain ⟨N, rfl⟩ : ∃ N, n = N + 1 := ⟨n - 1, by omega⟩
    have h6 := cloneN_sim hE N v.depth [] t (.ptr a) x v _ σ hf (.head _) ⟨by omega, le_rfl⟩ h3 h1
    unfold PoolSim at h6
    have e : (HKEnv.plain ⟨L.S, L.R, Ep, L.direct⟩) = L.kenv := rfl
    rw [e] at h6
    have e2 : cloneN L.kenv (v.depth + 1) [] t v = cloneVT L.kenv t v := rfl
    rw [e2] at h6
    show Ends L _ v (HM.bind _ _ σ).1 (HM.bind _ _ σ).2
    simp only [HM.bind]
    simp only [Op.alone] at h5
    cases hr : cloneVT L.kenv t v with
    | ok r =>
      rw [hr] at h6
      obtain ⟨σ', q, I, h7, ⟨r', rfl, h8⟩, h9⟩ := h6
      rw [h7]
      refine ⟨by simp [Op.alone, hr, Res.outcome]; rfl, ?_⟩
      have hnil := h9.isNil (ty := .msg t) (fun c e => by cases e) (.head _)
      have h10 : HoldsPool L.S .none σ' [(.msg t, q, r')] := (h9.perm (List.Perm.swap _ _ _)).tail
      by_cases hm : r' = .nil
      · subst hm
        have hw : r.isNil = true := (reuse_nil h8).symm.trans rfl
        have hq : HV.given t q = [] := by cases q <;> simp_all [HV.isNil, Val.isNil, HV.given]
        refine ⟨[], ?_, List.nil_prefix, by simp only [Op.alone, hr, hw, if_true]; exact .nil, h10.tail⟩
        exact hq.symm
      · have hmn : r'.isNil = false := by cases r' <;> simp_all [Val.isNil]
        obtain ⟨b, rfl⟩ : ∃ b, q = .ptr b := by
          rcases h10.openMsg hf (.head _) with ⟨-, h2⟩ | ⟨b, _, _, _, _, _, h2, -⟩
          · exact absurd h2 hm
          · exact ⟨b, h2⟩
        have hw : r.isNil = false := by rw [← reuse_nil h8]; exact hmn
        exact ⟨[(t, b, r')], rfl, List.nil_prefix, by simp only [Op.alone, hr, hw]; exact .cons ⟨rfl, hm, h8⟩ .nil, h10⟩
    | err e =>
      rw [hr] at h6
      obtain ⟨σ', h7, h8⟩ := h6
      rw [h7]
      exact ⟨by simp [Op.alone, hr, Res.outcome], [], rfl, List.nil_prefix, by simp only [Op.alone, hr]; exact .nil, h8.tail⟩
    | panic e => rw [hr] at h5; cases h5
    | diverge => rw [hr] at h5; cases h5

/-! ## The invariant -/

/-- Messages held and common stand for values, messages in pools are as new; calls do, alone, what they do on values, for values of which `g` holds. -/
def valLaw (L : Lib) (g : Nat → Op → Val → Prop) : Law where
  own h q := ∃ v, ShowsAt L.S h q v
  pool h q := ShowsAt L.S h q (zeroMsg L.S q.1)
  call i op p h F Z := ∃ v, g i op v ∧ Going (opCtx L.S Z op) (Ends L op v) p h F

theorem valLaw_keeps (L : Lib) (g : Nat → Op → Val → Prop) : (valLaw L g).Keeps L.S where
  own := fun h h' q G ⟨v, hv⟩ ho ha => ⟨v, shows_frame hv ho ha⟩
  pool := shows_framed L.S fun t => zeroMsg L.S t
  calm := fun ⟨v, hv, hg⟩ ha hl => ⟨v, hv, hg.calm ha hl⟩
  read := fun ⟨v, hv, hg⟩ hc ha _ => ⟨v, hv, hg.read hc ha⟩
  write := fun ⟨v, hv, hg⟩ ha hi => ⟨v, hv, hg.write ha hi⟩
  alloc := fun ⟨v, hv, hg⟩ hi => ⟨v, hv, hg.alloc hi⟩
  miss := fun ⟨v, hv, hg⟩ => ⟨v, hv, hg.miss⟩
  got := fun ⟨v, hv, hg⟩ hw hk ⟨x, G, h1, _, h2⟩ ho _ => by
    obtain rfl := own_unique ho (rep_own h1)
    exact ⟨v, hv, hg.got hw hk h2 h1⟩
  put := fun ⟨v, hv, hg⟩ hk ho hs hi => by
    obtain ⟨⟨x, h1, h2⟩, h3⟩ := hg.put (fun _ _ ⟨_, V, _, _, _, h⟩ => ⟨_, h⟩) hk hi ho hs
    exact ⟨⟨x, _, h2, blank_ne_nil h1, h1⟩, v, hv, h3⟩
  ret := by
    intro i op r h F Z l F' ⟨v, hv, hg⟩ hl hle ho hi q hq
    have e : l = op.has r := by
      rcases hl with rfl | ⟨hr, rfl⟩
      · rfl
      · cases r with
        | ok l => exact absurd rfl (hr l)
        | _ => rfl
    subst e
    obtain ⟨-, -, h2⟩ := ends_shows hg hi hle ho
    obtain ⟨n, hn, rfl⟩ := List.getElem_of_mem hq
    have hlen := h2.length_eq
    exact ⟨_, (List.Forall₂.get h2 hn (hlen ▸ hn)).2⟩

theorem TInv.cstep (hL : LibOK L) {g : Nat → Op → Val → Prop} {m m' : Mach} {F : Owner → Multiset Addr} {who : Option Nat} (hm : TInv L.S (valLaw L g) m F) (hs : CStep L m who m')
    (hg : ∀ i held held' op p, who = some i → m.gors[i]? = some ⟨held, none⟩ → op.permitted L.S held m.shared → m'.gors[i]? = some ⟨held', some (op, p)⟩ →
      ∃ v, g i op v ∧ ∀ q, op.arg = some q → ShowsAt L.S m.st.heap q v) : ∃ F', TInv L.S (valLaw L g) m' F' := by
  refine hm.gstep (valLaw_keeps L g) hL.ok hs.step ?_ fun i held held' h1 h2 h3 => hs.own i held held' h2 h1 h3
  intro i n held op h1 hp h2 h3 F1 F2 o1 o2 o3 hnd
  obtain ⟨e, hfit⟩ := hs.call i held _ op _ h2 h1 h3
  obtain ⟨v, hgv, hv⟩ := hg i held _ op _ h2 h1 hp h3
  refine ⟨v, hgv, ?_⟩
  rw [e]
  refine Going.start (begin_virt hL hp hfit o1.1 (fun q hq => ?_) fun E t b a h => by subst h; rfl)
  obtain ⟨x, G, h4, h5, h6⟩ := hv q hq
  have hown := rep_own h4
  have hcell : ∀ a ∈ G, ∃ c, m.st.heap[a]? = some c := fun a ha => ⟨_, List.getElem?_eq_getElem (h4.inHeap a ha)⟩
  have hplace : (∃ F', F' ≤ F1 ∧ F' = G) ∨ (∃ F', F' ≤ F2 ∧ F' = G) ∨ ∃ F', F' ≤ F .shared ∧ F' = G := by
    have one : q ∈ op.takes → ∃ F', F' ≤ F1 ∧ F' = G := fun hq' => by
      obtain ⟨F', hle, hF⟩ := own_sub o1.1 hq'
      exact ⟨F', hle, own_unique hF hown⟩
    cases op with
    | new t => cases hq
    | get w t => cases hq
    | put t a => cases hq; exact .inl (one (.head _))
    | reset t a => cases hq; exact .inl (one (.head _))
    | decode E t b a => cases hq; exact .inl (one (.head _))
    | clone E t a =>
      cases hq
      rcases hp.1 with h | h
      · obtain ⟨F', hle, hF⟩ := own_sub o2.1 (q := (t, a)) h
        exact .inr (.inl ⟨F', hle, own_unique hF hown⟩)
      · obtain ⟨F', hle, hF⟩ := own_sub o3.1 (q := (t, a)) h
        exact .inr (.inr ⟨F', hle, own_unique hF hown⟩)
  have hG : G.Nodup := by
    have n1 := (Multiset.nodup_add.mp hnd).1
    rcases hplace with ⟨F', hle, rfl⟩ | ⟨F', hle, rfl⟩ | ⟨F', hle, rfl⟩
    · exact Multiset.nodup_of_le hle (Multiset.nodup_add.mp n1).1
    · exact Multiset.nodup_of_le hle (Multiset.nodup_add.mp n1).2.1
    · exact Multiset.nodup_of_le hle (Multiset.nodup_add.mp hnd).2.1
  have hset : (op.alone L v).1.settled = true := by
    obtain ⟨w, ⟨y, G', h7, h8, h9⟩, h10⟩ := hfit.1 q hq
    have e : G = G' := own_unique (I := [(.msg q.1, .ptr q.2)]) hown (rep_own h7)
    subst e
    rw [alone_outcome hL hp hfit hq h4 hG h5 h6 h7 h8 h9]
    exact h10
  refine ⟨x, G, h4, hG, h5, h6, ?_, hset, fun a ha => ?_⟩
  · have hd : x.depth + 1 ≤ m.st.fuel := Spec.Holds.depth (I := [(.msg q.1, .ptr q.2, x)]) (B := .none) (S := L.S)
      ⟨G, h4, hG, fun _ _ => rfl, (fun _ _ h => nomatch h), by rw [hm.plain.1]; exact ⟨List.nodup_nil, fun _ h => nomatch h⟩⟩ (.head _)
    cases op with
    | decode E t b a => exact .inr ⟨E, t, b, a, rfl⟩
    | _ => exact .inl hd
  · obtain ⟨c, hc⟩ := hcell a ha
    rcases hplace with ⟨F', hle, rfl⟩ | ⟨F', hle, rfl⟩ | ⟨F', hle, rfl⟩
    · exact .inl (Multiset.mem_of_le hle ha)
    · exact .inr ⟨c, hc, hc, .inr (Multiset.mem_of_le hle ha)⟩
    · exact .inr ⟨c, hc, hc, .inl (Multiset.mem_of_le hle ha)⟩

/-- For calls of which nothing in particular is said. -/
theorem any_value {g : Nat → Op → Val → Prop} {m : Mach} {F : Owner → Multiset Addr} (hm : TInv L.S (valLaw L g) m F) {i : Nat} {held : List (Nat × Addr)} {op : Op}
    (hi : m.gors[i]? = some ⟨held, none⟩) (hp : op.permitted L.S held m.shared) : ∃ v, ∀ q, op.arg = some q → ShowsAt L.S m.st.heap q v := by
  have hh : VOwn L.S _ m.st.heap held _ := hm.ok (.gor i) _ hi
  have hs : VOwn L.S _ m.st.heap m.shared _ := hm.ok .shared
  have one : ∀ q, q ∈ held ∨ q ∈ m.shared → op.arg = some q → ∃ v, ∀ q, op.arg = some q → ShowsAt L.S m.st.heap q v := by
    intro q hq ha
    obtain ⟨v, hv⟩ : ∃ v, ShowsAt L.S m.st.heap q v := hq.elim (hh.2 q) (hs.2 q)
    refine ⟨v, fun q' h => ?_⟩
    rw [ha] at h
    cases h
    exact hv
  cases op with
  | new t => exact ⟨.nil, fun _ h => nomatch h⟩
  | get w t => exact ⟨.nil, fun _ h => nomatch h⟩
  | put t a => exact one (t, a) (.inl hp) rfl
  | reset t a => exact one (t, a) (.inl hp) rfl
  | decode E t b a => exact one (t, a) (.inl hp.1) rfl
  | clone E t a => exact one (t, a) hp.1 rfl

theorem creach_inv (hL : LibOK L) {m : Mach} (hm : CReach L m) : ∃ F, TInv L.S (valLaw L fun _ _ _ => True) m F := by
  induction hm with
  | start => exact ⟨_, tinv_start _ _⟩
  | step _ hs ih =>
    obtain ⟨F, hF⟩ := ih
    refine hF.cstep hL hs fun i held held' op p _ h1 h2 _ => ?_
    obtain ⟨v, hv⟩ := any_value hF h1 h2
    exact ⟨v, trivial, hv⟩

/-- What is said of calls may be changed for goroutines that are in none. -/
theorem TInv.ghost {g g' : Nat → Op → Val → Prop} {m : Mach} {F : Owner → Multiset Addr} (hm : TInv L.S (valLaw L g) m F)
    (h : ∀ i held op p v, m.gors[i]? = some ⟨held, some (op, p)⟩ → g i op v → g' i op v) : TInv L.S (valLaw L g') m F where
  nodup := hm.nodup
  apart := hm.apart
  inHeap := hm.inHeap
  plain := hm.plain
  ok o := by
    have := hm.ok o
    cases o with
    | gor i =>
      intro gr hg
      have := this gr hg
      rcases gr with ⟨held, _ | ⟨op, p⟩⟩
      · exact this
      · obtain ⟨Fp, Fh, Z, h1, h2, h3, h4, v, h5, h6⟩ := this
        exact ⟨Fp, Fh, Z, h1, h2, h3, h4, v, h i held op p v hg h5, h6⟩
    | pool => exact this
    | shared => exact this

/-- The goroutine `i` is in the call `op`, which began on the value `v`. -/
def inCall (i : Nat) (op : Op) (v : Val) : Nat → Op → Val → Prop := fun j op' v' => j = i → op' = op ∧ v' = v

theorem during_inv (hL : LibOK L) {i : Nat} {op : Op} {v : Val} {m m' : Mach} (hd : During L i m m') (hin : ∃ held c, m.gors[i]? = some ⟨held, some c⟩) :
    (∃ F, TInv L.S (valLaw L (inCall i op v)) m F) → (∃ held c, m'.gors[i]? = some ⟨held, some c⟩) ∧ ∃ F, TInv L.S (valLaw L (inCall i op v)) m' F := by
  intro h0
  induction hd with
  | refl => exact ⟨hin, h0⟩
  | @tail m1 m2 who _ hs hin' ih =>
    obtain ⟨⟨held, c, h1⟩, F, hF⟩ := ih
    refine ⟨hin', hF.cstep hL hs fun j hj hj' op' p _ h2 h3 _ => ?_⟩
    obtain ⟨v', hv'⟩ := any_value hF h2 h3
    refine ⟨v', fun e => ?_, hv'⟩
    subst e
    rw [h2] at h1
    cases h1

/-- What a call that is at its end did. -/
theorem done_shows {g : Nat → Op → Val → Prop} {m : Mach} {F : Owner → Multiset Addr} (hm : TInv L.S (valLaw L g) m F) {i : Nat} {held : List (Nat × Addr)} {op : Op}
    {r : Res (List (Nat × Addr))} (hg : m.gors[i]? = some ⟨held, some (op, .done r)⟩) :
    ∃ v, g i op v ∧ r.outcome = (op.alone L v).1 ∧ op.same <+: op.has r ∧ List.Forall₂ (ShowsAs L.S m.st.heap) (op.has r) (op.alone L v).2 := by
  obtain ⟨Fp, Fh, Z, hF, ho, hZ, hsafe, v, hv, hgo⟩ := hm.ok (.gor i) _ hg
  have hli : LInv (opCtx L.S Z op) m.st.heap Fp := hm.minv.linv hF hZ
  obtain ⟨F', hle, h1, h2⟩ := hsafe _ (.refl _ _) hli
  refine ⟨v, hv, ends_shows hgo hli hle ?_⟩
  cases r with
  | ok l => simpa [Op.has] using h1 l rfl
  | _ => simpa [Op.has] using h2 (fun _ h => nomatch h)

end

end Vtp.Conc
