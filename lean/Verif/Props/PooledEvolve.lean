import Verif.Props.Pooled
import Verif.Lemmas.ReuseShuffle
/-!
# C81 for code with pools
-/

namespace Vtp.Props
open Spec

theorem older_unpool {S0 S : Schema} (h : Older S0 S) : Older (unpool S0) (unpool S) := by
  intro t
  have h := h t
  rw [unpool_msg, unpool_msg]
  by_cases hf : (S.msg t).foreign = true
  · rw [if_pos hf] at h
    rw [if_pos (by exact hf), h]
  · rw [if_neg hf] at h
    rw [if_neg (by exact hf)]
    exact ⟨h.1, h.2.fields, h.2.oneofs, h.2.keep, h.2.exts⟩

theorem foreign_unpool {S : Schema} {t : Nat} (h : (S.msg t).foreign = false) : ((unpool S).msg t).foreign = false := by
  rw [unpool_msg]
  exact h

theorem restored_unpool {S : Schema} {R : Runtime} {t : Nat} {v : Val} (h : Restored S R t v) : Restored (unpool S) R t v := by
  obtain ⟨b, w, v', h1, h2, h3, h4⟩ := h
  refine ⟨b, w, v', h1, h2, ?_, h4⟩
  unfold orEmpty at h3 ⊢
  rwa [zeroMsg_unpool]

theorem stable_unpool {S : Schema} {R : Runtime} (h : RuntimeStable S R) : RuntimeStable (unpool S) R := by
  intro t b w x hf h1 h2
  rw [unpool_msg] at hf
  obtain ⟨k1, k2⟩ := h t b w x hf h1 h2
  exact ⟨restored_unpool k1, k2⟩

/-- C81, for programs with pools. The older program reads into any empty message from its pool, the newer one into any from its own; both take the messages
inside from pools. -/
theorem pass_on_pooled_partial {E E0 : UEnv} (hE : PoolEnv E) (hE0 : PoolEnv E0) (hS : Older E0.S E.S) (hRR : E0.R = E.R)
    (hP : RuntimePerm E.R) (hT : RuntimeStable E.S E.R) (hR : RuntimeEqual E.R) (hQ : RuntimeEqualShuffle E.R) (hN : RuntimeEnc E.R) (hk : noKeptBytes E.S)
    (hk0 : noKeptBytes E0.S) {strict : Bool} {t : Nat} (hf : (E.S.msg t).foreign = false) {v : Val} (hv : wt E.S t v = true)
    (hr : Restorable E.S E.R t v) {b : Bytes} (hm : marshalVT ⟨E.S, E.R⟩ strict t v = .ok (some b)) (hb : E.A.Fits (b.length + 1)) (hb0 : E0.A.Fits (b.length + 1))
    {m m0 : Val} (hB : Blank E.S t m) (hB0 : Blank E0.S t m0) :
    ∃ w0, unmarshalVT E0 t b m0 = (w0, .ok ()) ∧ ∀ strict0 x, Shuffle w0 x →
      ∃ c, marshalVT ⟨E0.S, E0.R⟩ strict0 t x = .ok (some c) ∧ c.Perm b ∧
        ∃ w, unmarshalVT E t c m = (w, .ok ()) ∧
          (NoNaN E.S t v → ∀ p, equalVT ⟨E.S, E.R, p⟩ t v w = .ok true ∧ equalVT ⟨E.S, E.R, p⟩ t w v = .ok true) ∧
          ((E.S.msg t).keepUnknown = true → unknownOf w = unknownOf v) := by
  have hs := hE.env.schema
  have hs0 := hE0.env.schema
  have hR0 : RuntimeEqual E0.R := by rw [hRR]; exact hR
  have hN0 : RuntimeEnc E0.R := by rw [hRR]; exact hN
  have hf0 : (E0.S.msg t).foreign = false := by rw [(shared_of hE.env hS hRR hP hT).foreign]; exact hf
  have he : encode ⟨E.S, E.R⟩ strict t v = some b := ((marshal_encodes (E := ⟨E.S, E.R⟩) strict hs hN hv hf).1 b).1 hm
  have hv' : wt (unpool E.S) t v = true := by unfold wt at *; rw [unpool_typed]; exact hv
  have hm' : marshalVT ⟨unpool E.S, E.R⟩ strict t v = .ok (some b) :=
    ((marshal_encodes (E := ⟨unpool E.S, E.R⟩) strict (unpool_ok hs) hN hv' (foreign_unpool hf)).1 b).2 (by rw [encode_unpool]; exact he)
  obtain ⟨w1, h1, h2⟩ := pass_on_partial (E := { E with S := unpool E.S }) (E0 := { E0 with S := unpool E0.S }) hE.plain hE0.plain
    (older_unpool hS) hRR hP (stable_unpool hT) hR hQ hN (foreign_unpool hf) hv' ((restorable_unpool E.S E.R).2 hr) hm' hb hb0
  have p1 := pooled_sim hE0.env.schema hE0.env.arch hE0.runtime hE0.pools hf0 (b := b) (by unfold Arch.Fits at *; omega) hB0
  rw [zeroMsg_unpool] at h1
  rw [h1] at p1
  refine ⟨(unmarshalVT E0 t b m0).1, Prod.ext rfl p1.1, fun strict0 x hx => ?_⟩
  have tw0 := (unmarshal_returns_partial hE0.env hf0 (blank_typed hs0 _ t m0 (Nat.le_refl _) hB0) (b := b) (by unfold Arch.Fits at *; omega)).2
  have tx : wt E0.S t x = true := shuffle_wtM hx (members_weaken (by simp) (by simp) _ _ _ tw0)
  obtain ⟨x1, hx1, hsx⟩ := reuse_shuffle hs0 p1.2 hx
  obtain ⟨c, h3, h4, w, h5, h6, -, h8⟩ := h2 strict0 x1 hsx
  have hc : E.A.Fits (c.length + 1) := by rw [h4.length_eq]; exact hb
  have tx1 : wt (unpool E0.S) t x1 = true := by
    have := (unmarshal_returns_partial hE0.plain.env (foreign_unpool hf0) (zeroMsg_typed (unpool_ok hs0) t) (b := b) (by show E0.A.Fits _; unfold Arch.Fits at *; omega)).2
    rw [zeroMsg_unpool, h1] at this
    exact shuffle_wtM hsx (members_weaken (by simp) (by simp) _ _ _ this)
  have a0 := alike_of_reuse (R := E0.R) hR0.refl hk0 hf0 hx1
  refine ⟨c, ((marshal_encodes (E := ⟨E0.S, E0.R⟩) strict0 hs0 hN0 tx hf0).1 c).2 ?_, h4, ?_⟩
  · rw [encode_alike (E := ⟨E0.S, E0.R⟩) hs0 strict0 a0, ← encode_unpool]
    exact ((marshal_encodes (E := ⟨unpool E0.S, E0.R⟩) strict0 (unpool_ok hs0) hN0 tx1 (foreign_unpool hf0)).1 c).1 h3
  have p2 := pooled_sim hE.env.schema hE.env.arch hE.runtime hE.pools hf (b := c) (by unfold Arch.Fits at *; omega) hB
  rw [zeroMsg_unpool] at h5
  rw [h5] at p2
  have tw := (unmarshal_returns_partial hE.env hf (blank_typed hs _ t m (Nat.le_refl _) hB) (b := c) (by unfold Arch.Fits at *; omega)).2
  refine ⟨(unmarshalVT E t c m).1, Prod.ext rfl p2.1, fun hnan p => ?_, fun hk => ?_⟩
  · have a1 := alike_of_reuse (R := E.R) hR.refl hk hf p2.2
    have h6' : Shuffle (back E.S E.R t v) w := by unfold back at h6 ⊢; rwa [backN_unpool] at h6
    have s1 := (back_same hs hR v.depth t v (Nat.le_refl _) hf hv (hr _) (hnan _)).1
    have self : ∀ {a b : Val}, Same E.S E.R t a b → Same E.S E.R t b b := fun h => same_trans hR.trans (same_symm hR.symm h) h
    have hvt : wtM E.S .typedNil t v = true := members_weaken (by simp) (by simp) _ _ _ hv
    have hwt : wtM E.S .typedNil t (unmarshalVT E t c m).1 = true := members_weaken (by simp) (by simp) _ _ _ tw
    have tb : wtM E.S .plain t (back E.S E.R t v) = true := by
      obtain ⟨y, b1, b2, -⟩ := round_trip_partial hE.plain hR hN (foreign_unpool hf) hv' ((restorable_unpool E.S E.R).2 hr) hm' hb
      have := (unmarshal_returns_partial hE.plain.env (foreign_unpool hf) (zeroMsg_typed (unpool_ok hs) t) (b := b) (by show E.A.Fits _; unfold Arch.Fits at *; omega)).2
      rw [b1, b2, unpool_typed] at this
      unfold back at this ⊢
      rw [backN_unpool] at this
      exact members_weaken (by simp) (by simp) _ _ _ this
    have s2 := same_trans hR.trans s1 (same_shuffle hs hR hQ hf h6' (members_weaken (by simp) (by simp) _ _ _ tb) (noNaN_of_same hs tb (self s1)))
    have s3 := same_trans hR.trans s2 (same_of_alike hs (alike_symm hR.symm a1) (self s2))
    exact ⟨equal_of_same (C := ⟨E.S, E.R, p⟩) hs hR hf (.inr hvt) (.inr hwt) s3,
      equal_of_same (C := ⟨E.S, E.R, p⟩) hs hR hf (.inr hwt) (.inr hvt) (same_symm hR.symm s3)⟩
  · have h9 := h8 (by rw [unpool_msg]; exact hk)
    rw [← h9]
    have p3 : Reuse E.S t (unmarshalVT E t c m).1 w := p2.2
    rcases reuse_cases hf p3 with ⟨s, u, e, s', u', e', e1, e2⟩ | ⟨e1, -⟩
    · rw [e1, e2] at p3
      rw [e1, e2]
      exact ((reuse_msg hf).1 p3).1
    · rw [e1]

/-- The nodes before their bytes, a member of the oneof and the strings were added. -/
def oldNodes : Schema := [
  { fields := [
      { num := 3, slot := 0, kind := .message, presence := true, msg := 0 },
      { num := 4, slot := 1, kind := .message, presence := true, oneof := true, msg := 0 },
      { num := 6, slot := 2, kind := .message, card := .repeated, msg := 1 },
      { num := 1, slot := 3, kind := .message, card := .repeated, msg := 0 }],
    nslots := 4, pooled := true },
  { fields := [{ num := 1, slot := 0, kind := .int32 }], nslots := 1, pooled := true }]

theorem oldNodes_ok : schemaOK oldNodes = true := by decide

theorem oldNodes_older : Older oldNodes nodes := by
  intro t
  match t with
  | 0 => exact ⟨rfl, by decide, by decide, rfl, by decide⟩
  | 1 => exact ⟨rfl, by decide, by decide, rfl, by decide⟩
  | t + 2 => exact ⟨rfl, by intro f h; simp [Schema.msg, oldNodes] at h, by intro f h; simp [Schema.msg, oldNodes] at h, rfl, by intro f h; simp [Schema.msg, oldNodes] at h⟩

/-- Nodes, newer and older. -/
def nodeEnv : UEnv := { S := nodes, R := opaqueRuntime fun _ => false, A := .b64, alloc := fun _ t => zeroMsg nodes t }
def oldNodeEnv : UEnv := { S := oldNodes, R := opaqueRuntime fun _ => false, A := .b64, alloc := fun _ t => zeroMsg oldNodes t }

theorem nodeEnv_pool : PoolEnv nodeEnv :=
  ⟨⟨nodes_ok, .inr rfl, fun _ t => zeroMsg_typed nodes_ok t, fun _ _ _ h => (nomatch h), fun _ _ _ h => (nomatch h), .inl rfl⟩, rfl, .inl rfl, fun _ _ _ h => (nomatch h),
    fun _ t _ => blank_zero nodes_ok t⟩

theorem oldNodeEnv_pool : PoolEnv oldNodeEnv :=
  ⟨⟨oldNodes_ok, .inr rfl, fun _ t => zeroMsg_typed oldNodes_ok t, fun _ _ _ h => (nomatch h), fun _ _ _ h => (nomatch h), .inl rfl⟩, rfl, .inl rfl, fun _ _ _ h => (nomatch h),
    fun _ t _ => blank_zero oldNodes_ok t⟩

theorem oldNodes_bytes : noKeptBytes oldNodes := by
  intro t
  match t with
  | 0 | 1 => decide
  | t + 2 => intro h; cases h

theorem tree_restorable' : Restorable nodeEnv.S nodeEnv.R 0 tree := by
  intro n
  have f0 : (nodeEnv.S.msg 0).foreign = false := rfl
  have f1 : (nodeEnv.S.msg 1).foreign = false := rfl
  have hs : ∀ m, RestorableN nodeEnv.S nodeEnv.R m 0 (.msg [.nil, .str [7], .nil, .wrap 5 (.num 3), .nil, .nil] [248, 1, 5] []) := by
    intro m
    cases m with
    | zero => trivial
    | succ m =>
      refine ⟨fun _ => unknown_31, fun f hf => ?_⟩
      fin_cases hf <;> simp [slotOf, RestorableElem]
  have hl : ∀ m a, RestorableN nodeEnv.S nodeEnv.R m 1 (.msg [.num a] [] []) := by
    intro m a
    cases m with
    | zero => trivial
    | succ m =>
      refine ⟨fun _ => unknown_none _, fun f hf => ?_⟩
      fin_cases hf <;> simp [slotOf, RestorableElem]
  cases n with
  | zero => trivial
  | succ n =>
    refine ⟨fun _ => unknown_none _, fun f hf => ?_⟩
    fin_cases hf <;> simp [leaf, slotOf, RestorableElem, f0, f1, hl]
    exact hs n

/-- An empty old node as its pool may hold it: with empty lists, and a list that keeps an empty leaf. -/
def oldAgain : Val := .msg [.nil, .nil, .list [] [.msg [.num 0] [] []], .list [] []] [] []

theorem oldAgain_blank : Blank oldNodes 0 oldAgain := by
  refine (reuse_msg (by decide)).2 ⟨rfl, rfl, rfl, rfl, ?_⟩
  intro f hf
  have hl : Reuse oldNodes 1 (.msg [.num 0] [] []) (zeroMsg oldNodes 1) := blank_zero oldNodes_ok 1
  fin_cases hf
  · exact .inl ⟨rfl, rfl⟩
  · rfl
  · refine ⟨trivial, trivial, .nil, fun _ => .inr rfl, fun h => (nomatch h), fun _ _ y hy => ?_, fun h => (nomatch h)⟩
    have : y = .msg [.num 0] [] [] := List.mem_singleton.1 hy
    rw [this]
    exact .inr ⟨nofun, hl⟩
  · exact ⟨trivial, trivial, .nil, fun _ => .inr rfl, fun h => (nomatch h), fun _ _ y hy => (nomatch hy), fun h => (nomatch h)⟩

/-- A node passes through the older program, both reading into messages from pools that keep memory. -/
example : ∃ b w0 c w, marshalVT ⟨nodeEnv.S, nodeEnv.R⟩ false 0 tree = .ok (some b) ∧ unmarshalVT oldNodeEnv 0 b oldAgain = (w0, .ok ()) ∧
    marshalVT ⟨oldNodeEnv.S, oldNodeEnv.R⟩ true 0 w0 = .ok (some c) ∧ c.Perm b ∧ unmarshalVT nodeEnv 0 c again = (w, .ok ()) ∧
    unknownOf w = [] := by
  obtain ⟨b, h1, h2⟩ := writes (S := nodeEnv.S) (R := nodeEnv.R) (t := 0) (v := tree) false nodes_ok (opaque_enc _) (fun _ _ => rfl) (by decide) (by decide) (by decide) (by decide)
  obtain ⟨w0, h3, h4⟩ := pass_on_pooled_partial nodeEnv_pool oldNodeEnv_pool oldNodes_older rfl (opaque_perm _) (opaque_stable nodes_ok) (opaque_ok _) (opaque_shuffle _) (opaque_enc _)
    nodes_bytes oldNodes_bytes (by decide) (by decide) tree_restorable' h1 h2 h2 again_blank oldAgain_blank
  obtain ⟨c, h5, h6, w, h7, -, h8⟩ := h4 true w0 (.refl _)
  exact ⟨b, w0, c, w, h1, h3, h5, h6, h7, h8 rfl⟩

end Vtp.Props
