import Verif.Lemmas.Clone
import Verif.Props.Equal
import Verif.Props.Pool
import Verif.Props.RoundTrip
/-!
# Properties of `CloneVT`: C45

The clone as content; that it is memory of its own is C46.
-/

namespace Vtp.Props
open Spec

/-- C45. `CloneVT` of a nil pointer is a nil pointer. -/
theorem clone_nil (E : KEnv) (t : Nat) : cloneVT E t .nil = .ok .nil := rfl

/-- C45. `CloneVT` returns (no panic, no endless recursion) a message of the type, without typed nil oneof wrappers if the original has none,
whose marshalled form, size, and `EqualVT` on NaN-free messages are those of the original. -/
theorem clone_equal_partial {E : KEnv} (hS : schemaOK E.S = true) (hC : RuntimeClone E.R) (hR : RuntimeEqual E.R) (hE : RuntimeEnc E.R) (hb : PoolsBlank E)
    (hk : noKeptBytes E.S) {t : Nat} (hf : (E.S.msg t).foreign = false) {tn : Members} {v : Val} (hv : wtM E.S tn t v = true) :
    ∃ w, cloneVT E t v = .ok w ∧ wtM E.S tn t w = true ∧
      (∀ same, NoNaN E.S t v → equalVT ⟨E.S, E.R, same⟩ t v w = .ok true ∧ equalVT ⟨E.S, E.R, same⟩ t w v = .ok true) ∧
      (wt E.S t v = true → sizeVT ⟨E.S, E.R⟩ t w = sizeVT ⟨E.S, E.R⟩ t v ∧
        ∀ strict b, marshalVT ⟨E.S, E.R⟩ strict t w = .ok (some b) ↔ marshalVT ⟨E.S, E.R⟩ strict t v = .ok (some b)) := by
  obtain ⟨w, h1, h2, h3⟩ := (clone_clones (tn := tn) hS hC hb hk v.depth [] t v (Nat.le_refl _) hf).2 hv
  refine ⟨w, h1, h2, fun same hn => ?_, fun hv' => ?_⟩
  · have hv' : wtM E.S .typedNil t v = true := by
      cases tn
      · exact hv
      · exact members_weaken (by simp) (by simp) _ _ _ hv
      · exact members_weaken (by simp) (by simp) _ _ _ hv
    have hw' : wtM E.S .typedNil t w = true := by
      cases tn
      · exact h2
      · exact members_weaken (by simp) (by simp) _ _ _ h2
      · exact members_weaken (by simp) (by simp) _ _ _ h2
    have hs : Same E.S E.R t v w := same_of_alike hS h3 (same_refl hS hR.refl hf hv' hn)
    exact ⟨equal_of_same (C := ⟨E.S, E.R, same⟩) hS hR hf (.inr hv') (.inr hw') hs,
      equal_of_same (C := ⟨E.S, E.R, same⟩) hS hR hf (.inr hw') (.inr hv') (same_symm hR.symm hs)⟩
  · have hw' : wt E.S t w = true := by
      obtain ⟨w', h1', h2', -⟩ := (clone_clones (tn := .plain) hS hC hb hk v.depth [] t v (Nat.le_refl _) hf).2 hv'
      have : w = w' := by
        have := h1.symm.trans h1'
        simpa using this
      rw [this]
      exact h2'
    refine ⟨(sizeVT_alike (E := ⟨E.S, E.R⟩) hS h3).symm, fun strict b => ?_⟩
    rw [(marshal_encodes (E := ⟨E.S, E.R⟩) strict hS hE hw' hf).1, (marshal_encodes (E := ⟨E.S, E.R⟩) strict hS hE hv' hf).1,
      encode_alike (E := ⟨E.S, E.R⟩) hS strict h3]

/-- C45. Where the clone of a message with NaNs differs in `EqualVT`, so does a copy of the message: `EqualVT` of original and clone is the one of
the original with itself, if no pointers are shared. -/
theorem clone_equal_self_partial {E : KEnv} (hS : schemaOK E.S = true) (hC : RuntimeClone E.R) (hR : RuntimeEqual E.R) (hb : PoolsBlank E)
    (hk : noKeptBytes E.S) {t : Nat} (hf : (E.S.msg t).foreign = false) {v w : Val} (hv : wtM E.S .typedNil t v = true)
    {same : List Nat → Bool} (ha : CEnv.apart ⟨E.S, E.R, same⟩) (hw : cloneVT E t v = .ok w) (he : equalVT ⟨E.S, E.R, same⟩ t v v = .ok true) :
    equalVT ⟨E.S, E.R, same⟩ t v w = .ok true := by
  obtain ⟨w', h1, h2, h3⟩ := (clone_clones (tn := .typedNil) hS hC hb hk v.depth [] t v (Nat.le_refl _) hf).2 hv
  have : w = w' := by
    have := hw.symm.trans h1
    simpa using this
  subst this
  have hs := (equal_iff_same (C := ⟨E.S, E.R, same⟩) hS hR hf (.inr hv) (.inr hv) (.inl ha)).1.1 he
  exact equal_of_same (C := ⟨E.S, E.R, same⟩) hS hR hf (.inr hv) (.inr h2) (same_of_alike hS h3 hs)

/-! ### Cases -/

theorem structural_clone : RuntimeClone structural where
  equal := by simp [structural, Runtime.none]
  marshal := by simp [structural, Runtime.none]
  size := by simp [structural, Runtime.none]
  isNil := by simp [structural, Runtime.none]
  isMsg := by simp [structural, Runtime.none]

/-- Nodes whose pool hands out messages with memory kept for reuse. -/
def nodeClones : KEnv := { S := nodes, R := structural, alloc := fun _ _ => nodeReset, direct := fun _ => true }

theorem nodeClones_blank : PoolsBlank nodeClones := by
  intro p t h
  match t with
  | 0 => exact nodeReset_blank
  | 1 => cases h
  | t + 2 => cases h

/-- Without floats there is no NaN. -/
theorem noNaN_of_noFloats {S : Schema} (h : ∀ t, ∀ f ∈ (S.msg t).fields, (f.kind ≠ .double ∧ f.kind ≠ .float) ∧
    ∀ md, f.map = some md → md.val ≠ .double ∧ md.val ≠ .float) (t : Nat) (v : Val) : NoNaN S t v := by
  intro n
  induction n generalizing t v with
  | zero => trivial
  | succ n ih =>
    have he : ∀ k t' x, (k ≠ Kind.double ∧ k ≠ Kind.float) → NoNaNElem (NoNaNN S n) k t' x := by
      intro k t' x hk
      unfold NoNaNElem
      split_ifs
      · exact fun _ => ih _ _
      · intro _
        cases k <;> simp_all [numValue]
    cases v with
    | msg s u e =>
      intro _ f hf
      have := h t f hf
      split
      · trivial
      · exact fun _ => he _ _ _ this.1
      · exact fun _ _ => he _ _ _ this.1
      · exact fun md hm _ _ => he _ _ _ (this.2 md hm)
      · exact he _ _ _ this.1
    | _ => trivial

theorem node_noNaN : NoNaN nodes 0 node := by
  refine noNaN_of_noFloats (fun t => ?_) 0 node
  match t with
  | 0 => simp [nodes, Schema.msg]
  | 1 => simp [nodes, Schema.msg]
  | t + 2 => intro f hf; cases hf

example := clone_equal_partial (E := nodeClones) (t := 0) (tn := .typedNil) nodes_ok structural_clone structural_ok structural_enc nodeClones_blank nodes_bytes rfl node_wt
example := clone_equal_self_partial (E := nodeClones) (t := 0) (w := _) (same := fun _ => false) nodes_ok structural_clone structural_ok nodeClones_blank nodes_bytes rfl
  node_wt (fun _ => rfl) (Classical.choose_spec (clone_equal_partial (E := nodeClones) (t := 0) (tn := .typedNil) nodes_ok structural_clone structural_ok structural_enc
    nodeClones_blank nodes_bytes rfl node_wt)).1 (by decide)
example : ∃ w, cloneVT nodeClones 0 node = .ok w ∧ equalVT nodeCmp 0 node w = .ok true ∧ equalVT nodeCmp 0 w node = .ok true := by
  obtain ⟨w, h1, -, h2, -⟩ := clone_equal_partial (E := nodeClones) (t := 0) (tn := .typedNil) nodes_ok structural_clone structural_ok structural_enc
    nodeClones_blank nodes_bytes rfl node_wt
  exact ⟨w, h1, (h2 nodeCmp.same node_noNaN).1, (h2 nodeCmp.same node_noNaN).2⟩
example : nodeClones.alloc [] 0 ≠ zeroMsg nodes 0 := by decide

/-- The clone of the node: its extension field is not cloned, its list is. -/
example : cloneVT nodeClones 0 (.msg [.list [.msg [.nil, .str [7], .nil, .wrap 5 (.num 3), .nil, .nil] [1] [2]] [], .nil, .nil, .nil, .nil, .nil] [4] [2]) =
    .ok (.msg [.list [.msg [.list [] [.msg [.nil, .str [], .nil, .nil, .nil, .nil] [] []], .str [7], .nil, .wrap 5 (.num 3), .list [] [leaf 0, leaf 0], .list [] []] [1] []] [],
      .str [], .nil, .nil, .list [] [leaf 0, leaf 0], .list [] []] [4] []) := by decide

/-! ### Where C45 fails -/

/-- C45 fails for pooled messages with `optional bytes` fields: the clone of an unset one is set, if the pool hands out a message that had it
set before. -/
theorem clone_sets_bytes : ∃ w, cloneVT { S := Demo.schema, R := structural, alloc := fun _ _ => .msg [.str [], .nil] [] [], direct := fun _ => true } 5 (zeroMsg Demo.schema 5) = .ok w ∧
    equalVT cenv 5 (zeroMsg Demo.schema 5) w = .ok false ∧ marshalVT Demo.env false 5 w = .ok (some [10, 0]) ∧
    marshalVT Demo.env false 5 (zeroMsg Demo.schema 5) = .ok (some []) :=
  ⟨.msg [.str [], .nil] [] [], by decide⟩

/-- That message is one the pool hands out. -/
example : ∃ v, resetVT Demo.schema 5 v = .ok (.msg [.str [], .nil] [] [], []) := ⟨.msg [.str [1, 2], .nil] [] [], by decide⟩

/-- Extensions are not cloned. -/
theorem clone_drops_extensions : cloneVT { S := Demo.schema, R := structural, alloc := fun _ t => zeroMsg Demo.schema t, direct := fun _ => true } 1 (.msg [.num 1, .nil] [] [8, 1]) =
    .ok (.msg [.num 1, .nil] [] []) := by decide

end Vtp.Props
