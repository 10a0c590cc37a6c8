import Verif.Lemmas.GoEMethod
import Verif.Props.EmitUnmarshal
import Verif.Props.Equal
/-!
# Properties of the code the generator prints: C86

`GoE.Emit` is the text the generator prints for `EqualVT` and `EqualMessageVT`, as syntax trees; `GoE.exec` is its
meaning. `GoE.runEqualN G E n t this that` is the printed `EqualVT` of message type `t`, with at most `n` methods of messages
inside each other: any bound larger than the depth of the messages.
-/

namespace Vtp.Props
open Spec

/-- A pointer to a message, or nil, that a method is called with. -/
abbrev msgArg (t : Nat) (v : Val) : GoE.V := .val (.msg t) (some []) v

/-- A `proto.Message` that a method is called with; `none` is the nil interface. -/
def protoArg : Option (Nat × Val) → GoE.V
  | some (t, v) => msgArg t v
  | none => .nil

/-- C86. The printed `EqualVT`, on nil and on messages with anything their Go types allow in them, returns what `equalVT` says. -/
theorem emitted_equal {G : Go.GenCfg} {E : CEnv} (hG : G.OK E.S) (hS : schemaOK E.S = true) (hR : RuntimeEqual E.R) {t : Nat}
    (hf : (E.S.msg t).foreign = false) {v w : Val} (hv : v = .nil ∨ wtM E.S .typedNil t v = true) (hw : w = .nil ∨ wtM E.S .typedNil t w = true)
    {K : Nat} (hK : max v.depth w.depth < K) : GoE.runEqualN G E K t (msgArg t v) (msgArg t w) = equalVT E t v w :=
  GoE.runEqualN_eq hS hG hR _ K [] t _ _ v w hK hf hv hw (le_max_left _ _) (le_max_right _ _) (.inl rfl) (.inl rfl)

/-- C86. The printed `EqualMessageVT` returns what `equalMessageVT` says: that is `EqualVT` on a message of the same Go type, and false otherwise. -/
theorem emitted_equal_message {G : Go.GenCfg} {E : CEnv} (hG : G.OK E.S) (hS : schemaOK E.S = true) (hR : RuntimeEqual E.R) {t : Nat}
    (hf : (E.S.msg t).foreign = false) {v : Val} (hv : v = .nil ∨ wtM E.S .typedNil t v = true) {that : Option (Nat × Val)}
    (hw : ∀ w, that = some (t, w) → w = .nil ∨ wtM E.S .typedNil t w = true)
    {K : Nat} (hK : ∀ w, that = some (t, w) → max v.depth w.depth < K) :
    GoE.runEqualMessageN G E K t (msgArg t v) (protoArg that) = equalMessageVT E t v that := by
  unfold GoE.runEqualMessageN GoE.Emit.messageMethod equalMessageVT
  rcases that with - | ⟨t', w⟩
  · rfl
  · by_cases h : t' = t
    · subst h
      simp only [if_true]
      rw [← emitted_equal hG hS hR hf hv (hw w rfl) (hK w rfl)]
      simp only [protoArg, GoE.exec, GoE.eval, GoE.find, GoE.assertMsgV, GoE.truth, GoE.block, Res.bind_ok, if_true, reduceCtorEq, if_false, Bool.not_true,
        Bool.false_eq_true, List.nil_append, Nat.sub_self, List.drop_zero, GoE.callV]
      rcases GoE.runEqualN G E K t' (msgArg t' v) (msgArg t' w) with z | z | z | _ <;> rfl
    · simp [h, protoArg, GoE.exec, GoE.eval, GoE.find, GoE.assertMsgV, GoE.truth, GoE.block, GoE.result]

/-- C86. The printed `EqualVT` is true exactly when the messages have the same content, and false otherwise, if they share no
pointers or the receiver has no NaN in it. -/
theorem emitted_equal_iff_same {G : Go.GenCfg} {E : CEnv} (hG : G.OK E.S) (hS : schemaOK E.S = true) (hR : RuntimeEqual E.R) {t : Nat}
    (hf : (E.S.msg t).foreign = false) {v w : Val} (hv : v = .nil ∨ wtM E.S .typedNil t v = true) (hw : w = .nil ∨ wtM E.S .typedNil t w = true)
    (hn : E.apart ∨ NoNaN E.S t v) {K : Nat} (hK : max v.depth w.depth < K) :
    (GoE.runEqualN G E K t (msgArg t v) (msgArg t w) = .ok true ↔ Same E.S E.R t v w) ∧
    (GoE.runEqualN G E K t (msgArg t v) (msgArg t w) = .ok false ↔ ¬ Same E.S E.R t v w) := by
  rw [emitted_equal hG hS hR hf hv hw hK]
  exact equal_iff_same hS hR hf hv hw hn

/-- C86. The printed `EqualVT` returns: no panic, no endless recursion. -/
theorem emitted_equal_total {G : Go.GenCfg} {E : CEnv} (hG : G.OK E.S) (hS : schemaOK E.S = true) (hR : RuntimeEqual E.R) {t : Nat}
    (hf : (E.S.msg t).foreign = false) {v w : Val} (hv : v = .nil ∨ wtM E.S .typedNil t v = true) (hw : w = .nil ∨ wtM E.S .typedNil t w = true)
    {K : Nat} (hK : max v.depth w.depth < K) : ∃ b, GoE.runEqualN G E K t (msgArg t v) (msgArg t w) = .ok b := by
  rw [emitted_equal hG hS hR hf hv hw hK]
  exact equal_total hS hR hf hv hw

/-! ## The hypotheses can be met -/

example : GoE.runEqualN (EmitDemo.genU cenv.S).toGenCfg cenv 20 0 (msgArg 0 Demo.big) (msgArg 0 bigShuffled) = .ok true := by
  rw [emitted_equal (EmitDemo.genU_ok _) Demo.schema_ok structural_ok (by decide) (.inr (by decide)) (.inr (by decide)) (by decide)]
  decide
example : GoE.runEqualN EmitDemo.genKnown cenv 20 0 (msgArg 0 Demo.big) (msgArg 0 bigShuffled) = .ok true :=
  (emitted_equal_iff_same EmitDemo.genKnown_ok Demo.schema_ok structural_ok (by decide) (.inr (by decide)) (.inr (by decide)) (.inl apart) (by decide)).1.2
    ((equal_iff_same Demo.schema_ok structural_ok (by decide) (.inr (by decide)) (.inr (by decide)) (.inl apart)).1.1 (by decide))
example : GoE.runEqualN (EmitDemo.genU cenv.S).toGenCfg cenv 3 1 (msgArg 1 (.msg [.num 1, .nil] [] [])) (msgArg 1 (.msg [.num 1, .str []] [] [])) = .ok false := by decide +kernel
example : GoE.runEqualMessageN (EmitDemo.genU cenv.S).toGenCfg cenv 3 1 (msgArg 1 (Demo.small 1)) (protoArg (some (0, Demo.big))) = .ok false := by
  rw [emitted_equal_message (EmitDemo.genU_ok _) Demo.schema_ok structural_ok (by decide) (.inr (by decide)) (fun _ h => by cases h) (fun _ h => by cases h)]
  decide

end Vtp.Props
