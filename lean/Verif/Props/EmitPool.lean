import Verif.Lemmas.GoHPool
import Verif.Props.EmitClone
/-!
# Properties of the code the generator prints: C89, C90

`GoH.Emit` is the text the generator prints for `ResetVT`, `ReturnToVTPool` and `TFromVTPool`, as syntax trees; `GoH.exec` is its meaning, on memory.
`GoH.runResetN G S n` are the printed methods, with at most `n` methods of messages inside each other. `GoH.arranged G S` are the message types with
their fields in the order in which the feature finds them: other features may have sorted them.
-/

namespace Vtp.Props
open Spec

/-- `v.ResetVT()` as printed. -/
def printedReset (G : Go.GenCfg) (S : Schema) (t : Nat) (v : HV) : HM Unit := fun σ => GoH.runResetN G S σ.fuel t v σ

/-- `v.ReturnToVTPool()` as printed. -/
def printedReturn (G : Go.GenCfg) (S : Schema) (t : Nat) (v : HV) : HM Unit := fun σ => GoH.runReturn S (GoH.runResetN G S σ.fuel) t v σ

/-- C89. The printed `ResetVT` of each message type does to every memory what `hresetVT` does, and returns or panics alike: on every value, also one of the
wrong type. -/
theorem emitted_reset {G : Go.GenCfg} {S : Schema} (hS : schemaOK S = true) (t : Nat) (v : HV) : printedReset G S t v = hresetVT (GoH.arranged G S) t v := by
  funext σ
  unfold printedReset hresetVT
  rw [GoH.runResetN_eq hS]
  split <;> rfl

/-- C89. The same for `ReturnToVTPool`. -/
theorem emitted_return {G : Go.GenCfg} {S : Schema} (hS : schemaOK S = true) (t : Nat) (v : HV) : printedReturn G S t v = hreturnToVTPool (GoH.arranged G S) t v := by
  funext σ
  unfold printedReturn hreturnToVTPool
  rw [GoH.runReturn_eq (rec := hresetN (GoH.arranged G S) σ.fuel) (fun t v => GoH.runResetN_eq hS _ t v)]

/-- C89. The printed `TFromVTPool` takes a message from the pool of the type, or makes one. -/
theorem emitted_from_pool (S : Schema) (want : Option Addr) (t : Nat) : GoH.runFromPool S want t = poolGet S want t := by
  unfold GoH.runFromPool GoH.Emit.fromPoolFunc
  simp only [GoH.exec, GoH.eval, HM.bind_assoc, HM.pure_bind, GoH.result, GoH.poolCtx]
  exact HM.bind_pure _

/-- C89. The order of the fields changes neither which schemas are coherent nor what a new message is. -/
theorem arranged_same {G : Go.GenCfg} {S : Schema} (hS : schemaOK S = true) : schemaOK (GoH.arranged G S) = true ∧
    (∀ t, ((GoH.arranged G S).msg t).fields.Perm (S.msg t).fields ∧ ((GoH.arranged G S).msg t).pooled = (S.msg t).pooled) ∧
    ∀ want t, poolGet (GoH.arranged G S) want t = poolGet S want t := by
  refine ⟨GoH.arranged_ok hS, fun t => ?_, fun want t => ?_⟩
  · rw [GoH.arranged_msg]
    exact ⟨GoH.messageFields_perm _, rfl⟩
  · unfold poolGet hnew
    rw [GoH.arranged_zero hS]

/-- C90. The printed `ResetVT` of a pooled type on memory that holds a message: it returns exactly if the message can be reset, and panics with a nil dereference
otherwise. If it returns, the message is a new one apart from memory kept for reuse, and so is every message that went into a pool; these share no
memory with the message or with each other; all other messages keep their contents. -/
theorem emitted_reset_blank {G : Go.GenCfg} {S : Schema} {B : Bufs} (hS : schemaOK S = true) (hL : poolsLocal S) {t : Nat} (hp : (S.msg t).pooled = true) {p : HV} {m : Val}
    {R : List VItem} {σ : HState} (hw : wtM (GoH.arranged G S) .typedNil t m = true) (hc : Clean (GoH.arranged G S) t m) (h : Holds (GoH.arranged G S) B σ ((.msg t, p, m) :: R)) :
    (¬ Resettable (GoH.arranged G S) t m → (printedReset G S t p σ).2 = .panic .nilDeref) ∧
    (Resettable (GoH.arranged G S) t m → (printedReset G S t p σ).2 = .ok () ∧ ∃ (m' : Val) (L : List (Nat × Addr × Val)),
      Blank (GoH.arranged G S) t m' ∧ (∀ q ∈ L, (S.msg q.1).pooled = true ∧ Blank (GoH.arranged G S) q.1 q.2.2) ∧
      (printedReset G S t p σ).1.pool = (L.map fun q => (q.1, q.2.1)).reverse ++ σ.pool ∧
      Holds (GoH.arranged G S) B (printedReset G S t p σ).1 ((.msg t, p, m') :: (L.map (fun q => (.msg q.1, .ptr q.2.1, q.2.2)) ++ R))) := by
  have hS' := GoH.arranged_ok (G := G) hS
  have hL' : poolsLocal (GoH.arranged G S) := fun t h => by rw [GoH.arranged_msg] at h ⊢; exact hL t h
  have hp' : ((GoH.arranged G S).msg t).pooled = true := by rw [GoH.arranged_msg]; exact hp
  rw [emitted_reset hS]
  obtain ⟨h1, h2⟩ := memory_resets hS' hL' (hL' t hp') h
  obtain ⟨h3, h4⟩ := reset_returns_iff hS' hL' hp' hw
  refine ⟨fun hr => by rw [h1, h4 hr]; rfl, fun hr => ?_⟩
  obtain ⟨⟨m', ps⟩, h5⟩ := h3.2 hr
  have hn : m ≠ .nil := by obtain ⟨_, _, _, rfl⟩ := wtM_isMsg hw; simp
  obtain ⟨h6, h7⟩ := reset_blank hS' hL' hp' hn hc h5
  obtain ⟨L, h8, h9, h10⟩ := h2 m' ps h5
  refine ⟨by rw [h1, h5]; rfl, m', L, h6, fun q hq => ?_, h9, h10⟩
  have := h7 (q.1, q.2.2) (h8 ▸ List.mem_map.2 ⟨q, hq, rfl⟩)
  rwa [GoH.arranged_msg] at this

/-- C90. The same for `ReturnToVTPool`: the message itself is the last one that goes into a pool. -/
theorem emitted_return_blank {G : Go.GenCfg} {S : Schema} {B : Bufs} (hS : schemaOK S = true) (hL : poolsLocal S) {t : Nat} (hp : (S.msg t).pooled = true) {p : HV} {m : Val}
    {R : List VItem} {σ : HState} (hw : wtM (GoH.arranged G S) .typedNil t m = true) (hc : Clean (GoH.arranged G S) t m) (h : Holds (GoH.arranged G S) B σ ((.msg t, p, m) :: R)) :
    (¬ Resettable (GoH.arranged G S) t m → (printedReturn G S t p σ).2 = .panic .nilDeref) ∧
    (Resettable (GoH.arranged G S) t m → (printedReturn G S t p σ).2 = .ok () ∧ ∃ (L : List (Nat × Addr × Val)),
      (∀ q ∈ L, (S.msg q.1).pooled = true ∧ Blank (GoH.arranged G S) q.1 q.2.2) ∧ (L.map (·.1)).getLast? = some t ∧
      (printedReturn G S t p σ).1.pool = (L.map fun q => (q.1, q.2.1)).reverse ++ σ.pool ∧
      Holds (GoH.arranged G S) B (printedReturn G S t p σ).1 (L.map (fun q => (.msg q.1, .ptr q.2.1, q.2.2)) ++ R)) := by
  have hS' := GoH.arranged_ok (G := G) hS
  have hL' : poolsLocal (GoH.arranged G S) := fun t h => by rw [GoH.arranged_msg] at h ⊢; exact hL t h
  have hp' : ((GoH.arranged G S).msg t).pooled = true := by rw [GoH.arranged_msg]; exact hp
  rw [emitted_return hS]
  obtain ⟨h1, h2⟩ := memory_returns hS' hL' (hL' t hp') h
  obtain ⟨h3, h4⟩ := reset_returns_iff hS' hL' hp' hw
  obtain ⟨s, u, x, rfl⟩ := wtM_isMsg hw
  have e : ∀ r, resetVT (GoH.arranged G S) t (.msg s u x) = r → returnToVTPool (GoH.arranged G S) t (.msg s u x) = r >>= fun q => .ok (q.2 ++ [(t, q.1)]) := by
    rintro _ rfl
    rfl
  refine ⟨fun hr => by rw [h1, e _ (h4 hr)]; rfl, fun hr => ?_⟩
  obtain ⟨⟨m', ps⟩, h5⟩ := h3.2 hr
  obtain ⟨h6, h7⟩ := reset_blank hS' hL' hp' (by simp) hc h5
  obtain ⟨L, h8, h9, h10⟩ := h2 _ (e _ h5)
  refine ⟨by rw [h1, e _ h5]; rfl, L, fun q hq => ?_, ?_, h9, h10⟩
  · have : (q.1, q.2.2) ∈ ps ++ [(t, m')] := h8 ▸ List.mem_map.2 ⟨q, hq, rfl⟩
    rcases List.mem_append.1 this with hm | hm
    · have := h7 _ hm
      rwa [GoH.arranged_msg] at this
    · simp only [List.mem_singleton, Prod.mk.injEq] at hm
      rw [hm.1, hm.2]
      exact ⟨hp, h6⟩
  · have : L.map (·.1) = (ps ++ [(t, m')]).map (·.1) := by
      rw [← h8]
      simp
    rw [this]
    simp

/-! ## Cases -/

/-- `nodes` with the fields of a node in another order. -/
def nodesBack : Schema := [{ nodes.msg 0 with fields := (nodes.msg 0).fields.reverse }, nodes.msg 1]
theorem nodesBack_ok : schemaOK nodesBack = true := by decide
theorem nodesBack_local : poolsLocal nodesBack := by
  intro t h
  match t with
  | 0 => rfl
  | 1 => rfl
  | t + 2 => rfl
def EmitDemo.genSorted : Go.GenCfg := ⟨fun _ => false, fun _ => true, true⟩
theorem nodes_arranged : GoH.arranged EmitDemo.genSorted nodesBack = nodes ∧ GoH.arranged EmitDemo.genOwn nodes = nodes := by decide +kernel

/-- The nodes in the field and in the oneof go into the pool in the order of the fields as the feature finds them. -/
example : (printedReturn EmitDemo.genSorted nodesBack 0 (.ptr 1) filledNode).1.pool = [(0, 1), (0, 7), (0, 5)] ∧
    (printedReturn EmitDemo.genOwn nodesBack 0 (.ptr 1) filledNode).1.pool = [(0, 1), (0, 5), (0, 7)] := by decide +kernel
example : printedReset EmitDemo.genSorted nodesBack 0 (.ptr 1) filledNode = hresetVT nodes 0 (.ptr 1) filledNode := by
  rw [emitted_reset nodesBack_ok, nodes_arranged.1]
example : GoH.runFromPool nodes (some 0) 0 { filledNode with pool := [(0, 0)] } = (filledNode, .ok (.ptr 0)) ∧
    (GoH.runFromPool nodes (some 0) 0 filledNode).2 = .ok (.ptr 10) := by decide
example : Resettable nodes 0 nodeOf := (reset_returns_iff nodes_ok nodes_local (t := 0) rfl (v := nodeOf) (by decide)).1.1
  ⟨(.msg [.list [] [.msg [.nil, .str [], .nil, .nil, .nil, .nil] [] []], .nil, .nil, .nil, .nil, .list [] []] [] [], [(0, zeroMsg nodes 0), (0, zeroMsg nodes 0)]), by decide⟩
example := (emitted_reset_blank (G := EmitDemo.genSorted) (B := .none) nodesBack_ok nodesBack_local (t := 0) rfl (p := .ptr 1) (m := nodeOf)
  (R := [(.msg 0, .ptr 0, zeroMsg nodes 0)]) (σ := filledNode) (by rw [nodes_arranged.1]; decide)
  (by rw [nodes_arranged.1]; exact clean_of_noSpare (tn := .typedNil) nodes_ok (by decide) (by decide)) (by rw [nodes_arranged.1]; exact filledNode_holds)).2
example := (emitted_return_blank (G := EmitDemo.genSorted) (B := .none) nodesBack_ok nodesBack_local (t := 0) rfl (p := .ptr 1) (m := nodeOf)
  (R := [(.msg 0, .ptr 0, zeroMsg nodes 0)]) (σ := filledNode) (by rw [nodes_arranged.1]; decide)
  (by rw [nodes_arranged.1]; exact clean_of_noSpare (tn := .typedNil) nodes_ok (by decide) (by decide)) (by rw [nodes_arranged.1]; exact filledNode_holds)).2
/-- A nil message in a list of messages without pool. -/
example : (printedReset EmitDemo.genOwn nodes 0 (.ptr 0) ⟨[.msg [.nil, .nil, .nil, .nil, .slice 1 1, .nil] .nil [], .arr [.nil]], [], [], []⟩).2 = .panic .nilDeref := by decide

end Vtp.Props
