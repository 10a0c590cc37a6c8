import Verif.Lemmas.HeapProgram
import Verif.Lemmas.AlikeEqual
import Verif.Props.HeapVal
/-!
# Programs that use pools

A program is a list of calls of the library and of pieces of its own code. `MRun` runs it with memory and pools, `vrun` on values, without either.
-/

namespace Vtp.Props
open Spec

/-! ## C74 -/

/-- C74. A program that does not use messages after it returned them nor changes buffers `bs` from which it decodes without copies, and which, if it does
so (`byt`), decodes with copies only if no message type has a `bytes` field that is neither repeated nor in a oneof: whatever it does, whatever the
pools hand out and lose, each call gives the outcome that it gives without pools, and the messages which the program has are at any time those which
it has without pools, up to memory kept for reuse; they share no memory with each other and with what is in the pools. -/
theorem pools_do_not_show_partial {L : Lib} (hL : LibOK L) {bs : List Bytes} {byt : Prop} {cs : List Cmd} {os : List (Res Unit)} {s : MState} (h : MRun L (.list bs byt) ⟨⟨bs.map .bytes, [], [], []⟩, []⟩ cs os s) :
    ∃ W, vrun L [] cs = some (os, W) ∧ ((∀ o ∈ os, o.settled = true) → Shows L.S (.list bs byt) s W) := by
  refine run_shows hL (fun a c h => ?_) h ⟨[], rfl, .nil, ?_⟩
  · simp only [Bufs.list] at h ⊢
    simp [List.getD, h]
  · refine ⟨[], rfl, fun _ h => (nomatch h), 0, .done, Multiset.nodup_zero, fun _ h => (by simp at h), fun a c h => ?_, List.nodup_nil, fun _ h => (nomatch h)⟩
    simp only [Bufs.list] at h ⊢
    simp [List.getD, h]

/-- What the methods tell about two messages of a program, which are different objects. -/
structure SameAnswers (L : Lib) (t : Nat) (v w v' w' : Val) : Prop where
  size : sizeVT ⟨L.S, L.R⟩ t v = sizeVT ⟨L.S, L.R⟩ t w
  marshal : ∀ strict, marshalVT ⟨L.S, L.R⟩ strict t v = marshalVT ⟨L.S, L.R⟩ strict t w
  equal : equalVT { S := L.S, R := L.R } t v v' = equalVT { S := L.S, R := L.R } t w w'

theorem at_forall₂ {α β : Type} {r : Option (Nat × α) → Option (Nat × β) → Prop} {V : Table α} {W : Table β} (hn : ¬ r none none → False) (h : List.Forall₂ r V W) (i : Nat) :
    r (V.at i) (W.at i) := by
  have hnn : r none none := Classical.byContradiction hn
  unfold Table.at
  induction h generalizing i with
  | nil => exact hnn
  | cons h1 _ ih =>
    cases i with
    | zero => exact h1
    | succ i => exact ih i

/-- C74. If moreover no pooled type has an optional bytes field (`reset_keeps_bytes`), then `SizeVT`, `MarshalVT` and `MarshalVTStrict` of the messages in memory, and
`EqualVT` of any two, give what they give without pools: for every position in the table of the program, the message in memory and the value without
pools are both there or both not there. -/
theorem pools_unobservable_partial {L : Lib} (hL : LibOK L) (hR : RuntimeEqual L.R) (hb : noKeptBytes L.S) {bs : List Bytes} {byt : Prop} {cs : List Cmd} {os : List (Res Unit)} {s : MState}
    (h : MRun L (.list bs byt) ⟨⟨bs.map .bytes, [], [], []⟩, []⟩ cs os s) (ho : ∀ o ∈ os, o.settled = true) :
    ∃ (W : Table Val) (V : Table (Addr × Val)), vrun L [] cs = some (os, W) ∧ s.tab = V.map (Option.map fun q => (q.1, q.2.1)) ∧
      HoldsPool L.S (.list bs byt) s.st (V.filterMap (Option.map fun q => (.msg q.1, .ptr q.2.1, q.2.2))) ∧ V.length = W.length ∧
      (∀ i, V.at i = none ↔ W.at i = none) ∧
      ∀ i j t a a' v v', V.at i = some (t, a, v) → V.at j = some (t, a', v') → (L.S.msg t).foreign = false →
        ∃ w w', W.at i = some (t, w) ∧ W.at j = some (t, w') ∧ SameAnswers L t v w v' w' := by
  obtain ⟨W, h1, h2⟩ := pools_do_not_show_partial hL h
  obtain ⟨V, h3, h4, h5⟩ := h2 ho
  have hat : ∀ i, Stands L.S (V.at i) (W.at i) := at_forall₂ (fun h => h trivial) h4
  have hget : ∀ {i t a v}, V.at i = some (t, a, v) → ∃ w, W.at i = some (t, w) ∧ Reuse L.S t v w := by
    intro i t a v hi
    have := hat i
    rw [hi] at this
    cases hw : W.at i with
    | none => rw [hw] at this; exact this.elim
    | some q =>
      obtain ⟨t', w⟩ := q
      rw [hw] at this
      obtain ⟨rfl, -, h⟩ := this
      exact ⟨w, rfl, h⟩
  refine ⟨W, V, h1, h3, h5, h4.length_eq, fun i => ?_, fun i j t a a' v v' hi hj hf => ?_⟩
  · have := hat i
    cases hv : V.at i <;> cases hw : W.at i <;> rw [hv, hw] at this <;> simp_all [Stands]
  · obtain ⟨w, hw, r1⟩ := hget hi
    obtain ⟨w', hw', r2⟩ := hget hj
    have a1 := alike_of_reuse hR.refl hb hf r1
    have a2 := alike_of_reuse hR.refl hb hf r2
    exact ⟨w, w', hw, hw', sizeVT_alike (E := ⟨L.S, L.R⟩) hL.ok a1, fun b => marshalVT_alike (E := ⟨L.S, L.R⟩) hL.ok b a1,
      equalVT_alike (C := { S := L.S, R := L.R }) (fun _ => rfl) hL.ok hR a1 a2⟩

/-! ## A piece of code of the program -/

/-- `m.Oneof = &Wrapper{x}`: the message `x` becomes part of `m`. -/
def attach (f : FieldDesc) : List Val → List Val
  | [m, x] => [(setSlot f.slot (.wrap f.num x) m).1]
  | _ => []

/-- The same in memory. -/
def hattach (f : FieldDesc) (a b : Addr) : HM Unit := do
  let w ← halloc (.wrap f.num (.ptr b))
  hsetSlot (.ptr a) f.slot (.ptr w)

/-- `attach` does not look at memory kept for reuse. -/
theorem attach_respects {S : Schema} (hS : schemaOK S = true) {t : Nat} {f : FieldDesc} (hf : (S.msg t).foreign = false) (hm : f ∈ (S.msg t).fields) (ho : f.oneof = true)
    (hk : f.kind = .message) : Respects S [t, f.msg] [t] (attach f) := by
  have hd := schemaOK_msg hS t
  intro vs ws h
  cases h with
  | cons hn h hs =>
    cases hs with
    | cons hn' h' hs' =>
      cases hs'
      rename_i v w v' w'
      rcases reuse_cases hf h with ⟨s, u, e, s', u', e', rfl, rfl⟩ | ⟨rfl, hne⟩
      · rw [reuse_msg hf] at h
        obtain ⟨h1, h2, h3, h4, h5⟩ := h
        refine .cons (by simp [setSlot]) ?_ .nil
        simp only [setSlot]
        rw [reuse_msg hf]
        refine ⟨h1, h2, by simpa using h3, by simpa using h4, fun g hg => ?_⟩
        have hsl := (hd.fields f hm).slot
        by_cases hgs : g.slot = f.slot
        · rw [slotOf_set_eq _ _ (by omega) hgs, slotOf_set_eq _ _ (by omega) hgs]
          have hgo : g.oneof = true := by
            by_cases hn : g.num = f.num
            · rw [hd.num_inj hg hm hn]; exact ho
            · exact (hd.share g hg f hm hn hgs).1
          rw [if_pos hgo, hgs]
          refine ⟨rfl, f, member_of hd hm ho, ?_⟩
          unfold ReuseElem
          rw [if_pos (.inl hk)]
          refine .inr ⟨hn', fun e => ?_, h'⟩
          have := reuse_nil h'
          rw [e] at this
          exact hn' (isNil_iff.1 (by rw [this]; rfl))
        · rw [slotOf_set_ne _ _ hgs, slotOf_set_ne _ _ hgs]
          exact h5 g hg
      · have hv : (setSlot f.slot (.wrap f.num v') v).1 = v := by
          cases v with
          | msg s u e => exact absurd rfl (hne s u e)
          | _ => rfl
        have hw : (setSlot f.slot (.wrap f.num w') v).1 = v := by
          cases v with
          | msg s u e => exact absurd rfl (hne s u e)
          | _ => rfl
        show ReuseL S [t] [(setSlot f.slot (.wrap f.num v') v).1] [(setSlot f.slot (.wrap f.num w') v).1]
        rw [hv, hw]
        exact .cons hn h .nil

/-- The program may attach a message to another. -/
theorem attach_step {L : Lib} {B : Bufs} (hS : schemaOK L.S = true) {t i j : Nat} {f : FieldDesc} (hf : (L.S.msg t).foreign = false) (hm : f ∈ (L.S.msg t).fields) (ho : f.oneof = true)
    (hk : f.kind = .message) {σ : HState} {T : Table Addr} {a b : Addr} (hij : i ≠ j) (hi : T.at i = some (t, a)) (hj : T.at j = some (f.msg, b)) :
    MStep L B ⟨σ, T⟩ (.use [i, j] [t] (attach f)) (.ok ()) ⟨(hattach f a b σ).1, T.clear [i, j] ++ [some (t, a)]⟩ := by
  have hd := schemaOK_msg hS t
  refine MStep.use (as := [a]) (qs := [(t, a), (f.msg, b)]) (by simpa using hij) (by simp [Table.all, hi, hj]) (attach_respects hS hf hm ho hk) rfl ?_ ?_
  · simp only [hattach, HM.bind_ok (halloc_ok _ _), hsetSlot]
    simp only [Bind.bind, HM.bind, hread]
    cases hh : (σ.grow (Cell.wrap f.num (.ptr b))).heap[a]? with
    | none => rfl
    | some c => cases c <;> rfl
  · intro vs R hl h
    match vs, hl with
    | [v, x], _ =>
      have hx := (wrapPut_sim (p := .ptr a) (x := .ptr b) (v := x) hf hd hm ho v R σ (by simpa [msgsAt, hk, elemTy] using h)).2
      simpa [msgsAt, attach, hattach] using hx

/-! ## Cases -/

/-- The code generated for nodes. -/
def nodeLib : Lib := ⟨nodes, structural, .b64, fun _ => true⟩

theorem nodeLib_ok : LibOK nodeLib := ⟨nodes_ok, nodes_local, nodes_ext _ _, fun _ _ _ h => (nomatch h), fun _ => rfl, fun _ _ h => h⟩

/-- The field for attaching nodes. -/
def childField : FieldDesc := { num := 4, slot := 3, kind := .message, presence := true, oneof := true, msg := 0 }

/-- A program: a node is filled, returned and got again; then a node is decoded into it, its clone takes nodes from the pool, and the clone is attached to it. -/
def program : List Cmd := [.get 0, .decode nodeBytes 0, .put 0, .get 0, .decode [10, 3, 18, 1, 6] 1, .clone 1, .decode [10, 0, 16] 2, .use [1, 2] [0] (attach childField)]

/-- What the program has in the end without pools. -/
def programEnd : Val := .msg [.list [.msg [.nil, .str [6], .nil, .nil, .nil, .nil] [] []] [], .nil, .nil,
  .wrap 4 (.msg [.list [.msg [.nil, .str [6], .nil, .nil, .nil, .nil] [] [], zeroMsg nodes 0] [], .nil, .nil, .nil, .nil, .nil] [] []), .nil, .nil] [] []

theorem program_value : vrun nodeLib [] program = some ([.ok (), .ok (), .ok (), .ok (), .ok (), .ok (), .err (.wrongWireType 2), .ok ()], [none, none, none, some (0, programEnd)]) := by
  decide +kernel

/-- The memory of the program after its calls. -/
def mem1 : HState := (poolGet nodes none 0 ⟨[], [], [], []⟩).1
def mem2 : HState := (hunmarshalVT (safely none) 0 nodeBytes (.ptr 0) mem1).1
def mem3 : HState := (hreturnToVTPool nodes 0 (.ptr 0) mem2).1
def mem4 : HState := (poolGet nodes (some 0) 0 mem3).1
def mem5 : HState := (hunmarshalVT (safely none) 0 [10, 3, 18, 1, 6] (.ptr 0) mem4).1
def mem6 : HState := (hcloneVT (cloning (some 4)) 0 (.ptr 0) mem5).1
def mem7 : HState := (hunmarshalVT (safely none) 0 [10, 0, 16] (.ptr 4) mem6).1

attribute [irreducible] mem1 mem2 mem3 mem4 mem5 mem6 mem7

/-- The program with memory and pools: three nodes are returned; the second call gets the first of them, and the clone the third. The second is lost. -/
theorem program_runs : MRun nodeLib (.list [] False) ⟨⟨[], [], [], []⟩, []⟩ program [.ok (), .ok (), .ok (), .ok (), .ok (), .ok (), .err (.wrongWireType 2), .ok ()]
    ⟨(hattach childField 0 4 { mem7 with pool := [] }).1, [none, none, none, some (0, 0)]⟩ := by
  have e1 : poolGet nodeLib.S none 0 ⟨[], [], [], []⟩ = (mem1, .ok (.ptr 0)) := by decide +kernel
  have e2 : hunmarshalVT ⟨nodeLib.S, nodeLib.R, nodeLib.A, false, 0, fun _ => 0, fun _ => none⟩ 0 nodeBytes (.ptr 0) mem1 = (mem2, .ok ()) := by decide +kernel
  have e3 : hreturnToVTPool nodeLib.S 0 (.ptr 0) mem2 = (mem3, .ok ()) := by decide +kernel
  have e4 : poolGet nodeLib.S (some 0) 0 mem3 = (mem4, .ok (.ptr 0)) := by decide +kernel
  have e5 : hunmarshalVT ⟨nodeLib.S, nodeLib.R, nodeLib.A, false, 0, fun _ => 0, fun _ => none⟩ 0 [10, 3, 18, 1, 6] (.ptr 0) mem4 = (mem5, .ok ()) := by decide +kernel
  have e6 : hcloneVT ⟨nodeLib.S, nodeLib.R, fun _ => some 4, nodeLib.direct⟩ 0 (.ptr 0) mem5 = (mem6, .ok (.ptr 4)) := by decide +kernel
  have e7 : hunmarshalVT ⟨nodeLib.S, nodeLib.R, nodeLib.A, false, 0, fun _ => 0, fun _ => none⟩ 0 [10, 0, 16] (.ptr 4) mem6 = (mem7, .err (.wrongWireType 2)) := by decide +kernel
  have s1 := MStep.get (L := nodeLib) (B := .list [] False) (σ := ⟨[], [], [], []⟩) (T := []) (t := 0) none
  rw [e1] at s1
  have s2 := MStep.decode (L := nodeLib) (B := .list [] False) (σ := mem1) (T := [some (0, 0)]) (b := nodeBytes) (h := 0) (t := 0) (a := 0) rfl rfl (fun h => h.elim) (fun _ => 0) (fun _ => none)
  rw [e2] at s2
  have s3 := MStep.put (L := nodeLib) (B := .list [] False) (σ := mem2) (T := [some (0, 0)]) (h := 0) (t := 0) (a := 0) rfl rfl
  rw [e3] at s3
  have s4 := MStep.get (L := nodeLib) (B := .list [] False) (σ := mem3) (T := [none]) (t := 0) (some 0)
  rw [e4] at s4
  have s5 := MStep.decode (L := nodeLib) (B := .list [] False) (σ := mem4) (T := [none, some (0, 0)]) (b := [10, 3, 18, 1, 6]) (h := 1) (t := 0) (a := 0) rfl rfl (fun h => h.elim) (fun _ => 0) (fun _ => none)
  rw [e5] at s5
  have s6 := MStep.clone (L := nodeLib) (B := .list [] False) (σ := mem5) (T := [none, some (0, 0)]) (h := 1) (t := 0) (a := 0) rfl rfl (fun _ => some 4)
  rw [e6] at s6
  have s7 := MStep.decode (L := nodeLib) (B := .list [] False) (σ := mem6) (T := [none, some (0, 0), some (0, 4)]) (b := [10, 0, 16]) (h := 2) (t := 0) (a := 4) rfl rfl (fun h => h.elim) (fun _ => 0) (fun _ => none)
  rw [e7] at s7
  have s8 := attach_step (L := nodeLib) (B := .list [] False) nodes_ok (t := 0) (i := 1) (j := 2) (f := childField) (σ := { mem7 with pool := [] }) (T := [none, some (0, 0), some (0, 4)]) (a := 0) (b := 4) rfl
    (by decide) rfl rfl (by decide) rfl rfl
  exact .step s1 rfl <| .step s2 rfl <| .step s3 rfl <| .step s4 rfl <| .step s5 rfl <| .step s6 rfl <| .step s7 rfl <|
    MRun.gc (σ := mem7) (pool := []) (List.nil_sublist _) <| .step s8 rfl .done

/-- There is memory kept for reuse in what the program has. -/
example : mem7.pool = [(0, 6)] ∧ (mem7.heap[0]?).map (fun c => match c with | .msg s _ _ => s[5]? | _ => none) = some (some (.slice 8 0)) := by decide +kernel

/-- In the end the program has the message that it has without pools. -/
example : ∃ v, HoldsPool nodes (.list [] False) (hattach childField 0 4 { mem7 with pool := [] }).1 [(.msg 0, .ptr 0, v)] ∧ SameAnswers nodeLib 0 v programEnd v programEnd := by
  obtain ⟨W, V, h1, h2, h3, h4, -, h5⟩ := pools_unobservable_partial nodeLib_ok structural_ok nodes_bytes program_runs (by decide)
  rw [program_value] at h1
  cases h1
  match V, h4, h2 with
  | [x0, x1, x2, x3], _, h2 =>
    simp only [List.map_cons, List.map_nil, List.cons.injEq] at h2
    obtain ⟨h20, h21, h22, h23, -⟩ := h2
    cases x0 with
    | some q => cases h20
    | none => cases x1 with
      | some q => cases h21
      | none => cases x2 with
        | some q => cases h22
        | none => cases x3 with
          | none => cases h23
          | some q =>
            obtain ⟨t, a, v⟩ := q
            simp only [Option.map_some, Option.some.injEq, Prod.mk.injEq] at h23
            obtain ⟨rfl, rfl⟩ := h23
            obtain ⟨w, w', h6, h7, h8⟩ := h5 3 3 _ _ _ v v rfl rfl rfl
            have e6 : w = programEnd := by simpa [Table.at, eq_comm] using h6
            have e7 : w' = programEnd := by simpa [Table.at, eq_comm] using h7
            rw [e6, e7] at h8
            exact ⟨v, h3, h8⟩

/-! ### Without copies -/

/-- A program with a buffer: a node is decoded from it without copies, returned, got again and decoded once more; its clone is decoded into from there. -/
def viewing : List Cmd := [.get 0, .view nodeBytes 0, .put 0, .get 0, .view nodeBytes 1, .clone 1, .view nodeBytes 2]

/-- The memory of the program after its calls. -/
def look1 : HState := (poolGet nodes none 0 ⟨[.bytes nodeBytes], [], [], []⟩).1
def look2 : HState := (hunmarshalVT (unsafely 0) 0 nodeBytes (.ptr 1) look1).1
def look3 : HState := (hreturnToVTPool nodes 0 (.ptr 1) look2).1
def look4 : HState := (poolGet nodes (some 1) 0 look3).1
def look5 : HState := (hunmarshalVT (unsafely 0) 0 nodeBytes (.ptr 1) look4).1
def look6 : HState := (hcloneVT (cloning none) 0 (.ptr 1) look5).1
def lookAt : HV := match (hcloneVT (cloning none) 0 (.ptr 1) look5).2 with
  | .ok v => v
  | _ => .nil
def lookAddr : Addr := match lookAt with
  | .ptr a => a
  | _ => 0
def look7 : HState := (hunmarshalVT (unsafely 0) 0 nodeBytes (.ptr lookAddr) look6).1

attribute [irreducible] look1 look2 look3 look4 look5 look6 look7 lookAddr

theorem viewing_runs : MRun nodeLib (.list [nodeBytes] True) ⟨⟨[.bytes nodeBytes], [], [], []⟩, []⟩ viewing [.ok (), .ok (), .ok (), .ok (), .ok (), .ok (), .ok ()]
    ⟨look7, [none, some (0, 1), some (0, lookAddr)]⟩ := by
  have e1 : poolGet nodeLib.S none 0 ⟨[.bytes nodeBytes], [], [], []⟩ = (look1, .ok (.ptr 1)) := by decide +kernel
  have e2 : hunmarshalVT ⟨nodeLib.S, nodeLib.R, nodeLib.A, true, 0, fun _ => 0, fun _ => none⟩ 0 nodeBytes (.ptr 1) look1 = (look2, .ok ()) := by decide +kernel
  have e3 : hreturnToVTPool nodeLib.S 0 (.ptr 1) look2 = (look3, .ok ()) := by decide +kernel
  have e4 : poolGet nodeLib.S (some 1) 0 look3 = (look4, .ok (.ptr 1)) := by decide +kernel
  have e5 : hunmarshalVT ⟨nodeLib.S, nodeLib.R, nodeLib.A, true, 0, fun _ => 0, fun _ => none⟩ 0 nodeBytes (.ptr 1) look4 = (look5, .ok ()) := by decide +kernel
  have e6 : hcloneVT ⟨nodeLib.S, nodeLib.R, fun _ => none, nodeLib.direct⟩ 0 (.ptr 1) look5 = (look6, .ok (.ptr lookAddr)) := by decide +kernel
  have e7 : hunmarshalVT ⟨nodeLib.S, nodeLib.R, nodeLib.A, true, 0, fun _ => 0, fun _ => none⟩ 0 nodeBytes (.ptr lookAddr) look6 = (look7, .ok ()) := by decide +kernel
  have s1 := MStep.get (L := nodeLib) (B := .list [nodeBytes] True) (σ := ⟨[.bytes nodeBytes], [], [], []⟩) (T := []) (t := 0) none
  rw [e1] at s1
  have s2 := MStep.view (L := nodeLib) (B := .list [nodeBytes] True) (σ := look1) (T := [some (0, 1)]) (b := nodeBytes) (h := 0) (t := 0) (a := 1) (x := 0) rfl rfl trivial rfl (fun _ => 0) (fun _ => none)
  rw [e2] at s2
  have s3 := MStep.put (L := nodeLib) (B := .list [nodeBytes] True) (σ := look2) (T := [some (0, 1)]) (h := 0) (t := 0) (a := 1) rfl rfl
  rw [e3] at s3
  have s4 := MStep.get (L := nodeLib) (B := .list [nodeBytes] True) (σ := look3) (T := [none]) (t := 0) (some 1)
  rw [e4] at s4
  have s5 := MStep.view (L := nodeLib) (B := .list [nodeBytes] True) (σ := look4) (T := [none, some (0, 1)]) (b := nodeBytes) (h := 1) (t := 0) (a := 1) (x := 0) rfl rfl trivial rfl (fun _ => 0)
    (fun _ => none)
  rw [e5] at s5
  have s6 := MStep.clone (L := nodeLib) (B := .list [nodeBytes] True) (σ := look5) (T := [none, some (0, 1)]) (h := 1) (t := 0) (a := 1) rfl rfl (fun _ => none)
  rw [e6] at s6
  have s7 := MStep.view (L := nodeLib) (B := .list [nodeBytes] True) (σ := look6) (T := [none, some (0, 1), some (0, lookAddr)]) (b := nodeBytes) (h := 2) (t := 0) (a := lookAddr) (x := 0) rfl rfl
    trivial rfl (fun _ => 0) (fun _ => none)
  rw [e7] at s7
  exact .step s1 rfl <| .step s2 rfl <| .step s3 rfl <| .step s4 rfl <| .step s5 rfl <| .step s6 rfl <| .step s7 rfl .done

/-- Nodes decoded without copies and from pools have what they have without pools. -/
example : ∃ W, vrun nodeLib [] viewing = some ([.ok (), .ok (), .ok (), .ok (), .ok (), .ok (), .ok ()], W) ∧ W.at 1 = some (0, nodeOf) ∧
    Shows nodes (.list [nodeBytes] True) ⟨look7, [none, some (0, 1), some (0, lookAddr)]⟩ W := by
  obtain ⟨W, h1, h2⟩ := pools_do_not_show_partial nodeLib_ok viewing_runs
  refine ⟨W, h1, ?_, h2 (by decide)⟩
  have e : (vrun nodeLib [] viewing).map (fun q => q.2.at 1) = some (some (0, nodeOf)) := by decide +kernel
  rw [h1] at e
  simpa using e

/-! ### With and without copies -/

/-- Two nodes are decoded from a buffer without copies, the first is returned, got again and decoded into with copies. -/
def mixing : List Cmd := [.get 0, .get 0, .view [18, 1, 5] 0, .view [18, 1, 5] 1, .put 0, .get 0, .decode [18, 1, 9] 2]

def mixed1 : HState := (poolGet nodes none 0 (poolGet nodes none 0 ⟨[.bytes [18, 1, 5]], [], [], []⟩).1).1
def mixed2 : HState := (hunmarshalVT (unsafely 0) 0 [18, 1, 5] (.ptr 2) (hunmarshalVT (unsafely 0) 0 [18, 1, 5] (.ptr 1) mixed1).1).1
def mixed3 : HState := (hunmarshalVT (safely none) 0 [18, 1, 9] (.ptr 1) (poolGet nodes (some 1) 0 (hreturnToVTPool nodes 0 (.ptr 1) mixed2).1).1).1

/-- The condition on programs with decoding of both kinds in C74 is needed: with memory and pools, as the last call the second node gets the contents of the third, which it
does not have without them. -/
theorem mixed_decoding_shows :
    (∃ W, vrun nodeLib [] mixing = some ([.ok (), .ok (), .ok (), .ok (), .ok (), .ok (), .ok ()], W) ∧ W.at 1 = some (0, .msg [.nil, .str [5], .nil, .nil, .nil, .nil] [] [])) ∧
    (∃ F, RepL nodes .none mixed2.heap [(.msg 0, .ptr 2, .msg [.nil, .str [5], .nil, .nil, .nil, .nil] [] [])] F) ∧
    ∃ F, RepL nodes .none mixed3.heap [(.msg 0, .ptr 2, .msg [.nil, .str [9], .nil, .nil, .nil, .nil] [] [])] F := by
  have key : ∀ {h : Heap} {x : Bytes}, h[2]? = some (.msg [.nil, .bytes 0 2 1, .nil, .nil, .nil, .nil] .nil []) → h[0]? = some (.bytes ([18, 1] ++ x)) → x.length = 1 →
      ∃ F, RepL nodes .none h [(.msg 0, .ptr 2, .msg [.nil, .str (cut ([18, 1] ++ x) 2 1), .nil, .nil, .nil, .nil] [] [])] F := by
    intro h x h1 h2 h3
    refine ⟨2 ::ₘ 0 ::ₘ 0, RepL.msg (its := [(.list (.msg 0), .nil, .nil), (.bytes, .bytes 0 2 1, .str (cut ([18, 1] ++ x) 2 1)), (.msg 0, .nil, .nil), (.oneof (nodes.msg 0) 3, .nil, .nil), (.list (.msg 1), .nil, .nil),
      (.list .flat, .nil, .nil)]) (u := .nil) (uv := .nil) rfl h1 rfl ?_⟩
    exact .nil rfl (.bytes h2 (by simp [h3]) (.nil rfl (.nil rfl (.nil rfl (.nil rfl (.nil rfl .done))))))
  refine ⟨⟨[none, some (0, .msg [.nil, .str [5], .nil, .nil, .nil, .nil] [] []), some (0, .msg [.nil, .str [9], .nil, .nil, .nil, .nil] [] [])], by decide +kernel, rfl⟩, key (x := [5]) (by decide +kernel) (by decide +kernel) rfl, key (x := [9]) (by decide +kernel) (by decide +kernel) rfl⟩

end Vtp.Props
