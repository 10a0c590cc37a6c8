import Verif.Lemmas.GoHMethod
import Verif.Props.HeapProgram
import Verif.Props.EmitEqual
import Verif.Props.Clone
/-!
# Properties of the code the generator prints: C87

`GoH.Emit` is the text the generator prints for `CloneVT` and `CloneMessageVT`, as syntax trees; `GoH.exec` is its meaning, on memory. `GoH.runCloneN G E n` are
the printed methods, with at most `n` methods of messages inside each other; `G` is what the generator takes for well-known and local, and with which
features it runs.
-/

namespace Vtp.Props
open Spec

/-- What `E` says about types is what the generator decides by. -/
def Decides (G : Go.GenCfg) (E : HKEnv) : Prop := ∀ t, E.direct t = (G.wellKnown t || G.isLocal t)

/-- `v.CloneVT()` as printed. -/
def printedClone (G : Go.GenCfg) (E : HKEnv) (t : Nat) (v : HV) : HM HV := fun σ => GoH.runCloneN G E σ.fuel [] t v σ

/-- C87. The printed `CloneVT` of each message type does to every memory what `hcloneN` does, and returns or panics alike: on every value, also one of the
wrong type. -/
theorem emitted_clone {G : Go.GenCfg} {E : HKEnv} (hG : G.OK E.S) (hD : Decides G E) (hS : schemaOK E.S = true) (n : Nat) :
    GoH.runCloneN G E n = hcloneN E n := GoH.runCloneN_eq hG hD hS n

theorem printedClone_eq {G : Go.GenCfg} {E : HKEnv} (hG : G.OK E.S) (hD : Decides G E) (hS : schemaOK E.S = true) (t : Nat) (v : HV) :
    printedClone G E t v = hcloneVT E t v := by
  funext σ
  unfold printedClone hcloneVT
  rw [emitted_clone hG hD hS]

/-- C87. The printed `CloneMessageVT` returns the pointer that `CloneVT` returns, with the type of the message. -/
theorem emitted_clone_message {G : Go.GenCfg} {E : HKEnv} (hG : G.OK E.S) (hD : Decides G E) (hS : schemaOK E.S = true) (n t : Nat) (v : HV) :
    GoH.runCloneMessageN G E n t v = hcloneN E n [] t v >>= fun w => pure (.val (.msg t) [] w) := by
  rw [← emitted_clone hG hD hS]
  unfold GoH.runCloneMessageN GoH.Emit.cloneMessageMethod
  simp only [GoH.exec, GoH.eval, GoH.find_cons_self, HM.pure_bind, HM.bind_assoc, GoH.callV]
  rfl

/-- C87 with C46. In every history of a program: the printed `CloneVT` leaves the original as it is; code that got a pointer to the clone cannot change the original,
nor can code with a pointer to the original change the clone, if the original does not depend on buffers of unsafe decoding. -/
theorem emitted_clone_separate_partial {G : Go.GenCfg} {S : Schema} (hS : schemaOK S = true) {w : World} (h : WReach S w) {E : HKEnv} (hG : G.OK E.S) (hD : Decides G E)
    {t : Nat} {a : Addr} (ha : (Op.clone E t a).allowed S w) (hs : ∀ x, Sees w.st.heap a x → x ∉ w.bufs) {σ : HState} {b : Addr}
    (hr : printedClone G E t (.ptr a) w.st = (σ, .ok (.ptr b))) :
    (∀ x, Sees w.st.heap a x → σ.heap[x]? = w.st.heap[x]?) ∧
    (∀ h', Mutation (· = b) σ.heap h' → ∀ x, Sees w.st.heap a x → h'[x]? = w.st.heap[x]?) ∧
    (∀ h', Mutation (· = a) σ.heap h' → ∀ x, Sees σ.heap b x → h'[x]? = σ.heap[x]?) := by
  rw [printedClone_eq hG hD (by rw [ha.2.2]; exact hS)] at hr
  exact clone_separate_partial hS h ha hs hr

/-- C87 with C72. The printed `CloneVT` in memory, whatever the pools hand out, ends as `CloneVT` without pools does on values; what it returns holds the message which
that gives, up to memory kept for reuse, and shares no memory with anything else. -/
theorem emitted_memory_clones {G : Go.GenCfg} {S : Schema} {B : Bufs} {E : HKEnv} (hE : CloneEnv S B E) (hG : G.OK E.S) (hD : Decides G E) {t : Nat}
    (hf : (S.msg t).foreign = false) {p : HV} {m m' : Val} {R : List VItem} {σ : HState} (hp : (.msg t, p, m) ∈ R) (hm : Reuse S t m m') (h : HoldsPool S B σ R) :
    HoldsPool S B (printedClone G E t p σ).1 R ∧
    ((printedClone G E t p σ).2 >>= fun _ => .ok ()) = (cloneVT E.plain t m' >>= fun _ => .ok ()) ∧
    ∀ r, cloneVT E.plain t m' = .ok r → ∃ q r', (printedClone G E t p σ).2 = .ok q ∧ Reuse S t r' r ∧
      HoldsPool S B (printedClone G E t p σ).1 ((.msg t, q, r') :: R) := by
  rw [printedClone_eq hG hD (by rw [hE.schema]; exact hE.ok)]
  exact memory_clones hE hf hp hm h

theorem alikeN_unpool (S : Schema) (R : Runtime) : ∀ n, AlikeN (unpool S) R n = AlikeN S R n
  | 0 => rfl
  | n + 1 => by
    have h : subAlike (unpool S) R (AlikeN S R n) = subAlike S R (AlikeN S R n) := by
      funext t v w
      unfold subAlike
      rw [unpool_msg]
    funext t v w
    show AlikeMsg (subAlike (unpool S) R (AlikeN (unpool S) R n)) ((unpool S).msg t) v w = _
    rw [alikeN_unpool S R n, h, unpool_msg]
    rfl

theorem alikeElem_refl {S : Schema} {R : Runtime} (hR : ∀ t v, R.equal t v v = true) {q : SubSame}
    (hq : ∀ t v, (S.msg t).foreign = false → wtM S .typedNil t v = true → q t v v) {k : Kind} {t : Nat} {v : Val} (hv : elemOK (wtM S .typedNil) k t v = true) :
    AlikeElem (subAlike S R q) k t v v := by
  unfold AlikeElem
  split
  · rename_i hk
    by_cases hn : v = .nil
    · exact .inl ⟨hn, hn⟩
    · refine .inr ⟨hn, hn, ?_⟩
      unfold subAlike
      split
      · exact ⟨hR _ _, rfl, rfl⟩
      · rename_i hf
        have hv' : (v.isNil || wtM S .typedNil t v) = true := by rcases hk with rfl | rfl <;> exact hv
        have hnn : v.isNil = false := by cases v <;> simp_all [Val.isNil]
        rw [hnn, Bool.false_or] at hv'
        exact hq t v (by simpa using hf) hv'
  · split <;> rfl

/-- A well-typed message is like itself, also with NaN in it. -/
theorem alike_refl {S : Schema} {R : Runtime} (hR : ∀ t v, R.equal t v v = true) {t : Nat} {v : Val} (hf : (S.msg t).foreign = false)
    (hw : wtM S .typedNil t v = true) : Alike S R t v v := by
  intro n
  induction n generalizing t v with
  | zero => trivial
  | succ n ih =>
    obtain ⟨s, u, e, rfl⟩ := wtM_isMsg hw
    rw [wtM_msg, hf, Bool.false_or, Bool.and_eq_true, List.all_eq_true] at hw
    have hel : ∀ {k t v}, elemOK (wtM S .typedNil) k t v = true → AlikeElem (subAlike S R (AlikeN S R n)) k t v v :=
      fun h => alikeElem_refl hR (fun t v h1 h2 => ih h1 h2) h
    refine ⟨fun f hfm => ?_, fun _ => rfl⟩
    have h := hw.2 f hfm
    by_cases ho : f.oneof = true
    · rw [if_pos ho] at h ⊢
      generalize slotOf s f = x at h ⊢
      unfold AlikeOneof
      unfold oneofOK at h
      cases x <;> first | rfl | skip
      rename_i n' x
      simp only at h ⊢
      cases hm : (S.msg t).member f.slot n' with
      | none => rw [hm] at h; cases h
      | some g =>
        rw [hm] at h
        simp only [Bool.and_eq_true] at h
        exact ⟨trivial, g, rfl, hel h.1⟩
    · rw [if_neg ho] at h ⊢
      generalize slotOf s f = x at h ⊢
      unfold AlikeField
      unfold fieldOK at h
      cases hm : f.map with
      | some md =>
        rw [hm] at h
        simp only at h ⊢
        cases x <;> simp only [Bool.false_eq_true] at h
        · exact .nil
        · rename_i es
          simp only [Bool.and_eq_true, List.all_eq_true] at h
          exact List.forall₂_same.2 fun e he => ⟨rfl, hel (h.2 e he).2⟩
      | none =>
        rw [hm] at h
        simp only at h ⊢
        by_cases hc : f.card = .repeated
        · rw [if_pos hc]
          simp only [hc, beq_self_eq_true, if_true] at h
          cases x <;> simp only [Bool.false_eq_true] at h
          · exact .nil
          · rename_i xs sp
            simp only [Bool.and_eq_true, List.all_eq_true] at h
            exact List.forall₂_same.2 fun e he => hel (h.1 e he)
        · rw [if_neg hc]
          refine ⟨fun _ => trivial, ?_⟩
          simp only [beq_eq_false_iff_ne.2 hc, Bool.false_eq_true, if_false] at h
          unfold AlikeElem
          by_cases hk : f.kind = .message ∨ f.kind = .group
          · have hx : elemOK (wtM S .typedNil) f.kind f.msg x = true := by
              split at h
              · rw [Bool.or_eq_true] at h
                rcases h with h | h
                · rcases hk with hk | hk <;> rw [hk] <;> simp [elemOK, h]
                · exact h
              · rcases hk with hk | hk <;> rw [hk] at h <;> cases h
            have := hel hx
            unfold AlikeElem at this
            exact this
          · rw [if_neg hk]
            split <;> rfl

/-- C87 with C45. The printed `CloneVT` of a well-typed message returns, whatever the pools hand out; the message it returns shares no memory with anything, has the size
of the original, is marshalled to the same bytes, and compares with every message as the original does. Pooled types with optional bytes
fields are left out, see `clone_sets_bytes`. -/
theorem emitted_clone_answers_partial {G : Go.GenCfg} {S : Schema} {B : Bufs} {E : HKEnv} (hE : CloneEnv S B E) (hG : G.OK E.S) (hD : Decides G E) (hC : RuntimeClone E.R)
    (hR : RuntimeEqual E.R) (hk : noKeptBytes S) {t : Nat} (hf : (S.msg t).foreign = false) {p : HV} {m m' : Val} {R : List VItem} {σ : HState}
    (hp : (.msg t, p, m) ∈ R) (hm : Reuse S t m m') (hw : wtM S .typedNil t m' = true) (h : HoldsPool S B σ R) :
    ∃ q r, (printedClone G E t p σ).2 = .ok q ∧ HoldsPool S B (printedClone G E t p σ).1 ((.msg t, q, r) :: R) ∧
      sizeVT ⟨S, E.R⟩ t r = sizeVT ⟨S, E.R⟩ t m ∧ (∀ strict, marshalVT ⟨S, E.R⟩ strict t r = marshalVT ⟨S, E.R⟩ strict t m) ∧
      ∀ x, wtM S .typedNil t x = true → equalVT { S := S, R := E.R } t r x = equalVT { S := S, R := E.R } t m x ∧
        equalVT { S := S, R := E.R } t x r = equalVT { S := S, R := E.R } t x m := by
  have hS := hE.ok
  have hpl : ∀ t, (E.plain.S.msg t).pooled = false := fun t => by show ((unpool E.S).msg t).pooled = false; rw [unpool_msg]
  have hES : E.plain.S = unpool S := by show unpool E.S = _; rw [hE.schema]
  have hf' : (E.plain.S.msg t).foreign = false := by rw [hES, unpool_msg]; exact hf
  obtain ⟨w, h1, -, h2⟩ := (clone_clones (E := E.plain) (tn := .typedNil) (by rw [hES]; exact unpool_ok hS) hC (fun p t h => by rw [hpl] at h; cases h)
    (fun t h => by rw [hpl] at h; cases h) m'.depth [] t m' (Nat.le_refl _) hf').2 (by rw [hES, unpool_typed]; exact hw)
  have h2' : Alike S E.R t m' w := fun n => by
    have := h2 n
    rw [hES, alikeN_unpool] at this
    exact this
  obtain ⟨-, -, h3⟩ := emitted_memory_clones hE hG hD hf hp hm h
  obtain ⟨q, r, h4, h5, h6⟩ := h3 w h1
  have a1 := alike_of_reuse hR.refl hk hf hm
  have a2 := alike_of_reuse hR.refl hk hf h5
  refine ⟨q, r, h4, h6, ?_, fun strict => ?_, fun x hx => ?_⟩
  · rw [sizeVT_alike (E := ⟨S, E.R⟩) hS a2, ← sizeVT_alike (E := ⟨S, E.R⟩) hS h2', ← sizeVT_alike (E := ⟨S, E.R⟩) hS a1]
  · rw [marshalVT_alike (E := ⟨S, E.R⟩) hS strict a2, ← marshalVT_alike (E := ⟨S, E.R⟩) hS strict h2', ← marshalVT_alike (E := ⟨S, E.R⟩) hS strict a1]
  · have hx := alike_refl hR.refl hf hx
    have ap : CEnv.apart { S := S, R := E.R } := fun _ => rfl
    exact ⟨by rw [equalVT_alike ap hS hR a2 hx, ← equalVT_alike ap hS hR h2' hx, ← equalVT_alike ap hS hR a1 hx],
      by rw [equalVT_alike ap hS hR hx a2, ← equalVT_alike ap hS hR hx h2', ← equalVT_alike ap hS hR hx a1]⟩

/-! ## The hypotheses can be met -/

/-- Types that are neither well-known nor local: the code asks whether they have the method. -/
def EmitDemo.genElsewhere : Go.GenCfg := ⟨fun _ => false, fun _ => false, false⟩
theorem EmitDemo.genElsewhere_ok (S : Schema) : EmitDemo.genElsewhere.OK S := fun _ _ => ⟨rfl, rfl⟩
def EmitDemo.genOwn : Go.GenCfg := ⟨fun _ => false, fun _ => true, false⟩
def EmitDemo.genWell : Go.GenCfg := ⟨fun _ => true, fun _ => false, false⟩
theorem EmitDemo.genOwn_ok : EmitDemo.genOwn.OK nodes := fun t h => by
  have : (nodes.msg t).foreign = false := by
    match t with
    | 0 => rfl
    | 1 => rfl
    | t + 2 => rfl
  rw [this] at h
  cases h
theorem EmitDemo.genWell_ok : EmitDemo.genWell.OK nodes := fun t h => by
  have : (nodes.msg t).foreign = false := by
    match t with
    | 0 => rfl
    | 1 => rfl
    | t + 2 => rfl
  rw [this] at h
  cases h

/-- The three ways of printing the calls, run on a decoded node. Types of other packages are left for the second pass, so the objects are allocated in another order. -/
example : printedClone EmitDemo.genOwn (cloning none) 0 (.ptr 0) decoded.st = (decodedClone, .ok (.ptr 9)) ∧
    printedClone EmitDemo.genWell (cloning none) 0 (.ptr 0) decoded.st = (decodedClone, .ok (.ptr 9)) := by
  rw [printedClone_eq EmitDemo.genOwn_ok (fun _ => rfl) nodes_ok, printedClone_eq EmitDemo.genWell_ok (fun _ => rfl) nodes_ok]
  exact ⟨decoded_cloned, decoded_cloned⟩
example : (GoH.runCloneN EmitDemo.genElsewhere { cloning none with direct := fun _ => false } 20 [] 0 (.ptr 0) decoded.st).2 = .ok (.ptr 9) ∧
    (GoH.runCloneN EmitDemo.genElsewhere { cloning none with direct := fun _ => false } 20 [] 0 (.ptr 0) decoded.st).1 ≠ decodedClone := by decide +kernel

example : (∀ h', Mutation (· = 9) decodedClone.heap h' → ∀ x, Sees decoded.st.heap 0 x → h'[x]? = decoded.st.heap[x]?) ∧
    (∀ h', Mutation (· = 0) decodedClone.heap h' → ∀ x, Sees decodedClone.heap 9 x → h'[x]? = decodedClone.heap[x]?) :=
  (emitted_clone_separate_partial (G := EmitDemo.genOwn) nodes_ok decoded_reached (E := cloning none) EmitDemo.genOwn_ok (fun _ => rfl) (t := 0) (a := 0) ⟨by decide, by decide, rfl⟩ decoded_sees
    (by rw [printedClone_eq EmitDemo.genOwn_ok (fun _ => rfl) nodes_ok]; exact decoded_cloned)).2

example : ∃ q r, (printedClone EmitDemo.genOwn (cloning (some 0)) 0 (.ptr 1) { filledNode with pool := [(0, 0)] }).2 = .ok q ∧
    HoldsPool nodes .none (printedClone EmitDemo.genOwn (cloning (some 0)) 0 (.ptr 1) { filledNode with pool := [(0, 0)] }).1 [(.msg 0, q, r), (.msg 0, .ptr 1, nodeOf)] ∧
    marshalVT ⟨nodes, structural⟩ false 0 r = marshalVT ⟨nodes, structural⟩ false 0 nodeOf := by
  have hc : Clean nodes 0 nodeOf := clean_of_noSpare (tn := .typedNil) nodes_ok (by decide) (by decide)
  obtain ⟨q, r, h1, h2, -, h3, -⟩ := emitted_clone_answers_partial (G := EmitDemo.genOwn) cloning_env EmitDemo.genOwn_ok (fun _ => rfl) structural_clone structural_ok nodes_bytes (t := 0) rfl
    (.head _) hc (by decide) filledNode_pool
  exact ⟨q, r, h1, h2, h3 false⟩

/-- `CloneVT` of nil through the interface: a nil pointer of the type. -/
example : GoH.runCloneMessageN EmitDemo.genOwn (cloning none) 5 0 .nil decoded.st = (decoded.st, .ok (.val (.msg 0) [] .nil)) := by decide

end Vtp.Props
