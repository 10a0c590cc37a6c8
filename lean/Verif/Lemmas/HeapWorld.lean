import Verif.Lemmas.HeapReset
import Verif.Lemmas.HeapClone
import Verif.Spec.HeapWorld
/-! # Worlds: ownership over all histories -/

namespace Vtp
open Spec

/-! ## Reaching -/

/-- Types of whole values. -/
def plain : Ty → Bool
  | .flat => true
  | .box => true
  | .bytes => true
  | .mem => true
  | .msg _ => true
  | .list e => plain e
  | .map e => plain e
  | .oneof _ _ => true
  | _ => false

theorem elemTy_plain (k : Kind) (t : Nat) : plain (elemTy k t) = true := by cases k <;> rfl

theorem fieldTy_plain (d : MsgDesc) (f : FieldDesc) : plain (fieldTy d f) = true := by
  unfold fieldTy
  split_ifs
  · rfl
  · cases f.map <;> exact elemTy_plain _ _
  · rfl
  · exact elemTy_plain _ _

theorem slotTy_plain (d : MsgDesc) (s : Nat) : plain (slotTy d s) = true := by
  unfold slotTy
  split
  · exact fieldTy_plain _ _
  · rfl

/-- Where values may lead: to the objects `F` or memory of others. -/
def Leads (B : Lent) (F : Multiset Addr) (v : HV) : Prop := ∀ b, HV.source v = some b → b ∈ F ∨ B.byt b ∨ (B.str b ∧ HV.target v = none)

theorem Leads.mono {B : Lent} {F G : Multiset Addr} {v : HV} (h : Leads B F v) (hs : F ⊆ G) : Leads B G v :=
  fun b hb => (h b hb).imp (fun x => hs x) id

/-- Everything leads to `F` or memory of others. -/
def Closed (B : Lent) (h : Heap) (F : Multiset Addr) : Prop := ∀ a ∈ F, ∀ c, h[a]? = some c → ∀ v ∈ Cell.values c, Leads B F v

theorem own_closed {S : Schema} {B : Lent} {h : Heap} {I : List Item} {F : Multiset Addr} (ho : OwnL S B h I F) :
    (∀ it ∈ I, plain it.1 = true) → (∀ it ∈ I, Leads B F it.2) ∧ Closed B h F := by
  -- the common step for objects
  have obj : ∀ {I J : List Item} {F : Multiset Addr} {a : Addr} {c : Cell} {it : Item}, h[a]? = some c →
      (HV.source it.2 = some a) → (∀ v ∈ Cell.values c, ∃ ty, (ty, v) ∈ J) →
      ((∀ it ∈ J ++ I, Leads B F it.2) ∧ Closed B h F) →
      (∀ x ∈ it :: I, Leads B (a ::ₘ F) x.2) ∧ Closed B h (a ::ₘ F) := by
    intro I J F a c it hc hs hv ⟨h1, h2⟩
    have hsub : F ⊆ a ::ₘ F := Multiset.subset_cons _ _
    refine ⟨fun x hx => ?_, fun b hb d hd v hvd => ?_⟩
    · rcases List.mem_cons.mp hx with rfl | hx
      · intro b hb
        rw [hs] at hb
        cases hb
        exact .inl (Multiset.mem_cons_self _ _)
      · exact (h1 x (List.mem_append_right _ hx)).mono hsub
    · rcases Multiset.mem_cons.mp hb with rfl | hb
      · rw [hc] at hd
        cases hd
        obtain ⟨ty, hty⟩ := hv v hvd
        exact (h1 _ (List.mem_append_left _ hty)).mono hsub
      · exact (h2 b hb d hd v hvd).mono hsub
  have flat : ∀ {I : List Item} {F : Multiset Addr} {it : Item}, Leads B F it.2 → ((∀ x ∈ I, Leads B F x.2) ∧ Closed B h F) →
      (∀ x ∈ it :: I, Leads B F x.2) ∧ Closed B h F := by
    intro I F it hl ⟨h1, h2⟩
    exact ⟨fun x hx => by rcases List.mem_cons.mp hx with rfl | hx; exacts [hl, h1 x hx], h2⟩
  have none : ∀ {F : Multiset Addr} {v : HV}, HV.source v = none → Leads B F v := by
    intro F v hv b hb
    rw [hv] at hb
    cases hb
  induction ho with
  | done => intro _; exact ⟨(fun _ h => nomatch h), fun _ h => absurd h (Multiset.notMem_zero _)⟩
  | nil ht _ ih => intro hp; exact flat (none rfl) (ih fun x hx => hp x (.tail _ hx))
  | num _ ih => intro hp; exact flat (none rfl) (ih fun x hx => hp x (.tail _ hx))
  | str _ ih => intro hp; exact flat (none rfl) (ih fun x hx => hp x (.tail _ hx))
  | view ha _ ih =>
    intro hp
    refine flat (fun b hb => ?_) (ih fun x hx => hp x (.tail _ hx))
    cases hb
    exact .inr (.inr ⟨ha, rfl⟩)
  | is _ ih => intro hp; exact nomatch hp _ (.head _)
  | wrapNil _ ih => intro hp; exact flat (none rfl) (ih fun x hx => hp x (.tail _ hx))
  | lent ha _ ih =>
    intro hp
    refine flat (fun b hb => ?_) (ih fun x hx => hp x (.tail _ hx))
    cases hb
    exact .inr (.inl ha)
  | bytes hc _ ih =>
    intro hp
    exact obj (J := []) hc rfl (fun v hv => nomatch hv) (ih fun x hx => hp x (.tail _ hx))
  | mem hc _ ih =>
    intro hp
    exact obj (J := []) hc rfl (fun v hv => nomatch hv) (ih fun x hx => hp x (.tail _ hx))
  | @box a v I F hc _ ih =>
    intro hp
    refine obj (J := [(.flat, v)]) hc rfl (fun w hw => ⟨.flat, by simpa [Cell.values] using hw⟩) (ih fun x hx => ?_)
    rcases List.mem_cons.mp hx with rfl | hx
    · rfl
    · exact hp x (.tail _ hx)
  | foreign hf hc _ ih =>
    intro hp
    exact obj (J := []) hc rfl (fun v hv => nomatch hv) (ih fun x hx => hp x (.tail _ hx))
  | @msg t a slots u e I F hf hc hl _ ih =>
    intro hp
    refine obj (J := (slotTys (S.msg t)).zip slots ++ [(.mem, u)]) hc rfl (fun w hw => ?_) ?_
    · rcases List.mem_cons.mp hw with rfl | hw
      · exact ⟨.mem, by simp⟩
      · obtain ⟨i, hi, rfl⟩ := List.getElem_of_mem hw
        refine ⟨(slotTys (S.msg t))[i]'(by rw [slotTys_length, ← hl]; exact hi), List.mem_append_left _ ?_⟩
        rw [List.mem_iff_getElem]
        exact ⟨i, by simp [slotTys_length, hl.symm ▸ hi, hi], by simp⟩
    · have : (slotTys (S.msg t)).zip slots ++ [(.mem, u)] ++ I = (slotTys (S.msg t)).zip slots ++ (.mem, u) :: I := by simp
      rw [this]
      refine ih fun x hx => ?_
      rcases List.mem_append.mp hx with hx | hx
      · have := (List.of_mem_zip (a := x.1) (b := x.2) hx).1
        simp only [slotTys, List.mem_map] at this
        obtain ⟨s, -, hs⟩ := this
        rw [← hs]
        exact slotTy_plain _ _
      · rcases List.mem_cons.mp hx with rfl | hx
        · rfl
        · exact hp x (.tail _ hx)
  | obj _ _ _ _ => intro hp; exact nomatch hp _ (.head _)
  | @list ty a len xs I F hc hl _ ih =>
    intro hp
    have hty : plain ty = true := hp (.list ty, .slice a len) (.head _)
    refine obj (J := xs.map fun x => (ty, x)) hc rfl (fun w hw => ⟨ty, List.mem_map.mpr ⟨w, hw, rfl⟩⟩) (ih fun x hx => ?_)
    rcases List.mem_append.mp hx with hx | hx
    · obtain ⟨y, -, rfl⟩ := List.mem_map.mp hx
      exact hty
    · exact hp x (.tail _ hx)
  | hole _ _ _ _ _ => intro hp; exact nomatch hp _ (.head _)
  | @map ty a es I F hc _ ih =>
    intro hp
    have hty : plain ty = true := hp (.map ty, .ptr a) (.head _)
    refine obj (J := es.map fun x => (ty, x.2)) hc rfl (fun w hw => ⟨ty, ?_⟩) (ih fun x hx => ?_)
    · simp only [Cell.values, List.mem_map] at hw
      obtain ⟨e, he, rfl⟩ := hw
      exact List.mem_map.mpr ⟨e, he, rfl⟩
    · rcases List.mem_append.mp hx with hx | hx
      · obtain ⟨y, -, rfl⟩ := List.mem_map.mp hx
        exact hty
      · exact hp x (.tail _ hx)
  | @oneof d slot n f a v I F hc hm _ ih =>
    intro hp
    refine obj (J := [(elemTy f.kind f.msg, v)]) hc rfl (fun w hw => ⟨elemTy f.kind f.msg, by simpa [Cell.values] using hw⟩) (ih fun x hx => ?_)
    rcases List.mem_cons.mp hx with rfl | hx
    · exact elemTy_plain _ _
    · exact hp x (.tail _ hx)
  | wrap _ _ _ => intro hp; exact nomatch hp _ (.head _)
  | raw _ _ _ => intro hp; exact nomatch hp _ (.head _)

theorem target_source {v : HV} {b : Addr} (h : HV.target v = some b) : HV.source v = some b := by
  cases v <;> simp_all [HV.target, HV.source]

/-- Memory of others is byte arrays. -/
def FlatLent (B : Lent) (h : Heap) : Prop := ∀ a, B.byt a → ∃ b, h[a]? = some (.bytes b)

theorem Closed.reach {B : Lent} {h : Heap} {F : Multiset Addr} (hc : Closed B h F) (hb : FlatLent B h) {a x : Addr} (ha : a ∈ F ∨ B.byt a)
    (hr : Reach h a x) : x ∈ F ∨ B.byt x := by
  induction hr with
  | here a => exact ha
  | @there a b c y v hx hv ht _ ih =>
    refine ih ?_
    rcases ha with ha | ha
    · rcases hc a ha y hx v hv b (target_source ht) with h1 | h1 | h1
      · exact .inl h1
      · exact .inr h1
      · rw [ht] at h1
        exact nomatch h1.2
    · obtain ⟨d, hd⟩ := hb a ha
      rw [hx] at hd
      cases hd
      exact nomatch hv

theorem Closed.sees {B : Lent} {h : Heap} {F : Multiset Addr} (hc : Closed B h F) (hb : FlatLent ⟨B.str, fun a => B.byt a ∨ B.str a⟩ h) {a x : Addr} (ha : a ∈ F ∨ B.byt a ∨ B.str a)
    (hr : Sees h a x) : x ∈ F ∨ B.byt x ∨ B.str x := by
  induction hr with
  | here a => exact ha
  | @there a b c y v hx hv ht _ ih =>
    refine ih ?_
    rcases ha with ha | ha
    · exact (hc a ha y hx v hv b ht).imp id (Or.imp id (·.1))
    · obtain ⟨d, hd⟩ := hb a ha
      rw [hx] at hd
      cases hd
      exact nomatch hv

theorem plain_msgs {L : List (Nat × Addr)} : ∀ it ∈ msgItems L, plain it.1 = true := by
  intro it hit
  obtain ⟨q, -, rfl⟩ := List.mem_map.mp hit
  rfl

theorem own_root {S : Schema} {B : Lent} {h : Heap} {L : List (Nat × Addr)} {F : Multiset Addr} (ho : OwnL S B h (msgItems L) F) {q : Nat × Addr} (hq : q ∈ L) : q.2 ∈ F := by
  induction L generalizing F with
  | nil => exact nomatch hq
  | cons p L ih =>
    obtain ⟨F1, F2, rfl, o1, o2⟩ := (OwnL.append_iff (I1 := [_])).mp ho
    rcases List.mem_cons.mp hq with rfl | hq
    · refine Multiset.mem_add.mpr (.inl ?_)
      cases o1 with
      | foreign => exact Multiset.mem_cons_self _ _
      | msg => exact Multiset.mem_cons_self _ _
    · exact Multiset.mem_add.mpr (.inr (ih o2 hq))

theorem own_reach {S : Schema} {B : Lent} {h : Heap} {L : List (Nat × Addr)} {F : Multiset Addr} (ho : OwnL S B h (msgItems L) F) (hb : FlatLent B h)
    {q : Nat × Addr} (hq : q ∈ L) {x : Addr} (hr : Reach h q.2 x) : x ∈ F ∨ B.byt x :=
  (own_closed ho plain_msgs).2.reach hb (.inl (own_root ho hq)) hr

/-- Different messages do not share anything but memory of others. -/
theorem own_pairwise {S : Schema} {B : Lent} {h : Heap} (hb : FlatLent B h) : ∀ {L : List (Nat × Addr)} {F : Multiset Addr}, OwnL S B h (msgItems L) F → F.Nodup →
    (∀ a ∈ F, ¬ B.byt a) →
    L.Pairwise (fun p q => p.2 ≠ q.2 ∧ ∀ x, Reach h p.2 x → Reach h q.2 x → B.byt x)
  | [], _, _, _, _ => List.Pairwise.nil
  | p :: L, F, ho, hn, hap => by
    obtain ⟨F1, F2, rfl, o1, o2⟩ := (OwnL.append_iff (I1 := [_])).mp ho
    rw [Multiset.nodup_add] at hn
    have o1' : OwnL S B h (msgItems [p]) F1 := o1
    refine List.pairwise_cons.mpr ⟨fun q hq => ?_, own_pairwise hb o2 hn.2.1 fun a ha => hap a (Multiset.mem_add.mpr (.inr ha))⟩
    have hd : ∀ {a : Addr}, a ∈ F1 → a ∉ F2 := Multiset.disjoint_left.mp hn.2.2
    refine ⟨fun e => ?_, fun x h1 h2 => ?_⟩
    · exact hd (own_root o1' (.head _)) (e ▸ own_root o2 hq)
    · rcases own_reach o1' hb (.head _) h1 with h1 | h1
      · rcases own_reach o2 hb hq h2 with h2 | h2
        · exact absurd h2 (hd h1)
        · exact h2
      · exact h1

/-! ## Operations -/

theorem tri_given {C : Ctx} {t : Nat} {x : HM HV} {I K : List Item} (h : Tri C I x (fun v => [(.msg t, v)]) K) :
    Tri C I (x >>= fun v => pure (HV.given t v)) (fun l => msgItems l) K := by
  refine Tri.bind h fun v => Tri.pure ?_
  cases v with
  | ptr a => exact Ent.refl _
  | _ => exact Ent.empty _

/-- For decoding if the memory of others must not be written to. -/
def Op.lockOK (S : Schema) (C : Ctx) : Op → Prop
  | .decode E _ _ _ => ∀ t f, f ∈ (S.msg t).fields → FieldLock C E f
  | _ => True

/-- For cloning: the original stays as it is. -/
def Op.origOK (C : Ctx) (B0 : Lent) (h0 : Heap) : Op → Prop
  | .clone _ t a => Orig C B0 h0 [(.msg t, .ptr a)] ∧ ∀ a, B0.str a → C.B.str a
  | _ => True

theorem op_tri {S : Schema} (hS : schemaOK S = true) {w : World} {op : Op} (ha : op.allowed S w) {C : Ctx} (hC : C.S = S)
    (hb : ∀ a ∈ w.bufs, C.B.str a ∧ C.B.byt a) (hl : Op.lockOK S C op) {B0 : Lent} {h0 : Heap} (ho : Op.origOK C B0 h0 op) :
    Tri C (msgItems op.takes) (op.run S) (fun l => msgItems l) (msgItems op.left) := by
  subst hC
  cases op with
  | new t => exact tri_given tri_new
  | get want t => exact tri_given tri_poolGet
  | put t a => exact Tri.bind (tri_returnToVTPool hS) fun _ => Tri.pure (Ent.refl _)
  | reset t a => exact Tri.bind (tri_resetVT hS) fun _ => Tri.pure (Ent.refl _)
  | decode E t b a =>
    obtain ⟨-, hf, hE, hal⟩ := ha
    exact Tri.bind (tri_unmarshalVT ⟨hE, hS, fun h => hb _ (hal h).1, hl⟩ hf) fun _ => Tri.pure (Ent.refl _)
  | clone E t a =>
    obtain ⟨-, hf, hE⟩ := ha
    exact tri_given (tri_cloneVT (B0 := B0) (h0 := h0) ⟨hE, hS, ho.2⟩ hf ho.1)

theorem takes_perm {S : Schema} {w : World} {op : Op} (ha : op.allowed S w) : w.held.Perm (op.takes ++ w.others op) := by
  cases op with
  | new t => exact List.Perm.refl _
  | get want t => exact List.Perm.refl _
  | put t a => exact List.perm_cons_erase ha
  | reset t a => exact List.perm_cons_erase ha
  | decode E t b a => exact List.perm_cons_erase ha.1
  | clone E t a => exact List.Perm.refl _

/-- Ownership in a world. -/
def WInv (S : Schema) (w : World) : Prop :=
  ∃ F P, OwnL S w.lent w.st.heap (msgItems w.held) F ∧ Inv ⟨S, w.lent, fun _ _ => False, False⟩ w.st F P

theorem own_sub {S : Schema} {B : Lent} {h : Heap} {L : List (Nat × Addr)} {F : Multiset Addr} (ho : OwnL S B h (msgItems L) F) {q : Nat × Addr} (hq : q ∈ L) :
    ∃ F', F' ≤ F ∧ OwnL S B h [(.msg q.1, .ptr q.2)] F' := by
  induction L generalizing F with
  | nil => exact nomatch hq
  | cons p L ih =>
    obtain ⟨F1, F2, rfl, o1, o2⟩ := (OwnL.append_iff (I1 := [_])).mp ho
    rcases List.mem_cons.mp hq with rfl | hq
    · exact ⟨F1, Multiset.le_add_right _ _, o1⟩
    · obtain ⟨F', hle, ho'⟩ := ih o2 hq
      exact ⟨F', hle.trans (Multiset.le_add_left _ _), ho'⟩

/-- What an operation does: ownership, others' messages, and buffers if `lock`. -/
theorem exec_inv {S : Schema} (hS : schemaOK S = true) {w : World} (hw : WInv S w) {op : Op} (ha : op.allowed S w) (lock : Prop)
    (hlock : lock → ∀ E t b a, op = .decode E t b a → E.aliasing = false → ∀ t f, f ∈ (S.msg t).fields → f.kind = .bytes → f.oneof = false → f.card = .repeated) :
    WInv S (w.exec S op) ∧ (∀ q ∈ w.others op, ∀ x, Reach w.st.heap q.2 x → x ∈ w.bufs ∨ (w.exec S op).st.heap[x]? = w.st.heap[x]?) ∧
    (lock → ∀ x ∈ w.bufs, (w.exec S op).st.heap[x]? = w.st.heap[x]?) := by
  obtain ⟨F, P, ho, hinv⟩ := hw
  have ho' : OwnL S w.lent w.st.heap (msgItems op.takes ++ msgItems (w.others op)) F := by
    rw [← List.map_append]
    exact ho.perm ((takes_perm ha).map _)
  obtain ⟨F1, F2, rfl, o1, o2⟩ := OwnL.append_iff.mp ho'
  have hnd : (F1 + (F2 + P)).Nodup := by rw [← add_assoc]; exact hinv.nodup
  have hdis : ∀ a ∈ F2, a ∉ F1 ∧ a ∉ P := by
    intro a ha2
    refine ⟨fun h1 => (Multiset.disjoint_left.mp (Multiset.nodup_add.mp (Multiset.nodup_add.mp hinv.nodup).1).2.2) h1 ha2, fun hp => ?_⟩
    exact (Multiset.disjoint_left.mp (Multiset.nodup_add.mp hinv.nodup).2.2) (Multiset.mem_add.mpr (.inr ha2)) hp
  let C : Ctx := ⟨S, w.lent, fun a c => w.st.heap[a]? = some c ∧ (a ∈ F2 ∨ a ∈ w.bufs ∧ lock), lock⟩
  have hinv' : Inv C w.st F1 P := by
    refine ⟨hinv.pool, ?_, fun a ha => hinv.apart a (ha.imp (fun h => Multiset.mem_add.mpr (.inl h)) id), hinv.below, ?_, hinv.nofree⟩
    · exact Multiset.nodup_of_le (add_le_add_left (Multiset.le_add_right F1 F2) P) hinv.nodup
    · rintro a c ⟨hc, h2 | ⟨hb, hl⟩⟩
      · exact ⟨hc, (hdis a h2).1, (hdis a h2).2, fun hb => absurd hb (hinv.apart a (.inl (Multiset.mem_add.mpr (.inr h2))))⟩
      · exact ⟨hc, fun h1 => hinv.apart a (.inl (Multiset.mem_add.mpr (.inl h1))) hb, fun h1 => hinv.apart a (.inr h1) hb, fun _ => hl⟩
  have hlk : Op.lockOK S C op := by
    cases op with
    | decode E t b a =>
      intro t' f hf hl hal hk hone hrep
      exact absurd (hlock hl E t b a rfl hal t' f hf hk hone) hrep
    | _ => trivial
  have horig : Op.origOK C w.lent w.st.heap op := by
    cases op with
    | clone E t a =>
      refine ⟨?_, fun _ h => h⟩
      obtain ⟨F', hle, hF'⟩ := own_sub o2 (q := (t, a)) ha.1
      exact ⟨F', hF', fun x hx c hc => ⟨hc, .inl (Multiset.mem_of_le hle hx)⟩⟩
    | _ => trivial
  have htri := op_tri hS ha (C := C) rfl (fun a ha => ⟨ha, ha⟩) hlk horig
  obtain ⟨F', P', hinv2, hok, hbad⟩ := htri [] w.st F1 P (by simpa using o1) hinv'
  have hkeep : ∀ x, (x ∈ F2 ∨ x ∈ w.bufs ∧ lock) → x < w.st.heap.length → (op.run S w.st).1.heap[x]? = w.st.heap[x]? := by
    intro x hx hlt
    have hc : w.st.heap[x]? = some w.st.heap[x] := List.getElem?_eq_getElem hlt
    rw [(hinv2.fixed x _ ⟨hc, hx⟩).1, hc]
  have hfin : ∀ l, OwnL S w.lent (op.run S w.st).1.heap (msgItems l) F' → WInv S ⟨(op.run S w.st).1, l ++ w.others op, w.bufs⟩ := by
    intro l hl
    have o2' : OwnL S w.lent (op.run S w.st).1.heap (msgItems (w.others op)) F2 := o2.frame fun x hx => hkeep x (.inl hx) (o2.inHeap x hx)
    have hF2 : ∀ x ∈ F2, x ∉ F' ∧ x ∉ P' := by
      intro x hx
      have hc : w.st.heap[x]? = some (w.st.heap[x]'(o2.inHeap x hx)) := List.getElem?_eq_getElem _
      have := hinv2.fixed x _ ⟨hc, .inl hx⟩
      exact ⟨this.2.1, this.2.2.1⟩
    refine ⟨F' + F2, P', ?_, hinv2.pool, ?_, ?_, hinv2.below, (fun _ _ h => nomatch h), hinv2.nofree⟩
    · rw [msgItems, List.map_append]
      exact hl.append o2'
    · have h2 : F2.Nodup := (Multiset.nodup_add.mp (Multiset.nodup_add.mp hinv.nodup).1).2.1
      rw [add_assoc, add_comm F2 P', ← add_assoc]
      refine Multiset.nodup_add.mpr ⟨hinv2.nodup, h2, Multiset.disjoint_left.mpr fun {x} hx h2 => ?_⟩
      rcases Multiset.mem_add.mp hx with hx | hx
      · exact (hF2 x h2).1 hx
      · exact (hF2 x h2).2 hx
    · intro a ha
      rcases ha with ha | ha
      · rcases Multiset.mem_add.mp ha with ha | ha
        · exact hinv2.apart a (.inl ha)
        · exact hinv.apart a (.inl (Multiset.mem_add.mpr (.inr ha)))
      · exact hinv2.apart a (.inr ha)
  have hst : (w.exec S op).st = (op.run S w.st).1 := by
    unfold World.exec
    rcases op.run S w.st with ⟨σ, r⟩
    cases r <;> rfl
  refine ⟨?_, fun q hq x hr => ?_, fun hl x hx => ?_⟩
  · unfold World.exec
    rcases hrun : op.run S w.st with ⟨σ, r⟩
    rw [hrun] at hok hbad hfin
    cases r with
    | ok l => exact hfin l (by simpa using hok l rfl)
    | err e => exact hfin _ (by simpa using hbad fun _ h => nomatch h)
    | panic e => exact hfin _ (by simpa using hbad fun _ h => nomatch h)
    | diverge => exact hfin _ (by simpa using hbad fun _ h => nomatch h)
  · rw [hst]
    rcases own_reach o2 hinv.below hq hr with h | h
    · exact .inr (hkeep x (.inl h) (o2.inHeap x h))
    · exact .inl h
  · rw [hst]
    obtain ⟨b, hb⟩ := hinv.below x hx
    exact hkeep x (.inr ⟨hx, hl⟩) (List.getElem?_eq_some_iff.mp hb).1

/-! ## Other steps -/

theorem OwnL.mono {S : Schema} {B B' : Lent} (hs : ∀ a, B.str a → B'.str a) (hb : ∀ a, B.byt a → B'.byt a) {h : Heap} {I : List Item} {F : Multiset Addr}
    (ho : OwnL S B h I F) : OwnL S B' h I F := by
  induction ho with
  | done => exact .done
  | nil ht _ ih => exact .nil ht ih
  | num _ ih => exact .num ih
  | str _ ih => exact .str ih
  | view ha _ ih => exact .view (hs _ ha) ih
  | is _ ih => exact .is ih
  | wrapNil _ ih => exact .wrapNil ih
  | lent ha _ ih => exact .lent (hb _ ha) ih
  | bytes hc _ ih => exact .bytes hc ih
  | mem hc _ ih => exact .mem hc ih
  | raw hc _ ih => exact .raw hc ih
  | box hc _ ih => exact .box hc ih
  | foreign hf hc _ ih => exact .foreign hf hc ih
  | msg hf hc hl _ ih => exact .msg hf hc hl ih
  | obj hc hl _ ih => exact .obj hc hl ih
  | list hc hl _ ih => exact .list hc hl ih
  | hole hc hl hi _ ih => exact .hole hc hl hi ih
  | map hc _ ih => exact .map hc ih
  | oneof hc hm _ ih => exact .oneof hc hm ih
  | wrap hc _ ih => exact .wrap hc ih

theorem own_sublist {S : Schema} {B : Lent} {h : Heap} {L L' : List (Nat × Addr)} (hs : L'.Sublist L) : ∀ {F : Multiset Addr}, OwnL S B h (msgItems L) F →
    ∃ F', F' ≤ F ∧ OwnL S B h (msgItems L') F' := by
  induction hs with
  | slnil => exact fun ho => ⟨_, le_rfl, ho⟩
  | cons q _ ih =>
    intro F ho
    obtain ⟨F1, F2, rfl, -, o2⟩ := (OwnL.append_iff (I1 := [_])).mp ho
    obtain ⟨F', hle, ho'⟩ := ih o2
    exact ⟨F', hle.trans (Multiset.le_add_left _ _), ho'⟩
  | cons_cons q _ ih =>
    intro F ho
    obtain ⟨F1, F2, rfl, o1, o2⟩ := (OwnL.append_iff (I1 := [_])).mp ho
    obtain ⟨F', hle, ho'⟩ := ih o2
    exact ⟨F1 + F', add_le_add_right hle _, o1.append ho'⟩

theorem step_inv {S : Schema} (hS : schemaOK S = true) {w w' : World} (hw : WInv S w) (hs : WStep S w w') : WInv S w' := by
  cases hs with
  | op op ha => exact (exec_inv hS hw ha False fun h => h.elim).1
  | @use H H' rest h' F' split keep own nodup within apart bufs =>
    obtain ⟨F, P, ho, hinv⟩ := hw
    have ho' : OwnL S w.lent w.st.heap (msgItems H ++ msgItems rest) F := by
      rw [← List.map_append]
      exact ho.perm (split.map _)
    obtain ⟨F1, F2, rfl, o1, o2⟩ := OwnL.append_iff.mp ho'
    have hn := hinv.nodup
    rw [Multiset.nodup_add, Multiset.nodup_add] at hn
    obtain ⟨⟨n1, n2, d12⟩, nP, dP⟩ := hn
    have hun : ∀ a, (a ∈ F2 ∨ a ∈ P) → ∀ q ∈ H, ¬ Reach w.st.heap q.2 a := by
      intro a ha q hq hr
      have hapart := hinv.apart a (ha.imp (fun h => Multiset.mem_add.mpr (.inr h)) id)
      rcases own_reach o1 hinv.below hq hr with h | h
      · rcases ha with ha | ha
        · exact Multiset.disjoint_left.mp d12 h ha
        · exact Multiset.disjoint_left.mp dP (Multiset.mem_add.mpr (.inl h)) ha
      · exact hapart h
    have hF' : ∀ a ∈ F', a ∉ F2 ∧ a ∉ P := by
      intro a ha
      have : ∀ G : Multiset Addr, (∀ x ∈ G, x < w.st.heap.length) → (∀ x ∈ G, ∀ q ∈ H, ¬ Reach w.st.heap q.2 x) → a ∉ G := by
        intro G hG hG2 hm
        rcases within a ha with ⟨q, hq, hr⟩ | hle
        · exact hG2 a hm q hq hr
        · exact absurd (hG a hm) (Nat.not_lt.mpr hle)
      exact ⟨this F2 o2.inHeap fun x hx => hun x (.inl hx), this P hinv.pool.inHeap fun x hx => hun x (.inr hx)⟩
    refine ⟨F' + F2, P, ?_, ?_, ?_, ?_, bufs, (fun _ _ h => nomatch h), hinv.nofree⟩
    · show OwnL S w.lent h' (msgItems (H' ++ rest)) _
      rw [msgItems, List.map_append]
      exact own.append (o2.frame fun x hx => keep x (o2.inHeap x hx) (hun x (.inl hx)))
    · exact hinv.pool.frame fun x hx => keep x (hinv.pool.inHeap x hx) (hun x (.inr hx))
    · rw [Multiset.nodup_add, Multiset.nodup_add]
      refine ⟨⟨nodup, n2, Multiset.disjoint_left.mpr fun h => (hF' _ h).1⟩, nP, Multiset.disjoint_left.mpr fun {x} h hp => ?_⟩
      rcases Multiset.mem_add.mp h with h | h
      · exact (hF' x h).2 hp
      · exact Multiset.disjoint_left.mp dP (Multiset.mem_add.mpr (.inr h)) hp
    · rintro a (ha | ha)
      · rcases Multiset.mem_add.mp ha with ha | ha
        · exact apart a ha
        · exact hinv.apart a (.inl (Multiset.mem_add.mpr (.inr ha)))
      · exact hinv.apart a (.inr ha)
  | drop hd =>
    obtain ⟨F, P, ho, hinv⟩ := hw
    obtain ⟨F', hle, ho'⟩ := own_sublist hd ho
    exact ⟨F', P, ho', hinv.shrink hle⟩
  | gc hg =>
    obtain ⟨F, P, ho, hinv⟩ := hw
    obtain ⟨P', hle, hp'⟩ := own_sublist hg hinv.pool
    refine ⟨F, P', ho, hp', Multiset.nodup_of_le (add_le_add_right hle F) hinv.nodup, ?_, hinv.below, (fun _ _ h => nomatch h), hinv.nofree⟩
    exact fun a ha => hinv.apart a (ha.imp id (Multiset.mem_of_le hle))
  | buffer b =>
    obtain ⟨F, P, ho, hinv⟩ := hw
    have hm : ∀ {I : List Item} {F : Multiset Addr}, OwnL S w.lent w.st.heap I F →
        OwnL S ⟨(· ∈ w.st.heap.length :: w.bufs), (· ∈ w.st.heap.length :: w.bufs)⟩ (w.st.heap ++ [.bytes b]) I F := fun h =>
      (OwnL.mono (B' := ⟨(· ∈ w.st.heap.length :: w.bufs), (· ∈ w.st.heap.length :: w.bufs)⟩) (fun _ ha => List.Mem.tail _ ha)
        (fun _ ha => List.Mem.tail _ ha) h).frame fun x hx => by rw [List.getElem?_append_left (h.inHeap x hx)]
    refine ⟨F, P, hm ho, hm hinv.pool, hinv.nodup, fun a ha hb => ?_, fun a ha => ?_, (fun _ _ h => nomatch h), hinv.nofree⟩
    · rcases List.mem_cons.mp hb with rfl | hb
      · rcases ha with ha | ha
        · exact Nat.lt_irrefl _ (ho.inHeap _ ha)
        · exact Nat.lt_irrefl _ (hinv.pool.inHeap _ ha)
      · exact hinv.apart a ha hb
    · rcases List.mem_cons.mp ha with rfl | ha
      · exact ⟨b, by simp⟩
      · obtain ⟨c, hc⟩ := hinv.below a ha
        exact ⟨c, by rw [List.getElem?_append_left (List.getElem?_eq_some_iff.mp hc).1, hc]⟩
  | fill a b ha =>
    obtain ⟨F, P, ho, hinv⟩ := hw
    refine ⟨F, P, ho.frame fun x hx => ?_, hinv.scribble ha id⟩
    have : a ≠ x := fun e => hinv.apart x (.inl hx) (e ▸ ha)
    exact List.getElem?_set_ne this

theorem reachable_inv {S : Schema} (hS : schemaOK S = true) {w : World} (h : WReach S w) : WInv S w := by
  induction h with
  | start =>
    refine ⟨0, 0, .done, .done, ?_, ?_, (fun _ h => nomatch h), (fun _ _ h => nomatch h), rfl⟩
    · simp
    · rintro a (h | h) <;> exact absurd h (Multiset.notMem_zero _)
  | step _ hs ih => exact step_inv hS ih hs


/-! ## Code that does not call the library -/

theorem Reach.trans {h : Heap} {a b c : Addr} (h1 : Reach h a b) (h2 : Reach h b c) : Reach h a c := by
  induction h1 with
  | here => exact h2
  | there hx hv ht _ ih => exact .there hx hv ht (ih h2)

theorem reach_inside {h : Heap} {X : Addr → Prop} (hX : ∀ x, X x → ∀ c, h[x]? = some c → ∀ v ∈ Cell.values c, ∀ y, HV.target v = some y → X y)
    {a x : Addr} (ha : X a) (hr : Reach h a x) : X x := by
  induction hr with
  | here => exact ha
  | there hx hv ht _ ih => exact ih (hX _ ha _ hx _ hv _ ht)

/-- Changes stay inside of every closed set. -/
theorem mutation_inside {A : Addr → Prop} {h h' : Heap} (hm : Mutation A h h') : ∀ {X : Addr → Prop}, (∀ a, A a → X a) → (∀ a, h.length ≤ a → X a) →
    (∀ x, X x → ∀ c, h[x]? = some c → ∀ v ∈ Cell.values c, ∀ y, HV.target v = some y → X y) → ∀ y, ¬ X y → h'[y]? = h[y]? := by
  induction hm with
  | done => exact fun _ _ _ _ _ => rfl
  | @write A h h' x c hx hc hs ih =>
    intro X hA hlen hcl y hy
    obtain ⟨a, ha, hr⟩ := hx
    have hXx : X x := reach_inside hcl (hA a ha) hr
    rw [ih hA (by simpa using hlen) (fun z hz d hd v hv w hw => ?_) y hy]
    · exact List.getElem?_set_ne fun e : x = y => hy (e ▸ hXx)
    · by_cases hzx : x = z
      · subst hzx
        have hlt : x < h.length := by simpa using (List.getElem?_eq_some_iff.mp hd).1
        rw [List.getElem?_set_self hlt] at hd
        cases hd
        obtain ⟨a', ha', hr'⟩ := hc v hv w hw
        exact reach_inside hcl (hA a' ha') hr'
      · rw [List.getElem?_set_ne hzx] at hd
        exact hcl z hz d hd v hv w hw
  | @alloc A h h' c hc hs ih =>
    intro X hA hlen hcl y hy
    have hylt : y < h.length := Nat.lt_of_not_le fun hle => hy (hlen y hle)
    rw [ih (fun a ha => ?_) (fun a ha => ?_) (fun z hz d hd v hv w hw => ?_) y hy, List.getElem?_append_left hylt]
    · rcases ha with ha | rfl
      · exact hA a ha
      · exact hlen _ le_rfl
    · exact hlen a (le_trans (by simp) ha)
    · rcases Nat.lt_trichotomy z h.length with hlt | rfl | hgt
      · rw [List.getElem?_append_left hlt] at hd
        exact hcl z hz d hd v hv w hw
      · simp only [List.getElem?_concat_length, Option.some.injEq] at hd
        subst hd
        obtain ⟨a', ha', hr'⟩ := hc v hv w hw
        exact reach_inside hcl (hA a' ha') hr'
      · rw [List.getElem?_eq_none (by simp; omega)] at hd
        cases hd

/-- Code with a pointer to `a` cannot change what cannot be reached from `a`. -/
theorem mutation_reach {a : Addr} {h h' : Heap} (hm : Mutation (· = a) h h') {y : Addr} (hy : y < h.length) (hn : ¬ Reach h a y) : h'[y]? = h[y]? := by
  refine mutation_inside hm (X := fun x => Reach h a x ∨ h.length ≤ x) ?_ (fun _ h => .inr h) ?_ y ?_
  · rintro _ rfl
    exact .inl (.here _)
  · rintro x (hx | hx) c hc v hv z hz
    · exact .inl (Reach.trans hx (.there hc hv hz (.here _)))
    · rw [List.getElem?_eq_none hx] at hc
      cases hc
  · rintro (h1 | h1)
    · exact hn h1
    · exact Nat.not_lt.mpr h1 hy

/-! ## Messages without memory of others -/

theorem own_strict {S : Schema} {B : Lent} {h : Heap} {I : List Item} {F : Multiset Addr} (ho : OwnL S B h I F) :
    (∀ it ∈ I, plain it.1 = true) → (∀ it ∈ I, ∀ a, HV.target it.2 = some a → ∀ x, Reach h a x → ¬ B.byt x) →
    OwnL S ⟨B.str, fun _ => False⟩ h I F := by
  have split : ∀ {I J : List Item} {P : Item → Prop}, (∀ x ∈ J, P x) → (∀ x ∈ I, P x) → ∀ x ∈ J ++ I, P x := by
    intro I J P h1 h2 x hx
    exact (List.mem_append.mp hx).elim (h1 x) (h2 x)
  have sub : ∀ {a : Addr} {c : Cell} {J : List Item}, (∀ x, Reach h a x → ¬ B.byt x) → h[a]? = some c → (∀ it ∈ J, it.2 ∈ Cell.values c) →
      ∀ it ∈ J, ∀ b, HV.target it.2 = some b → ∀ x, Reach h b x → ¬ B.byt x := by
    intro a c J hr hc hJ it hit b hb x hx
    exact hr x (.there hc (hJ it hit) hb hx)
  induction ho with
  | done => intro _ _; exact .done
  | nil ht _ ih => intro hp hr; exact .nil ht (ih (fun x hx => hp x (.tail _ hx)) fun x hx => hr x (.tail _ hx))
  | num _ ih => intro hp hr; exact .num (ih (fun x hx => hp x (.tail _ hx)) fun x hx => hr x (.tail _ hx))
  | str _ ih => intro hp hr; exact .str (ih (fun x hx => hp x (.tail _ hx)) fun x hx => hr x (.tail _ hx))
  | view ha _ ih => intro hp hr; exact .view ha (ih (fun x hx => hp x (.tail _ hx)) fun x hx => hr x (.tail _ hx))
  | is _ ih => intro hp; exact nomatch hp _ (.head _)
  | wrapNil _ ih => intro hp hr; exact .wrapNil (ih (fun x hx => hp x (.tail _ hx)) fun x hx => hr x (.tail _ hx))
  | lent ha _ ih => intro hp hr; exact absurd ha (hr _ (.head _) _ rfl _ (.here _))
  | bytes hc _ ih => intro hp hr; exact .bytes hc (ih (fun x hx => hp x (.tail _ hx)) fun x hx => hr x (.tail _ hx))
  | mem hc _ ih => intro hp hr; exact .mem hc (ih (fun x hx => hp x (.tail _ hx)) fun x hx => hr x (.tail _ hx))
  | foreign hf hc _ ih => intro hp hr; exact .foreign hf hc (ih (fun x hx => hp x (.tail _ hx)) fun x hx => hr x (.tail _ hx))
  | @box a v I F hc _ ih =>
    intro hp hr
    refine .box hc (ih (split (J := [_]) ?_ fun x hx => hp x (.tail _ hx)) (split (J := [_]) ?_ fun x hx => hr x (.tail _ hx)))
    · intro x hx; rw [List.mem_singleton.mp hx]; rfl
    · exact sub (hr _ (.head _) _ rfl) hc (fun x hx => by rw [List.mem_singleton.mp hx]; simp [Cell.values])
  | @msg t a slots u e I F hf hc hl _ ih =>
    intro hp hr
    have hre : ∀ (J : List Item), (slotTys (S.msg t)).zip slots ++ (.mem, u) :: J = ((slotTys (S.msg t)).zip slots ++ [(.mem, u)]) ++ J := by simp
    refine .msg hf hc hl ?_
    rw [hre] at ih
    rw [hre]
    refine ih (split ?_ fun x hx => hp x (.tail _ hx)) (split ?_ fun x hx => hr x (.tail _ hx))
    · refine split (fun x hx => ?_) fun x hx => by rw [List.mem_singleton.mp hx]; rfl
      have := (List.of_mem_zip (a := x.1) (b := x.2) hx).1
      simp only [slotTys, List.mem_map] at this
      obtain ⟨s, -, hs⟩ := this
      rw [← hs]
      exact slotTy_plain _ _
    · refine sub (hr _ (.head _) _ rfl) hc (split (fun x hx => ?_) fun x hx => by rw [List.mem_singleton.mp hx]; simp [Cell.values])
      exact List.mem_cons_of_mem _ (List.of_mem_zip (a := x.1) (b := x.2) hx).2
  | obj _ _ _ _ => intro hp; exact nomatch hp _ (.head _)
  | @list ty a len xs I F hc hl _ ih =>
    intro hp hr
    have hty : plain ty = true := hp (.list ty, .slice a len) (.head _)
    refine .list hc hl (ih (split ?_ fun x hx => hp x (.tail _ hx)) (split ?_ fun x hx => hr x (.tail _ hx)))
    · intro x hx; obtain ⟨y, -, rfl⟩ := List.mem_map.mp hx; exact hty
    · exact sub (hr _ (.head _) _ rfl) hc (fun x hx => by obtain ⟨y, hy, rfl⟩ := List.mem_map.mp hx; exact hy)
  | hole _ _ _ _ _ => intro hp; exact nomatch hp _ (.head _)
  | @map ty a es I F hc _ ih =>
    intro hp hr
    have hty : plain ty = true := hp (.map ty, .ptr a) (.head _)
    refine .map hc (ih (split ?_ fun x hx => hp x (.tail _ hx)) (split ?_ fun x hx => hr x (.tail _ hx)))
    · intro x hx; obtain ⟨y, -, rfl⟩ := List.mem_map.mp hx; exact hty
    · exact sub (hr _ (.head _) _ rfl) hc (fun x hx => by
        obtain ⟨y, hy, rfl⟩ := List.mem_map.mp hx
        exact List.mem_map.mpr ⟨y, hy, rfl⟩)
  | @oneof d slot n f a v I F hc hm _ ih =>
    intro hp hr
    refine .oneof hc hm (ih (split (J := [_]) ?_ fun x hx => hp x (.tail _ hx)) (split (J := [_]) ?_ fun x hx => hr x (.tail _ hx)))
    · intro x hx; rw [List.mem_singleton.mp hx]; exact elemTy_plain _ _
    · exact sub (hr _ (.head _) _ rfl) hc (fun x hx => by rw [List.mem_singleton.mp hx]; simp [Cell.values])
  | wrap _ _ _ => intro hp; exact nomatch hp _ (.head _)
  | raw _ _ _ => intro hp; exact nomatch hp _ (.head _)

/-- No buffer can be changed through these messages. -/
def Pure (w : World) (L : List (Nat × Addr)) : Prop := ∀ q ∈ L, ∀ x, Reach w.st.heap q.2 x → x ∉ w.bufs

theorem own_pure {S : Schema} {w : World} {L : List (Nat × Addr)} {F : Multiset Addr} (ho : OwnL S w.lent w.st.heap (msgItems L) F) (hp : Pure w L) :
    OwnL S ⟨(· ∈ w.bufs), fun _ => False⟩ w.st.heap (msgItems L) F := by
  refine own_strict ho plain_msgs fun it hit a ha x hx => ?_
  obtain ⟨q, hq, rfl⟩ := List.mem_map.mp hit
  cases ha
  exact hp q hq x hx

/-! ## Clones -/

theorem clone_run {S : Schema} (hS : schemaOK S = true) {w : World} (hw : WInv S w) {E : HKEnv} {t : Nat} {a : Addr} (ha : (Op.clone E t a).allowed S w)
    {β : Addr → Prop} (hβ : ∀ a, β a → a ∈ w.bufs) (hpool : ∀ {P}, OwnL S w.lent w.st.heap (msgItems w.st.pool) P → OwnL S ⟨(· ∈ w.bufs), β⟩ w.st.heap (msgItems w.st.pool) P)
    {σ : HState} {v : HV} (hrun : hcloneVT E t (.ptr a) w.st = (σ, .ok v)) :
    ∃ F F', OwnL S w.lent w.st.heap (msgItems w.held) F ∧ OwnL S ⟨(· ∈ w.bufs), β⟩ σ.heap [(.msg t, v)] F' ∧ (∀ x ∈ F', x ∉ F ∧ x ∉ w.bufs) ∧ (∀ x ∈ F, x ∉ w.bufs) ∧
      (∀ x, (x ∈ F ∨ x ∈ w.bufs) → σ.heap[x]? = w.st.heap[x]? ∧ x < w.st.heap.length) ∧ FlatLent w.lent w.st.heap := by
  obtain ⟨F, P, ho, hinv⟩ := hw
  let C : Ctx := ⟨S, ⟨(· ∈ w.bufs), β⟩, fun a c => w.st.heap[a]? = some c ∧ (a ∈ F ∨ a ∈ w.bufs), True⟩
  have hinv' : Inv C w.st 0 P := by
    refine ⟨hpool hinv.pool, ?_, fun a ha hb => ?_, fun a ha => hinv.below a (hβ a ha), ?_, hinv.nofree⟩
    · exact Multiset.nodup_of_le (add_le_add_left (Multiset.zero_le F) P) hinv.nodup
    · exact hinv.apart a (ha.imp (fun h => absurd h (Multiset.notMem_zero _)) id) (hβ a hb)
    · rintro a c ⟨hc, h2 | hb⟩
      · exact ⟨hc, Multiset.notMem_zero _, fun hp => Multiset.disjoint_left.mp (Multiset.nodup_add.mp hinv.nodup).2.2 h2 hp, fun _ => trivial⟩
      · exact ⟨hc, Multiset.notMem_zero _, fun h1 => hinv.apart a (.inr h1) hb, fun _ => trivial⟩
  have horig : Orig C w.lent w.st.heap [(.msg t, .ptr a)] := by
    obtain ⟨F', hle, hF'⟩ := own_sub ho (q := (t, a)) ha.1
    exact ⟨F', hF', fun x hx c hc => ⟨hc, .inl (Multiset.mem_of_le hle hx)⟩⟩
  have htri := tri_cloneVT (C := C) (B0 := w.lent) (h0 := w.st.heap) (E := E) ⟨ha.2.2, hS, fun _ h => h⟩ ha.2.1 horig
  obtain ⟨F', P', hinv2, hok, -⟩ := htri [] w.st 0 P .done hinv'
  rw [hrun] at hinv2 hok
  have hlen : ∀ x, (x ∈ F ∨ x ∈ w.bufs) → x < w.st.heap.length := by
    rintro x (hx | hx)
    · exact ho.inHeap x hx
    · obtain ⟨b, hb⟩ := hinv.below x hx
      exact (List.getElem?_eq_some_iff.mp hb).1
  have hfix : ∀ x, (x ∈ F ∨ x ∈ w.bufs) → σ.heap[x]? = w.st.heap[x]? ∧ x ∉ F' := by
    intro x hx
    have hc : w.st.heap[x]? = some (w.st.heap[x]'(hlen x hx)) := List.getElem?_eq_getElem _
    have := hinv2.fixed x _ ⟨hc, hx⟩
    exact ⟨by rw [this.1, hc], this.2.1⟩
  refine ⟨F, F', ho, by simpa using hok v rfl, fun x hx => ⟨fun h => (hfix x (.inl h)).2 hx, fun h => (hfix x (.inr h)).2 hx⟩, fun x hx => hinv.apart x (.inl hx),
    fun x hx => ⟨(hfix x hx).1, hlen x hx⟩, hinv.below⟩

/-! ## What operations leave alone -/

/-- What is owned can be reached. -/
theorem own_covers {S : Schema} {B : Lent} {h : Heap} {I : List Item} {F : Multiset Addr} (ho : OwnL S B h I F) :
    (∀ it ∈ I, plain it.1 = true) → ∀ x ∈ F, ∃ it ∈ I, ∃ a, HV.target it.2 = some a ∧ Reach h a x := by
  have split : ∀ {I J : List Item} {P : Item → Prop}, (∀ x ∈ J, P x) → (∀ x ∈ I, P x) → ∀ x ∈ J ++ I, P x := by
    intro I J P h1 h2 x hx
    exact (List.mem_append.mp hx).elim (h1 x) (h2 x)
  have skip : ∀ {I : List Item} {it : Item} {x : Addr}, (∃ i ∈ I, ∃ a, HV.target i.2 = some a ∧ Reach h a x) →
      ∃ i ∈ it :: I, ∃ a, HV.target i.2 = some a ∧ Reach h a x := by
    rintro I it x ⟨i, hi, r⟩
    exact ⟨i, .tail _ hi, r⟩
  have obj : ∀ {I J : List Item} {F : Multiset Addr} {a : Addr} {c : Cell} {it : Item}, h[a]? = some c → HV.target it.2 = some a →
      (∀ i ∈ J, i.2 ∈ Cell.values c) → (∀ x ∈ F, ∃ i ∈ J ++ I, ∃ a, HV.target i.2 = some a ∧ Reach h a x) →
      ∀ x ∈ a ::ₘ F, ∃ i ∈ it :: I, ∃ a, HV.target i.2 = some a ∧ Reach h a x := by
    intro I J F a c it hc ht hJ hF x hx
    rcases Multiset.mem_cons.mp hx with rfl | hx
    · exact ⟨it, .head _, x, ht, .here _⟩
    · obtain ⟨i, hi, b, hb, hr⟩ := hF x hx
      rcases List.mem_append.mp hi with hi | hi
      · exact ⟨it, .head _, a, ht, .there hc (hJ i hi) hb hr⟩
      · exact ⟨i, .tail _ hi, b, hb, hr⟩
  induction ho with
  | done => intro _ x hx; exact absurd hx (Multiset.notMem_zero _)
  | nil ht _ ih => intro hp x hx; exact skip (ih (fun x hx => hp x (.tail _ hx)) x hx)
  | num _ ih => intro hp x hx; exact skip (ih (fun x hx => hp x (.tail _ hx)) x hx)
  | str _ ih => intro hp x hx; exact skip (ih (fun x hx => hp x (.tail _ hx)) x hx)
  | view ha _ ih => intro hp x hx; exact skip (ih (fun x hx => hp x (.tail _ hx)) x hx)
  | is _ ih => intro hp; exact nomatch hp _ (.head _)
  | wrapNil _ ih => intro hp x hx; exact skip (ih (fun x hx => hp x (.tail _ hx)) x hx)
  | lent ha _ ih => intro hp x hx; exact skip (ih (fun x hx => hp x (.tail _ hx)) x hx)
  | bytes hc _ ih => intro hp; exact obj (J := []) hc rfl (fun _ h => nomatch h) (ih fun x hx => hp x (.tail _ hx))
  | mem hc _ ih => intro hp; exact obj (J := []) hc rfl (fun _ h => nomatch h) (ih fun x hx => hp x (.tail _ hx))
  | foreign hf hc _ ih => intro hp; exact obj (J := []) hc rfl (fun _ h => nomatch h) (ih fun x hx => hp x (.tail _ hx))
  | @box a v I F hc _ ih =>
    intro hp
    refine obj (J := [_]) hc rfl (fun x hx => by rw [List.mem_singleton.mp hx]; simp [Cell.values]) (ih (split (J := [_]) ?_ fun x hx => hp x (.tail _ hx)))
    intro x hx; rw [List.mem_singleton.mp hx]; rfl
  | @msg t a slots u e I F hf hc hl _ ih =>
    intro hp
    have hre : ∀ (J : List Item), (slotTys (S.msg t)).zip slots ++ (.mem, u) :: J = ((slotTys (S.msg t)).zip slots ++ [(.mem, u)]) ++ J := by simp
    rw [hre] at ih
    refine obj hc rfl (split (fun x hx => ?_) fun x hx => by rw [List.mem_singleton.mp hx]; simp [Cell.values])
      (ih (split ?_ fun x hx => hp x (.tail _ hx)))
    · exact List.mem_cons_of_mem _ (List.of_mem_zip (a := x.1) (b := x.2) hx).2
    · refine split (fun x hx => ?_) fun x hx => by rw [List.mem_singleton.mp hx]; rfl
      have := (List.of_mem_zip (a := x.1) (b := x.2) hx).1
      simp only [slotTys, List.mem_map] at this
      obtain ⟨s, -, hs⟩ := this
      rw [← hs]
      exact slotTy_plain _ _
  | obj _ _ _ _ => intro hp; exact nomatch hp _ (.head _)
  | @list ty a len xs I F hc hl _ ih =>
    intro hp
    have hty : plain ty = true := hp (.list ty, .slice a len) (.head _)
    refine obj hc rfl (fun x hx => by obtain ⟨y, hy, rfl⟩ := List.mem_map.mp hx; exact hy) (ih (split ?_ fun x hx => hp x (.tail _ hx)))
    intro x hx; obtain ⟨y, -, rfl⟩ := List.mem_map.mp hx; exact hty
  | hole _ _ _ _ _ => intro hp; exact nomatch hp _ (.head _)
  | @map ty a es I F hc _ ih =>
    intro hp
    have hty : plain ty = true := hp (.map ty, .ptr a) (.head _)
    refine obj hc rfl (fun x hx => by
      obtain ⟨y, hy, rfl⟩ := List.mem_map.mp hx
      exact List.mem_map.mpr ⟨y, hy, rfl⟩) (ih (split ?_ fun x hx => hp x (.tail _ hx)))
    intro x hx; obtain ⟨y, -, rfl⟩ := List.mem_map.mp hx; exact hty
  | @oneof d slot n f a v I F hc hm _ ih =>
    intro hp
    refine obj (J := [_]) hc rfl (fun x hx => by rw [List.mem_singleton.mp hx]; simp [Cell.values]) (ih (split (J := [_]) ?_ fun x hx => hp x (.tail _ hx)))
    intro x hx; rw [List.mem_singleton.mp hx]; exact elemTy_plain _ _
  | wrap _ _ _ => intro hp; exact nomatch hp _ (.head _)
  | raw _ _ _ => intro hp; exact nomatch hp _ (.head _)

theorem own_unreached {S : Schema} {B : Lent} {h : Heap} {L : List (Nat × Addr)} {F : Multiset Addr} (ho : OwnL S B h (msgItems L) F) {x : Addr}
    (hr : ∀ q ∈ L, ¬ Reach h q.2 x) : x ∉ F := by
  intro hx
  obtain ⟨it, hit, a, ha, hra⟩ := own_covers ho plain_msgs x hx
  obtain ⟨q, hq, rfl⟩ := List.mem_map.mp hit
  cases ha
  exact hr q hq hra

theorem exec_st {S : Schema} {w : World} {op : Op} : (w.exec S op).st = (op.run S w.st).1 := by
  unfold World.exec
  rcases op.run S w.st with ⟨σ, r⟩
  cases r <;> rfl

/-- Operations change nothing outside of the messages they are called on, the pools and the buffers. -/
theorem exec_frame {S : Schema} (hS : schemaOK S = true) {w : World} (hw : WInv S w) {op : Op} (ha : op.allowed S w) {x : Addr} (hx : x < w.st.heap.length)
    (hr : ∀ q ∈ op.takes ++ w.st.pool, ¬ Reach w.st.heap q.2 x) (hb : x ∉ w.bufs) : (w.exec S op).st.heap[x]? = w.st.heap[x]? := by
  obtain ⟨F, P, ho, hinv⟩ := hw
  have ho' : OwnL S w.lent w.st.heap (msgItems op.takes ++ msgItems (w.others op)) F := by
    rw [← List.map_append]
    exact ho.perm ((takes_perm ha).map _)
  obtain ⟨F1, F2, rfl, o1, o2⟩ := OwnL.append_iff.mp ho'
  have hP : ∀ a ∈ F1 + F2, a ∉ P := fun a h => Multiset.disjoint_left.mp (Multiset.nodup_add.mp hinv.nodup).2.2 h
  let C : Ctx := ⟨S, w.lent, fun a c => w.st.heap[a]? = some c ∧ a ∉ F1 ∧ a ∉ P ∧ a ∉ w.bufs, False⟩
  have hinv' : Inv C w.st F1 P := by
    refine ⟨hinv.pool, ?_, fun a ha => hinv.apart a (ha.imp (fun h => Multiset.mem_add.mpr (.inl h)) id), hinv.below, ?_, hinv.nofree⟩
    · exact Multiset.nodup_of_le (add_le_add_left (Multiset.le_add_right F1 F2) P) hinv.nodup
    · rintro a c ⟨hc, h1, h2, h3⟩
      exact ⟨hc, h1, h2, fun h => absurd h h3⟩
  have hlk : Op.lockOK S C op := by
    cases op with
    | decode E t b a => exact fun t' f hf hl => hl.elim
    | _ => trivial
  have horig : Op.origOK C w.lent w.st.heap op := by
    cases op with
    | clone E t a =>
      refine ⟨?_, fun _ h => h⟩
      obtain ⟨F', hle, hF'⟩ := own_sub o2 (q := (t, a)) ha.1
      refine ⟨F', hF', fun x hx c hc => ⟨hc, ?_⟩⟩
      have hx2 : x ∈ F2 := Multiset.mem_of_le hle hx
      exact ⟨fun h1 => Multiset.disjoint_left.mp (Multiset.nodup_add.mp (Multiset.nodup_add.mp hinv.nodup).1).2.2 h1 hx2,
        hP x (Multiset.mem_add.mpr (.inr hx2)), fun h => hinv.apart x (.inl (Multiset.mem_add.mpr (.inr hx2))) h⟩
    | _ => trivial
  have htri := op_tri hS ha (C := C) rfl (fun a ha => ⟨ha, ha⟩) hlk horig
  obtain ⟨F', P', hinv2, -, -⟩ := htri [] w.st F1 P (by simpa using o1) hinv'
  have hc : w.st.heap[x]? = some w.st.heap[x] := List.getElem?_eq_getElem hx
  have h1 : x ∉ F1 := own_unreached o1 fun q hq => hr q (List.mem_append_left _ hq)
  have h2 : x ∉ P := own_unreached hinv.pool fun q hq => hr q (List.mem_append_right _ hq)
  rw [exec_st, (hinv2.fixed x _ ⟨hc, h1, h2, hb⟩).1, hc]

/-- Decoding with copies into a message without lent memory, the pools having none either, leaves the buffers alone. -/
theorem decode_pure {S : Schema} (hS : schemaOK S = true) {w : World} (hw : WInv S w) {E : HEnv} {t : Nat} {b : Bytes} {a : Addr}
    (ha : (Op.decode E t b a).allowed S w) (hal : E.aliasing = false) (hp : Pure w ((t, a) :: w.st.pool)) :
    ∀ x ∈ w.bufs, (w.exec S (.decode E t b a)).st.heap[x]? = w.st.heap[x]? := by
  intro x hx
  obtain ⟨F, P, ho, hinv⟩ := hw
  obtain ⟨F1, hle, o1⟩ := own_sub ho (q := (t, a)) ha.1
  have hap : ∀ a, a ∈ F1 ∨ a ∈ P → a ∉ w.bufs := fun a ha => hinv.apart a (ha.imp (Multiset.mem_of_le hle) id)
  let C : Ctx := ⟨S, ⟨(· ∈ w.bufs), fun _ => False⟩, fun a c => w.st.heap[a]? = some c ∧ a ∈ w.bufs, True⟩
  have hinv' : Inv C w.st F1 P := by
    refine ⟨own_pure hinv.pool fun q hq => hp q (.tail _ hq), ?_, fun _ _ h => h, (fun _ h => nomatch h), ?_, hinv.nofree⟩
    · exact Multiset.nodup_of_le (add_le_add_left hle P) hinv.nodup
    · rintro a c ⟨hc, hb⟩
      exact ⟨hc, fun h => hap a (.inl h) hb, fun h => hap a (.inr h) hb, fun h => h.elim⟩
  have o1' : OwnL S ⟨(· ∈ w.bufs), fun _ => False⟩ w.st.heap (msgItems [(t, a)]) F1 :=
    own_pure (L := [(t, a)]) o1 fun q hq => by rw [List.mem_singleton.mp hq]; exact hp _ (.head _)
  have htri := tri_unmarshalVT (C := C) (E := E) (b := b) (p := .ptr a) ⟨ha.2.2.1, hS, (fun h => by rw [hal] at h; cases h), fun _ _ _ _ _ _ _ _ _ h => h⟩ ha.2.1
  obtain ⟨F', P', hinv2, -, -⟩ := htri [] w.st F1 P (by simpa using o1') hinv'
  obtain ⟨d, hd⟩ := hinv.below x hx
  have := (hinv2.fixed x _ ⟨hd, hx⟩).1
  have hst : ((Op.decode E t b a).run S w.st).1 = (hunmarshalVT E t b (.ptr a) w.st).1 := by
    show ((hunmarshalVT E t b (.ptr a) >>= fun _ => pure [(t, a)]) w.st).1 = _
    simp only [bind, HM.bind, pure]
    rcases hunmarshalVT E t b (.ptr a) w.st with ⟨σ, r⟩
    cases r <;> rfl
  rw [exec_st, hst, this, hd]

end Vtp
