import Verif.Lemmas.HeapRep
import Verif.Lemmas.HeapDecode
/-! # Code on memory and code on values, side by side -/

namespace Vtp
open Spec

/-- An object. -/
abbrev rawItem (c : Cell) (a : Addr) : VItem := (.raw c, .ptr a, .nil)

section
variable {S : Schema} {B : Bufs} {σ : HState} {I J R : List VItem}

theorem Spec.VGood.shrink {F F' : Multiset Addr} (hg : VGood B σ F) (hl : F' ≤ F) : VGood B σ F' :=
  ⟨Multiset.nodup_of_le hl hg.nodup, fun a ha => hg.apart a (Multiset.mem_of_le hl ha), hg.fixed,
    hg.free.1, fun a ha => ⟨(hg.free.2 a ha).1, fun h => (hg.free.2 a ha).2.1 (Multiset.mem_of_le hl h), (hg.free.2 a ha).2.2⟩⟩

/-- Other pools. -/
theorem Spec.VGood.same {σ' : HState} {F : Multiset Addr} (hg : VGood B σ F) (hh : σ'.heap = σ.heap) (hf : σ'.free = σ.free) : VGood B σ' F :=
  ⟨hg.nodup, hg.apart, hh ▸ hg.fixed, by rw [hf, hh]; exact hg.free⟩

theorem Spec.Holds.same {σ' : HState} (h : Holds S B σ I) (hh : σ'.heap = σ.heap) (hf : σ'.free = σ.free) : Holds S B σ' I := by
  obtain ⟨F, h1, h2⟩ := h
  exact ⟨F, hh ▸ h1, h2.same hh hf⟩

theorem Spec.Holds.perm (h : Holds S B σ I) (hp : I.Perm J) : Holds S B σ J := by
  obtain ⟨F, h1, h2⟩ := h
  exact ⟨F, h1.perm hp, h2⟩

theorem Spec.Holds.dropLeft (h : Holds S B σ (I ++ J)) : Holds S B σ J := by
  obtain ⟨F, h1, h2⟩ := h
  obtain ⟨F1, F2, rfl, -, o2⟩ := RepL.append_iff.mp h1
  exact ⟨F2, o2, h2.shrink (Multiset.le_add_left _ _)⟩

theorem Spec.Holds.tail {x : VItem} (h : Holds S B σ (x :: I)) : Holds S B σ I := Spec.Holds.dropLeft (I := [x]) h

theorem Spec.Holds.drop2 {x y : VItem} (h : Holds S B σ (x :: y :: I)) : Holds S B σ (x :: I) :=
  (h.perm (List.Perm.swap y x I)).tail

theorem Spec.Holds.swap {x y : VItem} (h : Holds S B σ (x :: y :: I)) : Holds S B σ (y :: x :: I) := h.perm (List.Perm.swap y x I)

theorem Spec.Holds.read {c : Cell} {a : Addr} (h : Holds S B σ (rawItem c a :: I)) : σ.heap[a]? = some c := by
  obtain ⟨F, h1, -⟩ := h
  cases h1 with
  | raw hc _ => exact hc

theorem Spec.Holds.write {c : Cell} {a : Addr} (h : Holds S B σ (rawItem c a :: I)) (c' : Cell) :
    Holds S B { σ with heap := σ.heap.set a c' } (rawItem c' a :: I) := by
  obtain ⟨F, h1, hg⟩ := h
  cases h1 with
  | raw hc hI =>
    rename_i F
    have hn := Multiset.nodup_cons.mp hg.nodup
    refine ⟨a ::ₘ F, .raw (by simp [(List.getElem?_eq_some_iff.mp hc).1]) (hI.frame fun b hb => ?_), hg.nodup, hg.apart, fun b c hb => ?_,
      hg.free.1, fun b hb => ⟨?_, (hg.free.2 b hb).2⟩⟩
    · have : a ≠ b := fun e => hn.1 (e ▸ hb)
      simp [List.getElem?_set, this]
    · have : a ≠ b := fun e => by
        have := hg.apart a (by simp)
        rw [e, hb] at this
        cases this
      simpa [List.getElem?_set, this] using hg.fixed b c hb
    · have h2 := hg.free.2 b hb
      have : a ≠ b := fun e => h2.2.1 (e ▸ Multiset.mem_cons_self _ _)
      simpa [List.getElem?_set, this] using h2.1

/-- The place for the next object is not in use. -/
theorem Spec.VGood.next {F : Multiset Addr} (hg : VGood B σ F) (hF : ∀ a ∈ F, a < σ.heap.length) : σ.next ∉ F ∧ B.mem σ.next = none ∧ σ.next ∉ σ.free.tail := by
  have hout : σ.heap.length ∉ F ∧ B.mem σ.heap.length = none := by
    refine ⟨fun hm => Nat.lt_irrefl _ (hF _ hm), ?_⟩
    cases hm : B.mem σ.heap.length with
    | none => rfl
    | some c =>
      have := (List.getElem?_eq_some_iff.mp (hg.fixed _ _ hm)).1
      exact absurd this (Nat.lt_irrefl _)
  unfold HState.next
  cases hf : σ.free with
  | nil => exact ⟨hout.1, hout.2, List.not_mem_nil⟩
  | cons a fs =>
    have h1 := hg.free
    rw [hf] at h1
    obtain ⟨h2, h3, h4⟩ := h1.2 a (.head _)
    simp only [h2, if_true]
    exact ⟨h3, h4, (List.nodup_cons.mp h1.1).1⟩

theorem Spec.Holds.alloc (h : Holds S B σ I) (c : Cell) : Holds S B (σ.grow c) (rawItem c σ.next :: I) := by
  obtain ⟨F, h1, hg⟩ := h
  obtain ⟨n1, n2, n3⟩ := hg.next h1.inHeap
  have hne : ∀ b ∈ F, b ≠ σ.next := fun b hb e => n1 (e ▸ hb)
  refine ⟨σ.next ::ₘ F, .raw (σ.grow_next c) (h1.frame fun b hb => σ.grow_old c (h1.inHeap b hb) (hne b hb)), ?_, ?_, fun b c hb => ?_, ?_, fun b hb => ?_⟩
  · rw [Multiset.nodup_cons]
    exact ⟨n1, hg.nodup⟩
  · intro a ha
    rcases Multiset.mem_cons.mp ha with rfl | ha
    · exact n2
    · exact hg.apart a ha
  · have h2 := hg.fixed b c hb
    rw [σ.grow_old _ (List.getElem?_eq_some_iff.mp h2).1 (fun e => by rw [e, n2] at hb; cases hb)]
    exact h2
  · exact hg.free.1.sublist (List.tail_sublist _)
  · obtain ⟨h2, h3, h4⟩ := hg.free.2 b (List.mem_of_mem_tail hb)
    refine ⟨?_, fun hm => ?_, h4⟩
    · rw [σ.grow_old _ (List.getElem?_eq_some_iff.mp h2).1 (fun e => n3 (e ▸ hb))]
      exact h2
    · rcases Multiset.mem_cons.mp hm with rfl | hm
      · exact n3 hb
      · exact h3 hm

/-- A buffer is written to. -/
theorem Spec.Holds.refill {mem : Addr → Option Bytes} {now now' : Addr → Bytes} {byt : Prop} {a : Addr} (h : Holds S ⟨mem, now, byt⟩ σ I) (ha : mem a ≠ none)
    (hk : ∀ b, b ≠ a → mem b ≠ none → now' b = now b) : Holds S ⟨mem, now', byt⟩ { σ with heap := σ.heap.set a (.bytes (now' a)) } I := by
  obtain ⟨F, h1, hg⟩ := h
  refine ⟨F, (h1.frame fun b hb => ?_).buf rfl id, hg.nodup, hg.apart, fun b c hb => ?_, hg.free.1, fun b hb => ⟨?_, (hg.free.2 b hb).2⟩⟩
  · have : a ≠ b := fun e => ha (e ▸ hg.apart b hb)
    simp [List.getElem?_set, this]
  · have hx := hg.fixed b c hb
    by_cases e : a = b
    · subst e
      have := (List.getElem?_eq_some_iff.mp hx).1
      simp [this]
    · have hn := hk b (Ne.symm e) (by rw [show mem b = _ from hb]; simp)
      simp only [List.getElem?_set, e, if_false, hn]
      exact hx
  · have h2 := hg.free.2 b hb
    have : a ≠ b := fun e => ha (e ▸ h2.2.2)
    simpa [List.getElem?_set, this] using h2.1

/-- A step on representations. -/
theorem Spec.Holds.map (h : Holds S B σ I) (hm : ∀ F, RepL S B σ.heap I F → ∃ F', F' ≤ F ∧ RepL S B σ.heap J F') : Holds S B σ J := by
  obtain ⟨F, h1, hg⟩ := h
  obtain ⟨F', hl, h2⟩ := hm F h1
  exact ⟨F', h2, hg.shrink hl⟩

/-- The items of an array or a message, and the rest. -/
theorem Spec.Holds.addNil {ty : Ty} (ht : ty.nilable = true) (h : Holds S B σ I) : Holds S B σ ((ty, .nil, .nil) :: I) :=
  h.map fun F hr => ⟨F, le_rfl, .nil ht hr⟩

theorem Spec.Holds.addNum {n : BitVec 64} (h : Holds S B σ I) : Holds S B σ ((.flat, .num n, .num n) :: I) :=
  h.map fun F hr => ⟨F, le_rfl, .num hr⟩

theorem Spec.Holds.addNils {ty : Ty} (ht : ty.nilable = true) (n : Nat) (h : Holds S B σ I) :
    Holds S B σ ((List.replicate n (HV.nil, Val.nil)).map (fun x => (ty, x)) ++ I) := by
  induction n with
  | zero => simpa using h
  | succ n ih => simpa [List.replicate_succ] using Spec.Holds.addNil ht ih

theorem Spec.Holds.isNil {ty : Ty} {x : HV} {v : Val} (hty : ∀ c, ty ≠ .raw c) (h : Holds S B σ ((ty, x, v) :: I)) : x.isNil = v.isNil := by
  obtain ⟨F, h1, -⟩ := h
  cases h1 with
  | box hc hx hI =>
    cases hI with
    | nil _ _ => exact absurd rfl hx
    | num _ => rfl
    | str _ => rfl
    | view _ _ => rfl
  | foreign hf hc hv _ =>
    cases v <;> first | rfl | exact absurd rfl hv
  | raw _ _ => exact absurd rfl (hty _)
  | _ => rfl

/-! ## Messages as objects -/

/-- A message in memory with one struct field left out. -/
structure Obj where
  a : Addr
  A : List VItem
  D : List VItem
  u : HV
  uv : Val
  e : Bytes

/-- The object, with `s` in that field. -/
def Obj.cell (O : Obj) (s : HV) : Cell := .msg (O.A.map (·.2.1) ++ s :: O.D.map (·.2.1)) O.u O.e

/-- What the object stands for, with `v` in that field. -/
def Obj.val (O : Obj) (v : Val) : Val := .msg (O.A.map (·.2.2) ++ v :: O.D.map (·.2.2)) O.uv.bytes O.e

/-- Everything else in the object. -/
def Obj.rest (O : Obj) : List VItem := O.A ++ O.D ++ [(.mem, O.u, O.uv)]

/-- It is the struct field of field `f`. -/
structure Obj.OK (O : Obj) (d : MsgDesc) (f : FieldDesc) : Prop where
  slot : O.A.length = f.slot
  tys : O.A.map (·.1) ++ fieldTy d f :: O.D.map (·.1) = slotTys d

variable {t : Nat} {f : FieldDesc}

theorem Spec.Holds.openMsg {p : HV} {m : Val} (h : Holds S B σ ((.msg t, p, m) :: R)) (hf : (S.msg t).foreign = false) :
    (p = .nil ∧ m = .nil ∧ Holds S B σ R) ∨ ∃ (a : Addr) (its : List VItem) (u : HV) (uv : Val) (e : Bytes), p = .ptr a ∧ m = .msg (its.map (·.2.2)) uv.bytes e ∧
      its.map (·.1) = slotTys (S.msg t) ∧ Holds S B σ (rawItem (.msg (its.map (·.2.1)) u e) a :: (its ++ (.mem, u, uv) :: R)) := by
  obtain ⟨F, h1, hg⟩ := h
  cases h1 with
  | nil _ hI => exact .inl ⟨rfl, rfl, F, hI, hg⟩
  | foreign hf' _ _ _ => rw [hf] at hf'; cases hf'
  | msg _ hc ht hI => exact .inr ⟨_, _, _, _, _, rfl, rfl, ht, _, .raw hc hI, hg⟩

theorem Spec.Holds.sealMsg {a : Addr} {its : List VItem} {u : HV} {uv : Val} {e : Bytes} (hf : (S.msg t).foreign = false) (ht : its.map (·.1) = slotTys (S.msg t))
    (h : Holds S B σ (rawItem (.msg (its.map (·.2.1)) u e) a :: (its ++ (.mem, u, uv) :: R))) :
    Holds S B σ ((.msg t, .ptr a, .msg (its.map (·.2.2)) uv.bytes e) :: R) := by
  obtain ⟨F, h1, hg⟩ := h
  cases h1 with
  | raw hc hI => exact ⟨_, .msg hf hc ht hI, hg⟩

theorem Spec.Holds.openSlot {p : HV} {m : Val} (h : Holds S B σ ((.msg t, p, m) :: R)) (hf : (S.msg t).foreign = false) (hd : MsgFacts (S.msg t))
    (hm : f ∈ (S.msg t).fields) :
    (p = .nil ∧ m = .nil) ∨ ∃ (O : Obj) (s : HV) (sv : Val), p = .ptr O.a ∧ m = O.val sv ∧ O.OK (S.msg t) f ∧
      Holds S B σ (rawItem (O.cell s) O.a :: (fieldTy (S.msg t) f, s, sv) :: (O.rest ++ R)) := by
  rcases h.openMsg hf with ⟨rfl, rfl, -⟩ | ⟨a, its, u, uv, e, rfl, rfl, ht, h'⟩
  · exact .inl ⟨rfl, rfl⟩
  refine .inr ?_
  have hlen : its.length = (S.msg t).nslots := by
    have := congrArg List.length ht
    simpa [slotTys] using this
  have hs : f.slot < its.length := hlen ▸ (hd.fields f hm).slot
  obtain ⟨x, hx⟩ : ∃ x, its[f.slot]? = some x := ⟨_, List.getElem?_eq_getElem hs⟩
  have hsplit : its = its.take f.slot ++ x :: its.drop (f.slot + 1) := by
    obtain ⟨h1, h2⟩ := List.getElem?_eq_some_iff.mp hx
    conv_lhs => rw [← List.take_append_drop f.slot its, List.drop_eq_getElem_cons h1, h2]
  have hxty : x.1 = fieldTy (S.msg t) f := by
    have := congrArg (fun l => l[f.slot]?) ht
    simp only [List.getElem?_map, hx, Option.map_some, slotTys] at this
    rw [List.getElem?_range (hd.fields f hm).slot] at this
    simp only [Option.map_some, Option.some.injEq] at this
    rw [this, slotTy_eq hd hm]
  obtain ⟨ty, s, sv⟩ := x
  simp only at hxty
  subst hxty
  refine ⟨⟨a, its.take f.slot, its.drop (f.slot + 1), u, uv, e⟩, s, sv, rfl, ?_, ⟨?_, ?_⟩, ?_⟩
  · simp only [Obj.val]
    conv_lhs => rw [hsplit]
    simp
  · simp [Nat.min_eq_left (Nat.le_of_lt hs)]
  · simp only
    rw [← ht]
    conv_rhs => rw [hsplit]
    simp
  · have hc : (Cell.msg (its.map (·.2.1)) u e) = Obj.cell ⟨a, its.take f.slot, its.drop (f.slot + 1), u, uv, e⟩ s := by
      simp only [Obj.cell]
      conv_lhs => rw [hsplit]
      simp
    rw [hc] at h'
    refine h'.perm (List.Perm.cons _ ?_)
    conv_lhs => rw [hsplit]
    simp only [Obj.rest]
    simp only [List.append_assoc, List.cons_append, List.nil_append]
    exact List.perm_middle

theorem Spec.Holds.closeSlot {O : Obj} {s : HV} {sv : Val} (hf : (S.msg t).foreign = false) (hO : O.OK (S.msg t) f)
    (h : Holds S B σ (rawItem (O.cell s) O.a :: (fieldTy (S.msg t) f, s, sv) :: (O.rest ++ R))) : Holds S B σ ((.msg t, .ptr O.a, O.val sv) :: R) := by
  have hv : O.val sv = .msg ((O.A ++ (fieldTy (S.msg t) f, s, sv) :: O.D).map (·.2.2)) O.uv.bytes O.e := by simp [Obj.val]
  have hc : O.cell s = .msg ((O.A ++ (fieldTy (S.msg t) f, s, sv) :: O.D).map (·.2.1)) O.u O.e := by simp [Obj.cell]
  rw [hv]
  rw [hc] at h
  refine Spec.Holds.sealMsg (u := O.u) hf (by simpa using hO.tys) (h.perm (List.Perm.cons _ ?_))
  simp only [Obj.rest, List.append_assoc, List.cons_append, List.nil_append]
  exact List.perm_middle.symm

theorem Obj.OK.get {d : MsgDesc} {O : Obj} (hO : O.OK d f) (v : Val) : getSlot f.slot (O.val v) = (O.val v, .ok v) := by
  simp [getSlot, Obj.val, ← hO.slot]

theorem Obj.OK.set {d : MsgDesc} {O : Obj} (hO : O.OK d f) (v w : Val) : setSlot f.slot w (O.val v) = (O.val w, .ok ()) := by
  simp [setSlot, Obj.val, ← hO.slot, List.set_append]

theorem Obj.OK.hget {d : MsgDesc} {O : Obj} (hO : O.OK d f) {s : HV} (hr : σ.heap[O.a]? = some (O.cell s)) :
    hgetSlot (.ptr O.a) f.slot σ = (σ, .ok s) := by
  unfold hgetSlot
  simp only
  rw [HM.bind_ok (hread_ok hr)]
  simp [Obj.cell, ← hO.slot]
  rfl

theorem Obj.OK.hset {d : MsgDesc} {O : Obj} (hO : O.OK d f) {s : HV} (hr : σ.heap[O.a]? = some (O.cell s)) (s' : HV) :
    hsetSlot (.ptr O.a) f.slot s' σ = ({ σ with heap := σ.heap.set O.a (O.cell s') }, .ok ()) := by
  unfold hsetSlot
  simp only
  rw [HM.bind_ok (hread_ok hr)]
  simp [Obj.cell, ← hO.slot, List.set_append]
  rfl

end

/-! ## Side by side -/

/-- Code `x` on memory, at the message `p`, does what `u` does on values. -/
def SimU (S : Schema) (B : Bufs) (t : Nat) (p : HV) {α : Type} (x : HM α) (u : UM α) : Prop :=
  ∀ m R σ, Holds S B σ ((.msg t, p, m) :: R) → (x σ).2 = (u m).2 ∧ Holds S B (x σ).1 ((.msg t, p, (u m).1) :: R)

section
variable {S : Schema} {B : Bufs} {t : Nat} {p : HV} {α β : Type}

theorem SimU.lift (r : Res α) : SimU S B t p (HM.lift r) (UM.lift r) := fun _ _ _ h => ⟨rfl, h⟩

theorem SimU.pure (a : α) : SimU S B t p (Pure.pure a : HM α) (Pure.pure a : UM α) := fun _ _ _ h => ⟨rfl, h⟩

theorem SimU.bind {x : HM α} {u : UM α} {f : α → HM β} {g : α → UM β} (h1 : SimU S B t p x u) (h2 : ∀ a, SimU S B t p (f a) (g a)) :
    SimU S B t p (x >>= f) (u >>= g) := by
  intro m R σ h
  obtain ⟨h3, h4⟩ := h1 m R σ h
  show (HM.bind x f σ).2 = (UM.bind u g m).2 ∧ Holds S B (HM.bind x f σ).1 ((.msg t, p, (UM.bind u g m).1) :: R)
  unfold HM.bind UM.bind
  rcases hx : x σ with ⟨σ', r⟩
  rcases hu : u m with ⟨m', r'⟩
  rw [hx, hu] at h3 h4
  simp only at h3 h4
  subst h3
  cases r with
  | ok a => exact h2 a m' R σ' h4
  | err e => exact ⟨rfl, h4⟩
  | panic e => exact ⟨rfl, h4⟩
  | diverge => exact ⟨rfl, h4⟩

theorem SimU.lift_bind {r : Res α} {f : α → HM β} {g : α → UM β} (h2 : ∀ a, r = .ok a → SimU S B t p (f a) (g a)) :
    SimU S B t p (HM.lift r >>= f) (UM.lift r >>= g) := by
  intro m R σ h
  cases r with
  | ok a => exact h2 a rfl m R σ h
  | err e => exact ⟨rfl, h⟩
  | panic e => exact ⟨rfl, h⟩
  | diverge => exact ⟨rfl, h⟩

end

end Vtp
