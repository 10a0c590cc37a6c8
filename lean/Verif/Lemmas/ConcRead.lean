import Verif.Lemmas.HeapRep
import Verif.Lemmas.HeapDecode
import Verif.Lemmas.Depth
import Verif.Model.ConcRead
import Verif.Spec.HeapVal
/-! # Code that only reads -/

namespace Vtp.Conc
open Spec

section
variable {α β : Type} {Z Z' : Addr → Cell → Prop}

/-- The code reads only objects about which `Z` says what is in them, and with that ends in `r`. -/
def Gives (Z : Addr → Cell → Prop) : Prog α → Res α → Prop
  | .done r', r => r' = r
  | .read a k, r => ∃ c, Z a c ∧ Gives Z (k c) r
  | _, _ => False

theorem Gives.pure (a : α) : Gives Z (Pure.pure a) (.ok a) := rfl

theorem Gives.lift (r : Res α) : Gives Z (Prog.lift r) r := rfl

theorem Gives.mono (hZ : ∀ a c, Z a c → Z' a c) {x : Prog α} {r : Res α} (hx : Gives Z x r) : Gives Z' x r := by
  induction x with
  | done r' => exact hx
  | read a k ih =>
    obtain ⟨c, h1, h2⟩ := hx
    exact ⟨c, hZ a c h1, ih c h2⟩
  | _ => exact hx

theorem Gives.bind {x : Prog α} {r : Res α} {f : α → Prog β} {g : α → Res β} (hx : Gives Z x r) (hf : ∀ a, r = .ok a → Gives Z (f a) (g a)) :
    Gives Z (x >>= f) (r >>= g) := by
  show Gives Z (x.bind f) _
  induction x with
  | done r' =>
    cases hx
    cases r with
    | ok a => exact hf a rfl
    | _ => rfl
  | read a k ih =>
    obtain ⟨c, h1, h2⟩ := hx
    exact ⟨c, h1, ih c h2⟩
  | _ => exact False.elim hx

/-- The first part returns. -/
theorem Gives.bind_ok {x : Prog α} {a : α} {f : α → Prog β} {r : Res β} (hx : Gives Z x (.ok a)) (hf : Gives Z (f a) r) : Gives Z (x >>= f) r :=
  Gives.bind (g := fun _ => r) hx fun b hb => by cases hb; exact hf

theorem Gives.read {a : Addr} {c : Cell} (h : Z a c) : Gives Z (hread a) (.ok c) := ⟨c, h, rfl⟩

end

section
variable {S : Schema} {B : Bufs} {h : Heap} {F F' : Addr → Prop}

/-- The objects `F` as they are in memory, and buffers. -/
def Sees (B : Bufs) (h : Heap) (F : Addr → Prop) : Addr → Cell → Prop := fun a c => (F a ∧ h[a]? = some c) ∨ ∃ b, B.mem a = some b ∧ c = .bytes b

theorem Sees.mono (hF : ∀ a, F a → F' a) : ∀ a c, Sees B h F a c → Sees B h F' a c := fun a _ hs => hs.imp (fun h1 => ⟨hF a h1.1, h1.2⟩) id

/-- The value `x` stands for `v` and consists of objects in `F`. -/
def At (S : Schema) (B : Bufs) (h : Heap) (F : Addr → Prop) (ty : Ty) (x : HV) (v : Val) : Prop := ∃ G : Multiset Addr, (∀ a ∈ G, F a) ∧ RepL S B h [(ty, x, v)] G

theorem At.mem {ty : Ty} {x : HV} {v : Val} {I : List VItem} {G : Multiset Addr} (hI : RepL S B h I G) (hG : ∀ a ∈ G, F a) (hm : (ty, x, v) ∈ I) : At S B h F ty x v := by
  obtain ⟨I1, I2, rfl⟩ := List.append_of_mem hm
  obtain ⟨G1, G2, rfl, -, h2⟩ := RepL.append_iff.mp hI
  obtain ⟨G3, G4, rfl, h3, -⟩ := RepL.cons_iff.mp h2
  exact ⟨G3, fun a ha => hG a (by simp [ha]), h3⟩

theorem At.isNil {ty : Ty} {x : HV} {v : Val} (hty : ∀ c, ty ≠ .raw c) (hx : At S B h F ty x v) : x.isNil = v.isNil := by
  obtain ⟨G, -, h1⟩ := hx
  cases h1 with
  | box hc hx hI =>
    cases hI with
    | nil _ _ => exact absurd rfl hx
    | num _ => rfl
    | str _ => rfl
    | view _ _ => rfl
  | foreign hf hc hv _ => cases v <;> first | rfl | exact absurd rfl hv
  | raw _ _ => exact absurd rfl (hty _)
  | _ => rfl

theorem isNil_eq {x : HV} (hx : x.isNil = true) : x = .nil := by cases x <;> first | rfl | simp [HV.isNil] at hx

theorem At.nil {ty : Ty} (ht : ty.nilable = true) : At S B h F ty .nil .nil := ⟨0, by simp, .nil ht .done⟩

theorem At.msg {t : Nat} (hd : MsgFacts (S.msg t)) (hf : (S.msg t).foreign = false) {x : HV} {v : Val} (hx : At S B h F (.msg t) x v) :
    (x = .nil ∧ v = .nil) ∨ ∃ a s u e vs uv, x = .ptr a ∧ F a ∧ Sees B h F a (.msg s u e) ∧ v = .msg vs uv.bytes e ∧ At S B h F .mem u uv ∧
      ∀ f ∈ (S.msg t).fields, At S B h F (fieldTy (S.msg t) f) (s.getD f.slot .nil) (slotOf vs f) := by
  obtain ⟨G, hG, h1⟩ := hx
  cases h1 with
  | nil _ _ => exact .inl ⟨rfl, rfl⟩
  | foreign hf' => rw [hf] at hf'; cases hf'
  | @msg _ a its u uv e _ G' _ hc ht hI =>
    have hG' : ∀ b ∈ G', F b := fun b hb => hG b (Multiset.mem_cons_of_mem hb)
    have ha : F a := hG a (Multiset.mem_cons_self _ _)
    refine .inr ⟨a, _, u, e, _, uv, rfl, ha, .inl ⟨ha, hc⟩, rfl, At.mem hI hG' (by simp), fun f hfm => ?_⟩
    have hs := (hd.fields f hfm).slot
    have hlen : its.length = (S.msg t).nslots := by rw [← List.length_map (f := (·.1)), ht, slotTys_length]
    have hi : f.slot < its.length := hlen ▸ hs
    have h1 : (its[f.slot]).1 = fieldTy (S.msg t) f := by
      have h2 : (its.map (·.1)).getD f.slot .flat = (slotTys (S.msg t)).getD f.slot .flat := by rw [ht]
      rw [slotTys_getD hs, slotTy_eq hd hfm, List.getD_eq_getElem?_getD, List.getElem?_map, List.getElem?_eq_getElem hi] at h2
      exact h2
    have h2 : (its.map (·.2.1)).getD f.slot .nil = its[f.slot].2.1 := by simp [List.getD_eq_getElem?_getD, hi]
    have h3 : slotOf (its.map (·.2.2)) f = its[f.slot].2.2 := by simp [slotOf, List.getD_eq_getElem?_getD, hi]
    rw [h2, h3, ← h1]
    exact At.mem hI hG' (List.mem_append_left _ (List.getElem_mem hi))

theorem At.foreign {t : Nat} (hf : (S.msg t).foreign = true) {x : HV} {v : Val} (hx : At S B h F (.msg t) x v) : Gives (Sees B h F) (hforeign x) (.ok v) := by
  obtain ⟨G, hG, h1⟩ := hx
  cases h1 with
  | nil _ _ => exact .pure _
  | foreign _ hc _ _ => exact .bind_ok (.read (.inl ⟨hG _ (Multiset.mem_cons_self _ _), hc⟩)) (.pure _)
  | msg hf' => rw [hf] at hf'; cases hf'

theorem At.list {ty : Ty} {x : HV} {v : Val} (hx : At S B h F (.list ty) x v) :
    (x = .nil ∧ v = .nil) ∨ ∃ a len sp, ∃ xs : List (HV × Val), x = .slice a len ∧ F a ∧ Sees B h F a (.arr (xs.map (·.1))) ∧ v = .list ((xs.map (·.2)).take len) sp ∧
      len ≤ xs.length ∧ ∀ p ∈ xs, At S B h F ty p.1 p.2 := by
  obtain ⟨G, hG, h1⟩ := hx
  cases h1 with
  | nil _ _ => exact .inl ⟨rfl, rfl⟩
  | @list _ a len xs sp _ G' hc hl hs hI =>
    have ha : F a := hG a (Multiset.mem_cons_self _ _)
    refine .inr ⟨a, len, sp, xs, rfl, ha, .inl ⟨ha, hc⟩, rfl, hl, fun p hp => ?_⟩
    exact At.mem hI (fun b hb => hG b (Multiset.mem_cons_of_mem hb)) (List.mem_append_left _ (List.mem_map.mpr ⟨p, hp, rfl⟩))

theorem At.map {ty : Ty} {x : HV} {v : Val} (hx : At S B h F (.map ty) x v) :
    (x = .nil ∧ v = .nil) ∨ ∃ a, ∃ es : List (Key × HV × Val), x = .ptr a ∧ F a ∧ Sees B h F a (.map (es.map fun e => (e.1, e.2.1))) ∧
      v = .map (es.map fun e => (e.1, e.2.2)) ∧ ∀ e ∈ es, At S B h F ty e.2.1 e.2.2 := by
  obtain ⟨G, hG, h1⟩ := hx
  cases h1 with
  | nil _ _ => exact .inl ⟨rfl, rfl⟩
  | @map _ a es _ G' hc hI =>
    have ha : F a := hG a (Multiset.mem_cons_self _ _)
    refine .inr ⟨a, es, rfl, ha, .inl ⟨ha, hc⟩, rfl, fun e he => ?_⟩
    exact At.mem hI (fun b hb => hG b (Multiset.mem_cons_of_mem hb)) (List.mem_append_left _ (List.mem_map.mpr ⟨e, he, rfl⟩))

theorem At.oneof {d : MsgDesc} {slot : Nat} {x : HV} {v : Val} (hx : At S B h F (.oneof d slot) x v) :
    (x = .nil ∧ v = .nil) ∨ (∃ n, x = .wrapNil n ∧ v = .wrapNil n) ∨ ∃ a n y w f, x = .ptr a ∧ F a ∧ Sees B h F a (.wrap n y) ∧ v = .wrap n w ∧
      d.member slot n = some f ∧ At S B h F (elemTy f.kind f.msg) y w := by
  obtain ⟨G, hG, h1⟩ := hx
  cases h1 with
  | nil _ _ => exact .inl ⟨rfl, rfl⟩
  | wrapNil _ => exact .inr (.inl ⟨_, rfl, rfl⟩)
  | @oneof _ _ n f a y w _ G' hc hm hI =>
    have ha : F a := hG a (Multiset.mem_cons_self _ _)
    exact .inr (.inr ⟨a, n, y, w, f, rfl, ha, .inl ⟨ha, hc⟩, rfl, hm, At.mem hI (fun b hb => hG b (Multiset.mem_cons_of_mem hb)) (by simp)⟩)

theorem At.box {x : HV} {v : Val} (hx : At S B h F .box x v) :
    (x = .nil ∧ v = .nil) ∨ ∃ a y, x = .ptr a ∧ Sees B h F a (.box y) ∧ v.isNil = false ∧ At S B h F .flat y v := by
  have hn := hx.isNil (by simp)
  obtain ⟨G, hG, h1⟩ := hx
  cases h1 with
  | nil _ _ => exact .inl ⟨rfl, rfl⟩
  | @box a y _ _ G' hc hy hI =>
    have ha : F a := hG a (Multiset.mem_cons_self _ _)
    exact .inr ⟨a, y, rfl, .inl ⟨ha, hc⟩, hn.symm, At.mem hI (fun b hb => hG b (Multiset.mem_cons_of_mem hb)) (by simp)⟩

theorem At.bits {x : HV} {v : Val} (hx : At S B h F .flat x v) : x.bits = v.bits := by
  obtain ⟨G, hG, h1⟩ := hx
  cases h1 <;> rfl

theorem At.bytes {ty : Ty} (ht : ty = .flat ∨ ty = .bytes ∨ ty = .mem) {x : HV} {v : Val} (hx : At S B h F ty x v) : Gives (Sees B h F) (hbytes x) (.ok v.bytes) := by
  obtain ⟨G, hG, h1⟩ := hx
  cases h1 with
  | view ha _ => exact .bind_ok (.read (.inr ⟨_, ha, rfl⟩)) (.pure _)
  | lent ha _ _ => exact .bind_ok (.read (.inr ⟨_, ha, rfl⟩)) (.pure _)
  | bytes hc _ _ => exact .bind_ok (.read (.inl ⟨hG _ (Multiset.mem_cons_self _ _), hc⟩)) (.pure _)
  | mem hc _ _ => exact .bind_ok (.read (.inl ⟨hG _ (Multiset.mem_cons_self _ _), hc⟩)) (.pure _)
  | nil _ _ => exact .pure _
  | num _ => exact .pure _
  | str _ => exact .pure _
  | _ => simp at ht

/-- Scalars of kind `k`. -/
theorem At.cases_elem {k : Kind} {t : Nat} {x : HV} {v : Val} (hm : k ≠ .message) (hg : k ≠ .group) (hx : At S B h F (elemTy k t) x v) :
    Gives (Sees B h F) (hbytes x) (.ok v.bytes) ∧ (¬ (k = .string ∨ k = .bytes) → x.bits = v.bits) := by
  refine ⟨hx.bytes ?_, fun hn => ?_⟩
  · cases k <;> simp_all [elemTy]
  · exact At.bits (S := S) (B := B) (h := h) (F := F) (by cases k <;> simp_all [elemTy])

/-! ## Lists, maps, fields -/

theorem gives_getSlot {a : Addr} {s : List HV} {u : HV} {e : Bytes} (hc : Sees B h F a (.msg s u e)) (slot : Nat) :
    Gives (Sees B h F) (hgetSlot (.ptr a) slot) (.ok (s.getD slot .nil)) := .bind_ok (.read hc) (.pure _)

theorem gives_getUnknown {a : Addr} {s : List HV} {u : HV} {e : Bytes} (hc : Sees B h F a (.msg s u e)) :
    Gives (Sees B h F) (hgetUnknown (.ptr a)) (.ok u) := .bind_ok (.read hc) (.pure _)

theorem At.len {ty : Ty} {x : HV} {v : Val} (hx : At S B h F (.list ty) x v) : Gives (Sees B h F) (hlen x) (.ok v.elems.length) := by
  rcases hx.list with ⟨rfl, rfl⟩ | ⟨a, len, sp, xs, rfl, ha, hc, rfl, hl, -⟩
  · exact .pure _
  · refine .bind_ok (.read hc) ?_
    show _ = _
    simp [Val.elems]

theorem At.index {ty : Ty} {x : HV} {v : Val} (hx : At S B h F (.list ty) x v) (i : Nat) (hi : i < v.elems.length) :
    ∃ y, Gives (Sees B h F) (hindex x i) (.ok y) ∧ At S B h F ty y v.elems[i] := by
  rcases hx.list with ⟨rfl, rfl⟩ | ⟨a, len, sp, xs, rfl, ha, hc, rfl, hl, hI⟩
  · simp [Val.elems] at hi
  · have hi' : i < len ∧ i < xs.length := by simpa [Val.elems] using hi
    refine ⟨xs[i].1, .bind_ok (.read hc) ?_, ?_⟩
    · have : ((xs.map (·.1)).take len)[i]? = some xs[i].1 := by simp [hi'.1, hi'.2]
      simp only [this]
      exact .pure _
    · have := hI xs[i] (List.getElem_mem _)
      simpa [Val.elems] using this

theorem At.mapLen {ty : Ty} {x : HV} {v : Val} (hx : At S B h F (.map ty) x v) : Gives (Sees B h F) (hmapLen x) (.ok v.entries.length) := by
  rcases hx.map with ⟨rfl, rfl⟩ | ⟨a, es, rfl, ha, hc, rfl, -⟩
  · exact .pure _
  · refine .bind_ok (.read hc) ?_
    show _ = _
    simp [Val.entries]

theorem At.entryAt {ty : Ty} {x : HV} {v : Val} (hx : At S B h F (.map ty) x v) (i : Nat) (hi : i < v.entries.length) :
    ∃ y, Gives (Sees B h F) (hentryAt x i) (.ok ((v.entries[i]).1, y)) ∧ At S B h F ty y (v.entries[i]).2 := by
  rcases hx.map with ⟨rfl, rfl⟩ | ⟨a, es, rfl, ha, hc, rfl, hI⟩
  · simp [Val.entries] at hi
  · have hi' : i < es.length := by simpa [Val.entries] using hi
    refine ⟨es[i].2.1, .bind_ok (.read hc) ?_, ?_⟩
    · simp only [List.getElem?_map, List.getElem?_eq_getElem hi', Option.map_some]
      show _ = _
      simp [Val.entries]
    · have := hI es[i] (List.getElem_mem _)
      simpa [Val.entries] using this

theorem gives_sumElems {ty : Ty} {x : HV} {v : Val} (hx : At S B h F (.list ty) x v) {g : HV → Prog Nat} {g' : Val → Nat}
    (hg : ∀ e ∈ v.elems, ∀ y, At S B h F ty y e → Gives (Sees B h F) (g y) (.ok (g' e))) :
    ∀ n i, i + n = v.elems.length → Gives (Sees B h F) (hsumElems g x i n) (.ok ((v.elems.drop i).map g').sum) := by
  intro n
  induction n with
  | zero => intro i hi; rw [List.drop_eq_nil_of_le (by omega)]; exact .pure _
  | succ n ih =>
    intro i hi
    obtain ⟨y, h1, h2⟩ := hx.index i (by omega)
    rw [List.drop_eq_getElem_cons (by omega), List.map_cons, List.sum_cons]
    exact .bind_ok h1 (.bind_ok (hg _ (List.getElem_mem _) y h2) (.bind_ok (ih (i + 1) (by omega)) (.pure _)))

theorem gives_sumEntries {ty : Ty} {x : HV} {v : Val} (hx : At S B h F (.map ty) x v) {g : Key → HV → Prog Nat} {g' : Key × Val → Nat}
    (hg : ∀ e ∈ v.entries, ∀ y, At S B h F ty y e.2 → Gives (Sees B h F) (g e.1 y) (.ok (g' e))) :
    ∀ n i, i + n = v.entries.length → Gives (Sees B h F) (hsumEntries g x i n) (.ok ((v.entries.drop i).map g').sum) := by
  intro n
  induction n with
  | zero => intro i hi; rw [List.drop_eq_nil_of_le (by omega)]; exact .pure _
  | succ n ih =>
    intro i hi
    obtain ⟨y, h1, h2⟩ := hx.entryAt i (by omega)
    rw [List.drop_eq_getElem_cons (by omega), List.map_cons, List.sum_cons]
    exact .bind_ok h1 (.bind_ok (hg _ (List.getElem_mem _) y h2) (.bind_ok (ih (i + 1) (by omega)) (.pure _)))

theorem gives_sumElems_all {ty : Ty} {x : HV} {v : Val} (hx : At S B h F (.list ty) x v) {g : HV → Prog Nat} {g' : Val → Nat}
    (hg : ∀ e ∈ v.elems, ∀ y, At S B h F ty y e → Gives (Sees B h F) (g y) (.ok (g' e))) :
    Gives (Sees B h F) (do let c ← hlen x; hsumElems g x 0 c) (.ok (v.elems.map g').sum) :=
  .bind_ok hx.len (gives_sumElems hx hg _ 0 (by omega))

/-- Type of the struct field of a field, or of the field of its wrapper. -/
def valTy (oneof : Bool) (f : FieldDesc) : Ty :=
  if oneof then elemTy f.kind f.msg
  else if f.card == .repeated then
    match f.map with
    | some md => .map (elemTy md.val md.valMsg)
    | none => .list (elemTy f.kind f.msg)
  else if isBoxed false f then .box
  else elemTy f.kind f.msg

theorem isScalar_eq (k : Kind) : fieldTy.isScalar k = isScalarKind k := by cases k <;> rfl

theorem fieldTy_valTy {d : MsgDesc} {f : FieldDesc} (ho : f.oneof = false) : fieldTy d f = valTy false f := by
  simp only [fieldTy, valTy, ho, isBoxed, isScalar_eq, Bool.not_false, Bool.true_and, Bool.false_eq_true, if_false]
  cases f.map <;> rfl

/-- What is known about a field whose code is run: it is a oneof's member or not in a oneof. -/
structure FieldIs (d : MsgDesc) (oneof : Bool) (f : FieldDesc) : Prop where
  facts : FieldFacts d f
  oneof : oneof = true → f.oneof = true

theorem FieldIs.card {d : MsgDesc} {o : Bool} {f : FieldDesc} (hf : FieldIs d o f) (hr : f.card = .repeated) : o = false := by
  cases o with
  | false => rfl
  | true => have := (hf.facts.oneof (hf.oneof rfl)).1; rw [hr] at this; cases this

theorem valTy_map {d : MsgDesc} {o : Bool} {f : FieldDesc} (hf : FieldIs d o f) {md : MapDesc} (hm : f.map = some md) : valTy o f = .map (elemTy md.val md.valMsg) := by
  have hr := (hf.facts.map md hm).1
  simp [valTy, hf.card hr, hr, hm]

theorem valTy_list {d : MsgDesc} {o : Bool} {f : FieldDesc} (hf : FieldIs d o f) (hr : f.card = .repeated) (hm : f.map = none) : valTy o f = .list (elemTy f.kind f.msg) := by
  simp [valTy, hf.card hr, hr, hm]

theorem valTy_single {d : MsgDesc} {o : Bool} {f : FieldDesc} (hf : FieldIs d o f) (hr : f.card ≠ .repeated) : valTy o f = if isBoxed o f then .box else elemTy f.kind f.msg := by
  cases o with
  | false => simp [valTy, hr]
  | true => simp [valTy, isBoxed]

theorem valTy_msg {d : MsgDesc} {o : Bool} {f : FieldDesc} (hf : FieldIs d o f) (hr : f.card ≠ .repeated) (hm : f.hasMessage = true) : valTy o f = .msg f.msg := by
  rw [valTy_single hf hr]
  simp only [FieldDesc.hasMessage, Bool.or_eq_true, beq_iff_eq] at hm
  rcases hm with hm | hm <;> simp [isBoxed, isScalarKind, hm, elemTy]

theorem mapNone {d : MsgDesc} {f : FieldDesc} (hf : FieldFacts d f) (hk : f.kind ≠ .message) : f.map = none := by
  cases hm : f.map with
  | none => rfl
  | some md => exact absurd (hf.map md hm).2.1 hk

theorem gives_fieldLen {d : MsgDesc} {o : Bool} {f : FieldDesc} (hf : FieldIs d o f) (hr : f.card = .repeated) {x : HV} {v : Val} (hx : At S B h F (valTy o f) x v) :
    Gives (Sees B h F) (hfieldLen f x) (.ok (f.len v)) := by
  cases hm : f.map with
  | none =>
    rw [valTy_list hf hr hm] at hx
    simp only [hfieldLen, FieldDesc.len, hm, Option.isSome_none, Bool.false_eq_true, if_false]
    exact hx.len
  | some md =>
    rw [valTy_map hf hm] at hx
    simp only [hfieldLen, FieldDesc.len, hm, Option.isSome_some, if_true]
    exact hx.mapLen

/-- The scalar of a singular field. -/
theorem gives_scalar {d : MsgDesc} {o : Bool} {f : FieldDesc} (hf : FieldIs d o f) (hr : f.card ≠ .repeated)
    {x : HV} {v : Val} (hx : At S B h F (valTy o f) x v) (hn : isBoxed o f = true → v.isNil = false) :
    ∃ y, Gives (Sees B h F) (hscalar o f x) (.ok y) ∧ At S B h F (elemTy f.kind f.msg) y v := by
  rw [valTy_single hf hr] at hx
  unfold hscalar
  by_cases hb : isBoxed o f = true
  · rw [if_pos hb] at hx ⊢
    rcases hx.box with ⟨rfl, rfl⟩ | ⟨a, y, rfl, hc, -, hy⟩
    · have := hn hb; simp [Val.isNil] at this
    · refine ⟨y, .bind_ok (.read hc) (.pure _), ?_⟩
      have : elemTy f.kind f.msg = .flat := by
        simp only [isBoxed, Bool.and_eq_true] at hb
        revert hb
        cases f.kind <;> simp [isScalarKind, elemTy]
      rw [this]; exact hy
  · rw [if_neg hb] at hx ⊢
    exact ⟨x, .pure _, hx⟩

/-- What depends on bits or contents. -/
theorem scalar_ext {α : Type} {G : Kind → Val → α} (k : Kind) (v : Val) (h1 : ∀ b c, (k = .string ∨ k = .bytes) → b.bytes = c.bytes → G k b = G k c)
    (h2 : ∀ b c, ¬ (k = .string ∨ k = .bytes) → b.bits = c.bits → G k b = G k c) (x : HV) (hb : ¬ (k = .string ∨ k = .bytes) → x.bits = v.bits)
    {Z : Addr → Cell → Prop} (hy : Gives Z (hbytes x) (.ok v.bytes)) :
    Gives Z (if k = .string ∨ k = .bytes then do let b ← hbytes x; pure (G k (.str b)) else pure (G k (.num x.bits))) (.ok (G k v)) := by
  by_cases hk : k = .string ∨ k = .bytes
  · rw [if_pos hk]
    refine .bind_ok hy ?_
    rw [h1 v (.str v.bytes) hk rfl]
    exact .pure _
  · rw [if_neg hk]
    rw [h2 v (.num x.bits) hk (hb hk).symm]
    exact .pure _

theorem gives_sizeScalar {k : Kind} {t : Nat} {x : HV} {v : Val} (hm : k ≠ .message) (hg : k ≠ .group) (hx : At S B h F (elemTy k t) x v) :
    Gives (Sees B h F) (hsizeScalar k x) (.ok (sizeScalar k v)) := by
  obtain ⟨h1, h2⟩ := hx.cases_elem hm hg
  refine scalar_ext (G := sizeScalar) k v ?_ ?_ x h2 h1
  · rintro b c (rfl | rfl) hb <;> simp [sizeScalar, hb]
  · intro b c hk hb
    cases k <;> first | exact absurd (by decide) hk | simp [sizeScalar, hb]

theorem gives_isZero {k : Kind} {t : Nat} {x : HV} {v : Val} (hm : k ≠ .message) (hg : k ≠ .group) (hx : At S B h F (elemTy k t) x v) :
    Gives (Sees B h F) (hisZero k x) (.ok (isZeroVal k v)) := by
  obtain ⟨h1, h2⟩ := hx.cases_elem hm hg
  refine scalar_ext (G := isZeroVal) k v ?_ ?_ x h2 h1
  · rintro b c (rfl | rfl) hb <;> simp [isZeroVal, hb]
  · intro b c hk hb
    cases k <;> first | exact absurd (by decide) hk | simp [isZeroVal, hb]

/-- `if m.F != 0` -/
theorem gives_present {d : MsgDesc} {o : Bool} {f : FieldDesc} (hf : FieldIs d o f) (hr : f.card ≠ .repeated) (hm : f.kind ≠ .message) (hg : f.kind ≠ .group)
    {x : HV} {v : Val} (hx : At S B h F (valTy o f) x v) (hn : isBoxed o f = true → v.isNil = false) :
    ∃ y, At S B h F (elemTy f.kind f.msg) y v ∧
      Gives (Sees B h F) (hpresent o f x) (.ok (if !o && !(f.hasMessage || (!o && f.presence)) && isZeroVal f.kind v then none else some y)) := by
  obtain ⟨y, h1, h2⟩ := gives_scalar hf hr hx hn
  refine ⟨y, h2, .bind_ok h1 (.bind_ok (gives_isZero hm hg h2) ?_)⟩
  show _ = _
  cases o <;> rfl

end
end Vtp.Conc
