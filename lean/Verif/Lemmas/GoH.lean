import Verif.Model.EmitClone
import Verif.Lemmas.HeapReset
import Verif.Lemmas.EmitSize
/-!
# The code printed for `CloneVT`: reading twice, allocating then filling
-/

namespace Vtp

section
variable {α β γ : Type}

theorem HM.pure_bind (a : α) (f : α → HM β) : (Pure.pure a >>= f) = f a := rfl

theorem HM.bind_pure (x : HM α) : (x >>= Pure.pure) = x := by
  funext σ
  show HM.bind x _ σ = _
  simp only [HM.bind]
  rcases x σ with ⟨σ', r⟩
  cases r <;> rfl

theorem HM.fail_bind {r : Panic} (f : α → HM β) : (HM.lift (.panic r) >>= f) = HM.lift (.panic r) := rfl

theorem HM.ite_bind {c : Prop} [Decidable c] (x y : HM α) (f : α → HM β) : ((if c then x else y) >>= f) = if c then x >>= f else y >>= f := by
  split <;> rfl

/-- Code that changes nothing. -/
def ReadOnly (x : HM α) : Prop := ∀ σ, (x σ).1 = σ

theorem ReadOnly.eq {x : HM α} (h : ReadOnly x) (σ : HState) : x σ = (σ, (x σ).2) := Prod.ext (h σ) rfl

/-- After code that changes nothing, its outcome is known. -/
theorem ReadOnly.congr {x : HM α} (h : ReadOnly x) {F G : α → HM β} (hFG : ∀ σ v, x σ = (σ, .ok v) → F v σ = G v σ) : (x >>= F) = (x >>= G) := by
  funext σ
  show HM.bind x F σ = HM.bind x G σ
  simp only [HM.bind]
  have := h.eq σ
  rcases hx : x σ with ⟨σ', r⟩
  rw [hx] at this
  obtain rfl : σ' = σ := congrArg Prod.fst this
  cases r with
  | ok v => exact hFG _ v hx
  | _ => rfl

theorem ReadOnly.dup {x : HM α} (h : ReadOnly x) (g : α → α → HM β) : (x >>= fun v => x >>= g v) = x >>= fun v => g v v :=
  h.congr fun σ v hv => HM.bind_ok hv

theorem readOnly_pure (a : α) : ReadOnly (Pure.pure a : HM α) := fun _ => rfl
theorem readOnly_lift (r : Res α) : ReadOnly (HM.lift r) := fun _ => rfl

theorem readOnly_read (a : Addr) : ReadOnly (hread a) := by
  intro σ
  unfold hread
  split <;> rfl

theorem ReadOnly.bind {x : HM α} (h : ReadOnly x) {f : α → HM β} (hf : ∀ a, ReadOnly (f a)) : ReadOnly (x >>= f) := by
  intro σ
  show (HM.bind x f σ).1 = σ
  simp only [HM.bind]
  have := h σ
  rcases hx : x σ with ⟨σ', r⟩
  rw [hx] at this
  cases this
  cases r with
  | ok v => exact hf v _
  | _ => rfl

theorem readOnly_getSlot (m : HV) (i : Nat) : ReadOnly (hgetSlot m i) := by
  unfold hgetSlot
  split
  · exact readOnly_lift _
  · exact (readOnly_read _).bind fun c => by split <;> first | exact readOnly_pure _ | exact readOnly_lift _
  · exact readOnly_lift _

theorem readOnly_getUnknown (m : HV) : ReadOnly (hgetUnknown m) := by
  unfold hgetUnknown
  split
  · exact readOnly_lift _
  · exact (readOnly_read _).bind fun c => by split <;> first | exact readOnly_pure _ | exact readOnly_lift _
  · exact readOnly_lift _

theorem readOnly_readBytes (s : HV) : ReadOnly (hreadBytes s) := by
  unfold hreadBytes
  split
  · exact readOnly_pure _
  · exact (readOnly_read _).bind fun c => by split <;> first | exact readOnly_pure _ | exact readOnly_lift _
  · exact readOnly_lift _

theorem readOnly_len (s : HV) : ReadOnly (hlen s) := by
  unfold hlen
  split
  · exact readOnly_pure _
  · exact (readOnly_read _).bind fun c => by split <;> first | exact readOnly_pure _ | exact readOnly_lift _
  · exact readOnly_lift _

theorem readOnly_entries (s : HV) : ReadOnly (GoH.hentries s) := by
  unfold GoH.hentries
  split
  · exact readOnly_pure _
  · exact (readOnly_read _).bind fun c => by split <;> first | exact readOnly_pure _ | exact readOnly_lift _
  · exact readOnly_lift _

theorem readOnly_dyn (S : Schema) (t slot : Nat) (v : HV) : ReadOnly (GoH.hdyn S t slot v) := by
  unfold GoH.hdyn
  split
  · exact readOnly_pure _
  · refine (readOnly_read _).bind fun c => ?_
    split
    · split <;> first | exact readOnly_pure _ | exact readOnly_lift _
    · exact readOnly_lift _
  · split <;> first | exact readOnly_pure _ | exact readOnly_lift _
  · exact readOnly_lift _

/-! ## Reading after an allocation -/

theorem alloc_bind (c : Cell) (f : Addr → HM β) (σ : HState) : (halloc c >>= f) σ = f σ.next (σ.grow c) := rfl

theorem read_ok {a : Addr} {c : Cell} {σ : HState} (h : σ.heap[a]? = some c) : hread a σ = (σ, .ok c) := by unfold hread; rw [h]

theorem read_grow {a : Addr} {c c' : Cell} {σ : HState} (h : σ.heap[a]? = some c) (hc : c ≠ .foreign .nil) : hread a (σ.grow c') = (σ.grow c', .ok c) := by
  refine read_ok ?_
  rw [σ.grow_old c' (List.getElem?_eq_some_iff.1 h).1 fun e => ?_]
  · exact h
  · rcases σ.next_or with h1 | h1
    · rw [← e, h] at h1
      exact hc (Option.some.inj h1)
    · exact absurd (e ▸ h1 ▸ (List.getElem?_eq_some_iff.1 h).1) (Nat.lt_irrefl _)

theorem read_new {c : Cell} {σ : HState} : hread σ.next (σ.grow c) = (σ.grow c, .ok c) := by
  exact read_ok (σ.grow_next c)

theorem write_new {c c' : Cell} {σ : HState} : hwrite σ.next c' (σ.grow c) = (σ.grow c', .ok ()) := by
  unfold hwrite HState.grow
  rcases Nat.lt_or_ge σ.next σ.heap.length with h | h
  · simp [h]
  · have : σ.next = σ.heap.length := Nat.le_antisymm σ.next_le h
    simp [this]

theorem read_inv {a : Addr} {c : Cell} {σ σ' : HState} (h : hread a σ = (σ', .ok c)) : σ.heap[a]? = some c := by
  unfold hread at h
  split at h <;> simp_all

theorem bind_inv {x : HM α} {f : α → HM β} {σ σ' : HState} {b : β} (h : (x >>= f) σ = (σ', .ok b)) : ∃ σ1 a, x σ = (σ1, .ok a) ∧ f a σ1 = (σ', .ok b) := by
  have h : HM.bind x f σ = _ := h
  simp only [HM.bind] at h
  rcases hx : x σ with ⟨σ1, r⟩
  rw [hx] at h
  cases r with
  | ok a => exact ⟨σ1, a, rfl, h⟩
  | _ => simp at h

theorem readBytes_grow {s : HV} {b : Bytes} {c : Cell} {σ : HState} (h : hreadBytes s σ = (σ, .ok b)) : hreadBytes s (σ.grow c) = (σ.grow c, .ok b) := by
  unfold hreadBytes at *
  split at h
  · cases h; rfl
  · obtain ⟨σ1, c1, h1, h2⟩ := bind_inv h
    have e := read_inv h1
    split at h2
    · rw [HM.bind_ok (read_grow e (by simp))]
      cases h2; rfl
    · exact absurd (congrArg Prod.snd h2) (by simp [HM.lift])
  · exact absurd (congrArg Prod.snd h) (by simp [HM.lift])

theorem len_grow {s : HV} {n : Nat} {c : Cell} {σ : HState} (h : hlen s σ = (σ, .ok n)) : hlen s (σ.grow c) = (σ.grow c, .ok n) := by
  unfold hlen at *
  split at h
  · cases h; rfl
  · obtain ⟨σ1, c1, h1, h2⟩ := bind_inv h
    have e := read_inv h1
    split at h2
    · rw [HM.bind_ok (read_grow e (by simp))]
      cases h2; rfl
    · exact absurd (congrArg Prod.snd h2) (by simp [HM.lift])
  · exact absurd (congrArg Prod.snd h) (by simp [HM.lift])

theorem entries_grow {s : HV} {es : List (Key × HV)} {c : Cell} {σ : HState} (h : GoH.hentries s σ = (σ, .ok es)) :
    GoH.hentries s (σ.grow c) = (σ.grow c, .ok es) := by
  unfold GoH.hentries at *
  split at h
  · cases h; rfl
  · obtain ⟨σ1, c1, h1, h2⟩ := bind_inv h
    have e := read_inv h1
    split at h2
    · rw [HM.bind_ok (read_grow e (by simp))]
      cases h2; rfl
    · exact absurd (congrArg Prod.snd h2) (by simp [HM.lift])
  · exact absurd (congrArg Prod.snd h) (by simp [HM.lift])

/-- `make([]byte, len(v))` and `copy`. -/
theorem makeCopyBytes (v : HV) (f : HV → HM β) : (hreadBytes v >>= fun b => hmakeBytes b.length >>= fun d => hreadBytes v >>= fun b => hcopyInto d b >>= fun _ => f d) =
    hreadBytes v >>= hcopyBytes >>= f := by
  rw [HM.bind_assoc]
  refine (readOnly_readBytes v).congr fun σ b hb => ?_
  unfold hmakeBytes hcopyBytes
  simp only [HM.bind_assoc, HM.pure_bind]
  rw [alloc_bind, alloc_bind, HM.bind_ok (readBytes_grow hb)]
  unfold hcopyInto
  simp only [HM.bind_assoc]
  rw [HM.bind_ok read_new]
  simp only
  rw [HM.bind_ok write_new]
  simp

/-- `make([]T, len(v))`; the length is the same afterwards. -/
theorem makeLen (v : HV) (k : Kind) (f : HV → Nat → HM β) : (hlen v >>= fun n => hmakeList k n >>= fun d => hlen v >>= fun n => f d n) =
    hlen v >>= fun n => hmakeList k n >>= fun d => f d n := by
  refine (readOnly_len v).congr fun σ n hn => ?_
  unfold hmakeList
  simp only [HM.bind_assoc, HM.pure_bind]
  rw [alloc_bind, alloc_bind, HM.bind_ok (len_grow hn)]

theorem makeMap (v : HV) (f : Addr → List (Key × HV) → HM β) : (GoH.hentries v >>= fun _ => halloc (.map []) >>= fun a => GoH.hentries v >>= fun es => f a es) =
    GoH.hentries v >>= fun es => halloc (.map []) >>= fun a => f a es := by
  refine (readOnly_entries v).congr fun σ n hn => ?_
  rw [alloc_bind, alloc_bind, HM.bind_ok (entries_grow hn)]

/-- `make([]T, len(v))` and `copy`. -/
theorem makeCopyList (a len : Nat) (k : Kind) (f : HV → HM β) :
    (hlen (.slice a len) >>= fun n => hmakeList k n >>= fun d => GoH.helems (.slice a len) >>= fun xs => GoH.hcopyElems d xs >>= fun _ => f d) =
    hread a >>= fun c => match c with
      | .arr xs => halloc (.arr (xs.take len)) >>= fun b => f (.slice b (xs.take len).length)
      | _ => HM.lift (.panic .typeConfusion) := by
  unfold hlen GoH.helems
  simp only [HM.bind_assoc]
  refine (readOnly_read a).congr fun σ c hc => ?_
  have e := read_inv hc
  cases c with
  | arr xs =>
    simp only [HM.pure_bind]
    unfold hmakeList
    simp only [HM.bind_assoc, HM.pure_bind]
    rw [alloc_bind, alloc_bind, HM.bind_ok (read_grow e (by simp))]
    simp only [HM.pure_bind]
    unfold GoH.hcopyElems
    simp only [HM.bind_assoc]
    rw [HM.bind_ok read_new]
    simp only
    rw [HM.bind_ok write_new, List.take_length, Nat.min_self, List.drop_replicate, Nat.sub_self, List.replicate_zero, List.append_nil]
  | _ => rfl

end

end Vtp
