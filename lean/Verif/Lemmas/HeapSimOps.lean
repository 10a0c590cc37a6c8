import Verif.Lemmas.HeapSim
/-! # Single operations on memory and on values -/

namespace Vtp
open Spec

section
variable {S : Schema} {B : Bufs} {σ : HState} {R : List VItem}

theorem hwrite_ok (a : Addr) (c : Cell) (σ : HState) : hwrite a c σ = ({ σ with heap := σ.heap.set a c }, .ok ()) := rfl

theorem halloc_ok (c : Cell) (σ : HState) : halloc c σ = ((σ.grow c), .ok σ.next) := rfl

theorem UM.bind_ok {α β : Type} {x : UM α} {f : α → UM β} {m m' : Val} {a : α} (h : x m = (m', .ok a)) : (x >>= f) m = f a m' := by
  show UM.bind x f m = _
  unfold UM.bind
  rw [h]

theorem HM.bind_panic {α β : Type} {x : HM α} {f : α → HM β} {σ σ' : HState} {e : Panic} (h : x σ = (σ', .panic e)) : (x >>= f) σ = (σ', .panic e) := by
  show HM.bind x f σ = _
  unfold HM.bind
  rw [h]

theorem UM.bind_panic {α β : Type} {x : UM α} {f : α → UM β} {m m' : Val} {e : Panic} (h : x m = (m', .panic e)) : (x >>= f) m = (m', .panic e) := by
  show UM.bind x f m = _
  unfold UM.bind
  rw [h]

/-! ## Lists -/

theorem Spec.Holds.openList {e : Ty} {s : HV} {v : Val} (h : Holds S B σ ((.list e, s, v) :: R)) :
    (s = .nil ∧ v = .nil ∧ Holds S B σ R) ∨ ∃ (a len : Nat) (xs : List (HV × Val)) (sp : List Val), s = .slice a len ∧
      v = .list ((xs.map (·.2)).take len) sp ∧ len ≤ xs.length ∧ SpareRep e ((xs.map (·.2)).drop len) sp ∧
      Holds S B σ (rawItem (.arr (xs.map (·.1))) a :: (xs.map (fun x => (e, x)) ++ R)) := by
  obtain ⟨F, h1, hg⟩ := h
  cases h1 with
  | nil _ hI => exact .inl ⟨rfl, rfl, F, hI, hg⟩
  | list hc hl hs hI => exact .inr ⟨_, _, _, _, rfl, rfl, hl, hs, _, .raw hc hI, hg⟩

theorem Spec.Holds.sealList {e : Ty} {a len : Nat} {xs : List (HV × Val)} {sp : List Val} (hl : len ≤ xs.length)
    (hs : SpareRep e ((xs.map (·.2)).drop len) sp) (h : Holds S B σ (rawItem (.arr (xs.map (·.1))) a :: (xs.map (fun x => (e, x)) ++ R))) :
    Holds S B σ ((.list e, .slice a len, .list ((xs.map (·.2)).take len) sp) :: R) := by
  obtain ⟨F, h1, hg⟩ := h
  cases h1 with
  | raw hc hI => exact ⟨_, .list hc hl hs hI, hg⟩

/-- With the element in the middle. -/
theorem Spec.Holds.sealList' {e : Ty} {a : Nat} {pre post : List (HV × Val)} {x : HV} {v : Val} {sp : List Val}
    (hs : SpareRep e (post.map (·.2)) sp)
    (h : Holds S B σ (rawItem (.arr (pre.map (·.1) ++ x :: post.map (·.1))) a :: (e, x, v) :: ((pre ++ post).map (fun x => (e, x)) ++ R))) :
    Holds S B σ ((.list e, .slice a (pre.length + 1), .list (pre.map (·.2) ++ [v]) sp) :: R) := by
  have h1 : Holds S B σ (rawItem (.arr ((pre ++ (x, v) :: post).map (·.1))) a :: ((pre ++ (x, v) :: post).map (fun x => (e, x)) ++ R)) := by
    simp only [List.map_append, List.map_cons]
    refine h.perm (List.Perm.cons _ ?_)
    simp only [List.map_append, List.append_assoc, List.cons_append]
    exact List.perm_middle.symm
  have hm : (pre ++ (x, v) :: post).map (·.2) = (pre.map (·.2) ++ [v]) ++ post.map (·.2) := by simp
  have hn : pre.length + 1 = (pre.map (·.2) ++ [v]).length := by simp
  have h2 := h1.sealList (len := pre.length + 1) (sp := sp) (by simp) (by rw [hm, hn, List.drop_left]; exact hs)
  rw [hm] at h2
  conv at h2 => rw [List.take_left' hn.symm]
  exact h2

theorem Spec.SpareRep.nils {e : Ty} (k : Nat) : SpareRep e (List.replicate k .nil) [] := by
  unfold SpareRep
  split
  · exact ⟨k, rfl⟩
  · rfl

theorem Spec.SpareRep.tail {e : Ty} {y : Val} {rest sp : List Val} (h : SpareRep e (y :: rest) sp) : SpareRep e rest sp.tail := by
  unfold SpareRep at h ⊢
  by_cases hk : e.keeps = true
  · rw [if_pos hk] at h ⊢
    obtain ⟨k, hk⟩ := h
    cases sp with
    | nil =>
      cases k with
      | zero => simp at hk
      | succ k =>
        simp only [List.replicate_succ, List.nil_append, List.cons.injEq] at hk
        exact ⟨k, by simpa using hk.2⟩
    | cons z sp => exact ⟨k, by simpa using (List.cons.inj hk).2⟩
  · rw [if_neg hk] at h ⊢
    subst h
    rfl

theorem Spec.SpareRep.empty {e : Ty} {sp : List Val} (h : SpareRep e [] sp) : sp = [] := by
  unfold SpareRep at h
  split at h
  · obtain ⟨k, hk⟩ := h
    exact (List.append_eq_nil_iff.mp hk.symm).1
  · exact h

/-- `append`, the new element being accounted for elsewhere. -/
theorem append_hole {e : Ty} {s : HV} {v : Val} (he : e.nilable = true) (g : Growth) (x : HV) (h : Holds S B σ ((.list e, s, v) :: R)) :
    ∃ (a : Nat) (pre post : List (HV × Val)) (sp : List Val) (σ' : HState), happend g s x σ = (σ', .ok (.slice a (pre.length + 1))) ∧
      (∀ w, appendVal v w = .ok (.list (pre.map (·.2) ++ [w]) sp)) ∧ SpareRep e (post.map (·.2)) sp ∧
      Holds S B σ' (rawItem (.arr (pre.map (·.1) ++ x :: post.map (·.1))) a :: ((pre ++ post).map (fun x => (e, x)) ++ R)) := by
  have grow : ∀ (xs : List (HV × Val)), Holds S B σ (xs.map (fun x => (e, x)) ++ R) → ∃ (post : List (HV × Val)) (σ' : HState),
      hgrowArr g (xs.map (·.1) ++ [x]) (xs.length + 1) σ = (σ', .ok (.slice σ.next (xs.length + 1))) ∧ SpareRep e (post.map (·.2)) [] ∧
      Holds S B σ' (rawItem (.arr (xs.map (·.1) ++ x :: post.map (·.1))) σ.next :: ((xs ++ post).map (fun x => (e, x)) ++ R)) := by
    intro xs hx
    refine ⟨List.replicate (g σ.next) (.nil, .nil), _, rfl, ?_, ?_⟩
    · simpa using SpareRep.nils (e := e) (g σ.next)
    · have h2 := Holds.alloc (Holds.addNils he (g σ.next) hx) (.arr (xs.map (·.1) ++ x :: List.replicate (g σ.next) .nil))
      simp only [List.map_replicate, List.append_assoc, List.cons_append, List.nil_append]
      refine h2.perm (List.Perm.cons _ ?_)
      simp only [List.map_append, List.append_assoc, List.map_replicate]
      exact (List.perm_append_comm_assoc _ _ _)
  rcases h.openList with ⟨rfl, rfl, h'⟩ | ⟨a, len, xs, sp, rfl, rfl, hl, hs, h'⟩
  · obtain ⟨post, σ', h1, h2, h3⟩ := grow [] (by simpa using h')
    exact ⟨σ.next, [], post, [], σ', by simpa [happend] using h1, fun w => rfl, h2, by simpa using h3⟩
  · have hr := h'.read
    have hap : happend g (.slice a len) x σ = happendTo g a len x (.arr (xs.map (·.1))) σ := by
      show (hread a >>= fun c => happendTo g a len x c) σ = _
      rw [HM.bind_ok (hread_ok hr)]
    by_cases hlt : len < xs.length
    · obtain ⟨y, hy⟩ : ∃ y, xs[len]? = some y := ⟨_, List.getElem?_eq_getElem hlt⟩
      have hsplit : xs = xs.take len ++ y :: xs.drop (len + 1) := by
        obtain ⟨h1, h2⟩ := List.getElem?_eq_some_iff.mp hy
        conv_lhs => rw [← List.take_append_drop len xs, List.drop_eq_getElem_cons h1, h2]
      have hlen : (xs.take len).length = len := by simp [Nat.min_eq_left hl]
      refine ⟨a, xs.take len, xs.drop (len + 1), sp.tail, { σ with heap := σ.heap.set a (.arr ((xs.map (·.1)).set len x)) }, ?_, ?_, ?_, ?_⟩
      · rw [hap, hlen]
        simp [happendTo, hlt]
        rfl
      · intro w
        simp [appendVal, List.map_take]
      · have : (xs.map (·.2)).drop len = y.2 :: (xs.drop (len + 1)).map (·.2) := by
          conv_lhs => rw [hsplit, List.map_append, List.drop_left' (by simp [Nat.min_eq_left hl])]
          rfl
        rw [this] at hs
        exact SpareRep.tail hs
      · have h2 := h'.write (.arr ((xs.map (·.1)).set len x))
        have hset : (xs.map (·.1)).set len x = (xs.take len).map (·.1) ++ x :: (xs.drop (len + 1)).map (·.1) := by
          conv_lhs => rw [hsplit, List.map_append, List.set_append_right _ _ (by simp [Nat.min_eq_left hl])]
          simp [Nat.min_eq_left hl]
        rw [hset] at h2 ⊢
        have h3 : (xs.map (fun x => (e, x)) ++ R).Perm ((e, y) :: ((xs.take len ++ xs.drop (len + 1)).map (fun x => (e, x)) ++ R)) := by
          conv_lhs => rw [hsplit]
          simp only [List.map_append, List.map_cons, List.append_assoc, List.cons_append]
          exact List.perm_middle
        exact (h2.perm (List.Perm.cons _ h3)).drop2
    · have hlen : len = xs.length := by omega
      subst hlen
      obtain ⟨post, σ', h1, h2, h3⟩ := grow xs h'.tail
      have : sp = [] := SpareRep.empty (e := e) (by rwa [List.drop_eq_nil_of_le (by simp)] at hs)
      subst this
      refine ⟨σ.next, xs, post, [], σ', ?_, ?_, h2, h3⟩
      · rw [hap]
        simpa [happendTo] using h1
      · intro w
        simp [appendVal]

/-- `append`. -/
theorem append_sim {e : Ty} {s x : HV} {v w : Val} (he : e.nilable = true) (g : Growth) (h : Holds S B σ ((.list e, s, v) :: (e, x, w) :: R)) :
    ∃ (s' : HV) (v' : Val) (σ' : HState), happend g s x σ = (σ', .ok s') ∧ appendVal v w = .ok v' ∧ Holds S B σ' ((.list e, s', v') :: R) := by
  obtain ⟨a, pre, post, sp, σ', h1, h2, h3, h4⟩ := append_hole he g x h
  refine ⟨_, _, σ', h1, h2 w, Holds.sealList' h3 (h4.perm (List.Perm.cons _ ?_))⟩
  exact List.perm_middle

/-! ## Struct fields -/

variable {t : Nat} {p : HV} {d : MsgDesc} {f : FieldDesc}

/-- Assigning to a struct field, `x` being what is there afterwards. -/
theorem set_sim {O : Obj} {s s' : HV} {v : Val} (hf : (S.msg t).foreign = false) (hO : O.OK (S.msg t) f)
    (h : Holds S B σ (rawItem (O.cell s) O.a :: (fieldTy (S.msg t) f, s', v) :: (O.rest ++ R))) :
    ∃ σ', hsetSlot (.ptr O.a) f.slot s' σ = (σ', .ok ()) ∧ Holds S B σ' ((.msg t, .ptr O.a, O.val v) :: R) :=
  ⟨_, hO.hset h.read s', Holds.closeSlot hf hO (h.write _)⟩

theorem hgetSlot_nil (i : Nat) (σ : HState) : hgetSlot .nil i σ = (σ, .panic .nilDeref) := rfl
theorem hsetSlot_nil (i : Nat) (x : HV) (σ : HState) : hsetSlot .nil i x σ = (σ, .panic .nilDeref) := rfl

/-- Setting a struct field of a message which may be nil. -/
theorem put_sim {s' : HV} {v m : Val} (hf : (S.msg t).foreign = false) (hd : MsgFacts (S.msg t)) (hm : f ∈ (S.msg t).fields)
    (h : Holds S B σ ((.msg t, p, m) :: (fieldTy (S.msg t) f, s', v) :: R)) :
    (hsetSlot p f.slot s' σ).2 = (setSlot f.slot v m).2 ∧ Holds S B (hsetSlot p f.slot s' σ).1 ((.msg t, p, (setSlot f.slot v m).1) :: R) := by
  rcases h.openSlot hf hd hm with ⟨rfl, rfl⟩ | ⟨O, s, sv, rfl, rfl, hO, h'⟩
  · exact ⟨rfl, h.drop2⟩
  · have h2 : Holds S B σ (rawItem (O.cell s) O.a :: (fieldTy (S.msg t) f, s', v) :: (O.rest ++ R)) := by
      refine Holds.drop2 (y := (fieldTy (S.msg t) f, s, sv)) (h'.perm (List.Perm.cons _ (List.Perm.cons _ ?_)))
      exact List.perm_middle
    obtain ⟨σ', h3, h4⟩ := set_sim hf hO h2
    rw [h3, hO.set]
    exact ⟨rfl, h4⟩

/-- Code that uses up items. -/
def SimC (S : Schema) (B : Bufs) (t : Nat) (p : HV) (I : List VItem) {α : Type} (x : HM α) (u : UM α) : Prop :=
  ∀ m R σ, Holds S B σ ((.msg t, p, m) :: (I ++ R)) → (x σ).2 = (u m).2 ∧ Holds S B (x σ).1 ((.msg t, p, (u m).1) :: R)

/-- Storing what is in a new object. -/
theorem wrapPut_sim {x : HV} {v : Val} (hf : (S.msg t).foreign = false) (hd : MsgFacts (S.msg t)) (hm : f ∈ (S.msg t).fields) (ho : f.oneof = true) :
    SimC S B t p [(elemTy f.kind f.msg, x, v)] (halloc (.wrap f.num x) >>= fun a => hsetSlot p f.slot (.ptr a)) (setSlot f.slot (.wrap f.num v)) := by
  intro m R σ h
  rw [HM.bind_ok (halloc_ok _ _)]
  have h1 := h.alloc (.wrap f.num x)
  refine put_sim hf hd hm ?_
  have h2 : Holds S B (σ.grow (.wrap f.num x))
      (rawItem (.wrap f.num x) σ.next :: (elemTy f.kind f.msg, x, v) :: (.msg t, p, m) :: R) :=
    h1.perm (List.Perm.cons _ (List.Perm.swap _ _ _))
  have h3 : Holds S B (σ.grow (.wrap f.num x)) ((fieldTy (S.msg t) f, .ptr σ.next, .wrap f.num v) :: (.msg t, p, m) :: R) := by
    obtain ⟨F, h4, hg⟩ := h2
    have hty : fieldTy (S.msg t) f = .oneof (S.msg t) f.slot := by simp [fieldTy, ho]
    rw [hty]
    cases h4 with
    | raw hc hI => exact ⟨_, .oneof hc (member_of hd hm ho) hI, hg⟩
  exact h3.swap

theorem boxPut_sim {x : HV} {v : Val} (hf : (S.msg t).foreign = false) (hd : MsgFacts (S.msg t)) (hm : f ∈ (S.msg t).fields)
    (hty : fieldTy (S.msg t) f = .box) (hx : x ≠ .nil) :
    SimC S B t p [(.flat, x, v)] (halloc (.box x) >>= fun a => hsetSlot p f.slot (.ptr a)) (setSlot f.slot v) := by
  intro m R σ h
  rw [HM.bind_ok (halloc_ok _ _)]
  have h1 := h.alloc (.box x)
  refine put_sim hf hd hm ?_
  have h2 : Holds S B (σ.grow (.box x)) (rawItem (.box x) σ.next :: (.flat, x, v) :: (.msg t, p, m) :: R) :=
    h1.perm (List.Perm.cons _ (List.Perm.swap _ _ _))
  have h3 : Holds S B (σ.grow (.box x)) ((fieldTy (S.msg t) f, .ptr σ.next, v) :: (.msg t, p, m) :: R) := by
    obtain ⟨F, h4, hg⟩ := h2
    rw [hty]
    cases h4 with
    | raw hc hI => exact ⟨_, .box hc hx hI, hg⟩
  exact h3.swap

theorem appendSet_sim {O : Obj} {s x : HV} {sv v : Val} {e : Ty} (g : Growth) (hf : (S.msg t).foreign = false) (hO : O.OK (S.msg t) f)
    (hty : fieldTy (S.msg t) f = .list e) (he : e.nilable = true)
    (h : Holds S B σ (rawItem (O.cell s) O.a :: (.list e, s, sv) :: (e, x, v) :: (O.rest ++ R))) :
    ∃ σ' v', (happend g s x >>= fun s => hsetSlot (.ptr O.a) f.slot s) σ = (σ', .ok ()) ∧ appendVal sv v = .ok v' ∧
      Holds S B σ' ((.msg t, .ptr O.a, O.val v') :: R) := by
  have h2 : Holds S B σ ((.list e, s, sv) :: (e, x, v) :: (rawItem (O.cell s) O.a :: (O.rest ++ R))) :=
    h.perm (List.Perm.trans (List.Perm.swap _ _ _) (List.Perm.cons _ (List.Perm.swap _ _ _)))
  obtain ⟨s', v', σ', h3, h4, h5⟩ := append_sim he g h2
  obtain ⟨σ'', h6, h7⟩ := set_sim (f := f) hf hO (hty ▸ h5.swap)
  refine ⟨σ'', v', ?_, h4, h7⟩
  rw [HM.bind_ok h3, h6]

theorem appendPut_sim {x : HV} {v : Val} {e : Ty} {g : Growth} (hf : (S.msg t).foreign = false) (hd : MsgFacts (S.msg t)) (hm : f ∈ (S.msg t).fields)
    (hty : fieldTy (S.msg t) f = .list e) (he : e.nilable = true) :
    SimC S B t p [(e, x, v)] (hgetSlot p f.slot >>= fun s => happend g s x >>= fun s => hsetSlot p f.slot s)
      (getSlot f.slot >>= fun s => UM.lift (appendVal s v) >>= fun s => setSlot f.slot s) := by
  intro m R σ h
  rcases h.openSlot hf hd hm with ⟨rfl, rfl⟩ | ⟨O, s, sv, rfl, rfl, hO, h'⟩
  · rw [HM.bind_panic (hgetSlot_nil _ _), UM.bind_panic (show getSlot f.slot .nil = (.nil, .panic .nilDeref) from rfl)]
    exact ⟨rfl, h.drop2⟩
  · rw [HM.bind_ok (hO.hget h'.read), UM.bind_ok (hO.get sv)]
    have h2 : Holds S B σ (rawItem (O.cell s) O.a :: (.list e, s, sv) :: (e, x, v) :: (O.rest ++ R)) := by
      refine h'.perm ?_
      rw [hty]
      exact List.Perm.cons _ (List.Perm.cons _ List.perm_middle)
    obtain ⟨σ', v', h3, h4, h5⟩ := appendSet_sim g hf hO hty he h2
    rw [h3, UM.bind_ok (show UM.lift (appendVal sv v) (O.val sv) = (O.val sv, .ok v') by rw [h4]; rfl), hO.set]
    exact ⟨rfl, h5⟩

end

end Vtp
