import Verif.Lemmas.Order
import Verif.Lemmas.Missing
import Verif.Lemmas.Same
/-!
# Changing the iteration order of maps: shapes, typing, and building shuffles
-/

namespace Vtp
open Spec

theorem shuffle_list {v w : Val} (h : Shuffle v w) : ∀ xs sp, v = .list xs sp → ∃ ys, w = .list ys sp ∧ List.Forall₂ Shuffle xs ys := by
  have hrefl : ∀ l : List Val, List.Forall₂ Shuffle l l := fun l => List.forall₂_same.2 fun x _ => .refl x
  induction h with
  | refl v => intro xs sp h; exact ⟨xs, h, hrefl _⟩
  | trans _ _ ih1 ih2 =>
    intro xs sp h
    obtain ⟨ys, h1, s1⟩ := ih1 xs sp h
    obtain ⟨zs, h2, s2⟩ := ih2 ys sp h1
    exact ⟨zs, h2, forall₂_trans' (r := Shuffle) (fun _ _ _ => Shuffle.trans) s1 s2⟩
  | @elem a b sp' v w hs _ =>
    intro xs sp h
    simp only [Val.list.injEq] at h
    obtain ⟨rfl, rfl⟩ := h
    refine ⟨_, rfl, ?_⟩
    induction a with
    | nil => exact .cons hs (hrefl _)
    | cons c a ih => exact .cons (.refl _) ih
  | _ => intro xs sp h; simp at h

theorem shuffle_map {v w : Val} (h : Shuffle v w) : ∀ es, v = .map es → ∃ fs, w = .map fs ∧ (es.map (·.1)).Perm (fs.map (·.1)) ∧
    ∀ b ∈ fs, ∃ a ∈ es, a.1 = b.1 ∧ Shuffle a.2 b.2 := by
  induction h with
  | refl v => intro es h; exact ⟨es, h, .refl _, fun b hb => ⟨b, hb, rfl, .refl _⟩⟩
  | trans _ _ ih1 ih2 =>
    intro es h
    obtain ⟨fs, h1, p1, s1⟩ := ih1 es h
    obtain ⟨gs, h2, p2, s2⟩ := ih2 fs h1
    refine ⟨gs, h2, p1.trans p2, fun c hc => ?_⟩
    obtain ⟨b, hb, e1, f1⟩ := s2 c hc
    obtain ⟨a, ha, e2, f2⟩ := s1 b hb
    exact ⟨a, ha, e2.trans e1, f2.trans f1⟩
  | perm hp =>
    intro es h
    simp only [Val.map.injEq] at h
    subst h
    exact ⟨_, rfl, hp.map _, fun b hb => ⟨b, hp.mem_iff.2 hb, rfl, .refl _⟩⟩
  | @entry a b k v w hs _ =>
    intro es h
    simp only [Val.map.injEq] at h
    subst h
    refine ⟨_, rfl, by simp, fun c hc => ?_⟩
    rcases List.mem_append.1 hc with hc | hc
    · exact ⟨c, by simp [hc], rfl, .refl _⟩
    · rcases List.mem_cons.1 hc with rfl | hc
      · exact ⟨(k, v), by simp, rfl, hs⟩
      · exact ⟨c, by simp [hc], rfl, .refl _⟩
  | _ => intro es h; simp at h

/-- Values without parts do not change. -/
theorem shuffle_atom {v w : Val} (h : Shuffle v w) : (v = .nil → w = .nil) ∧ (∀ n, v = .num n → w = .num n) ∧
    (∀ b, v = .str b → w = .str b) ∧ (∀ n, v = .wrapNil n → w = .wrapNil n) := by
  induction h with
  | refl v => exact ⟨id, fun _ => id, fun _ => id, fun _ => id⟩
  | trans _ _ ih1 ih2 =>
    exact ⟨ih2.1 ∘ ih1.1, fun n => ih2.2.1 n ∘ ih1.2.1 n, fun n => ih2.2.2.1 n ∘ ih1.2.2.1 n, fun n => ih2.2.2.2 n ∘ ih1.2.2.2 n⟩
  | _ => simp

theorem shuffle_scalarOK {k : Kind} {v w : Val} (h : Shuffle v w) (hv : scalarOK k v = true) : w = v := by
  obtain ⟨h1, h2, h3, _⟩ := shuffle_atom h
  cases v
  · rw [h1 rfl]
  · rw [h2 _ rfl]
  · rw [h3 _ rfl]
  all_goals exfalso; revert hv; cases k <;> simp [scalarOK]

theorem shuffle_elemOK {r : Nat → Val → Bool} (hr : ∀ t v w, Shuffle v w → r t v = true → r t w = true) {k : Kind} {t : Nat} {v w : Val}
    (h : Shuffle v w) (hv : elemOK r k t v = true) : elemOK r k t w = true := by
  by_cases hk : k = .message ∨ k = .group
  · have hv : v.isNil = true ∨ r t v = true := by rcases hk with rfl | rfl <;> simpa [elemOK] using hv
    have hw : w.isNil = true ∨ r t w = true := by
      rcases hv with hv | hv
      · exact .inl (by rw [← shuffle_isNil h]; exact hv)
      · exact .inr (hr t v w h hv)
    rcases hk with rfl | rfl <;> simpa [elemOK] using hw
  · have : scalarOK k v = true := by cases k <;> simp_all [elemOK]
    rw [shuffle_scalarOK h this]; exact hv

theorem shuffle_fieldOK {r : Nat → Val → Bool} (hr : ∀ t v w, Shuffle v w → r t v = true → r t w = true) {f : FieldDesc} {v w : Val}
    (h : Shuffle v w) (hv : fieldOK r f v = true) : fieldOK r f w = true := by
  unfold fieldOK at hv ⊢
  cases hm : f.map with
  | some md =>
    simp only [hm] at hv ⊢
    cases v <;> simp only at hv <;> try cases hv
    · rw [(shuffle_atom h).1 rfl]
    · rename_i es
      obtain ⟨fs, rfl, hp, hb⟩ := shuffle_map h es rfl
      simp only [Bool.and_eq_true, decide_eq_true_iff, List.all_eq_true] at hv ⊢
      refine ⟨hp.nodup_iff.1 hv.1, fun b hmem => ?_⟩
      obtain ⟨a, ha, e1, s1⟩ := hb b hmem
      have := hv.2 a ha
      exact ⟨by rw [← e1]; exact this.1, shuffle_elemOK hr s1 this.2⟩
  | none =>
    simp only [hm] at hv ⊢
    split at hv
    · rw [if_pos (by assumption)]
      cases v <;> simp only at hv <;> try cases hv
      · rw [(shuffle_atom h).1 rfl]
      · rename_i xs sp
        obtain ⟨ys, rfl, hs⟩ := shuffle_list h xs sp rfl
        simp only [Bool.and_eq_true, List.all_eq_true] at hv ⊢
        refine ⟨?_, hv.2⟩
        have h1 := hv.1
        clear hv h
        induction hs with
        | nil => simp
        | cons a _ ih =>
          intro x hx
          rcases List.mem_cons.1 hx with rfl | hx
          · exact shuffle_elemOK hr a (h1 _ (by simp))
          · exact ih (fun x hx => h1 x (by simp [hx])) x hx
    · rw [if_neg (by assumption)]
      split at hv
      · rw [if_pos (by assumption)]
        rw [Bool.or_eq_true] at hv ⊢
        rcases hv with hv | hv
        · exact .inl (by rw [← shuffle_isNil h]; exact hv)
        · exact .inr (shuffle_elemOK hr h hv)
      · rw [if_neg (by assumption)]
        rw [shuffle_scalarOK h hv]; exact hv

theorem shuffle_oneofOK {r : Nat → Val → Bool} (hr : ∀ t v w, Shuffle v w → r t v = true → r t w = true) {tn : Members} {d : MsgDesc} {slot : Nat}
    {v w : Val} (h : Shuffle v w) (hv : oneofOK tn r d slot v = true) : oneofOK tn r d slot w = true := by
  cases v <;> simp only [oneofOK] at hv <;> try cases hv
  · rw [(shuffle_atom h).1 rfl]; rfl
  · rename_i n x
    obtain ⟨y, rfl, hs⟩ := shuffle_wrap h n x rfl
    simp only [oneofOK]
    cases hm : d.member slot n with
    | none => simp [hm] at hv
    | some f =>
      simp only [hm, Bool.and_eq_true] at hv ⊢
      refine ⟨shuffle_elemOK hr hs hv.1, ?_⟩
      rw [← shuffle_isNil hs]; exact hv.2
  · rename_i n
    rw [(shuffle_atom h).2.2.2 n rfl]; exact hv

theorem shuffle_wtN {S : Schema} {tn : Members} : ∀ (n t : Nat) (v w : Val), Shuffle v w → wtN S tn n t v = true → wtN S tn n t w = true := by
  intro n
  induction n with
  | zero => intro t v w _ h; simp [wtN] at h
  | succ n ih =>
    intro t v w hs h
    obtain ⟨s, u, e, rfl⟩ := wtN_shape h
    obtain ⟨s', rfl, hl, ha⟩ := shuffle_msg hs s u e rfl
    simp only [wtN, Bool.or_eq_true, Bool.and_eq_true, decide_eq_true_iff, List.all_eq_true] at h ⊢
    refine h.imp id fun h => ⟨by omega, fun f hf => ?_⟩
    have := h.2 f hf
    split at this
    · rw [if_pos (by assumption)]; exact shuffle_oneofOK ih (ha f.slot) this
    · rw [if_neg (by assumption)]; exact shuffle_fieldOK ih (ha f.slot) this

/-- A shuffled message is well typed. -/
theorem shuffle_wtM {S : Schema} {tn : Members} {t : Nat} {v w : Val} (h : Shuffle v w) (hv : wtM S tn t v = true) : wtM S tn t w = true := by
  have h1 : wtN S tn (max v.depth w.depth) t v = true := by rw [wtN_eq S tn (Nat.le_max_left ..)]; exact hv
  have h2 := shuffle_wtN _ t v w h h1
  rwa [wtN_eq S tn (Nat.le_max_right ..)] at h2

theorem shuffle_listOf {xs ys : List Val} (h : List.Forall₂ Shuffle xs ys) (sp : List Val) : Shuffle (.list xs sp) (.list ys sp) := by
  suffices ∀ a, Shuffle (.list (a ++ xs) sp) (.list (a ++ ys) sp) from this []
  induction h with
  | nil => exact fun a => .refl _
  | @cons x y xs ys hs _ ih =>
    intro a
    refine (Shuffle.elem (a := a) (b := xs) hs).trans ?_
    have := ih (a ++ [y])
    simpa using this

theorem shuffle_msgOf {xs ys : List Val} (h : List.Forall₂ Shuffle xs ys) (u e : Bytes) : Shuffle (.msg xs u e) (.msg ys u e) := by
  suffices ∀ a, Shuffle (.msg (a ++ xs) u e) (.msg (a ++ ys) u e) from this []
  induction h with
  | nil => exact fun a => .refl _
  | @cons x y xs ys hs _ ih =>
    intro a
    refine (Shuffle.slot (a := a) (b := xs) hs).trans ?_
    have := ih (a ++ [y])
    simpa using this

theorem shuffle_mapOf {es fs : List (Key × Val)} (h : List.Forall₂ (fun a b => a.1 = b.1 ∧ Shuffle a.2 b.2) es fs) : Shuffle (.map es) (.map fs) := by
  suffices ∀ a, Shuffle (.map (a ++ es)) (.map (a ++ fs)) from this []
  induction h with
  | nil => exact fun a => .refl _
  | @cons x y xs ys hs _ ih =>
    intro a
    obtain ⟨k, x⟩ := x
    obtain ⟨k', y⟩ := y
    obtain ⟨rfl, hs⟩ := hs
    refine (Shuffle.entry (a := a) (b := xs) (k := k) hs).trans ?_
    have := ih (a ++ [(k, y)])
    simpa using this

end Vtp
