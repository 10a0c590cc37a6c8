import Verif.Lemmas.Order
import Verif.Lemmas.Reuse
import Verif.Lemmas.Shuffle
import Mathlib.Data.List.Forall2
import Mathlib.Data.List.Perm.Basic
/-!
# Memory kept for reuse and the iteration order of maps
-/

namespace Vtp

open Spec

/-- What holds of `v` and `x` if `x` is `v` with maps in another order: whatever `v` is but for memory kept for reuse, `x` is but for memory kept
for reuse and the order of maps. -/
structure Carry (S : Schema) (v x : Val) : Prop where
  msg : ∀ {t w}, Reuse S t v w → ∃ y, Reuse S t x y ∧ Shuffle w y
  field : ∀ {d f w}, ReuseField S (Reuse S) d f v w → ∃ y, ReuseField S (Reuse S) d f x y ∧ Shuffle w y
  oneof : ∀ {d slot w}, ReuseOneof (Reuse S) d slot v w → ∃ y, ReuseOneof (Reuse S) d slot x y ∧ Shuffle w y

theorem Carry.elem {S : Schema} {v x : Val} (c : Carry S v x) (hs : Shuffle v x) {k : Kind} {t : Nat} {w : Val} (h : ReuseElem (Reuse S) k t v w) :
    ∃ y, ReuseElem (Reuse S) k t x y ∧ Shuffle w y := by
  by_cases hk : k = .message ∨ k = .group
  · unfold ReuseElem at h
    rw [if_pos hk] at h
    rcases h with ⟨rfl, rfl⟩ | ⟨h1, h2, h3⟩
    · rw [(shuffle_atom hs).1 rfl]
      exact ⟨.nil, reuseElem_nilnil hk t, .refl _⟩
    · obtain ⟨y, h4, h5⟩ := c.msg h3
      exact ⟨y, reuseElem_msg hk h4, h5⟩
  · unfold ReuseElem at h ⊢
    rw [if_neg hk] at h
    subst h
    exact ⟨x, by rw [if_neg hk], hs⟩

theorem reuse_other {S : Schema} {t : Nat} {x : Val} (h : ∀ s u e, x ≠ .msg s u e) : Reuse S t x x := by
  rw [reuse_iff]
  unfold ReuseMsg
  split
  · rfl
  · cases x <;> first | rfl | exact absurd rfl (h _ _ _)

theorem reuse_eq {S : Schema} {t : Nat} {v w : Val} (h : ∀ s u e, v ≠ .msg s u e) (hr : Reuse S t v w) : v = w := by
  cases hf : (S.msg t).foreign with
  | true => rw [reuse_iff] at hr; unfold ReuseMsg at hr; rwa [hf] at hr
  | false =>
    rcases reuse_cases hf hr with ⟨s, u, e, _, _, _, h1, -⟩ | h
    · exact absurd h1 (h s u e)
    · exact h.1

/-- For values that are not messages. -/
theorem carry_msg_other {S : Schema} {v x : Val} (h : ∀ s u e, v ≠ .msg s u e) (hx : ∀ s u e, x ≠ .msg s u e) (hs : Shuffle v x) {t : Nat} {w : Val}
    (hr : Reuse S t v w) : ∃ y, Reuse S t x y ∧ Shuffle w y := by
  cases reuse_eq h hr
  exact ⟨x, reuse_other hx, hs⟩

theorem carry_oneof_other {S : Schema} {v x : Val} (h : ∀ n y, v ≠ .wrap n y) (hs : Shuffle v x) {d : MsgDesc} {slot : Nat} {w : Val}
    (hr : ReuseOneof (Reuse S) d slot v w) : ∃ y, ReuseOneof (Reuse S) d slot x y ∧ Shuffle w y := by
  have h1 : v = w := by
    unfold ReuseOneof at hr
    split at hr
    · exact absurd rfl (h _ _)
    · exact hr
  subst h1
  refine ⟨x, ?_, hs⟩
  have h2 := shuffle_wrap' hs h
  cases x <;> first | rfl | exact absurd rfl (h2 _ _)

/-- For values which are no lists or maps. -/
theorem carry_field_other {S : Schema} {v x : Val} (h : ¬ isSlice v) (hm : ∀ es, v ≠ .map es) (hs : Shuffle v x) (hb : ∀ b, v ≠ .str b)
    (he : ∀ {k t w}, ReuseElem (Reuse S) k t v w → ∃ y, ReuseElem (Reuse S) k t x y ∧ Shuffle w y) {d : MsgDesc} {f : FieldDesc} {w : Val}
    (hr : ReuseField S (Reuse S) d f v w) : ∃ y, ReuseField S (Reuse S) d f x y ∧ Shuffle w y := by
  unfold ReuseField at hr ⊢
  cases hmap : f.map with
  | some md =>
    rw [hmap] at hr
    rcases hr with ⟨rfl, -⟩ | ⟨es, -, h1, -⟩
    · exact absurd trivial h
    · exact absurd h1 (hm _)
  | none =>
    rw [hmap] at hr
    simp only at hr ⊢
    by_cases hc : f.card = .repeated
    · rw [if_pos hc] at hr
      exact absurd hr.1 h
    · simp only [if_neg hc] at hr ⊢
      by_cases hk : f.kind = .bytes
      · simp only [if_pos hk] at hr ⊢
        rcases hr with rfl | ⟨-, h1, -⟩
        · exact ⟨x, .inl rfl, hs⟩
        · exact absurd h1 (hb _)
      · simp only [if_neg hk] at hr ⊢
        exact he hr

theorem forall₂_split {α β : Type} {r : α → β → Prop} {a b : List α} {v : α} : ∀ {l : List β}, List.Forall₂ r (a ++ v :: b) l →
    ∃ a' v' b', l = a' ++ v' :: b' ∧ List.Forall₂ r a a' ∧ r v v' ∧ List.Forall₂ r b b' := by
  induction a with
  | nil => intro l h; cases h with | cons h t => exact ⟨[], _, _, rfl, .nil, h, t⟩
  | cons x a ih =>
    intro l h
    cases h with
    | cons h t =>
      obtain ⟨a', v', b', rfl, h1, h2, h3⟩ := ih t
      exact ⟨_ :: a', v', b', rfl, .cons h h1, h2, h3⟩

theorem forall₂_join {α β : Type} {r : α → β → Prop} {a b : List α} {v : α} {a' b' : List β} {v' : β} (h1 : List.Forall₂ r a a') (h2 : r v v')
    (h3 : List.Forall₂ r b b') : List.Forall₂ r (a ++ v :: b) (a' ++ v' :: b') := List.rel_append h1 (.cons h2 h3)

/-- A field of which the value is a map. -/
theorem carry_field_map {S : Schema} {es es' : List (Key × Val)} (hs : Shuffle (.map es) (.map es'))
    (he : ∀ {md : MapDesc} {gs}, List.Forall₂ (fun e e' => e.1 = e'.1 ∧ ReuseElem (Reuse S) md.val md.valMsg e.2 e'.2) es gs →
      ∃ gs', List.Forall₂ (fun e e' => e.1 = e'.1 ∧ ReuseElem (Reuse S) md.val md.valMsg e.2 e'.2) es' gs' ∧ Shuffle (.map gs) (.map gs'))
    {d : MsgDesc} {f : FieldDesc} {w : Val}
    (hr : ReuseField S (Reuse S) d f (.map es) w) : ∃ y, ReuseField S (Reuse S) d f (.map es') y ∧ Shuffle w y := by
  unfold ReuseField at hr ⊢
  cases hmap : f.map with
  | some md =>
    rw [hmap] at hr
    rcases hr with ⟨h, -⟩ | ⟨_, gs, h1, rfl, h2⟩
    · cases h
    · cases h1
      obtain ⟨gs', h3, h4⟩ := he h2
      exact ⟨_, .inr ⟨_, _, rfl, rfl, h3⟩, h4⟩
  | none =>
    rw [hmap] at hr
    simp only at hr ⊢
    by_cases hc : f.card = .repeated
    · rw [if_pos hc] at hr
      exact absurd hr.1 id
    · simp only [if_neg hc] at hr ⊢
      by_cases hk : f.kind = .bytes
      · simp only [if_pos hk] at hr ⊢
        rcases hr with rfl | ⟨-, h1, -⟩
        · exact ⟨_, .inl rfl, hs⟩
        · cases h1
      · simp only [if_neg hk] at hr ⊢
        by_cases hk : f.kind = .message ∨ f.kind = .group
        · unfold ReuseElem at hr
          rw [if_pos hk] at hr
          rcases hr with ⟨h, -⟩ | ⟨-, -, h⟩
          · cases h
          · obtain ⟨y, h1, h2⟩ := carry_msg_other (by simp) (by simp) hs h
            exact ⟨y, reuseElem_msg hk h1, h2⟩
        · unfold ReuseElem at hr ⊢
          rw [if_neg hk] at hr
          subst hr
          exact ⟨_, by rw [if_neg hk], hs⟩

/-- A field of which the value is a list. -/
theorem carry_field_list {S : Schema} {a b sp : List Val} {v x : Val} (hs : Shuffle v x) (c : Carry S v x) {d : MsgDesc} {f : FieldDesc} {w : Val}
    (hr : ReuseField S (Reuse S) d f (.list (a ++ v :: b) sp) w) : ∃ y, ReuseField S (Reuse S) d f (.list (a ++ x :: b) sp) y ∧ Shuffle w y := by
  unfold ReuseField at hr ⊢
  cases hmap : f.map with
  | some md =>
    rw [hmap] at hr
    rcases hr with ⟨h, -⟩ | ⟨_, gs, h1, -⟩
    · cases h
    · cases h1
  | none =>
    rw [hmap] at hr
    simp only at hr ⊢
    by_cases hc : f.card = .repeated
    · simp only [if_pos hc] at hr ⊢
      obtain ⟨-, h1, h2, h3, -, h5, h6⟩ := hr
      cases w with
      | nil => simp only [Val.elems] at h2; obtain ⟨_, _, _, h, -⟩ := forall₂_split h2; simp at h
      | list ys sp' =>
        simp only [Val.elems] at h2
        obtain ⟨a', v', b', rfl, e1, e2, e3⟩ := forall₂_split h2
        obtain ⟨y, e4, e5⟩ := c.elem hs e2
        refine ⟨.list (a' ++ y :: b') sp', ⟨trivial, trivial, ?_, by simp, by simp, h5, h6⟩, .elem e5⟩
        exact forall₂_join e1 e4 e3
      | _ => exact absurd h1 id
    · simp only [if_neg hc] at hr ⊢
      by_cases hk : f.kind = .bytes
      · simp only [if_pos hk] at hr ⊢
        rcases hr with rfl | ⟨-, h1, -⟩
        · exact ⟨_, .inl rfl, .elem hs⟩
        · cases h1
      · simp only [if_neg hk] at hr ⊢
        by_cases hk : f.kind = .message ∨ f.kind = .group
        · unfold ReuseElem at hr
          rw [if_pos hk] at hr
          rcases hr with ⟨h, -⟩ | ⟨-, -, h⟩
          · cases h
          · obtain ⟨y, h1, h2⟩ := carry_msg_other (by simp) (by simp) (.elem hs) h
            exact ⟨y, reuseElem_msg hk h1, h2⟩
        · unfold ReuseElem at hr ⊢
          rw [if_neg hk] at hr
          subst hr
          exact ⟨_, by rw [if_neg hk], .elem hs⟩


theorem getD_mid (a b : List Val) (v : Val) : (a ++ v :: b).getD a.length .nil = v := by
  simp [List.getD_eq_getElem?_getD]

theorem getD_other (a b : List Val) (v w : Val) {i : Nat} (h : i ≠ a.length) : (a ++ v :: b).getD i .nil = (a ++ w :: b).getD i .nil := by
  rw [List.getD_eq_getElem?_getD, List.getD_eq_getElem?_getD]
  rcases Nat.lt_or_ge i a.length with h1 | h1
  · rw [List.getElem?_append_left h1, List.getElem?_append_left h1]
  · rw [List.getElem?_append_right h1, List.getElem?_append_right h1]
    obtain ⟨k, hk⟩ : ∃ k, i - a.length = k + 1 := ⟨i - a.length - 1, by omega⟩
    rw [hk]
    rfl

theorem carry_msg {S : Schema} (hS : schemaOK S = true) {a b : List Val} {v x : Val} {u e : Bytes} (hs : Shuffle v x) (c : Carry S v x) {t : Nat} {w : Val}
    (hr : Reuse S t (.msg (a ++ v :: b) u e) w) : ∃ y, Reuse S t (.msg (a ++ x :: b) u e) y ∧ Shuffle w y := by
  cases hf : (S.msg t).foreign with
  | true =>
    rw [reuse_iff] at hr
    unfold ReuseMsg at hr
    rw [hf] at hr
    simp only [if_true] at hr
    subst hr
    refine ⟨_, ?_, .slot hs⟩
    rw [reuse_iff]
    unfold ReuseMsg
    rw [hf]
    rfl
  | false =>
    have M := schemaOK_msg hS t
    rcases reuse_cases hf hr with ⟨_, _, _, s', u', e', h1, rfl⟩ | h
    swap
    · exact absurd rfl (h.2 _ _ _)
    cases h1
    obtain ⟨rfl, rfl, h1, h2, h3⟩ := (reuse_msg hf).1 hr
    have hl : a.length < s'.length := by rw [h2, ← h1]; simp
    obtain ⟨a', v', b', rfl, ha⟩ : ∃ a' v' b', s' = a' ++ v' :: b' ∧ a'.length = a.length :=
      ⟨s'.take a.length, s'[a.length], s'.drop (a.length + 1), by rw [← List.drop_eq_getElem_cons hl, List.take_append_drop], by simp; omega⟩
    obtain ⟨f, hfm, hfs⟩ := M.cover a.length (by rw [← h1]; simp)
    have g1 : slotOf (a ++ v :: b) f = v := by unfold slotOf; rw [hfs]; exact getD_mid ..
    have g2 : slotOf (a' ++ v' :: b') f = v' := by unfold slotOf; rw [hfs, ← ha]; exact getD_mid ..
    have hb := h3 f hfm
    rw [g1, g2] at hb
    obtain ⟨y, hy, hsy⟩ : ∃ y, (if f.oneof then ReuseOneof (Reuse S) (S.msg t) f.slot x y else ReuseField S (Reuse S) (S.msg t) f x y) ∧ Shuffle v' y := by
      by_cases ho : f.oneof = true
      · simp only [ho, if_true] at hb ⊢
        exact c.oneof hb
      · simp only [ho, Bool.false_eq_true, if_false] at hb ⊢
        exact c.field hb
    refine ⟨.msg (a' ++ y :: b') u e, (reuse_msg hf).2 ⟨rfl, rfl, by rw [← h1]; simp, by rw [← h2]; simp, ?_⟩, .slot hsy⟩
    intro g hg
    by_cases hgs : g.slot = a.length
    · have g3 : slotOf (a ++ x :: b) g = x := by unfold slotOf; rw [hgs]; exact getD_mid ..
      have g4 : slotOf (a' ++ y :: b') g = y := by unfold slotOf; rw [hgs, ← ha]; exact getD_mid ..
      rw [g3, g4]
      by_cases hn : f.num = g.num
      · have : f = g := List.inj_on_of_nodup_map M.nodup hfm hg hn
        rw [← this]
        exact hy
      · obtain ⟨o1, o2⟩ := M.share f hfm g hg hn (by rw [hfs, hgs])
        rw [o1, if_pos rfl, hfs, ← hgs] at hy
        rw [o2, if_pos rfl]
        exact hy
    · have g3 : slotOf (a ++ x :: b) g = slotOf (a ++ v :: b) g := getD_other _ _ _ _ hgs
      have g4 : slotOf (a' ++ y :: b') g = slotOf (a' ++ v' :: b') g := getD_other _ _ _ _ (by rw [ha]; exact hgs)
      rw [g3, g4]
      exact h3 g hg

theorem carry {S : Schema} (hS : schemaOK S = true) {v x : Val} (h : Shuffle v x) : Carry S v x := by
  induction h with
  | refl v => exact ⟨fun h => ⟨_, h, .refl _⟩, fun h => ⟨_, h, .refl _⟩, fun h => ⟨_, h, .refl _⟩⟩
  | trans h1 h2 c1 c2 =>
    refine ⟨fun h => ?_, fun h => ?_, fun h => ?_⟩
    · obtain ⟨y, a1, a2⟩ := c1.msg h
      obtain ⟨z, a3, a4⟩ := c2.msg a1
      exact ⟨z, a3, .trans a2 a4⟩
    · obtain ⟨y, a1, a2⟩ := c1.field h
      obtain ⟨z, a3, a4⟩ := c2.field a1
      exact ⟨z, a3, .trans a2 a4⟩
    · obtain ⟨y, a1, a2⟩ := c1.oneof h
      obtain ⟨z, a3, a4⟩ := c2.oneof a1
      exact ⟨z, a3, .trans a2 a4⟩
  | @perm es es' hp =>
    refine ⟨carry_msg_other (by simp) (by simp) (.perm hp), carry_field_map (.perm hp) fun {md gs} h => ?_, carry_oneof_other (by simp) (.perm hp)⟩
    obtain ⟨gs', h1, h2⟩ := List.perm_comp_forall₂ hp.symm h
    exact ⟨gs', h1, .perm h2.symm⟩
  | @entry a b k v w hs c =>
    refine ⟨carry_msg_other (by simp) (by simp) (.entry hs), carry_field_map (.entry hs) fun {md gs} h => ?_, carry_oneof_other (by simp) (.entry hs)⟩
    obtain ⟨a', ⟨k', v'⟩, b', rfl, h1, ⟨h2, h2'⟩, h3⟩ := forall₂_split h
    simp only at h2 h2'
    subst h2
    obtain ⟨y, h4, h5⟩ := c.elem hs h2'
    exact ⟨a' ++ (k, y) :: b', forall₂_join h1 ⟨rfl, h4⟩ h3, .entry h5⟩
  | elem hs c => exact ⟨carry_msg_other (by simp) (by simp) (.elem hs), carry_field_list hs c, carry_oneof_other (by simp) (.elem hs)⟩
  | @slot a b v w u e hs c =>
    refine ⟨carry_msg hS hs c, carry_field_other id (by simp) (.slot hs) (by simp) fun {k t w'} h => ?_, carry_oneof_other (by simp) (.slot hs)⟩
    by_cases hk : k = .message ∨ k = .group
    · unfold ReuseElem at h
      rw [if_pos hk] at h
      rcases h with ⟨h, -⟩ | ⟨-, -, h⟩
      · cases h
      · obtain ⟨y, h1, h2⟩ := carry_msg hS hs c h
        exact ⟨y, reuseElem_msg hk h1, h2⟩
    · unfold ReuseElem at h ⊢
      rw [if_neg hk] at h
      subst h
      exact ⟨_, by rw [if_neg hk], .slot hs⟩
  | @wrap n v w hs c =>
    refine ⟨carry_msg_other (by simp) (by simp) (.wrap hs), carry_field_other id (by simp) (.wrap hs) (by simp) fun {k t w'} h => ?_, fun {d slot w'} h => ?_⟩
    · by_cases hk : k = .message ∨ k = .group
      · unfold ReuseElem at h
        rw [if_pos hk] at h
        rcases h with ⟨h, -⟩ | ⟨-, -, h⟩
        · cases h
        · obtain ⟨y, h1, h2⟩ := carry_msg_other (by simp) (by simp) (.wrap hs) h
          exact ⟨y, reuseElem_msg hk h1, h2⟩
      · unfold ReuseElem at h ⊢
        rw [if_neg hk] at h
        subst h
        exact ⟨_, by rw [if_neg hk], .wrap hs⟩
    · cases w' with
      | wrap n' z =>
        obtain ⟨rfl, f, h1, h2⟩ := h
        obtain ⟨y, h3, h4⟩ := c.elem hs h2
        exact ⟨.wrap n y, ⟨rfl, f, h1, h3⟩, .wrap h4⟩
      | _ => cases h

/-- A message that is `w` but for memory kept for reuse, with its maps in another order, is `w` with its maps in another order, but for that memory. -/
theorem reuse_shuffle {S : Schema} (hS : schemaOK S = true) {t : Nat} {v w x : Val} (h : Reuse S t v w) (hs : Shuffle v x) :
    ∃ y, Reuse S t x y ∧ Shuffle w y := (carry hS hs).msg h

end Vtp
