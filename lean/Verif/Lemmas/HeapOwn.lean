import Verif.Spec.Heap
import Mathlib.Tactic.Abel
import Mathlib.Data.Multiset.UnionInter
import Mathlib.Algebra.Order.Group.Multiset
/-! # Ownership: splitting, reordering, framing -/

namespace Vtp.Spec

theorem OwnL.split {S : Schema} {B : Lent} {h : Heap} {I : List Item} {F : Multiset Addr} (ho : OwnL S B h I F) :
    ∀ {I1 I2 : List Item}, I = I1 ++ I2 → ∃ F1 F2, F = F1 + F2 ∧ OwnL S B h I1 F1 ∧ OwnL S B h I2 F2 := by
  induction ho with
  | done =>
    intro I1 I2 he
    obtain ⟨rfl, rfl⟩ := List.append_eq_nil_iff.mp he.symm
    exact ⟨0, 0, rfl, .done, .done⟩
  | nil ht hI ih =>
    intro I1 I2 he
    rcases List.cons_eq_append_iff.mp he with ⟨rfl, rfl⟩ | ⟨J, rfl, rfl⟩
    · exact ⟨0, _, (zero_add _).symm, .done, .nil ht hI⟩
    · obtain ⟨F1, F2, rfl, h1, h2⟩ := ih rfl
      exact ⟨F1, F2, rfl, .nil ht h1, h2⟩
  | num hI ih =>
    intro I1 I2 he
    rcases List.cons_eq_append_iff.mp he with ⟨rfl, rfl⟩ | ⟨J, rfl, rfl⟩
    · exact ⟨0, _, (zero_add _).symm, .done, .num hI⟩
    · obtain ⟨F1, F2, rfl, h1, h2⟩ := ih rfl
      exact ⟨F1, F2, rfl, .num h1, h2⟩
  | str hI ih =>
    intro I1 I2 he
    rcases List.cons_eq_append_iff.mp he with ⟨rfl, rfl⟩ | ⟨J, rfl, rfl⟩
    · exact ⟨0, _, (zero_add _).symm, .done, .str hI⟩
    · obtain ⟨F1, F2, rfl, h1, h2⟩ := ih rfl
      exact ⟨F1, F2, rfl, .str h1, h2⟩
  | view ha hI ih =>
    intro I1 I2 he
    rcases List.cons_eq_append_iff.mp he with ⟨rfl, rfl⟩ | ⟨J, rfl, rfl⟩
    · exact ⟨0, _, (zero_add _).symm, .done, .view ha hI⟩
    · obtain ⟨F1, F2, rfl, h1, h2⟩ := ih rfl
      exact ⟨F1, F2, rfl, .view ha h1, h2⟩
  | is hI ih =>
    intro I1 I2 he
    rcases List.cons_eq_append_iff.mp he with ⟨rfl, rfl⟩ | ⟨J, rfl, rfl⟩
    · exact ⟨0, _, (zero_add _).symm, .done, .is hI⟩
    · obtain ⟨F1, F2, rfl, h1, h2⟩ := ih rfl
      exact ⟨F1, F2, rfl, .is h1, h2⟩
  | wrapNil hI ih =>
    intro I1 I2 he
    rcases List.cons_eq_append_iff.mp he with ⟨rfl, rfl⟩ | ⟨J, rfl, rfl⟩
    · exact ⟨0, _, (zero_add _).symm, .done, .wrapNil hI⟩
    · obtain ⟨F1, F2, rfl, h1, h2⟩ := ih rfl
      exact ⟨F1, F2, rfl, .wrapNil h1, h2⟩
  | lent ha hI ih =>
    intro I1 I2 he
    rcases List.cons_eq_append_iff.mp he with ⟨rfl, rfl⟩ | ⟨J, rfl, rfl⟩
    · exact ⟨0, _, (zero_add _).symm, .done, .lent ha hI⟩
    · obtain ⟨F1, F2, rfl, h1, h2⟩ := ih rfl
      exact ⟨F1, F2, rfl, .lent ha h1, h2⟩
  | bytes hc hI ih =>
    intro I1 I2 he
    rcases List.cons_eq_append_iff.mp he with ⟨rfl, rfl⟩ | ⟨J, rfl, rfl⟩
    · exact ⟨0, _, (zero_add _).symm, .done, .bytes hc hI⟩
    · obtain ⟨F1, F2, rfl, h1, h2⟩ := ih rfl
      exact ⟨_, F2, (Multiset.cons_add _ _ _).symm, .bytes hc h1, h2⟩
  | mem hc hI ih =>
    intro I1 I2 he
    rcases List.cons_eq_append_iff.mp he with ⟨rfl, rfl⟩ | ⟨J, rfl, rfl⟩
    · exact ⟨0, _, (zero_add _).symm, .done, .mem hc hI⟩
    · obtain ⟨F1, F2, rfl, h1, h2⟩ := ih rfl
      exact ⟨_, F2, (Multiset.cons_add _ _ _).symm, .mem hc h1, h2⟩
  | raw hc hI ih =>
    intro I1 I2 he
    rcases List.cons_eq_append_iff.mp he with ⟨rfl, rfl⟩ | ⟨J, rfl, rfl⟩
    · exact ⟨0, _, (zero_add _).symm, .done, .raw hc hI⟩
    · obtain ⟨F1, F2, rfl, h1, h2⟩ := ih rfl
      exact ⟨_, F2, (Multiset.cons_add _ _ _).symm, .raw hc h1, h2⟩
  | box hc hI ih =>
    intro I1 I2 he
    rcases List.cons_eq_append_iff.mp he with ⟨rfl, rfl⟩ | ⟨J, rfl, rfl⟩
    · exact ⟨0, _, (zero_add _).symm, .done, .box hc hI⟩
    · obtain ⟨F1, F2, rfl, h1, h2⟩ := ih (List.cons_append).symm
      exact ⟨_, F2, (Multiset.cons_add _ _ _).symm, .box hc h1, h2⟩
  | foreign hf hc hI ih =>
    intro I1 I2 he
    rcases List.cons_eq_append_iff.mp he with ⟨rfl, rfl⟩ | ⟨J, rfl, rfl⟩
    · exact ⟨0, _, (zero_add _).symm, .done, .foreign hf hc hI⟩
    · obtain ⟨F1, F2, rfl, h1, h2⟩ := ih rfl
      exact ⟨_, F2, (Multiset.cons_add _ _ _).symm, .foreign hf hc h1, h2⟩
  | msg hf hc hl hI ih =>
    intro I1 I2 he
    rcases List.cons_eq_append_iff.mp he with ⟨rfl, rfl⟩ | ⟨J, rfl, rfl⟩
    · exact ⟨0, _, (zero_add _).symm, .done, .msg hf hc hl hI⟩
    · obtain ⟨F1, F2, rfl, h1, h2⟩ := ih (List.append_assoc _ (_ :: J) I2).symm
      exact ⟨_, F2, (Multiset.cons_add _ _ _).symm, .msg hf hc hl h1, h2⟩
  | obj hc hl hI ih =>
    intro I1 I2 he
    rcases List.cons_eq_append_iff.mp he with ⟨rfl, rfl⟩ | ⟨J, rfl, rfl⟩
    · exact ⟨0, _, (zero_add _).symm, .done, .obj hc hl hI⟩
    · obtain ⟨F1, F2, rfl, h1, h2⟩ := ih (List.append_assoc _ (_ :: J) I2).symm
      exact ⟨_, F2, (Multiset.cons_add _ _ _).symm, .obj hc hl h1, h2⟩
  | list hc hl hI ih =>
    intro I1 I2 he
    rcases List.cons_eq_append_iff.mp he with ⟨rfl, rfl⟩ | ⟨J, rfl, rfl⟩
    · exact ⟨0, _, (zero_add _).symm, .done, .list hc hl hI⟩
    · obtain ⟨F1, F2, rfl, h1, h2⟩ := ih (I1 := _ ++ J) (by rw [List.append_assoc])
      exact ⟨_, F2, (Multiset.cons_add _ _ _).symm, .list hc hl h1, h2⟩
  | hole hc hl hi hI ih =>
    intro I1 I2 he
    rcases List.cons_eq_append_iff.mp he with ⟨rfl, rfl⟩ | ⟨J, rfl, rfl⟩
    · exact ⟨0, _, (zero_add _).symm, .done, .hole hc hl hi hI⟩
    · obtain ⟨F1, F2, rfl, h1, h2⟩ := ih (I1 := _ ++ J) (by rw [List.append_assoc])
      exact ⟨_, F2, (Multiset.cons_add _ _ _).symm, .hole hc hl hi h1, h2⟩
  | map hc hI ih =>
    intro I1 I2 he
    rcases List.cons_eq_append_iff.mp he with ⟨rfl, rfl⟩ | ⟨J, rfl, rfl⟩
    · exact ⟨0, _, (zero_add _).symm, .done, .map hc hI⟩
    · obtain ⟨F1, F2, rfl, h1, h2⟩ := ih (I1 := _ ++ J) (by rw [List.append_assoc])
      exact ⟨_, F2, (Multiset.cons_add _ _ _).symm, .map hc h1, h2⟩
  | oneof hc hm hI ih =>
    intro I1 I2 he
    rcases List.cons_eq_append_iff.mp he with ⟨rfl, rfl⟩ | ⟨J, rfl, rfl⟩
    · exact ⟨0, _, (zero_add _).symm, .done, .oneof hc hm hI⟩
    · obtain ⟨F1, F2, rfl, h1, h2⟩ := ih (List.cons_append).symm
      exact ⟨_, F2, (Multiset.cons_add _ _ _).symm, .oneof hc hm h1, h2⟩
  | wrap hc hI ih =>
    intro I1 I2 he
    rcases List.cons_eq_append_iff.mp he with ⟨rfl, rfl⟩ | ⟨J, rfl, rfl⟩
    · exact ⟨0, _, (zero_add _).symm, .done, .wrap hc hI⟩
    · obtain ⟨F1, F2, rfl, h1, h2⟩ := ih (List.cons_append).symm
      exact ⟨_, F2, (Multiset.cons_add _ _ _).symm, .wrap hc h1, h2⟩

theorem OwnL.append {S : Schema} {B : Lent} {h : Heap} {I1 : List Item} {F1 : Multiset Addr} (h1 : OwnL S B h I1 F1) :
    ∀ {I2 : List Item} {F2 : Multiset Addr}, OwnL S B h I2 F2 → OwnL S B h (I1 ++ I2) (F1 + F2) := by
  induction h1 with
  | done => intro I2 F2 h2; simpa using h2
  | nil ht _ ih => intro I2 F2 h2; exact .nil ht (ih h2)
  | num _ ih => intro I2 F2 h2; exact .num (ih h2)
  | str _ ih => intro I2 F2 h2; exact .str (ih h2)
  | view ha _ ih => intro I2 F2 h2; exact .view ha (ih h2)
  | is _ ih => intro I2 F2 h2; exact .is (ih h2)
  | wrapNil _ ih => intro I2 F2 h2; exact .wrapNil (ih h2)
  | lent ha _ ih => intro I2 F2 h2; exact .lent ha (ih h2)
  | bytes hc _ ih => intro I2 F2 h2; rw [Multiset.cons_add]; exact .bytes hc (ih h2)
  | mem hc _ ih => intro I2 F2 h2; rw [Multiset.cons_add]; exact .mem hc (ih h2)
  | raw hc _ ih => intro I2 F2 h2; rw [Multiset.cons_add]; exact .raw hc (ih h2)
  | box hc _ ih => intro I2 F2 h2; rw [Multiset.cons_add]; exact .box hc (ih h2)
  | foreign hf hc _ ih => intro I2 F2 h2; rw [Multiset.cons_add]; exact .foreign hf hc (ih h2)
  | msg hf hc hl _ ih => intro I2 F2 h2; rw [Multiset.cons_add]; exact .msg hf hc hl (by simpa using ih h2)
  | obj hc hl _ ih => intro I2 F2 h2; rw [Multiset.cons_add]; exact .obj hc hl (by simpa using ih h2)
  | list hc hl _ ih => intro I2 F2 h2; rw [Multiset.cons_add]; exact .list hc hl (by simpa using ih h2)
  | hole hc hl hi _ ih => intro I2 F2 h2; rw [Multiset.cons_add]; exact .hole hc hl hi (by simpa using ih h2)
  | map hc _ ih => intro I2 F2 h2; rw [Multiset.cons_add]; exact .map hc (by simpa using ih h2)
  | oneof hc hm _ ih => intro I2 F2 h2; rw [Multiset.cons_add]; exact .oneof hc hm (ih h2)
  | wrap hc _ ih => intro I2 F2 h2; rw [Multiset.cons_add]; exact .wrap hc (ih h2)

theorem OwnL.frame {S : Schema} {B : Lent} {h h' : Heap} {I : List Item} {F : Multiset Addr} (ho : OwnL S B h I F) :
    (∀ a ∈ F, h'[a]? = h[a]?) → OwnL S B h' I F := by
  induction ho with
  | done => intro _; exact .done
  | nil ht _ ih => intro hk; exact .nil ht (ih hk)
  | num _ ih => intro hk; exact .num (ih hk)
  | str _ ih => intro hk; exact .str (ih hk)
  | view ha _ ih => intro hk; exact .view ha (ih hk)
  | is _ ih => intro hk; exact .is (ih hk)
  | wrapNil _ ih => intro hk; exact .wrapNil (ih hk)
  | lent ha _ ih => intro hk; exact .lent ha (ih hk)
  | bytes hc _ ih => intro hk; exact .bytes ((hk _ (by simp)).trans hc) (ih fun a ha => hk a (by simp [ha]))
  | mem hc _ ih => intro hk; exact .mem ((hk _ (by simp)).trans hc) (ih fun a ha => hk a (by simp [ha]))
  | raw hc _ ih => intro hk; exact .raw ((hk _ (by simp)).trans hc) (ih fun a ha => hk a (by simp [ha]))
  | box hc _ ih => intro hk; exact .box ((hk _ (by simp)).trans hc) (ih fun a ha => hk a (by simp [ha]))
  | foreign hf hc _ ih => intro hk; exact .foreign hf ((hk _ (by simp)).trans hc) (ih fun a ha => hk a (by simp [ha]))
  | msg hf hc hl _ ih => intro hk; exact .msg hf ((hk _ (by simp)).trans hc) hl (ih fun a ha => hk a (by simp [ha]))
  | obj hc hl _ ih => intro hk; exact .obj ((hk _ (by simp)).trans hc) hl (ih fun a ha => hk a (by simp [ha]))
  | list hc hl _ ih => intro hk; exact .list ((hk _ (by simp)).trans hc) hl (ih fun a ha => hk a (by simp [ha]))
  | hole hc hl hi _ ih => intro hk; exact .hole ((hk _ (by simp)).trans hc) hl hi (ih fun a ha => hk a (by simp [ha]))
  | map hc _ ih => intro hk; exact .map ((hk _ (by simp)).trans hc) (ih fun a ha => hk a (by simp [ha]))
  | oneof hc hm _ ih => intro hk; exact .oneof ((hk _ (by simp)).trans hc) hm (ih fun a ha => hk a (by simp [ha]))
  | wrap hc _ ih => intro hk; exact .wrap ((hk _ (by simp)).trans hc) (ih fun a ha => hk a (by simp [ha]))

/-- The objects exist. -/
theorem OwnL.inHeap {S : Schema} {B : Lent} {h : Heap} {I : List Item} {F : Multiset Addr} (ho : OwnL S B h I F) : ∀ a ∈ F, a < h.length := by
  induction ho with
  | done => intro a ha; simp at ha
  | nil _ _ ih => exact ih
  | num _ ih => exact ih
  | str _ ih => exact ih
  | view _ _ ih => exact ih
  | is _ ih => exact ih
  | wrapNil _ ih => exact ih
  | lent _ _ ih => exact ih
  | bytes hc _ ih => intro a ha; rcases Multiset.mem_cons.mp ha with rfl | h'; exact (List.getElem?_eq_some_iff.mp hc).1; exact ih a h'
  | mem hc _ ih => intro a ha; rcases Multiset.mem_cons.mp ha with rfl | h'; exact (List.getElem?_eq_some_iff.mp hc).1; exact ih a h'
  | raw hc _ ih => intro a ha; rcases Multiset.mem_cons.mp ha with rfl | h'; exact (List.getElem?_eq_some_iff.mp hc).1; exact ih a h'
  | box hc _ ih => intro a ha; rcases Multiset.mem_cons.mp ha with rfl | h'; exact (List.getElem?_eq_some_iff.mp hc).1; exact ih a h'
  | foreign _ hc _ ih => intro a ha; rcases Multiset.mem_cons.mp ha with rfl | h'; exact (List.getElem?_eq_some_iff.mp hc).1; exact ih a h'
  | msg _ hc _ _ ih => intro a ha; rcases Multiset.mem_cons.mp ha with rfl | h'; exact (List.getElem?_eq_some_iff.mp hc).1; exact ih a h'
  | obj hc _ _ ih => intro a ha; rcases Multiset.mem_cons.mp ha with rfl | h'; exact (List.getElem?_eq_some_iff.mp hc).1; exact ih a h'
  | list hc _ _ ih => intro a ha; rcases Multiset.mem_cons.mp ha with rfl | h'; exact (List.getElem?_eq_some_iff.mp hc).1; exact ih a h'
  | hole hc _ _ _ ih => intro a ha; rcases Multiset.mem_cons.mp ha with rfl | h'; exact (List.getElem?_eq_some_iff.mp hc).1; exact ih a h'
  | map hc _ ih => intro a ha; rcases Multiset.mem_cons.mp ha with rfl | h'; exact (List.getElem?_eq_some_iff.mp hc).1; exact ih a h'
  | oneof hc _ _ ih => intro a ha; rcases Multiset.mem_cons.mp ha with rfl | h'; exact (List.getElem?_eq_some_iff.mp hc).1; exact ih a h'
  | wrap hc _ ih => intro a ha; rcases Multiset.mem_cons.mp ha with rfl | h'; exact (List.getElem?_eq_some_iff.mp hc).1; exact ih a h'

theorem OwnL.cons_iff {S : Schema} {B : Lent} {h : Heap} {x : Item} {I : List Item} {F : Multiset Addr} :
    OwnL S B h (x :: I) F ↔ ∃ F1 F2, F = F1 + F2 ∧ OwnL S B h [x] F1 ∧ OwnL S B h I F2 := by
  constructor
  · intro ho
    exact ho.split (I1 := [x]) rfl
  · rintro ⟨F1, F2, rfl, h1, h2⟩
    exact h1.append h2

theorem OwnL.append_iff {S : Schema} {B : Lent} {h : Heap} {I1 I2 : List Item} {F : Multiset Addr} :
    OwnL S B h (I1 ++ I2) F ↔ ∃ F1 F2, F = F1 + F2 ∧ OwnL S B h I1 F1 ∧ OwnL S B h I2 F2 := by
  constructor
  · intro ho
    exact ho.split rfl
  · rintro ⟨F1, F2, rfl, h1, h2⟩
    exact h1.append h2

theorem OwnL.perm {S : Schema} {B : Lent} {h : Heap} {I J : List Item} (hp : I.Perm J) :
    ∀ {F : Multiset Addr}, OwnL S B h I F → OwnL S B h J F := by
  induction hp with
  | nil => exact fun h => h
  | cons x _ ih =>
    intro F ho
    obtain ⟨F1, F2, rfl, h1, h2⟩ := OwnL.cons_iff.mp ho
    exact OwnL.cons_iff.mpr ⟨F1, F2, rfl, h1, ih h2⟩
  | swap x y l =>
    intro F ho
    obtain ⟨F1, F2, rfl, h1, h2⟩ := OwnL.cons_iff.mp ho
    obtain ⟨F3, F4, rfl, h3, h4⟩ := OwnL.cons_iff.mp h2
    exact OwnL.cons_iff.mpr ⟨F3, F1 + F4, by abel, h3, OwnL.cons_iff.mpr ⟨F1, F4, rfl, h1, h4⟩⟩
  | trans _ _ ih1 ih2 => exact fun h => ih2 (ih1 h)

end Vtp.Spec
