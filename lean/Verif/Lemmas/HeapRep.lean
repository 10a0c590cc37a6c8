import Verif.Spec.HeapVal
import Verif.Lemmas.HeapOwn
import Verif.Lemmas.HeapPrim
/-! # Contents of memory: splitting, reordering, framing -/

namespace Vtp.Spec

theorem RepL.split {S : Schema} {B : Bufs} {h : Heap} {I : List VItem} {F : Multiset Addr} (ho : RepL S B h I F) :
    ∀ {I1 I2 : List VItem}, I = I1 ++ I2 → ∃ F1 F2, F = F1 + F2 ∧ RepL S B h I1 F1 ∧ RepL S B h I2 F2 := by
  induction ho with
  | done =>
    intro I1 I2 he
    obtain ⟨rfl, rfl⟩ := List.append_eq_nil_iff.mp he.symm
    exact ⟨0, 0, rfl, .done, .done⟩
  | nil ht hI ih =>
    intro I1 I2 he
    rcases List.cons_eq_append_iff.mp he with ⟨rfl, rfl⟩ | ⟨J, rfl, rfl⟩
    · exact ⟨0, _, (zero_add _).symm, .done, .nil ht hI⟩
    · obtain ⟨F1, F2, rfl, h1, h2⟩ := ih rfl
      exact ⟨F1, F2, rfl, .nil ht h1, h2⟩
  | num  hI ih =>
    intro I1 I2 he
    rcases List.cons_eq_append_iff.mp he with ⟨rfl, rfl⟩ | ⟨J, rfl, rfl⟩
    · exact ⟨0, _, (zero_add _).symm, .done, .num  hI⟩
    · obtain ⟨F1, F2, rfl, h1, h2⟩ := ih rfl
      exact ⟨F1, F2, rfl, .num  h1, h2⟩
  | str  hI ih =>
    intro I1 I2 he
    rcases List.cons_eq_append_iff.mp he with ⟨rfl, rfl⟩ | ⟨J, rfl, rfl⟩
    · exact ⟨0, _, (zero_add _).symm, .done, .str  hI⟩
    · obtain ⟨F1, F2, rfl, h1, h2⟩ := ih rfl
      exact ⟨F1, F2, rfl, .str  h1, h2⟩
  | view ha hI ih =>
    intro I1 I2 he
    rcases List.cons_eq_append_iff.mp he with ⟨rfl, rfl⟩ | ⟨J, rfl, rfl⟩
    · exact ⟨0, _, (zero_add _).symm, .done, .view ha hI⟩
    · obtain ⟨F1, F2, rfl, h1, h2⟩ := ih rfl
      exact ⟨F1, F2, rfl, .view ha h1, h2⟩
  | wrapNil  hI ih =>
    intro I1 I2 he
    rcases List.cons_eq_append_iff.mp he with ⟨rfl, rfl⟩ | ⟨J, rfl, rfl⟩
    · exact ⟨0, _, (zero_add _).symm, .done, .wrapNil  hI⟩
    · obtain ⟨F1, F2, rfl, h1, h2⟩ := ih rfl
      exact ⟨F1, F2, rfl, .wrapNil  h1, h2⟩
  | lent ha hb hI ih =>
    intro I1 I2 he
    rcases List.cons_eq_append_iff.mp he with ⟨rfl, rfl⟩ | ⟨J, rfl, rfl⟩
    · exact ⟨0, _, (zero_add _).symm, .done, .lent ha hb hI⟩
    · obtain ⟨F1, F2, rfl, h1, h2⟩ := ih rfl
      exact ⟨F1, F2, rfl, .lent ha hb h1, h2⟩
  | bytes hc hl hI ih =>
    intro I1 I2 he
    rcases List.cons_eq_append_iff.mp he with ⟨rfl, rfl⟩ | ⟨J, rfl, rfl⟩
    · exact ⟨0, _, (zero_add _).symm, .done, .bytes hc hl hI⟩
    · obtain ⟨F1, F2, rfl, h1, h2⟩ := ih rfl
      exact ⟨_, F2, (Multiset.cons_add _ _ _).symm, .bytes hc hl h1, h2⟩
  | mem hc hl hI ih =>
    intro I1 I2 he
    rcases List.cons_eq_append_iff.mp he with ⟨rfl, rfl⟩ | ⟨J, rfl, rfl⟩
    · exact ⟨0, _, (zero_add _).symm, .done, .mem hc hl hI⟩
    · obtain ⟨F1, F2, rfl, h1, h2⟩ := ih rfl
      exact ⟨_, F2, (Multiset.cons_add _ _ _).symm, .mem hc hl h1, h2⟩
  | raw hc hI ih =>
    intro I1 I2 he
    rcases List.cons_eq_append_iff.mp he with ⟨rfl, rfl⟩ | ⟨J, rfl, rfl⟩
    · exact ⟨0, _, (zero_add _).symm, .done, .raw hc hI⟩
    · obtain ⟨F1, F2, rfl, h1, h2⟩ := ih rfl
      exact ⟨_, F2, (Multiset.cons_add _ _ _).symm, .raw hc h1, h2⟩
  | foreign hf hc hv hI ih =>
    intro I1 I2 he
    rcases List.cons_eq_append_iff.mp he with ⟨rfl, rfl⟩ | ⟨J, rfl, rfl⟩
    · exact ⟨0, _, (zero_add _).symm, .done, .foreign hf hc hv hI⟩
    · obtain ⟨F1, F2, rfl, h1, h2⟩ := ih rfl
      exact ⟨_, F2, (Multiset.cons_add _ _ _).symm, .foreign hf hc hv h1, h2⟩
  | box hc hx hI ih =>
    intro I1 I2 he
    rcases List.cons_eq_append_iff.mp he with ⟨rfl, rfl⟩ | ⟨J, rfl, rfl⟩
    · exact ⟨0, _, (zero_add _).symm, .done, .box hc hx hI⟩
    · obtain ⟨F1, F2, rfl, h1, h2⟩ := ih (List.cons_append).symm
      exact ⟨_, F2, (Multiset.cons_add _ _ _).symm, .box hc hx h1, h2⟩
  | oneof hc hm hI ih =>
    intro I1 I2 he
    rcases List.cons_eq_append_iff.mp he with ⟨rfl, rfl⟩ | ⟨J, rfl, rfl⟩
    · exact ⟨0, _, (zero_add _).symm, .done, .oneof hc hm hI⟩
    · obtain ⟨F1, F2, rfl, h1, h2⟩ := ih (List.cons_append).symm
      exact ⟨_, F2, (Multiset.cons_add _ _ _).symm, .oneof hc hm h1, h2⟩
  | msg hf hc ht hI ih =>
    intro I1 I2 he
    rcases List.cons_eq_append_iff.mp he with ⟨rfl, rfl⟩ | ⟨J, rfl, rfl⟩
    · exact ⟨0, _, (zero_add _).symm, .done, .msg hf hc ht hI⟩
    · obtain ⟨F1, F2, rfl, h1, h2⟩ := ih (List.append_assoc _ (_ :: J) I2).symm
      exact ⟨_, F2, (Multiset.cons_add _ _ _).symm, .msg hf hc ht h1, h2⟩
  | list hc hl hs hI ih =>
    intro I1 I2 he
    rcases List.cons_eq_append_iff.mp he with ⟨rfl, rfl⟩ | ⟨J, rfl, rfl⟩
    · exact ⟨0, _, (zero_add _).symm, .done, .list hc hl hs hI⟩
    · obtain ⟨F1, F2, rfl, h1, h2⟩ := ih (I1 := _ ++ J) (by rw [List.append_assoc])
      exact ⟨_, F2, (Multiset.cons_add _ _ _).symm, .list hc hl hs h1, h2⟩
  | map hc hI ih =>
    intro I1 I2 he
    rcases List.cons_eq_append_iff.mp he with ⟨rfl, rfl⟩ | ⟨J, rfl, rfl⟩
    · exact ⟨0, _, (zero_add _).symm, .done, .map hc hI⟩
    · obtain ⟨F1, F2, rfl, h1, h2⟩ := ih (I1 := _ ++ J) (by rw [List.append_assoc])
      exact ⟨_, F2, (Multiset.cons_add _ _ _).symm, .map hc h1, h2⟩

theorem RepL.append {S : Schema} {B : Bufs} {h : Heap} {I1 : List VItem} {F1 : Multiset Addr} (h1 : RepL S B h I1 F1) :
    ∀ {I2 : List VItem} {F2 : Multiset Addr}, RepL S B h I2 F2 → RepL S B h (I1 ++ I2) (F1 + F2) := by
  induction h1 with
  | done => intro I2 F2 h2; simpa using h2
  | nil ht _ ih => intro I2 F2 h2; exact .nil ht (ih h2)
  | num  _ ih => intro I2 F2 h2; exact .num  (ih h2)
  | str  _ ih => intro I2 F2 h2; exact .str  (ih h2)
  | view ha _ ih => intro I2 F2 h2; exact .view ha (ih h2)
  | wrapNil  _ ih => intro I2 F2 h2; exact .wrapNil  (ih h2)
  | lent ha hb _ ih => intro I2 F2 h2; exact .lent ha hb (ih h2)
  | bytes hc hl _ ih => intro I2 F2 h2; rw [Multiset.cons_add]; exact .bytes hc hl (ih h2)
  | mem hc hl _ ih => intro I2 F2 h2; rw [Multiset.cons_add]; exact .mem hc hl (ih h2)
  | raw hc _ ih => intro I2 F2 h2; rw [Multiset.cons_add]; exact .raw hc (ih h2)
  | foreign hf hc hv _ ih => intro I2 F2 h2; rw [Multiset.cons_add]; exact .foreign hf hc hv (ih h2)
  | box hc hx _ ih => intro I2 F2 h2; rw [Multiset.cons_add]; exact .box hc hx (ih h2)
  | oneof hc hm _ ih => intro I2 F2 h2; rw [Multiset.cons_add]; exact .oneof hc hm (ih h2)
  | msg hf hc ht _ ih => intro I2 F2 h2; rw [Multiset.cons_add]; exact .msg hf hc ht (by simpa using ih h2)
  | list hc hl hs _ ih => intro I2 F2 h2; rw [Multiset.cons_add]; exact .list hc hl hs (by simpa using ih h2)
  | map hc _ ih => intro I2 F2 h2; rw [Multiset.cons_add]; exact .map hc (by simpa using ih h2)

theorem RepL.frame {S : Schema} {B : Bufs} {h h' : Heap} {I : List VItem} {F : Multiset Addr} (ho : RepL S B h I F) :
    (∀ a ∈ F, h'[a]? = h[a]?) → RepL S B h' I F := by
  induction ho with
  | done => intro _; exact .done
  | nil ht _ ih => intro hk; exact .nil ht (ih hk)
  | num  _ ih => intro hk; exact .num  (ih hk)
  | str  _ ih => intro hk; exact .str  (ih hk)
  | view ha _ ih => intro hk; exact .view ha (ih hk)
  | wrapNil  _ ih => intro hk; exact .wrapNil  (ih hk)
  | lent ha hb _ ih => intro hk; exact .lent ha hb (ih hk)
  | bytes hc hl _ ih => intro hk; exact .bytes ((hk _ (by simp)).trans hc) hl (ih fun a ha => hk a (by simp [ha]))
  | mem hc hl _ ih => intro hk; exact .mem ((hk _ (by simp)).trans hc) hl (ih fun a ha => hk a (by simp [ha]))
  | raw hc _ ih => intro hk; exact .raw ((hk _ (by simp)).trans hc) (ih fun a ha => hk a (by simp [ha]))
  | foreign hf hc hv _ ih => intro hk; exact .foreign hf ((hk _ (by simp)).trans hc) hv (ih fun a ha => hk a (by simp [ha]))
  | box hc hx _ ih => intro hk; exact .box ((hk _ (by simp)).trans hc) hx (ih fun a ha => hk a (by simp [ha]))
  | oneof hc hm _ ih => intro hk; exact .oneof ((hk _ (by simp)).trans hc) hm (ih fun a ha => hk a (by simp [ha]))
  | msg hf hc ht _ ih => intro hk; exact .msg hf ((hk _ (by simp)).trans hc) ht (ih fun a ha => hk a (by simp [ha]))
  | list hc hl hs _ ih => intro hk; exact .list ((hk _ (by simp)).trans hc) hl hs (ih fun a ha => hk a (by simp [ha]))
  | map hc _ ih => intro hk; exact .map ((hk _ (by simp)).trans hc) (ih fun a ha => hk a (by simp [ha]))

/-- What is in the buffers now does not matter. -/
theorem RepL.buf {S : Schema} {B B' : Bufs} {h : Heap} {I : List VItem} {F : Multiset Addr} (ho : RepL S B h I F)
    (hm : B'.mem = B.mem) (hb' : B.byt → B'.byt) : RepL S B' h I F := by
  induction ho with
  | done => exact .done
  | nil ht _ ih => exact .nil ht ih
  | num _ ih => exact .num ih
  | str _ ih => exact .str ih
  | view ha _ ih => exact .view (hm ▸ ha) ih
  | wrapNil _ ih => exact .wrapNil ih
  | lent ha hb _ ih => exact .lent (hm ▸ ha) (hb' hb) ih
  | bytes hc hl _ ih => exact .bytes hc hl ih
  | mem hc hl _ ih => exact .mem hc hl ih
  | raw hc _ ih => exact .raw hc ih
  | foreign hf hc hv _ ih => exact .foreign hf hc hv ih
  | box hc hx _ ih => exact .box hc hx ih
  | oneof hc hm _ ih => exact .oneof hc hm ih
  | msg hf hc ht _ ih => exact .msg hf hc ht ih
  | list hc hl hs _ ih => exact .list hc hl hs ih
  | map hc _ ih => exact .map hc ih

/-- The objects exist. -/
theorem RepL.inHeap {S : Schema} {B : Bufs} {h : Heap} {I : List VItem} {F : Multiset Addr} (ho : RepL S B h I F) : ∀ a ∈ F, a < h.length := by
  induction ho with
  | done => intro a ha; simp at ha
  | nil _ _ ih => exact ih
  | num  _ ih => exact ih
  | str  _ ih => exact ih
  | view _ _ ih => exact ih
  | wrapNil  _ ih => exact ih
  | lent _ _ _ ih => exact ih
  | bytes hc _ _ ih => intro a ha; rcases Multiset.mem_cons.mp ha with rfl | h'; exact (List.getElem?_eq_some_iff.mp hc).1; exact ih a h'
  | mem hc _ _ ih => intro a ha; rcases Multiset.mem_cons.mp ha with rfl | h'; exact (List.getElem?_eq_some_iff.mp hc).1; exact ih a h'
  | raw hc _ ih => intro a ha; rcases Multiset.mem_cons.mp ha with rfl | h'; exact (List.getElem?_eq_some_iff.mp hc).1; exact ih a h'
  | foreign _ hc _ _ ih => intro a ha; rcases Multiset.mem_cons.mp ha with rfl | h'; exact (List.getElem?_eq_some_iff.mp hc).1; exact ih a h'
  | box hc _ _ ih => intro a ha; rcases Multiset.mem_cons.mp ha with rfl | h'; exact (List.getElem?_eq_some_iff.mp hc).1; exact ih a h'
  | oneof hc _ _ ih => intro a ha; rcases Multiset.mem_cons.mp ha with rfl | h'; exact (List.getElem?_eq_some_iff.mp hc).1; exact ih a h'
  | msg _ hc _ _ ih => intro a ha; rcases Multiset.mem_cons.mp ha with rfl | h'; exact (List.getElem?_eq_some_iff.mp hc).1; exact ih a h'
  | list hc _ _ _ ih => intro a ha; rcases Multiset.mem_cons.mp ha with rfl | h'; exact (List.getElem?_eq_some_iff.mp hc).1; exact ih a h'
  | map hc _ ih => intro a ha; rcases Multiset.mem_cons.mp ha with rfl | h'; exact (List.getElem?_eq_some_iff.mp hc).1; exact ih a h'

theorem RepL.cons_iff {S : Schema} {B : Bufs} {h : Heap} {x : VItem} {I : List VItem} {F : Multiset Addr} :
    RepL S B h (x :: I) F ↔ ∃ F1 F2, F = F1 + F2 ∧ RepL S B h [x] F1 ∧ RepL S B h I F2 := by
  constructor
  · intro ho
    exact ho.split (I1 := [x]) rfl
  · rintro ⟨F1, F2, rfl, h1, h2⟩
    exact h1.append h2

theorem RepL.append_iff {S : Schema} {B : Bufs} {h : Heap} {I1 I2 : List VItem} {F : Multiset Addr} :
    RepL S B h (I1 ++ I2) F ↔ ∃ F1 F2, F = F1 + F2 ∧ RepL S B h I1 F1 ∧ RepL S B h I2 F2 := by
  constructor
  · intro ho
    exact ho.split rfl
  · rintro ⟨F1, F2, rfl, h1, h2⟩
    exact h1.append h2

theorem RepL.perm {S : Schema} {B : Bufs} {h : Heap} {I J : List VItem} (hp : I.Perm J) :
    ∀ {F : Multiset Addr}, RepL S B h I F → RepL S B h J F := by
  induction hp with
  | nil => exact fun h => h
  | cons x _ ih =>
    intro F ho
    obtain ⟨F1, F2, rfl, h1, h2⟩ := RepL.cons_iff.mp ho
    exact RepL.cons_iff.mpr ⟨F1, F2, rfl, h1, ih h2⟩
  | swap x y l =>
    intro F ho
    obtain ⟨F1, F2, rfl, h1, h2⟩ := RepL.cons_iff.mp ho
    obtain ⟨F3, F4, rfl, h3, h4⟩ := RepL.cons_iff.mp h2
    exact RepL.cons_iff.mpr ⟨F3, F1 + F4, by abel, h3, RepL.cons_iff.mpr ⟨F1, F4, rfl, h1, h4⟩⟩
  | trans _ _ ih1 ih2 => exact fun h => ih2 (ih1 h)

end Vtp.Spec
