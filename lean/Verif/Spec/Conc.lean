import Verif.Spec.HeapWorld
import Verif.Model.Conc
/-!
# Goroutines

What steps do to memory, and machines: memory with pools, and goroutines which call the library, change their own messages, hand messages to each other and make
messages common property that nobody changes any more. The steps of different goroutines come in any order.
-/

namespace Vtp.Spec

open Conc (Prog)

/-- One step of code: memory and what is left to do, before and after. Which message of a pool is handed out is not determined, nor whether one is; none is
handed out to code with the choice `none`, which stands for code that finds the pools empty. -/
inductive PStep {α : Type} : HState → Prog α → HState → Prog α → Prop
  | read {σ : HState} {a : Addr} {c : Cell} {k : Cell → Prog α} (h : σ.heap[a]? = some c) : PStep σ (.read a k) σ (k c)
  | fault {σ : HState} {a : Addr} {k : Cell → Prog α} (h : σ.heap[a]? = none) : PStep σ (.read a k) σ (.done (.panic .typeConfusion))
  | write {σ : HState} {a : Addr} {c : Cell} {k : Prog α} : PStep σ (.write a c k) { σ with heap := σ.heap.set a c } k
  | alloc {σ : HState} {c : Addr → Cell} {k : Addr → Prog α} : PStep σ (.alloc c k) (σ.grow (c σ.next)) (k σ.next)
  | got {σ : HState} {want : Option Addr} {t : Nat} {a : Addr} {k : Option Addr → Prog α} (hw : want ≠ none) (h : (t, a) ∈ σ.pool) :
      PStep σ (.get want t k) { σ.asked want with pool := σ.pool.erase (t, a) } (k (some a))
  | miss {σ : HState} {want : Option Addr} {t : Nat} {k : Option Addr → Prog α} : PStep σ (.get want t k) (σ.asked want) (k none)
  | put {σ : HState} {t : Nat} {a : Addr} {k : Prog α} : PStep σ (.put t a k) { σ with pool := (t, a) :: σ.pool } k

/-- Steps one after the other. -/
inductive PSteps {α : Type} : HState → Prog α → HState → Prog α → Prop
  | refl {σ : HState} {p : Prog α} : PSteps σ p σ p
  | head {σ σ' σ2 : HState} {p p' p2 : Prog α} (h : PStep σ p σ' p') (hs : PSteps σ' p' σ2 p2) : PSteps σ p σ2 p2

/-- Code run alone, with the messages that it wants from the pools. -/
def _root_.Vtp.Conc.Prog.run {α : Type} : Prog α → HState → HState × Res α
  | .done r, σ => (σ, r)
  | .read a k, σ => match σ.heap[a]? with
    | some c => (k c).run σ
    | none => (σ, .panic .typeConfusion)
  | .write a c k, σ => k.run { σ with heap := σ.heap.set a c }
  | .alloc c k, σ => (k σ.next).run (σ.grow (c σ.next))
  | .get want t k, σ => match σ.ask want with
    | some a => if (t, a) ∈ σ.pool then (k (some a)).run { σ.asked want with pool := σ.pool.erase (t, a) } else (k none).run (σ.asked want)
    | none => (k none).run (σ.asked want)
  | .put t a k, σ => k.run { σ with pool := (t, a) :: σ.pool }

/-- The object that the next step of code reads. -/
def _root_.Vtp.Conc.Prog.reads {α : Type} : Prog α → Option Addr
  | .read a _ => some a
  | _ => none

/-- The object that the next step of code writes. -/
def _root_.Vtp.Conc.Prog.writes {α : Type} : Prog α → Option Addr
  | .write a _ _ => some a
  | _ => none

/-- The code of an operation, with the recursion of methods limited to the depth `n`. -/
def Op.prog (S : Schema) (n : Nat) : Op → Prog (List (Nat × Addr))
  | .new t => do
    let v ← Conc.hnew S t
    pure (HV.given t v)
  | .get want t => do
    let v ← Conc.poolGet S want t
    pure (HV.given t v)
  | .put t a => do
    Conc.hreturnWith (Conc.hresetN S n) t (.ptr a)
    pure []
  | .reset t a => do
    Conc.hresetN S n t (.ptr a)
    pure [(t, a)]
  | .decode E t b a => do
    Conc.hunmarshalN E n 0 t b (.ptr a)
    pure [(t, a)]
  | .clone E t a => do
    let v ← Conc.hcloneN E n [] t (.ptr a)
    pure (HV.given t v)

/-- The messages a goroutine holds, and the call that it is in, if any, with what is left to do of it. Messages that the call `takes` are not among the
messages held. -/
structure Gor where
  held : List (Nat × Addr)
  call : Option (Op × Prog (List (Nat × Addr)))

/-- Memory, goroutines, and messages that everybody may read. -/
structure Mach where
  st : HState
  gors : List Gor
  shared : List (Nat × Addr)

/-- One goroutine and no memory. -/
def Mach.start : Mach := ⟨{ heap := [], pool := [] }, [⟨[], none⟩], []⟩

/-- What a goroutine may call: methods that change a message for messages it holds, `CloneVT` also for those that everybody may read. Decoding is the one that copies. -/
def Op.permitted (S : Schema) (held shared : List (Nat × Addr)) : Op → Prop
  | .new _ => True
  | .get _ _ => True
  | .put t a => (t, a) ∈ held
  | .reset t a => (t, a) ∈ held
  | .decode E t _ a => (t, a) ∈ held ∧ (S.msg t).foreign = false ∧ E.S = S ∧ E.aliasing = false
  | .clone E t a => ((t, a) ∈ held ∨ (t, a) ∈ shared) ∧ (S.msg t).foreign = false ∧ E.S = S

/-- What may happen next, and which goroutine does it, if one does. -/
inductive GStep (S : Schema) (m : Mach) : Option Nat → Mach → Prop
  /-- a call begins -/
  | call {i n : Nat} {held : List (Nat × Addr)} {op : Op} (hg : m.gors[i]? = some ⟨held, none⟩) (ha : op.permitted S held m.shared) :
      GStep S m (some i) { m with gors := m.gors.set i ⟨op.takes.foldl List.erase held, some (op, op.prog S n)⟩ }
  /-- a step of the method called -/
  | step {i : Nat} {held : List (Nat × Addr)} {op : Op} {p p' : Prog (List (Nat × Addr))} {σ : HState} (hg : m.gors[i]? = some ⟨held, some (op, p)⟩)
      (hs : PStep m.st p σ p') : GStep S m (some i) { m with st := σ, gors := m.gors.set i ⟨held, some (op, p')⟩ }
  /-- the method returns -/
  | ret {i : Nat} {held l : List (Nat × Addr)} {op : Op} (hg : m.gors[i]? = some ⟨held, some (op, .done (.ok l))⟩) :
      GStep S m (some i) { m with gors := m.gors.set i ⟨l ++ held, none⟩ }
  /-- the method returns an error, or panics and the program recovers -/
  | fail {i : Nat} {held : List (Nat × Addr)} {op : Op} {r : Res (List (Nat × Addr))} (hr : ∀ l, r ≠ .ok l)
      (hg : m.gors[i]? = some ⟨held, some (op, .done r)⟩) : GStep S m (some i) { m with gors := m.gors.set i ⟨op.left ++ held, none⟩ }
  /-- code of the program changes what can be reached from the messages `H`, after which it holds `H'` in their place; these do not share memory;
  places of objects are not used again -/
  | use {i : Nat} {held H H' rest : List (Nat × Addr)} {h' : Heap} {F : Multiset Addr} (hg : m.gors[i]? = some ⟨held, none⟩) (split : held.Perm (H ++ rest))
      (keep : ∀ a < m.st.heap.length, (∀ q ∈ H, ¬ Reach m.st.heap q.2 a) → h'[a]? = m.st.heap[a]?) (grow : m.st.heap.length ≤ h'.length) (own : OwnL S .none h' (msgItems H') F) (nodup : F.Nodup)
      (within : ∀ a ∈ F, (∃ q ∈ H, Reach m.st.heap q.2 a) ∨ m.st.heap.length ≤ a) :
      GStep S m (some i) { m with st := { m.st with heap := h' }, gors := m.gors.set i ⟨H' ++ rest, none⟩ }
  /-- messages are not used any more -/
  | drop {i : Nat} {held held' : List (Nat × Addr)} (hg : m.gors[i]? = some ⟨held, none⟩) (h : held'.Sublist held) :
      GStep S m (some i) { m with gors := m.gors.set i ⟨held', none⟩ }
  /-- a new goroutine, which gets messages of the one that starts it -/
  | go {i : Nat} {held H rest : List (Nat × Addr)} (hg : m.gors[i]? = some ⟨held, none⟩) (split : held.Perm (H ++ rest)) :
      GStep S m (some i) { m with gors := m.gors.set i ⟨rest, none⟩ ++ [⟨H, none⟩] }
  /-- a message is handed to another goroutine -/
  | send {i j : Nat} {held other rest : List (Nat × Addr)} {q : Nat × Addr} (hi : m.gors[i]? = some ⟨held, none⟩) (hj : m.gors[j]? = some ⟨other, none⟩)
      (hij : i ≠ j) (split : held.Perm (q :: rest)) : GStep S m (some i) { m with gors := (m.gors.set i ⟨rest, none⟩).set j ⟨q :: other, none⟩ }
  /-- messages are from now on read only, by everybody -/
  | share {i : Nat} {held H rest : List (Nat × Addr)} (hg : m.gors[i]? = some ⟨held, none⟩) (split : held.Perm (H ++ rest)) :
      GStep S m (some i) { m with gors := m.gors.set i ⟨rest, none⟩, shared := H ++ m.shared }
  /-- pools may lose messages at any time -/
  | gc {pool : List (Nat × Addr)} (h : pool.Sublist m.st.pool) : GStep S m none { m with st := { m.st with pool := pool } }

/-- Machines that programs with goroutines can get to. -/
inductive GReach (S : Schema) : Mach → Prop
  | start : GReach S .start
  | step {m m' : Mach} {who : Option Nat} (h : GReach S m) (hs : GStep S m who m') : GReach S m'

/-- What happens from `m` on. -/
inductive GSteps (S : Schema) (m : Mach) : Mach → Prop
  | refl : GSteps S m m
  | tail {m1 m2 : Mach} {who : Option Nat} (h : GSteps S m m1) (hs : GStep S m1 who m2) : GSteps S m m2

/-- Two goroutines are about to access the same object, one of them writing: a data race. -/
def Race (m : Mach) : Prop := ∃ (i j : Nat) (gi gj : Gor) (opi opj : Op) (pi pj : Prog (List (Nat × Addr))) (a : Addr), i ≠ j ∧ m.gors[i]? = some gi ∧ m.gors[j]? = some gj ∧
  gi.call = some (opi, pi) ∧ gj.call = some (opj, pj) ∧ pi.writes = some a ∧ (pj.writes = some a ∨ pj.reads = some a)

/-- All messages that somebody holds, that are in pools and that are common, except those that calls work on. -/
def Mach.messages (m : Mach) : List (Nat × Addr) := m.gors.flatMap Gor.held ++ m.st.pool ++ m.shared

end Vtp.Spec
