import Verif.Spec.Heap
import Verif.Model.HeapPool
import Verif.Model.HeapClone
/-!
# Programs that use the library

A world is memory with pools, the messages the program holds and the buffers it decodes from without copying. `WStep` is what a program may
do, operations of the library being atomic; any number of goroutines is covered, as it does not matter who holds a message.
-/

namespace Vtp.Spec

/-- The object a value depends on, also if it cannot be changed through the value. -/
def HV.source : HV → Option Addr
  | .view a _ _ => some a
  | v => HV.target v

/-- The contents of what is found at `a` depend on the object `b`. -/
inductive Sees (h : Heap) : Addr → Addr → Prop
  | here (a : Addr) : Sees h a a
  | there {a b c : Addr} {x : Cell} {v : HV} (hx : h[a]? = some x) (hv : v ∈ Cell.values x) (ht : HV.source v = some b) (hr : Sees h b c) :
      Sees h a c

structure World where
  st : HState
  /-- messages in use: type and address -/
  held : List (Nat × Addr)
  /-- buffers from which messages may have been decoded without copying -/
  bufs : List Addr
  deriving DecidableEq, Repr

def World.start : World := ⟨{ heap := [], pool := [] }, [], []⟩

def World.lent (w : World) : Lent := ⟨(· ∈ w.bufs), (· ∈ w.bufs)⟩

/-- Messages as items. -/
abbrev msgItems (L : List (Nat × Addr)) : List Item := L.map fun q => (.msg q.1, .ptr q.2)

/-- Operations of the library. -/
inductive Op where
  /-- `&T{}` -/
  | new (t : Nat)
  /-- `TFromVTPool()` -/
  | get (want : Option Addr) (t : Nat)
  /-- `m.ReturnToVTPool()` -/
  | put (t : Nat) (a : Addr)
  /-- `m.ResetVT()` -/
  | reset (t : Nat) (a : Addr)
  /-- `m.UnmarshalVT(b)`, `m.UnmarshalVTUnsafe(b)` -/
  | decode (E : HEnv) (t : Nat) (b : Bytes) (a : Addr)
  /-- `m.CloneVT()` -/
  | clone (E : HKEnv) (t : Nat) (a : Addr)

/-- The message behind a result. -/
def HV.given (t : Nat) : HV → List (Nat × Addr)
  | .ptr a => [(t, a)]
  | _ => []

/-- What an operation does: the messages held afterwards in place of those that it `takes`. -/
def Op.run (S : Schema) : Op → HM (List (Nat × Addr))
  | .new t => do
    let v ← hnew S t
    pure (HV.given t v)
  | .get want t => do
    let v ← poolGet S want t
    pure (HV.given t v)
  | .put t a => do
    hreturnToVTPool S t (.ptr a)
    pure []
  | .reset t a => do
    hresetVT S t (.ptr a)
    pure [(t, a)]
  | .decode E t b a => do
    hunmarshalVT E t b (.ptr a)
    pure [(t, a)]
  | .clone E t a => do
    let v ← hcloneVT E t (.ptr a)
    pure (HV.given t v)

/-- The messages that an operation changes or that one must not use any more afterwards. -/
def Op.takes : Op → List (Nat × Addr)
  | .put t a => [(t, a)]
  | .reset t a => [(t, a)]
  | .decode _ t _ a => [(t, a)]
  | _ => []

/-- What can be used still if the operation failed. `ResetVT` only fails by a panic; what remains is of no use. -/
def Op.left : Op → List (Nat × Addr)
  | .decode _ t _ a => [(t, a)]
  | _ => []

/-- Messages are only used by those who hold them, thus not after they were returned. Unsafe decoding is from one of the buffers. -/
def Op.allowed (S : Schema) (w : World) : Op → Prop
  | .new _ => True
  | .get _ _ => True
  | .put t a => (t, a) ∈ w.held
  | .reset t a => (t, a) ∈ w.held
  | .decode E t b a => (t, a) ∈ w.held ∧ (S.msg t).foreign = false ∧ E.S = S ∧
      (E.aliasing = true → E.buf ∈ w.bufs ∧ w.st.heap[E.buf]? = some (.bytes b))
  | .clone E t a => (t, a) ∈ w.held ∧ (S.msg t).foreign = false ∧ E.S = S

/-- The messages that have nothing to do with the operation. -/
def World.others (w : World) (op : Op) : List (Nat × Addr) := op.takes.foldl List.erase w.held

/-- The world after an operation. -/
def World.exec (S : Schema) (w : World) (op : Op) : World :=
  match op.run S w.st with
  | (σ, .ok l) => ⟨σ, l ++ w.others op, w.bufs⟩
  | (σ, _) => ⟨σ, op.left ++ w.others op, w.bufs⟩

/-- What may happen. -/
inductive WStep (S : Schema) (w : World) : World → Prop
  /-- the library -/
  | op (op : Op) (h : op.allowed S w) : WStep S w (w.exec S op)
  /-- the program changes what it can reach from the messages `H`, holding `H'` afterwards; these do not share memory -/
  | use {H H' rest : List (Nat × Addr)} {h' : Heap} {F : Multiset Addr} (split : w.held.Perm (H ++ rest))
      (keep : ∀ a < w.st.heap.length, (∀ q ∈ H, ¬ Reach w.st.heap q.2 a) → h'[a]? = w.st.heap[a]?)
      (own : OwnL S w.lent h' (msgItems H') F) (nodup : F.Nodup)
      (within : ∀ a ∈ F, (∃ q ∈ H, Reach w.st.heap q.2 a) ∨ w.st.heap.length ≤ a) (apart : ∀ a ∈ F, a ∉ w.bufs)
      (bufs : ∀ a ∈ w.bufs, ∃ b, h'[a]? = some (.bytes b)) : WStep S w ⟨{ w.st with heap := h' }, H' ++ rest, w.bufs⟩
  /-- the program does not use some messages any more -/
  | drop {held' : List (Nat × Addr)} (h : held'.Sublist w.held) : WStep S w { w with held := held' }
  /-- pools may lose messages at any time -/
  | gc {pool' : List (Nat × Addr)} (h : pool'.Sublist w.st.pool) : WStep S w { w with st := { w.st with pool := pool' } }
  /-- the program gets a buffer -/
  | buffer (b : Bytes) : WStep S w { w with st := { w.st with heap := w.st.heap ++ [.bytes b] }, bufs := w.st.heap.length :: w.bufs }
  /-- the program writes to a buffer -/
  | fill (a : Addr) (b : Bytes) (h : a ∈ w.bufs) : WStep S w { w with st := { w.st with heap := w.st.heap.set a (.bytes b) } }

/-- Worlds in which programs can be. -/
inductive WReach (S : Schema) : World → Prop
  | start : WReach S .start
  | step {w w' : World} (h : WReach S w) (hs : WStep S w w') : WReach S w'

/-- What code can do that has pointers to the objects `A` and does not call the library: write to objects it can reach, allocate. Objects
that it writes refer to objects that it can reach. -/
inductive Mutation : (Addr → Prop) → Heap → Heap → Prop
  | done {A : Addr → Prop} {h : Heap} : Mutation A h h
  | write {A : Addr → Prop} {h h' : Heap} {x : Addr} {c : Cell} (hx : ∃ a, A a ∧ Reach h a x)
      (hc : ∀ v ∈ Cell.values c, ∀ y, HV.target v = some y → ∃ a, A a ∧ Reach h a y) (hs : Mutation A (h.set x c) h') : Mutation A h h'
  | alloc {A : Addr → Prop} {h h' : Heap} {c : Cell}
      (hc : ∀ v ∈ Cell.values c, ∀ y, HV.target v = some y → ∃ a, A a ∧ Reach h a y)
      (hs : Mutation (fun a => A a ∨ a = h.length) (h ++ [c]) h') : Mutation A h h'

end Vtp.Spec
