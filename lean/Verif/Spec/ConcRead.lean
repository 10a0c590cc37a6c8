import Verif.Spec.Conc
import Verif.Spec.HeapVal
import Verif.Model.ConcRead
/-!
# Goroutines that look at messages

Machines in which goroutines also call the methods that do not change messages, for messages that they hold and for those that everybody may read.
-/

namespace Vtp.Spec

open Conc (Prog)

/-- Calls of methods which do not change messages. -/
inductive Look where
  | size (t : Nat) (a : Addr)
  | marshal (strict : Bool) (t : Nat) (a : Addr)
  | equal (t : Nat) (a b : Addr)
  deriving DecidableEq

/-- The messages looked at. -/
def Look.args : Look → List (Nat × Addr)
  | .size t a => [(t, a)]
  | .marshal _ t a => [(t, a)]
  | .equal t a b => [(t, a), (t, b)]

/-- What a method returns. -/
inductive Seen where
  | size (n : Nat)
  | bytes (b : Option Bytes)
  | equal (b : Bool)
  deriving DecidableEq

/-- The code of a call, with recursion limited to the depth `n`. -/
def Look.prog (E : Env) (n : Nat) : Look → Prog Seen
  | .size t a => do
    let k ← Conc.hsizeN E n t (.ptr a)
    pure (.size k)
  | .marshal strict t a => do
    let b ← Conc.hmarshalVT E strict n t (.ptr a)
    pure (.bytes b)
  | .equal t a b => do
    let r ← Conc.hequalN ⟨E.S, E.R, fun _ => false⟩ n t (.at (.ptr a)) (.at (.ptr b))
    pure (.equal r)

/-- In the memory `h` the messages looked at stand for values which are nested less than `n` deep, and the method on values returns `r` for these. -/
inductive Look.Shows (E : Env) (n : Nat) (h : Heap) : Look → Res Seen → Prop
  | size {t : Nat} {a : Addr} {v : Val} {F : Multiset Addr} (hf : (E.S.msg t).foreign = false) (hv : RepL E.S .none h [(.msg t, .ptr a, v)] F) (hn : v.depth < n) :
      Look.Shows E n h (.size t a) (.ok (.size (sizeVT E t v)))
  | marshal {strict : Bool} {t : Nat} {a : Addr} {v : Val} {F : Multiset Addr} (hf : (E.S.msg t).foreign = false) (hv : RepL E.S .none h [(.msg t, .ptr a, v)] F)
      (hn : v.depth < n) : Look.Shows E n h (.marshal strict t a) (marshalVT E strict t v >>= fun b => .ok (.bytes b))
  | same {t : Nat} {a : Addr} (hn : 0 < n) : Look.Shows E n h (.equal t a a) (.ok (.equal true))
  | equal {t : Nat} {a b : Addr} {v w : Val} {F G : Multiset Addr} (hf : (E.S.msg t).foreign = false) (hab : a ≠ b) (hv : RepL E.S .none h [(.msg t, .ptr a, v)] F)
      (hw : RepL E.S .none h [(.msg t, .ptr b, w)] G) (hn : v.depth < n) (hn' : w.depth < n) :
      Look.Shows E n h (.equal t a b) (equalVT ⟨E.S, E.R, fun _ => false⟩ t v w >>= fun b => .ok (.equal b))

/-- A machine, and the calls of the goroutines that look at messages. -/
structure RMach where
  base : Mach
  looks : Nat → Option (Look × Prog Seen)

/-- What may happen next. -/
inductive RStep (E : Env) (m : RMach) : Option Nat → RMach → Prop
  /-- what happens otherwise, by a goroutine that is not in such a call -/
  | base {who : Option Nat} {b : Mach} (hs : GStep E.S m.base who b) (free : ∀ i, who = some i → m.looks i = none) : RStep E m who { m with base := b }
  /-- a call begins, of a method of messages that the goroutine holds or that are common -/
  | look {i n : Nat} {held : List (Nat × Addr)} {l : Look} (hg : m.base.gors[i]? = some ⟨held, none⟩) (hl : m.looks i = none)
      (ha : ∀ q ∈ l.args, q ∈ held ∨ q ∈ m.base.shared) (hr : ∃ r, l.Shows E n m.base.st.heap r) :
      RStep E m (some i) { m with looks := Function.update m.looks i (some (l, l.prog E n)) }
  /-- a step of the method called -/
  | step {i : Nat} {l : Look} {p p' : Prog Seen} {σ : HState} (hl : m.looks i = some (l, p)) (hs : PStep m.base.st p σ p') :
      RStep E m (some i) ⟨{ m.base with st := σ }, Function.update m.looks i (some (l, p'))⟩
  /-- the method returns, or panics and the program recovers -/
  | seen {i : Nat} {l : Look} {r : Res Seen} (hl : m.looks i = some (l, .done r)) : RStep E m (some i) { m with looks := Function.update m.looks i none }

/-- Machines that programs can get to. -/
inductive RReach (E : Env) : RMach → Prop
  | start : RReach E ⟨.start, fun _ => none⟩
  | step {m m' : RMach} {who : Option Nat} (h : RReach E m) (hs : RStep E m who m') : RReach E m'

/-- What happens from `m` on while the goroutine `i` is in its call. -/
inductive RDuring (E : Env) (i : Nat) (m : RMach) : RMach → Prop
  | refl : RDuring E i m m
  | tail {m1 m2 : RMach} {who : Option Nat} (h : RDuring E i m m1) (hs : RStep E m1 who m2) (hi : m2.looks i ≠ none) : RDuring E i m m2

/-- The next step of the goroutine `i` reads the object `a`. -/
def RMach.readsNext (m : RMach) (i : Nat) (a : Addr) : Prop :=
  (∃ held op p, m.base.gors[i]? = some ⟨held, some (op, p)⟩ ∧ p.reads = some a) ∨ ∃ l p, m.looks i = some (l, p) ∧ p.reads = some a

/-- The next step of the goroutine `i` writes the object `a`. -/
def RMach.writesNext (m : RMach) (i : Nat) (a : Addr) : Prop :=
  (∃ held op p, m.base.gors[i]? = some ⟨held, some (op, p)⟩ ∧ p.writes = some a) ∨ ∃ l p, m.looks i = some (l, p) ∧ p.writes = some a

/-- Slices of bytes lie within their arrays, pointers to scalars point to scalars, foreign messages are messages: what Go guarantees. -/
def SaneHeap (h : Heap) : Prop := ∀ (a : Addr) (c : Cell), h[a]? = some c →
  (∀ (b : Addr) (off len : Nat) (d : Bytes), HV.bytes b off len ∈ Cell.values c → h[b]? = some (.bytes d) → off + len ≤ d.length) ∧ c ≠ .box .nil ∧ c ≠ .foreign .nil

end Vtp.Spec
