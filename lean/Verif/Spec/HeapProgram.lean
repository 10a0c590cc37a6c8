import Verif.Spec.HeapPool
import Verif.Model.Pool
import Verif.Model.HeapPool
/-!
# Programs with and without pools

A program calls the library and changes messages itself. It knows the messages it got by their positions in a table. Run with memory and pools
(`MRun`), the table has addresses. Run on values, without memory and pools (`vrun`), it has values: a message from the pool is a new message, a
message returned is gone, and decoding and cloning are those of code generated without pools.

There may be buffers to decode from, which do not change.
-/

namespace Vtp.Spec

/-- What is generated, the runtime library and the machine. -/
structure Lib where
  S : Schema
  R : Runtime
  A : Arch
  /-- as in `KEnv` -/
  direct : Nat → Bool

/-- What a program does. -/
inductive Cmd where
  /-- `&T{}` -/
  | new (t : Nat)
  /-- `TFromVTPool()` -/
  | get (t : Nat)
  /-- `m.ReturnToVTPool()` -/
  | put (h : Nat)
  /-- `m.ResetVT()` -/
  | reset (h : Nat)
  /-- `m.UnmarshalVT(b)` -/
  | decode (b : Bytes) (h : Nat)
  /-- `m.UnmarshalVTUnsafe(b)` -/
  | view (b : Bytes) (h : Nat)
  /-- `m.CloneVT()` -/
  | clone (h : Nat)
  /-- the program does not use a message any more -/
  | drop (h : Nat)
  /-- code of the program: from the messages `hs` it makes messages of the types `ts`, with contents given by `f`; the former are not used any more, so if it
  only changes a message, this gets a new position -/
  | use (hs ts : List Nat) (f : List Val → List Val)

/-- Messages of a program, by position; none if not in use any more. -/
abbrev Table (α : Type) := List (Option (Nat × α))

/-- The messages `hs` are not used any more. -/
def Table.clear {α : Type} (T : Table α) (hs : List Nat) : Table α := hs.foldl (fun T h => T.set h none) T

/-- The message at a position. -/
def Table.at {α : Type} (T : Table α) (h : Nat) : Option (Nat × α) := T[h]?.join

/-- The messages at positions. -/
def Table.all {α : Type} (T : Table α) (hs : List Nat) : Option (List (Nat × α)) := hs.mapM T.at

/-- The outcome only. -/
def _root_.Vtp.Res.outcome {α : Type} : Res α → Res Unit
  | .ok _ => .ok ()
  | .err e => .err e
  | .panic e => .panic e
  | .diverge => .diverge

/-- The call returned. -/
def _root_.Vtp.Res.settled {α : Type} : Res α → Bool
  | .ok _ => true
  | .err _ => true
  | _ => false

/-- A message that the program gets. -/
def given (t : Nat) (v : Val) : Option (Nat × Val) := if v.isNil then none else some (t, v)

/-- The table after a call that gives a message. -/
def Table.push {α : Type} (T : Table α) : Res (Option (Nat × α)) → Table α
  | .ok q => T ++ [q]
  | _ => T

/-- The surroundings of the decoder generated without pools. -/
def Lib.uenv (L : Lib) : UEnv := ⟨unpool L.S, L.R, L.A, false, [], fun _ t => zeroMsg L.S t⟩

/-- The surroundings of the decoder without copies, generated without pools, for the buffer `b`. -/
def Lib.venv (L : Lib) (b : Bytes) : UEnv := ⟨unpool L.S, L.R, L.A, true, b, fun _ t => zeroMsg L.S t⟩

/-- The surroundings of `CloneVT` generated without pools. -/
def Lib.kenv (L : Lib) : KEnv := ⟨unpool L.S, L.R, fun _ t => zeroMsg L.S t, L.direct⟩

/-- What commands do on values, if the program may use them: outcome and table. Whether `ResetVT` and `ReturnToVTPool` panic is a matter of the value
(`reset_returns_iff`). -/
def vstep (L : Lib) (W : Table Val) : Cmd → Option (Res Unit × Table Val)
  | .new t => some (.ok (), W ++ [some (t, zeroMsg L.S t)])
  | .get t => some (.ok (), W ++ [some (t, zeroMsg L.S t)])
  | .put h => do
    let q ← W.at h
    if (L.S.msg q.1).pooled then some ((resetVT L.S q.1 q.2).outcome, W.set h none) else none
  | .reset h => do
    let q ← W.at h
    if (L.S.msg q.1).pooled then some ((resetVT L.S q.1 q.2).outcome, W.set h (some (q.1, zeroMsg L.S q.1))) else none
  | .decode b h => do
    let q ← W.at h
    if (L.S.msg q.1).foreign then none
    else some ((unmarshalVT L.uenv q.1 b q.2).2, W.set h (some (q.1, (unmarshalVT L.uenv q.1 b q.2).1)))
  | .view b h => do
    let q ← W.at h
    if (L.S.msg q.1).foreign then none
    else some ((unmarshalVT (L.venv b) q.1 b q.2).2, W.set h (some (q.1, (unmarshalVT (L.venv b) q.1 b q.2).1)))
  | .clone h => do
    let q ← W.at h
    if (L.S.msg q.1).foreign then none
    else some ((cloneVT L.kenv q.1 q.2).outcome, W.push (cloneVT L.kenv q.1 q.2 >>= fun v => .ok (given q.1 v)))
  | .drop h => some (.ok (), W.set h none)
  | .use hs ts f => do
    let qs ← W.all hs
    if hs.Nodup then some (.ok (), W.clear hs ++ (ts.zip (f (qs.map (·.2)))).map some) else none

/-- A program run on values: the outcomes until it ends or a call does not return. -/
def vrun (L : Lib) (W : Table Val) : List Cmd → Option (List (Res Unit) × Table Val)
  | [] => some ([], W)
  | c :: cs => do
    let (o, W) ← vstep L W c
    if o.settled then do
      let (os, W) ← vrun L W cs
      some (o :: os, W)
    else some ([o], W)

/-- Lists of non-nil messages of the given types. -/
inductive ReuseL (S : Schema) : List Nat → List Val → List Val → Prop
  | nil : ReuseL S [] [] []
  | cons {t : Nat} {ts : List Nat} {v w : Val} {vs ws : List Val} (hn : v ≠ .nil) (h : Reuse S t v w) (hs : ReuseL S ts vs ws) : ReuseL S (t :: ts) (v :: vs) (w :: ws)

/-- The code of the program does not look at memory kept for reuse, and leaves there only empty messages; it does not turn messages into nil. -/
def Respects (S : Schema) (ts ts' : List Nat) (f : List Val → List Val) : Prop := ∀ vs ws, ReuseL S ts vs ws → ReuseL S ts' (f vs) (f ws)

/-- Messages in memory as items. -/
def msgsAt (qs : List (Nat × Addr)) (vs : List Val) : List VItem := List.zipWith (fun q v => (.msg q.1, .ptr q.2, v)) qs vs

/-- A program with memory and pools. -/
structure MState where
  st : HState
  tab : Table Addr

/-- A message that the program gets. -/
def givenAt (t : Nat) : HV → Option (Nat × Addr)
  | .ptr a => some (t, a)
  | _ => none

/-- Buffers at the beginning of memory; `byt` tells whether the program decodes from them without copies. -/
def Bufs.list (bs : List Bytes) (byt : Prop) : Bufs := ⟨fun a => bs[a]?, fun a => bs.getD a [], byt⟩

/-- What commands do with memory and pools. Decoding without copies is from a buffer. Programs that do so use decoding with copies only if it does not write
to arrays that messages already have (C54). What the pools hand out (`want`, `pick`) and the growth of slices (`extra`) are not determined. -/
inductive MStep (L : Lib) (B : Bufs) : MState → Cmd → Res Unit → MState → Prop
  | new {σ : HState} {T : Table Addr} {t : Nat} : MStep L B ⟨σ, T⟩ (.new t) (hnew L.S t σ).2.outcome
      ⟨(hnew L.S t σ).1, T.push ((hnew L.S t σ).2 >>= fun v => .ok (givenAt t v))⟩
  | get {σ : HState} {T : Table Addr} {t : Nat} (want : Option Addr) : MStep L B ⟨σ, T⟩ (.get t) (poolGet L.S want t σ).2.outcome
      ⟨(poolGet L.S want t σ).1, T.push ((poolGet L.S want t σ).2 >>= fun v => .ok (givenAt t v))⟩
  | put {σ : HState} {T : Table Addr} {h t : Nat} {a : Addr} (hq : T.at h = some (t, a)) (hp : (L.S.msg t).pooled = true) :
      MStep L B ⟨σ, T⟩ (.put h) (hreturnToVTPool L.S t (.ptr a) σ).2 ⟨(hreturnToVTPool L.S t (.ptr a) σ).1, T.set h none⟩
  | reset {σ : HState} {T : Table Addr} {h t : Nat} {a : Addr} (hq : T.at h = some (t, a)) (hp : (L.S.msg t).pooled = true) :
      MStep L B ⟨σ, T⟩ (.reset h) (hresetVT L.S t (.ptr a) σ).2 ⟨(hresetVT L.S t (.ptr a) σ).1, T⟩
  | decode {σ : HState} {T : Table Addr} {b : Bytes} {h t : Nat} {a : Addr} (hq : T.at h = some (t, a)) (hf : (L.S.msg t).foreign = false)
      (hb : B.byt → noOwnBytes L.S) (extra : Growth) (pick : Nat → Option Addr) : MStep L B ⟨σ, T⟩ (.decode b h) (hunmarshalVT ⟨L.S, L.R, L.A, false, 0, extra, pick⟩ t b (.ptr a) σ).2
      ⟨(hunmarshalVT ⟨L.S, L.R, L.A, false, 0, extra, pick⟩ t b (.ptr a) σ).1, T⟩
  | view {σ : HState} {T : Table Addr} {b : Bytes} {h t : Nat} {a x : Addr} (hq : T.at h = some (t, a)) (hf : (L.S.msg t).foreign = false)
      (hb : B.byt) (hx : B.mem x = some b) (extra : Growth) (pick : Nat → Option Addr) : MStep L B ⟨σ, T⟩ (.view b h) (hunmarshalVT ⟨L.S, L.R, L.A, true, x, extra, pick⟩ t b (.ptr a) σ).2
      ⟨(hunmarshalVT ⟨L.S, L.R, L.A, true, x, extra, pick⟩ t b (.ptr a) σ).1, T⟩
  | clone {σ : HState} {T : Table Addr} {h t : Nat} {a : Addr} (hq : T.at h = some (t, a)) (hf : (L.S.msg t).foreign = false)
      (pick : List Nat → Option Addr) : MStep L B ⟨σ, T⟩ (.clone h) (hcloneVT ⟨L.S, L.R, pick, L.direct⟩ t (.ptr a) σ).2.outcome
      ⟨(hcloneVT ⟨L.S, L.R, pick, L.direct⟩ t (.ptr a) σ).1, T.push ((hcloneVT ⟨L.S, L.R, pick, L.direct⟩ t (.ptr a) σ).2 >>= fun v => .ok (givenAt t v))⟩
  | drop {σ : HState} {T : Table Addr} {h : Nat} : MStep L B ⟨σ, T⟩ (.drop h) (.ok ()) ⟨σ, T.set h none⟩
  | use {σ σ' : HState} {T : Table Addr} {hs ts : List Nat} {f : List Val → List Val} {qs : List (Nat × Addr)} {as : List Addr} (hn : hs.Nodup)
      (hq : T.all hs = some qs) (hr : Respects L.S (qs.map (·.1)) ts f) (hl : as.length = ts.length) (hp : σ'.pool = σ.pool)
      (hm : ∀ vs R, vs.length = qs.length → Holds L.S B σ (msgsAt qs vs ++ R) → Holds L.S B σ' (msgsAt (ts.zip as) (f vs) ++ R)) :
      MStep L B ⟨σ, T⟩ (.use hs ts f) (.ok ()) ⟨σ', T.clear hs ++ (ts.zip as).map some⟩

/-- A program run with memory and pools, which may lose messages at any time. -/
inductive MRun (L : Lib) (B : Bufs) : MState → List Cmd → List (Res Unit) → MState → Prop
  | done {s : MState} : MRun L B s [] [] s
  | gc {σ : HState} {T : Table Addr} {pool : List (Nat × Addr)} {cs : List Cmd} {os : List (Res Unit)} {s : MState} (h : pool.Sublist σ.pool)
      (hr : MRun L B ⟨{ σ with pool := pool }, T⟩ cs os s) : MRun L B ⟨σ, T⟩ cs os s
  | step {s s' s'' : MState} {c : Cmd} {o : Res Unit} {cs : List Cmd} {os : List (Res Unit)} (h : MStep L B s c o s') (ho : o.settled = true)
      (hr : MRun L B s' cs os s'') : MRun L B s (c :: cs) (o :: os) s''
  | stop {s s' : MState} {c : Cmd} {o : Res Unit} {cs : List Cmd} (h : MStep L B s c o s') (ho : o.settled = false) : MRun L B s (c :: cs) [o] s'

/-- A message and the value it stands for, up to memory kept for reuse. -/
def Stands (S : Schema) : Option (Nat × Addr × Val) → Option (Nat × Val) → Prop
  | some q, some r => q.1 = r.1 ∧ q.2.2 ≠ .nil ∧ Reuse S q.1 q.2.2 r.2
  | none, none => True
  | _, _ => False

/-- The memory stands for the values, up to memory kept for reuse: position by position, with no sharing. -/
def Shows (S : Schema) (B : Bufs) (s : MState) (W : Table Val) : Prop :=
  ∃ V : Table (Addr × Val), s.tab = V.map (Option.map fun q => (q.1, q.2.1)) ∧ List.Forall₂ (Stands S) V W ∧
    HoldsPool S B s.st (V.filterMap (Option.map fun q => (.msg q.1, .ptr q.2.1, q.2.2)))

/-- What is needed of what is generated and of the runtime library: pools for generated types only, and the runtime library gives nil for
nil only and sets no fields when decoding records of extensions. -/
structure LibOK (L : Lib) : Prop where
  ok : schemaOK L.S = true
  pools : poolsLocal L.S
  ext : ExtOK L.S L.R L.A
  run : ∀ t b v, L.R.unmarshal t b = some v → v ≠ .nil
  nil : ∀ t, L.R.clone t .nil = .nil
  some : ∀ t v, v ≠ .nil → L.R.clone t v ≠ .nil

end Vtp.Spec
