import Verif.Model.EmitMarshal
import Verif.Lemmas.EmitSize
/-! Emitted marshalling code simulates the writers of `Model/Marshal`. -/

namespace Vtp.Go
open Spec

/-- Variables that emitted statements leave behind in the block around them. -/
def Id.temp : Id → Bool
  | .size => true
  | .err => true
  | .encoded => true
  | .f _ => true
  | .x _ => true
  | .j _ => true
  | .pksize _ => true
  | _ => false

/-- Only such variables. -/
def Temps (ext : List (Id × GV)) : Prop := ∀ p ∈ ext, p.1.temp = true

theorem Temps.nil : Temps [] := fun _ h => by simp at h

theorem Temps.cons {x : Id} {v : GV} {ext : List (Id × GV)} (hx : x.temp = true) (h : Temps ext) : Temps ((x, v) :: ext) := by
  intro p hp
  rcases List.mem_cons.1 hp with rfl | hp
  · exact hx
  · exact h p hp

theorem Temps.append {a b : List (Id × GV)} (ha : Temps a) (hb : Temps b) : Temps (a ++ b) := by
  intro p hp
  rcases List.mem_append.1 hp with h | h
  · exact ha p h
  · exact hb p h

theorem lookup_skip {x : Id} {vs : List (Id × GV)} : ∀ {ext : List (Id × GV)}, (∀ p ∈ ext, p.1 ≠ x) → lookup x (ext ++ vs) = lookup x vs
  | [], _ => rfl
  | (y, v) :: ext, h => by
    have hy : x ≠ y := fun e => h (y, v) (by simp) e.symm
    simp only [List.cons_append, lookup, hy, if_false]
    exact lookup_skip fun p hp => h p (by simp [hp])

theorem lookup_temps {x : Id} {ext vs : List (Id × GV)} (h : Temps ext) (hx : x.temp = false) : lookup x (ext ++ vs) = lookup x vs :=
  lookup_skip fun p hp e => by have := h p hp; rw [e, hx] at this; simp at this

theorem update_skip {x : Id} {v : GV} {vs : List (Id × GV)} : ∀ {ext : List (Id × GV)}, (∀ p ∈ ext, p.1 ≠ x) →
    update x v (ext ++ vs) = update x v vs >>= fun vs => .ok (ext ++ vs)
  | [], _ => by
    simp only [List.nil_append]
    cases update x v vs <;> rfl
  | (y, w) :: ext, h => by
    have hy : x ≠ y := fun e => h (y, w) (by simp) e.symm
    simp only [List.cons_append, update, hy, if_false]
    rw [update_skip fun p hp => h p (by simp [hp])]
    cases update x v vs <;> rfl

/-- The variables of a method that marshals, as a function of `i`. -/
structure IEnv (env : Int → List (Id × GV)) (mv : GV) : Prop where
  get : ∀ i, lookup .i (env i) = .ok (.int i)
  set : ∀ i j, update .i (.int j) (env i) = .ok (env j)
  recv : ∀ i, lookup .m (env i) = .ok mv

theorem IEnv.skip {env : Int → List (Id × GV)} {mv : GV} (h : IEnv env mv) {ext : List (Id × GV)}
    (he : ∀ p ∈ ext, p.1 ≠ .i ∧ p.1 ≠ .m) : IEnv (fun i => ext ++ env i) mv where
  get i := by rw [lookup_skip fun p hp => (he p hp).1]; exact h.get i
  set i j := by rw [update_skip fun p hp => (he p hp).1, h.set]; rfl
  recv i := by rw [lookup_skip fun p hp => (he p hp).2]; exact h.recv i

theorem IEnv.temps {env : Int → List (Id × GV)} {mv : GV} (h : IEnv env mv) {ext : List (Id × GV)} (he : Temps ext) :
    IEnv (fun i => ext ++ env i) mv :=
  h.skip fun p hp => by
    have := he p hp
    constructor <;> intro e <;> rw [e] at this <;> simp [Id.temp] at this

theorem IEnv.cons {env : Int → List (Id × GV)} {mv : GV} (h : IEnv env mv) {x : Id} (v : GV) (hi : x ≠ .i) (hm : x ≠ .m) :
    IEnv (fun i => (x, v) :: env i) mv :=
  h.skip (ext := [(x, v)]) fun p hp => by
    obtain rfl := List.mem_singleton.1 hp
    exact ⟨hi, hm⟩

theorem IEnv.shadow {env : Int → List (Id × GV)} {mv : GV} (h : IEnv env mv) (v : GV) : IEnv (fun i => (.m, v) :: env i) v where
  get i := by simp [lookup, h.get]
  set i j := by simp [update, h.set]
  recv i := by simp [lookup]

theorem IEnv.length {env : Int → List (Id × GV)} {mv : GV} (h : IEnv env mv) (i j : Int) : (env j).length = (env i).length :=
  update_length (h.set i j)

/-- How the emitted code ends, given how the writer ends: with the same `i` and buffer and perhaps some more
variables; returning the error; panicking. -/
def Ends (env : Int → List (Id × GV)) (o : Res WState) (r : Res (St × Ctrl)) : Prop :=
  match o with
  | .ok s => ∃ ext, Temps ext ∧ r = .ok (⟨ext ++ env s.i, s.buf⟩, .next)
  | .err e => ∃ u, r = .ok (u, .ret [.const 0, .err (some e)])
  | .panic p => r = .panic p
  | .diverge => r = .diverge

/-- The same without additional variables. -/
def EndsE (env : Int → List (Id × GV)) (o : Res WState) (r : Res (St × Ctrl)) : Prop :=
  match o with
  | .ok s => r = .ok (⟨env s.i, s.buf⟩, .next)
  | .err e => ∃ u, r = .ok (u, .ret [.const 0, .err (some e)])
  | .panic p => r = .panic p
  | .diverge => r = .diverge

theorem EndsE.ends {env : Int → List (Id × GV)} {o : Res WState} {r : Res (St × Ctrl)} (h : EndsE env o r) : Ends env o r := by
  cases o with
  | ok s => exact ⟨[], Temps.nil, h⟩
  | err e => exact h
  | panic p => exact h
  | diverge => exact h

theorem Ends.weaken {env : Int → List (Id × GV)} {ext : List (Id × GV)} (he : Temps ext) {o : Res WState} {r : Res (St × Ctrl)}
    (h : Ends (fun i => ext ++ env i) o r) : Ends env o r := by
  cases o with
  | ok s =>
    obtain ⟨ext', h', rfl⟩ := h
    exact ⟨ext' ++ ext, h'.append he, by rw [List.append_assoc]⟩
  | err e => exact h
  | panic p => exact h
  | diverge => exact h

/-- The statement simulates the writer. -/
def Sim (C : Ctx) (env : Int → List (Id × GV)) (a : Stmt) (w : Writer) : Prop :=
  ∀ s : WState, Ends env (w s) (exec C a ⟨env s.i, s.buf⟩)

theorem Sim.cast {C : Ctx} {env : Int → List (Id × GV)} {a : Stmt} {w u : Writer} (h : Sim C env a w) (e : w = u) : Sim C env a u := e ▸ h

theorem Ends.seq {C : Ctx} {env : Int → List (Id × GV)} {a b : Stmt} {o : Res WState} {u : Writer} {s0 : St}
    (ha : Ends env o (exec C a s0))
    (hb : ∀ ext, Temps ext → Sim C (fun i => ext ++ env i) b u) :
    Ends env (o >>= fun s => u s) (exec C (a ;; b) s0) := by
  rw [exec]
  cases o with
  | ok s =>
    obtain ⟨ext, he, hr⟩ := ha
    rw [hr]
    simp only [Res.bind_ok]
    exact (hb ext he s).weaken he
  | err e =>
    obtain ⟨v, hr⟩ := ha
    rw [hr]
    exact ⟨v, rfl⟩
  | panic p =>
    have hr : exec C a s0 = .panic p := ha
    rw [hr]; exact rfl
  | diverge =>
    have hr : exec C a s0 = .diverge := ha
    rw [hr]; exact rfl

theorem Sim.seq {C : Ctx} {env : Int → List (Id × GV)} {a b : Stmt} {w u : Writer} (ha : Sim C env a w)
    (hb : ∀ ext, Temps ext → Sim C (fun i => ext ++ env i) b u) : Sim C env (a ;; b) (Writer.seq w u) :=
  fun s => (ha s).seq hb

theorem Sim.skip {C : Ctx} {env : Int → List (Id × GV)} : Sim C env .skip Writer.skip := fun s => ⟨[], Temps.nil, rfl⟩

/-- Leaving a block. -/
theorem block_ends {env : Int → List (Id × GV)} {mv : GV} (h : IEnv env mv) {bind : List (Id × GV)} {f : St → Res (St × Ctrl)}
    {i : Int} {buf : Bytes} {o : Res WState} (H : Ends (fun i => bind ++ env i) o (f ⟨bind ++ env i, buf⟩)) :
    EndsE env o (block bind f ⟨env i, buf⟩) := by
  unfold block
  cases o with
  | ok s =>
    obtain ⟨ext, -, hr⟩ := H
    simp only [] at hr
    rw [hr]
    simp only [Res.bind_ok, EndsE, St.leave]
    have : (ext ++ (bind ++ env s.i)).drop ((ext ++ (bind ++ env s.i)).length - (env i).length) = env s.i := by
      rw [h.length s.i i, ← List.append_assoc, List.length_append, Nat.add_sub_cancel, List.drop_left]
    rw [this]
  | err e =>
    obtain ⟨v, hr⟩ := H
    rw [hr]
    exact ⟨_, rfl⟩
  | panic p =>
    have hr : f ⟨bind ++ env i, buf⟩ = .panic p := H
    simp only [hr]; exact rfl
  | diverge =>
    have hr : f ⟨bind ++ env i, buf⟩ = .diverge := H
    simp only [hr]; exact rfl

/-- A loop whose iterations simulate writers. -/
theorem loop_ends {α : Type} {env : Int → List (Id × GV)} {f : α → St → Res (St × Ctrl)} {w : α → Writer} : ∀ (ps : List α),
    (∀ p ∈ ps, ∀ s : WState, EndsE env (w p s) (f p ⟨env s.i, s.buf⟩)) → ∀ s : WState, EndsE env (Writer.each w ps s) (loop f ps ⟨env s.i, s.buf⟩)
  | [], _, s => rfl
  | p :: ps, H, s => by
    have h1 := H p (by simp) s
    have ih := loop_ends ps fun q hq => H q (by simp [hq])
    simp only [Writer.each, Writer.seq, loop]
    cases hw : w p s with
    | ok s' =>
      rw [hw] at h1
      have h1' : f p ⟨env s.i, s.buf⟩ = .ok (⟨env s'.i, s'.buf⟩, .next) := h1
      rw [h1']
      exact ih s'
    | err e =>
      rw [hw] at h1
      obtain ⟨v, hr⟩ := h1
      rw [hr]
      exact ⟨v, rfl⟩
    | panic q =>
      rw [hw] at h1
      have h1' : f p ⟨env s.i, s.buf⟩ = .panic q := h1
      rw [h1']; exact rfl
    | diverge =>
      rw [hw] at h1
      have h1' : f p ⟨env s.i, s.buf⟩ = .diverge := h1
      rw [h1']; exact rfl

theorem Sim.ite {C : Ctx} {env : Int → List (Id × GV)} {mv : GV} (h : IEnv env mv) {c : Expr} {a b : Stmt} {w u : Writer} {t : Bool}
    (hc : ∀ i buf, (eval C ⟨env i, buf⟩ c >>= truth) = .ok t) (ha : t = true → Sim C env a w) (hb : t = false → Sim C env b u) :
    Sim C env (.ite c a b) (if t then w else u) := fun s => by
  simp only [exec, hc, Res.bind_ok]
  cases t with
  | true => simpa using (block_ends h (bind := []) (ha rfl s)).ends
  | false => simpa using (block_ends h (bind := []) (hb rfl s)).ends

theorem Sim.define {C : Ctx} {env : Int → List (Id × GV)} {x : Id} {e : Expr} {g : GV} {b : Stmt} {w : Writer} (hx : x.temp = true)
    (he : ∀ i buf, eval C ⟨env i, buf⟩ e = .ok g) (hb : Sim C (fun i => (x, fresh g) :: env i) b w) :
    Sim C env (.define x e ;; b) w := fun s => by
  simp only [exec, he, Res.bind_ok]
  exact (hb s).weaken (ext := [(x, fresh g)]) (Temps.nil.cons hx)

/-- What an expression gives. -/
abbrev Gives (C : Ctx) (env : Int → List (Id × GV)) (e : Expr) (g : GV) : Prop := ∀ i buf, eval C ⟨env i, buf⟩ e = .ok g

section
variable {C : Ctx} {env : Int → List (Id × GV)} {mv : GV}

theorem exec_subI (h : IEnv env mv) {e : Expr} {g : GV} {n i : Int} {buf : Bytes} (he : eval C ⟨env i, buf⟩ e = .ok g) (hg : asInt g = some n) :
    exec C (.subAssign .i e) ⟨env i, buf⟩ = .ok (⟨env (i - n), buf⟩, .next) := by
  have hs := h.set i (i - n)
  have hb : binG .sub (.int i) g = .ok (.int (i - n)) := by
    cases g <;> simp [asInt] at hg <;> simp [binG, asInt, hg]
  simp only [exec, he, Res.bind_ok, h.get, hb, setVar, hs]

theorem exec_decI (h : IEnv env mv) {i : Int} {buf : Bytes} : exec C (.dec .i) ⟨env i, buf⟩ = .ok (⟨env (i - 1), buf⟩, .next) := by
  have hs := h.set i (i - 1)
  simp only [exec, intVar, h.get, Res.bind_ok, intG, setVar, hs]

theorem exec_seq {a b : Stmt} {s s' : St} (h : exec C a s = .ok (s', .next)) : exec C (a ;; b) s = exec C b s' := by
  rw [exec, h]; rfl

/-- `i--; dAtA[i] = e`. -/
theorem byte_sim (h : IEnv env mv) {e : Expr} {g : GV} {b : UInt8} (he : Gives C env e g) (hg : byteG g = .ok b) :
    Sim C env (.dec .i ;; .setByte .i e) (Writer.byte b) := fun s => by
  rw [exec_seq (exec_decI h)]
  simp only [exec, he (s.i - 1), Res.bind_ok, hg, intVar, h.get, intG, Writer.byte]
  unfold putByte
  split
  · exact ⟨[], Temps.nil, rfl⟩
  · exact rfl

theorem keyBytes_sim {env : Int → List (Id × GV)} (h : IEnv env mv) : ∀ bs : List UInt8, Sim C env (Emit.keyBytes bs) (Writer.each Writer.byte bs)
  | [] => Sim.skip
  | b :: bs => by
    have hb : Sim C env (.dec .i ;; .setByte .i (.lit b.toNat)) (Writer.byte b) :=
      byte_sim h (g := .const b.toNat) (fun _ _ => rfl) (by simp [byteG])
    exact hb.seq fun ext he => keyBytes_sim (h.temps he) bs

theorem key_sim (h : IEnv env mv) (num wt : Nat) : Sim C env (Emit.encodeKey num wt) (Writer.key num wt) := keyBytes_sim h _

theorem encodeVarintLoop_noErr : ∀ (n : Nat) (buf : Bytes) (off : Int) (v : BitVec 64) (e : Err), encodeVarintLoop n buf off v ≠ .err e
  | 0, _, _, _, _ => by simp [encodeVarintLoop]
  | n + 1, buf, off, v, e => by
    unfold encodeVarintLoop putByte
    split
    · split
      · exact encodeVarintLoop_noErr n _ _ _ e
      · simp
    · split <;> simp

theorem varint_sim' (h : IEnv env mv) {e : Expr} {g : GV} {v : BitVec 64} (he : Gives C env e g) (hg : wordG .uint64 g = .ok v) :
    Sim C env (.encodeVarint e) (Writer.varint v) := fun s => by
  simp only [exec, he s.i, Res.bind_ok, hg, intVar, h.get, intG, Writer.varint]
  unfold Vtp.encodeVarint
  simp only []
  cases hl : encodeVarintLoop 10 s.buf (s.i - sizeOfVarint v) v with
  | ok r => simp only [Res.bind_ok, setVar, h.set]; exact ⟨[], Temps.nil, rfl⟩
  | err e => exact absurd hl (encodeVarintLoop_noErr _ _ _ _ _)
  | panic p => exact rfl
  | diverge => exact rfl

/-- `encodeVarint(e)`. -/
theorem varint_sim (h : IEnv env mv) {e : Expr} {g : GV} {v : BitVec 64} (he : Gives C env e g)
    (hg : u64G g = .ok (.val (.num .uint64) (.num v))) : Sim C env (Emit.encodeVarint e) (Writer.varint v) :=
  varint_sim' h (g := .val (.num .uint64) (.num v)) (fun i buf => by simp [eval, he i buf, hg]) (by simp [wordG])

theorem leBytes_mod : ∀ (n a b : Nat), a % 256 ^ n = b % 256 ^ n → leBytes n a = leBytes n b
  | 0, _, _, _ => rfl
  | n + 1, a, b, h => by
    have h1 : a % 256 = b % 256 := by
      have := congrArg (· % 256) h
      simp only [pow_succ'] at this
      rwa [Nat.mod_mul_right_mod, Nat.mod_mul_right_mod] at this
    have h2 : a / 256 % 256 ^ n = b / 256 % 256 ^ n := by
      have := congrArg (· / 256) h
      simp only [pow_succ'] at this
      rwa [Nat.mod_mul_right_div_self, Nat.mod_mul_right_div_self] at this
    simp only [leBytes]
    rw [leBytes_mod n _ _ h2]
    congr 1
    apply UInt8.toNat_inj.1
    simpa using h1

theorem fixed_sim (h : IEnv env mv) {n : Nat} {e : Expr} {T : NumTy} {x v : BitVec 64} (hT : T = if n = 8 then .uint64 else .uint32)
    (he : Gives C env e (.val (.num T) (.num x))) (hv : leBytes n x.toNat = leBytes n v.toNat) :
    Sim C env (.subAssign .i (.lit n) ;; .putUint n e) (Writer.fixed n v) := fun s => by
  rw [exec_seq (exec_subI h (g := .const n) rfl rfl)]
  simp only [exec, he (s.i - n), Res.bind_ok, wordG, ← hT, if_true, intVar, h.get, intG, Writer.fixed, hv]
  split
  · split
    · exact ⟨[], Temps.nil, rfl⟩
    · exact rfl
  · exact rfl

theorem fixed64_sim (h : IEnv env mv) {e : Expr} {g : GV} {v : BitVec 64} (he : Gives C env e g)
    (hg : u64G g = .ok (.val (.num .uint64) (.num v))) : Sim C env (Emit.encodeFixed64 e) (Writer.fixed 8 v) :=
  fixed_sim h (n := 8) rfl (x := v) (fun i buf => by simp [eval, he i buf, hg]) rfl

theorem fixed32_sim (h : IEnv env mv) {e : Expr} {g : GV} {v : BitVec 64} (he : Gives C env e g)
    (hg : u32G g = .ok (.val (.num .uint32) (.num ((v.setWidth 32).setWidth 64)))) : Sim C env (Emit.encodeFixed32 e) (Writer.fixed 4 v) :=
  fixed_sim h (n := 4) rfl (x := (v.setWidth 32).setWidth 64) (fun i buf => by simp [eval, he i buf, hg]) (leBytes_mod _ _ _ (by
    rw [BitVec.toNat_setWidth, BitVec.toNat_setWidth]; omega))

/-- `copy(dAtA[i:], e)` after `i -= len(e)`. -/
theorem copy_sim (h : IEnv env mv) {e : Expr} {g : GV} {b : Bytes} (he : Gives C env e g) (hg : bytesG g = .ok b)
    (hl : lenG g = .ok (.int b.length)) : Sim C env (.subAssign .i (.len e) ;; .copy e) (Writer.copy b) := fun s => by
  rw [exec_seq (exec_subI h (g := .int b.length) (n := b.length) (by simp [eval, he s.i, hl]) rfl)]
  simp only [exec, he, Res.bind_ok, hg, intVar, h.get, intG, Writer.copy]
  split
  · exact ⟨[], Temps.nil, rfl⟩
  · exact rfl

/-- Sequences of three. -/
theorem sim_assoc {a b c : Stmt} {w : Writer} (hs : Sim C env ((a ;; b) ;; c) w) : Sim C env (a ;; b ;; c) w := fun s => by
  have := hs s
  have he : exec C ((a ;; b) ;; c) ⟨env s.i, s.buf⟩ = exec C (a ;; b ;; c) ⟨env s.i, s.buf⟩ := by
    simp only [exec]
    cases exec C a ⟨env s.i, s.buf⟩ with
    | ok r =>
      obtain ⟨r1, r2⟩ := r
      cases r2 <;> rfl
    | err e => rfl
    | panic p => rfl
    | diverge => rfl
  rwa [he] at this

/-- The same with any temporary variables added. -/
def Stays (C : Ctx) (env : Int → List (Id × GV)) (e : Expr) (g : GV) : Prop := ∀ ext, Temps ext → Gives C (fun i => ext ++ env i) e g

theorem Stays.gives {e : Expr} {g : GV} (h : Stays C env e g) : Gives C env e g := h [] Temps.nil

theorem Stays.temps {e : Expr} {g : GV} (h : Stays C env e g) {ext : List (Id × GV)} (he : Temps ext) : Stays C (fun i => ext ++ env i) e g :=
  fun ext' he' i buf => by
    have := h (ext' ++ ext) (he'.append he) i buf
    simp only [List.append_assoc] at this
    exact this

theorem Stays.id {x : Id} {g : GV} (hx : x.temp = false) (h : ∀ i, lookup x (env i) = .ok g) : Stays C env (.id x) g := fun ext he i buf => by
  simp only [eval]
  rw [lookup_temps he hx]
  exact h i

theorem copyBytes_sim (h : IEnv env mv) {e : Expr} {T : GTy} {v : Val} (hT : T = .str ∨ T = .bytes)
    (he : Stays C env e (.val T v)) :
    Sim C env (Emit.copyBytes e) (Writer.seq (Writer.copy v.bytes) (Writer.varint (u64 v.bytes.length))) := by
  have he0 := he.gives
  have hl : lenG (.val T v) = .ok (.int v.bytes.length) := by rcases hT with rfl | rfl <;> rfl
  refine sim_assoc (Sim.seq (copy_sim h he0 (by rcases hT with rfl | rfl <;> rfl) hl) fun ext hx => ?_)
  exact varint_sim (h.temps hx) (g := .int v.bytes.length) (fun i buf => by simp [eval, he ext hx i buf, hl]) (by simp [u64G, Vtp.u64])

theorem boolByte_sim (h : IEnv env mv) {e : Expr} {x : BitVec 64} (he : Gives C env e (.val (.num .bool) (.num x))) :
    Sim C env (Emit.boolByte e) (Writer.byte (if x != 0 then 1 else 0)) := fun s => by
  unfold Emit.boolByte
  rw [exec_seq (exec_decI h)]
  have hset : ∀ b : Nat, exec C (.setByte .i (.lit b)) ⟨[] ++ env (s.i - 1), s.buf⟩ =
      (putByte s.buf (s.i - 1) (UInt8.ofNat b) >>= fun buf => .ok (⟨env (s.i - 1), buf⟩, .next)) := by
    intro b
    simp only [exec, eval, byteG, Res.bind_ok, intVar, h.get, intG, List.nil_append]
  have hbl : ∀ b : UInt8, Ends env (Writer.byte b s) (block [] (exec C (.setByte .i (.lit b.toNat))) ⟨env (s.i - 1), s.buf⟩) := by
    intro b
    refine (block_ends h (bind := []) ?_).ends
    rw [hset]
    unfold Writer.byte putByte
    split
    · exact ⟨[], Temps.nil, by simp⟩
    · exact rfl
  simp only [exec, he (s.i - 1), Res.bind_ok, truth]
  split
  · exact hbl 1
  · exact hbl 0

theorem u64G_elem {k : Kind} (hk : varintKind k = true) (hz : k ≠ .sint32) (hz' : k ≠ .sint64) (x : BitVec 64) :
    u64G (.val (.num (numTy k)) (.num x)) = .ok (.val (.num .uint64) (.num (wireVarint k (.num x)))) := by
  cases k <;> first | rfl | (simp [varintKind, protoWireType] at hk; done) | exact absurd rfl hz | exact absurd rfl hz'

theorem eval_zigzag32 {s : St} {e : Expr} {x : BitVec 64} (h : eval C s e = .ok (.val (.num .int32) (.num x))) :
    eval C s (Emit.zigzag32 e) = .ok (.val (.num .uint32) (.num ((Vtp.zigzag32 (x.setWidth 32)).setWidth 64))) := by
  simp only [Emit.zigzag32, eval, h, Res.bind_ok, u32G, binG, shlG, shrG, bitG, Vtp.zigzag32]
  have : BitVec.setWidth 32 (BitVec.signExtend 64 ((BitVec.setWidth 32 x).sshiftRight 31)) = (BitVec.setWidth 32 x).sshiftRight 31 :=
    by
      ext i hi
      rw [BitVec.getElem_setWidth, BitVec.getLsbD_signExtend]
      simp [hi, show i < 64 by omega, BitVec.getLsbD_eq_getElem hi]
  rw [this]
  congr 3
  simp

theorem eval_zigzag64 {s : St} {e : Expr} {x : BitVec 64} (h : eval C s e = .ok (.val (.num .int64) (.num x))) :
    eval C s (Emit.zigzag64 e) = .ok (.val (.num .uint64) (.num (Vtp.zigzag64 x))) := by
  simp only [Emit.zigzag64, eval, h, Res.bind_ok, u64G, binG, shlG, shrG, bitG, Vtp.zigzag64]

/-- The code for a scalar. -/
theorem scalar_sim (h : IEnv env mv) {k : Kind} {t : Nat} {e : Expr} {v : Val} (hk : scalarOK k v = true)
    (he : Stays C env e (.val (elemTy k t) v)) : Sim C env (Emit.scalar k e) (marshalScalar k v) := by
  by_cases hn : numeric k = true
  · obtain ⟨x, rfl⟩ := scalar_num hn hk
    rw [elemTy_num hn] at he
    have hg := he.gives
    cases k <;> simp only [numeric, Bool.false_eq_true] at hn
    case double => exact fixed64_sim h (g := .val (.num .uint64) (.num x)) (fun i buf => by simp [eval, hg i buf, numTy, fbitsG]) rfl
    case float => exact fixed32_sim h (g := .val (.num .uint32) (.num x)) (fun i buf => by simp [eval, hg i buf, numTy, fbitsG]) rfl
    case fixed64 => exact fixed64_sim h hg rfl
    case sfixed64 => exact fixed64_sim h hg rfl
    case fixed32 => exact fixed32_sim h hg rfl
    case sfixed32 => exact fixed32_sim h hg rfl
    case bool => exact boolByte_sim h hg
    case sint32 => exact varint_sim h (fun i buf => eval_zigzag32 (hg i buf)) rfl
    case sint64 => exact varint_sim h (fun i buf => eval_zigzag64 (hg i buf)) rfl
    all_goals exact varint_sim h hg rfl
  · cases k <;> simp [numeric] at hn
    case string => exact copyBytes_sim h (.inl rfl) he
    case bytes => exact copyBytes_sim h (.inr rfl) he
    case message => simp [scalarOK] at hk
    case group => simp [scalarOK] at hk

/-- The code for an element of a slice. -/
theorem elem_sim (h : IEnv env mv) {c : Nat} {k : Kind} {t : Nat} {e : Expr} {v : Val} (hk : scalarOK k v = true)
    (he : Stays C env e (.val (elemTy k t) v)) : Sim C env (Emit.elem c k e) (marshalScalar k v) := by
  have hg := he.gives
  have key : ∀ {x : Id} {e : Expr} {g : GV} {b : Stmt}, x.temp = true → x ≠ .i → x ≠ .m → Gives C env e g → fresh g = g →
      (IEnv (fun i => (x, g) :: env i) mv → Gives C (fun i => (x, g) :: env i) (.id x) g → Sim C (fun i => (x, g) :: env i) b (marshalScalar k v)) →
      Sim C env (.define x e ;; b) (marshalScalar k v) := by
    intro x e g b hx hi hm he hf hb
    refine Sim.define hx he ?_
    rw [hf]
    exact hb (h.cons g hi hm) fun i buf => by simp [eval, lookup]
  by_cases h1 : k = .double
  · subst h1
    obtain ⟨x, rfl⟩ := scalar_num (k := .double) rfl hk
    exact key (g := .val (.num .uint64) (.num x)) rfl (by simp) (by simp) (fun i buf => by simp [eval, hg i buf, elemTy, numTy, fbitsG]) rfl
      fun h' hg' => fixed64_sim h' hg' rfl
  · by_cases h2 : k = .float
    · subst h2
      obtain ⟨x, rfl⟩ := scalar_num (k := .float) rfl hk
      exact key (g := .val (.num .uint32) (.num x)) rfl (by simp) (by simp) (fun i buf => by simp [eval, hg i buf, elemTy, numTy, fbitsG]) rfl
        fun h' hg' => fixed32_sim h' hg' rfl
    · by_cases h3 : k = .sint32
      · subst h3
        obtain ⟨x, rfl⟩ := scalar_num (k := .sint32) rfl hk
        exact key rfl (by simp) (by simp) (fun i buf => eval_zigzag32 (hg i buf)) rfl fun h' hg' => varint_sim h' hg' rfl
      · by_cases h4 : k = .sint64
        · subst h4
          obtain ⟨x, rfl⟩ := scalar_num (k := .sint64) rfl hk
          exact key rfl (by simp) (by simp) (fun i buf => eval_zigzag64 (hg i buf)) rfl fun h' hg' => varint_sim h' hg' rfl
        · have : Emit.elem c k e = Emit.scalar k e := by
            cases k <;> first | rfl | exact absurd rfl h1 | exact absurd rfl h2 | exact absurd rfl h3 | exact absurd rfl h4
          rw [this]
          exact scalar_sim h hk he

/-! Loops over slices -/

theorem each_map {α β : Type} (g : α → β) (w : β → Writer) : ∀ as : List α, Writer.each w (as.map g) = Writer.each (fun a => w (g a)) as
  | [] => rfl
  | a :: as => by simp only [List.map_cons, Writer.each, each_map g w as]

theorem reverse_eq_map (xs : List Val) : xs.reverse = (List.range xs.length).reverse.map fun i => xs.getD i .nil := by
  rw [List.map_reverse]
  congr 1
  apply List.ext_getElem
  · simp
  · intro i h1 h2
    simp [List.getD_eq_getElem?_getD, h1]

/-- `for iNdEx := len(e) - 1; iNdEx >= 0; iNdEx-- { body }`. -/
theorem reverse_sim (h : IEnv env mv) {e : Expr} {k : Kind} {t : Nat} {v : Val} {body : Expr → Stmt} {w : Val → Writer}
    (he : ∀ j, Stays C (fun i => (.iNdEx, .int j) :: env i) e (.val (.list k t) v)) (he' : Gives C env e (.val (.list k t) v))
    (hb : ∀ x ∈ v.elems, ∀ (env' : Int → List (Id × GV)) (e' : Expr), IEnv env' mv → Stays C env' e' (.val (elemTy k t) x) → Sim C env' (body e') (w x)) :
    Sim C env (Emit.reverseRange e body) (Writer.each w v.elems.reverse) := fun s => by
  unfold Emit.reverseRange
  simp only [exec, he' s.i, Res.bind_ok, lenG, intG, Int.toNat_natCast]
  rw [reverse_eq_map, each_map, downFrom]
  have hl := loop_ends (env := env) (w := fun j : Nat => w (v.elems.getD j .nil))
    (f := fun j : Nat => block [(.iNdEx, .int j)] (exec C (body (.index e (.id .iNdEx))))) (List.range v.elems.length).reverse (fun j hj s => by
      have hj' : j < v.elems.length := by simpa using hj
      refine block_ends h (bind := [(.iNdEx, .int j)]) ?_
      refine hb (v.elems.getD j .nil) (by simp [List.getD_eq_getElem?_getD, hj']) (fun i => (.iNdEx, .int j) :: env i) _
        (h.cons _ (by simp) (by simp)) (fun ext hx i buf => ?_) s
      have h1 := he j ext hx i buf
      simp only [eval, h1, Res.bind_ok]
      rw [lookup_temps hx rfl]
      simp [lookup, indexG, hj']) s
  have hm : ∀ (f : GV → St → Res (St × Ctrl)) (ns : List Nat) (s : St), loop f (ns.map fun i : Nat => GV.int i) s = loop (fun j : Nat => f (.int j)) ns s := by
    intro f ns
    induction ns with
    | nil => intro s; rfl
    | cons n ns ih =>
      intro s
      simp only [List.map_cons, loop]
      congr 1
      funext r
      cases r.2 with
      | next => exact ih _
      | ret v => rfl
  rw [hm]
  exact hl.ends

end

end Vtp.Go
