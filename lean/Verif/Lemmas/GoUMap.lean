import Verif.Lemmas.GoUMsg
/-! Running the printed statements for maps. -/

namespace Vtp.GoU
open Spec

/-- The variable of the map kinds that are decoded by or-ing into it. -/
def varT : Kind → Option NTy
  | .int64 => some .int64
  | .uint64 => some .uint64
  | .int32 => some .int32
  | .uint32 => some .uint32
  | .enum => some .enum
  | _ => none

/-- The variable `mapkey` or `mapvalue` holds what the model says. -/
def Rep (C : Ctx) (asKey : Bool) (k : Kind) (v : V) (w : Val) : Prop :=
  (∀ T, varT k = some T → ∃ a, v = .num T a ∧ w = .num (T.ext a)) ∧ (if asKey then keyOf C v = .ok (toKey w) else stored C v = .ok w)

theorem Rep.num {C : Ctx} {asKey : Bool} {k : Kind} {T : NTy} {a : BitVec T.width} {b : BitVec 64} (h : varT k = some T ∨ varT k = none) (hb : b = T.ext a) :
    Rep C asKey k (.num T a) (.num b) := by
  subst hb
  refine ⟨?_, ?_⟩
  · intro T' hT
    rcases h with h | h
    · rw [h] at hT; cases hT; exact ⟨a, rfl, rfl⟩
    · rw [h] at hT; cases hT
  · cases asKey <;> rfl

/-- One key or value was read into `x`. -/
def Reads (C : Ctx) (asKey : Bool) (k : Kind) (x : Id) (vs : List (Id × V)) (m : Val) (q : Res (Val × Nat)) (e : Val × Res (St × Ctrl)) : Prop :=
  ∃ ext v, (∀ r, q = .ok r → Rep C asKey k v r.1) ∧ e = (m, q >>= fun r => .ok (⟨ext ++ put vs x v, (r.2 : Int)⟩, .next))

section
variable {C : Ctx} {self : Nat} {G : GenCfg} {E : UEnv} {rec : SubDec} {asKey : Bool} {k : Kind} {x : Id} {m : Val}

theorem Reads.seq {α : Type} {vs : List (Id × V)} {R : Res α} {g : α → Res (Val × Nat)} {a b : Stmt} {st : St} (F : α → St)
    (ha : exec C self a st m = (m, R >>= fun r => .ok (F r, .next)))
    (hok : ∀ r, R = .ok r → Reads C asKey k x vs m (g r) (exec C self b (F r) m)) : Reads C asKey k x vs m (R >>= g) (exec C self (a ;; b) st m) := by
  rw [exec_seq, ha]
  cases h : R with
  | ok r => exact hok r h
  | err e => exact ⟨[], .const 0, by intro r hr; (cases hr), rfl⟩
  | panic e => exact ⟨[], .const 0, by intro r hr; (cases hr), rfl⟩
  | diverge => exact ⟨[], .const 0, by intro r hr; (cases hr), rfl⟩

theorem Reads.intro {α : Type} {vs : List (Id × V)} {R : Res α} {W : α → V} {w : α → Val} {n : α → Nat} {e : Val × Res (St × Ctrl)}
    (he : e = (m, R >>= fun r => .ok (⟨put vs x (W r), (n r : Int)⟩, .next))) (hr : ∀ r, R = .ok r → Rep C asKey k (W r) (w r)) :
    Reads C asKey k x vs m (R >>= fun r => .ok (w r, n r)) e := by
  subst he
  cases h : R with
  | ok r => exact ⟨[], W r, by rintro q hq; cases hq; exact hr r h, rfl⟩
  | err e => exact ⟨[], .const 0, by intro r hr; (cases hr), rfl⟩
  | panic e => exact ⟨[], .const 0, by intro r hr; (cases hr), rfl⟩
  | diverge => exact ⟨[], .const 0, by intro r hr; (cases hr), rfl⟩

/-- At the end, with temporaries declared. -/
theorem Reads.done {vs ext : List (Id × V)} {v : V} {w : Val} {j : Nat} {e : Val × Res (St × Ctrl)} (he : e = (m, .ok (⟨ext ++ put vs x v, (j : Int)⟩, .next)))
    (hr : Rep C asKey k v w) : Reads C asKey k x vs m (.ok (w, j)) e :=
  ⟨ext, v, by rintro q hq; cases hq; exact hr, he⟩

/-- `mapField` reads what `mapItem` reads. -/
theorem reads_mapField (hE : DecodeEnv E) (hL : Link G E C) (hG : G.toGenCfg.OK E.S) (hrec : RecAgrees E C.method rec C.dAtA.length)
    {vs : List (Id × V)} (h : Std C vs) (hx : x = .mapkey ∨ x = .mapvalue) (uniq : Bool)
    (hk : k ≠ .group) (hkey : asKey = true → mapKeyKind k = true) (t : Nat) {i : Nat} (hi : i ≤ C.dAtA.length) {v0 : V} {old : Val} (hf : find vs x = .ok v0)
    (hold : Rep C asKey k v0 old) :
    Reads C asKey k x vs m (Vtp.mapItem (if asKey then { E with aliasing := false } else E) rec k t C.dAtA C.base i old)
      (exec C self (Emit.mapField G x k t uniq) ⟨vs, i⟩ m) := by
  have hpx : Plain x := by rcases hx with rfl | rfl <;> simp [Plain]
  have hpt : Plain (.temp x) := by simp [Plain]
  have htx : Id.temp x ≠ x := by rcases hx with rfl | rfl <;> decide
  have hA : (if asKey then { E with aliasing := false } else E : UEnv).A = C.A := by rw [hL.A]; cases asKey <;> rfl
  have hvar : ∀ T, varT k = some T →
      Reads C asKey k x vs m (decodeVarintLoop T.width C.dAtA 11 0 i (old.bits.setWidth T.width) >>= fun r => .ok (.num (T.ext r.1), r.2))
        (exec C self (Emit.decodeVarint (.id x) (.num T)) ⟨vs, i⟩ m) := by
    intro T hT
    obtain ⟨a, rfl, rfl⟩ := hold.1 T hT
    simp only [Val.bits, ext_setWidth]
    refine Reads.intro (W := fun r : BitVec T.width × Nat => .num T r.1) (w := fun r => .num (T.ext r.1)) (n := fun r => r.2) (run_varint_put h hpx.1 hpx.2.1 hpx.2.2.1 hpx.2.2.2 T a hf i m) ?_
    intro r _
    exact Rep.num (.inl hT) rfl
  have hall : ∀ n r, 0 < n → n ≤ 8 → Vtp.decodeFixed C.A n C.dAtA i = .ok r → r.1 < 256 ^ n := by
    intro n r h0 h8 hr
    have := decodeFixed_all h.arch h0 h8 h.fits hi
    rw [hr] at this
    exact this.2.2
  have hfix : ∀ T n (cv : Nat → BitVec 64), 0 < n → (n = 8 ∧ T.width = 64 ∨ n = 4 ∧ T.width = 32) → varT k = none → (∀ y, y < 256 ^ n → cv y = T.ext (BitVec.ofNat T.width y)) →
      Reads C asKey k x vs m (Vtp.decodeFixed C.A n C.dAtA i >>= fun r => .ok (.num (cv r.1), r.2)) (exec C self (Emit.decodeFixed n (.id x) (.num T)) ⟨vs, i⟩ m) := by
    intro T n cv h0 hn hT hc
    refine Reads.intro (W := fun r : Nat × Nat => .num T (BitVec.ofNat T.width r.1)) (w := fun r => .num (cv r.1)) (n := fun r => r.2) (run_fixed_put h hpx.2.2.2 hn hi m) ?_
    intro r hr
    exact Rep.num (.inr hT) (hc _ (hall n r h0 (by omega) hr))
  have hnum : ∀ {α : Type} (R : Res α) (c : α → BitVec 64) (n : α → Nat), readNum C.A k C.dAtA i = (R >>= fun r => .ok (c r, n r)) →
      (readNum (if asKey then { E with aliasing := false } else E : UEnv).A k C.dAtA i >>= fun r => Res.ok (Val.num r.1, r.2)) = (R >>= fun r => .ok (.num (c r), n r)) := by
    intro α R c n hR
    rw [hA, hR]; cases R <;> rfl
  have hput : ∀ (y : Id) (v w : V), y ≠ x → put ((y, v) :: vs) x w = [(y, v)] ++ put vs x w := by
    intro y v w hy; simp [put, hy]
  cases hkk : k <;> rw [hkk] at hk hnum <;> (try (exact absurd rfl hk)) <;> (unfold Emit.mapField Vtp.mapItem; simp only)
  case int64 =>
    have := hvar .int64 (by rw [hkk]; rfl)
    rw [hkk] at this
    simpa [NTy.width, NTy.ext, NTy.signed] using this
  case uint64 =>
    have := hvar .uint64 (by rw [hkk]; rfl)
    rw [hkk] at this
    simpa [NTy.width, NTy.ext, NTy.signed] using this
  case int32 =>
    have := hvar .int32 (by rw [hkk]; rfl)
    rw [hkk] at this; exact this
  case uint32 =>
    have := hvar .uint32 (by rw [hkk]; rfl)
    rw [hkk] at this; exact this
  case enum =>
    have := hvar .enum (by rw [hkk]; rfl)
    rw [hkk] at this; exact this
  case fixed64 =>
    have := hfix .uint64 8 (BitVec.ofNat 64) (by omega) (.inl ⟨rfl, rfl⟩) (by rw [hkk]; rfl) (by intro y _; simp [NTy.ext, NTy.signed, NTy.width])
    rw [hkk] at this
    rw [hnum (Vtp.decodeFixed C.A 8 C.dAtA i) (fun r => BitVec.ofNat 64 r.1) (fun r => r.2) rfl]
    exact this
  case sfixed64 =>
    have := hfix .int64 8 (BitVec.ofNat 64) (by omega) (.inl ⟨rfl, rfl⟩) (by rw [hkk]; rfl) (by intro y _; simp [NTy.ext, NTy.signed, NTy.width])
    rw [hkk] at this
    rw [hnum (Vtp.decodeFixed C.A 8 C.dAtA i) (fun r => BitVec.ofNat 64 r.1) (fun r => r.2) rfl]
    exact this
  case fixed32 =>
    have := hfix .uint32 4 (BitVec.ofNat 64) (by omega) (.inr ⟨rfl, rfl⟩) (by rw [hkk]; rfl)
      (by intro y hy; apply BitVec.eq_of_toNat_eq; simp [NTy.ext, NTy.signed, NTy.width]; omega)
    rw [hkk] at this
    rw [hnum (Vtp.decodeFixed C.A 4 C.dAtA i) (fun r => BitVec.ofNat 64 r.1) (fun r => r.2) rfl]
    exact this
  case sfixed32 =>
    have := hfix .int32 4 (fun v => (BitVec.ofNat 32 v).signExtend 64) (by omega) (.inr ⟨rfl, rfl⟩) (by rw [hkk]; rfl) (fun _ _ => rfl)
    rw [hkk] at this
    rw [hnum (Vtp.decodeFixed C.A 4 C.dAtA i) (fun r => (BitVec.ofNat 32 r.1).signExtend 64) (fun r => r.2) rfl]
    exact this
  case double =>
    rw [hnum (Vtp.decodeFixed C.A 8 C.dAtA i) (fun r => BitVec.ofNat 64 r.1) (fun r => r.2) rfl, exec_assoc]
    refine Reads.seq (R := Vtp.decodeFixed C.A 8 C.dAtA i) (fun r => ⟨(.temp x, .num .uint64 (BitVec.ofNat 64 r.1)) :: vs, (r.2 : Int)⟩) ?_ ?_
    · rw [exec_seq, exec_decl hpt.2.2.2, andThen_next]
      exact run_fixed_var h hpt.2.2.2 hpt.2.2.1 (.inl ⟨rfl, rfl⟩) hi _ _
    · intro r _
      refine Reads.done (v := .f64 (BitVec.ofNat 64 r.1)) (ext := [(.temp x, .num .uint64 (BitVec.ofNat 64 r.1))]) ?_ ⟨?_, ?_⟩
      · rw [exec_assign_id hpx.2.2.2 (eval_fromBits64 (eval_var_head hpt.2.2.2)), hput _ _ _ htx]
      · intro T hT; simp [varT] at hT
      · cases asKey
        · rfl
        · have := hkey rfl; rw [hkk] at this; simp [mapKeyKind] at this
  case float =>
    rw [hnum (Vtp.decodeFixed C.A 4 C.dAtA i) (fun r => BitVec.ofNat 64 r.1) (fun r => r.2) rfl, exec_assoc]
    refine Reads.seq (R := Vtp.decodeFixed C.A 4 C.dAtA i) (fun r => ⟨(.temp x, .num .uint32 (BitVec.ofNat 32 r.1)) :: vs, (r.2 : Int)⟩) ?_ ?_
    · rw [exec_seq, exec_decl hpt.2.2.2, andThen_next]
      exact run_fixed_var h hpt.2.2.2 hpt.2.2.1 (.inr ⟨rfl, rfl⟩) hi _ _
    · intro r hr
      refine Reads.done (v := .f32 (BitVec.ofNat 32 r.1)) (ext := [(.temp x, .num .uint32 (BitVec.ofNat 32 r.1))]) ?_ ⟨?_, ?_⟩
      · rw [exec_assign_id hpx.2.2.2 (eval_fromBits32 (eval_var_head hpt.2.2.2)), hput _ _ _ htx]
      · intro T hT; simp [varT] at hT
      · cases asKey
        · have := hall 4 r (by omega) (by omega) hr
          simp only [stored, Bool.false_eq_true, if_false]
          congr 2
          apply BitVec.eq_of_toNat_eq; simp; omega
        · have := hkey rfl; rw [hkk] at this; simp [mapKeyKind] at this
  case bool =>
    rw [hnum (Vtp.decodeVarint C.A.bits C.dAtA i) (fun r => if r.1 = 0 then 0 else 1) (fun r => r.2) rfl, exec_assoc]
    refine Reads.seq (R := Vtp.decodeVarint C.A.bits C.dAtA i) (fun r => ⟨(.temp x, .int r.1.toInt) :: vs, (r.2 : Int)⟩) ?_ ?_
    · rw [exec_seq, exec_decl hpt.2.2.2, andThen_next]
      exact run_int h hpt.1 hpt.2.1 hpt.2.2.1 hpt.2.2.2 i _
    · intro r _
      refine Reads.done (v := .bool (!decide (r.1 = 0))) (ext := [(.temp x, .int r.1.toInt)]) ?_ ⟨?_, ?_⟩
      · rw [exec_assign_id hpx.2.2.2 (eval_nonzero (v := r.1) hpt.2.2.2 (by simp [find])), hput _ _ _ htx]
      · intro T hT; simp [varT] at hT
      · by_cases h0 : r.1 = 0 <;> cases asKey <;> simp [h0, keyOf, stored, toKey]
  case sint32 =>
    rw [hnum (Vtp.decodeVarint 32 C.dAtA i) (fun r => (Vtp.unzigzag32 r.1).signExtend 64) (fun r => r.2) rfl, exec_assoc]
    refine Reads.seq (R := Vtp.decodeVarint 32 C.dAtA i) (fun r => ⟨(.temp x, .num .int32 r.1) :: vs, (r.2 : Int)⟩) ?_ ?_
    · rw [exec_seq, exec_decl hpt.2.2.2, andThen_next]
      exact run_varint h hpt.1 hpt.2.1 hpt.2.2.1 hpt.2.2.2 .int32 0 i _
    · intro r _
      refine Reads.done (v := .num .int32 (Vtp.unzigzag32 r.1)) (ext := [(.temp x, .num .int32 (Vtp.unzigzag32 r.1))]) ?_ ?_
      · rw [exec_seq, exec_assign_id hpt.2.2.2 (eval_unzigzag32 (v := r.1) hpt.2.2.2 (by simp [find])), andThen_next]
        simp only [put, if_true]
        rw [exec_assign_id hpx.2.2.2 (v := .num .int32 (Vtp.unzigzag32 r.1)), hput _ _ _ htx]
        exact (eval_conv (eval_var_head hpt.2.2.2)).trans (congrArg (fun w => Res.ok (V.num .int32 w)) (setWidth_signExtend32 _))
      · exact Rep.num (.inr rfl) rfl
  case sint64 =>
    rw [hnum (Vtp.decodeVarint 64 C.dAtA i) (fun r => Vtp.unzigzag64 r.1) (fun r => r.2) rfl, exec_assoc]
    refine Reads.seq (R := Vtp.decodeVarint 64 C.dAtA i) (fun r => ⟨(.temp x, .num .uint64 r.1) :: vs, (r.2 : Int)⟩) ?_ ?_
    · rw [exec_seq, exec_decl hpt.2.2.2, andThen_next]
      exact run_varint h hpt.1 hpt.2.1 hpt.2.2.1 hpt.2.2.2 .uint64 0 i _
    · intro r _
      refine Reads.done (v := .num .int64 (Vtp.unzigzag64 r.1)) (ext := [(.temp x, .num .uint64 (Vtp.unzigzag64 r.1))]) ?_ ?_
      · rw [exec_seq, exec_assign_id hpt.2.2.2 (eval_unzigzag64 (v := r.1) hpt.2.2.2 (by simp [find])), andThen_next]
        simp only [put, if_true]
        rw [exec_assign_id hpx.2.2.2 (v := .num .int64 (Vtp.unzigzag64 r.1)), hput _ _ _ htx]
        exact (eval_conv (eval_var_head hpt.2.2.2)).trans (congrArg (fun w => Res.ok (V.num .int64 w)) ((BitVec.setWidth_eq _).trans (BitVec.setWidth_eq _)))
      · exact Rep.num (.inr rfl) (BitVec.signExtend_eq _).symm
  case string =>
    obtain ⟨q, hlen⟩ := run_uint64Len' (self := self) h (len := .stringLenOf x) (int := .intStringLenOf x) (post := .postStringIndexOf x)
      (by simp [Plain]) (by simp [Plain]) (by simp [Plain]) i m
    have hall := readSpan_all h.arch 64 h.fits i
    rw [hA]
    refine Reads.seq _ hlen ?_
    rintro ⟨j, p⟩ hjp
    rw [hjp] at hall
    obtain ⟨_, h2, h3⟩ := hall
    simp only at h2 h3 ⊢
    rw [slice_all h2 h3, Res.bind_ok, keep_length h2 h3]
    set vs' : List (Id × V) := (.postStringIndexOf x, .int (p : Int)) :: (.intStringLenOf x, .int ((p : Int) - j)) :: (.stringLenOf x, .num .uint64 q) :: vs with hvs
    have n1 : Id.postStringIndexOf x ≠ x := by rcases hx with rfl | rfl <;> decide
    have n2 : Id.intStringLenOf x ≠ x := by rcases hx with rfl | rfl <;> decide
    have n3 : Id.stringLenOf x ≠ x := by rcases hx with rfl | rfl <;> decide
    have hfin : ∀ (s : Stmt) (v : V), exec C self s ⟨vs', j⟩ m = (m, .ok (⟨put vs' x v, j⟩, .next)) →
        Rep C asKey .string v (.str (if (if asKey then { E with aliasing := false } else E : UEnv).aliasing then
          ((if asKey then { E with aliasing := false } else E : UEnv).later.drop (C.base + j)).take (p - j) else (C.dAtA.drop j).take (p - j))) →
        Reads C asKey .string x vs m (.ok (.str (if (if asKey then { E with aliasing := false } else E : UEnv).aliasing then
          ((if asKey then { E with aliasing := false } else E : UEnv).later.drop (C.base + j)).take (p - j) else (C.dAtA.drop j).take (p - j)), p))
          (exec C self (s ;; .assign (.id .iNdEx) (Emit.var (.postStringIndexOf x))) ⟨vs', j⟩ m) := by
      intro s v hs hr
      refine Reads.done (v := v) (ext := [(.postStringIndexOf x, .int (p : Int)), (.intStringLenOf x, .int ((p : Int) - j)), (.stringLenOf x, .num .uint64 q)]) ?_ hr
      rw [exec_seq, hs, andThen_next, exec_assign_index (j := p)]
      · simp [hvs, put, n1, n2, n3]
      · rw [eval_var (by simp), find_put_ne _ _ _ _ n1.symm]; simp [hvs, find]
    have hlenv : eval C ⟨vs', j⟩ m (Emit.var (.intStringLenOf x)) = .ok (.int ((p - j : Nat) : Int)) := by
      rw [eval_var (by simp)]
      simp only [hvs, find]
      simp
      omega
    have hcond : evalCond C ⟨vs', j⟩ m (.bin .eq (Emit.var (.intStringLenOf x)) (.lit 0)) = .ok (decide (p - j = 0)) := by
      refine evalCond_of ?_
      rw [eval_bin hlenv eval_lit]
      simp [binV, equal, asInt]
    have hus : p - j ≠ 0 → eval C ⟨vs', j⟩ m (.unsafeStr Emit.iNdEx (Emit.var (.intStringLenOf x))) = .ok (.alias j (p - j)) := by
      intro h0
      exact eval_unsafeStr eval_index hlenv (by omega)
    have hcopy : ∀ v : V, (v = .str ((C.dAtA.drop j).take (p - j)) ∨ v = .str [] ∧ p - j = 0) → G.aliasing = false → Rep C asKey .string v (.str (if (if asKey then { E with aliasing := false } else E : UEnv).aliasing then
          ((if asKey then { E with aliasing := false } else E : UEnv).later.drop (C.base + j)).take (p - j) else (C.dAtA.drop j).take (p - j))) := by
      intro v hv ha
      rw [hL.aliasing] at ha
      refine ⟨by intro T hT; simp [varT] at hT, ?_⟩
      rcases hv with rfl | ⟨rfl, h0⟩
      · cases asKey <;> simp [keyOf, stored, toKey, ha]
      · cases asKey <;> simp [keyOf, stored, toKey, ha, h0]
    by_cases ha : G.aliasing = true
    · rw [if_pos ha]
      have ha' := ha
      rw [hL.aliasing] at ha'
      refine hfin _ (if p - j = 0 then .str [] else .alias j (p - j)) ?_ ⟨by intro T hT; simp [varT] at hT, ?_⟩
      · rw [exec_ite hcond, inScope_def]
        by_cases h0 : p - j = 0
        · simp only [h0, decide_true, if_true]
          rw [exec_assign_id hpx.2.2.2 (v := .str []) (by rw [eval])]
          simp only
          rw [leave_eq (put vs' x (.str [])) _ _ (by simp [length_put])]
        · simp only [h0, decide_false, Bool.false_eq_true, if_false]
          rw [exec_assign_id hpx.2.2.2 (hus h0)]
          simp only
          rw [leave_eq (put vs' x _) _ _ (by simp [length_put])]
      · by_cases h0 : p - j = 0
        · cases asKey <;> simp [h0, keyOf, stored, toKey]
        · cases asKey <;> simp [h0, keyOf, stored, toKey, ha', hL.later, Ctx.now]
    rw [if_neg ha]
    have ha' : G.aliasing = false := by simpa using ha
    by_cases hu : uniq = true
    · rw [if_pos hu]
      refine hfin _ (if p - j = 0 then .str [] else .str ((C.dAtA.drop j).take (p - j))) ?_ (hcopy _ ?_ ha')
      · rw [exec_ite hcond, inScope_def]
        by_cases h0 : p - j = 0
        · simp only [h0, decide_true, if_true]
          rw [exec_assign_id hpx.2.2.2 (v := .str []) (by rw [eval])]
          simp only
          rw [leave_eq (put vs' x (.str [])) _ _ (by simp [length_put])]
        · simp only [h0, decide_false, Bool.false_eq_true, if_false]
          rw [exec_assign_id hpx.2.2.2 (v := .str ((C.dAtA.drop j).take (p - j))) (by rw [eval, hus h0]; rfl)]
          simp only
          rw [leave_eq (put vs' x _) _ _ (by simp [length_put])]
      · by_cases h0 : p - j = 0
        · right; simp [h0]
        · left; simp [h0]
    · rw [if_neg hu]
      refine hfin _ (.str ((C.dAtA.drop j).take (p - j))) ?_ (hcopy _ (.inl rfl) ha')
      rw [exec_assign_id hpx.2.2.2 (v := .str ((C.dAtA.drop j).take (p - j)))]
      exact eval_conv (eval_data eval_index ((eval_var (by simp)).trans (by simp [hvs, find])) h2 h3)
  case message =>
    have hnk : asKey = false := by
      cases asKey
      · rfl
      · have := hkey rfl; rw [hkk] at this; simp [mapKeyKind] at this
    subst hnk
    simp only [Bool.false_eq_true, if_false]
    have hlen := run_intLen (self := self) h (len := .mapmsglen) (post := .postmsgIndex) (by simp [Plain]) (by simp [Plain]) i m
    have hall := readSpan_all h.arch C.A.bits h.fits i
    rw [← hL.A]
    refine Reads.seq _ hlen ?_
    rintro ⟨j, p⟩ hjp
    rw [hjp] at hall
    obtain ⟨h1, h2, h3⟩ := hall
    simp only at h1 h2 h3 ⊢
    rw [slice_all h2 h3, Res.bind_ok]
    have n1 : Id.postmsgIndex ≠ x := by rcases hx with rfl | rfl <;> decide
    have n2 : Id.mapmsglen ≠ x := by rcases hx with rfl | rfl <;> decide
    set vs' : List (Id × V) := (.postmsgIndex, .int (p : Int)) :: (.mapmsglen, .int ((p : Int) - j)) :: vs with hvs
    have hfx : find vs' x = .ok v0 := by simp [hvs, find, n1, n2, hf]
    have hrun := run_decodeMessage (self := self) hL hG hrec (p := .id x) (lo := Emit.iNdEx) (hi := Emit.var .postmsgIndex) (t := t)
      (st := ⟨put vs' x (.val (zeroMsg E.S t)), j⟩) (m := m) (x := zeroMsg E.S t) eval_index
      (by rw [eval_var (by decide), find_put_ne _ _ _ _ n1.symm]; simp [hvs, find]) h2 h3 (by omega)
      (by simp [readPlace, St.look, hpx.2.2.2, find_put_self _ _ _ _ hfx]) (zeroMsg_typed hE.schema t)
      (W := fun _ => m) (W' := fun x' => ⟨put vs' x (.val x'), j⟩)
      (by intro x'; simp [writePlace, St.set, hpx.2.2.2, put_put]) (by simp [length_put])
    rw [exec_seq, exec_assign_id hpx.2.2.2 (v := .val (zeroMsg E.S t)) (by rw [eval, hL.S]), andThen_next, exec_seq, hrun]
    rcases Vtp.decodeMessage E rec (C.base + j) t ((C.dAtA.drop j).take (p - j)) (zeroMsg E.S t) with ⟨x', _ | _ | _ | _⟩
    · simp only [Res.bind_ok, andThen_next]
      refine Reads.done (v := .val x') (ext := [(.postmsgIndex, .int (p : Int)), (.mapmsglen, .int ((p : Int) - j))]) ?_ ⟨by intro T hT; simp [varT] at hT, rfl⟩
      rw [exec_assign_index (j := p)]
      · simp [hvs, put, n1, n2]
      · rw [eval_var (by simp), find_put_ne _ _ _ _ n1.symm]; simp [hvs, find]
    · exact ⟨[], .const 0, by intro r hr; (cases hr), rfl⟩
    · exact ⟨[], .const 0, by intro r hr; (cases hr), rfl⟩
    · exact ⟨[], .const 0, by intro r hr; (cases hr), rfl⟩
  case bytes =>
    have hnk : asKey = false := by
      cases asKey
      · rfl
      · have := hkey rfl; rw [hkk] at this; simp [mapKeyKind] at this
    subst hnk
    simp only [Bool.false_eq_true, if_false]
    have hlen := run_uint64Len (self := self) h (len := .mapbyteLen) (int := .intMapbyteLen) (post := .postbytesIndex) (by simp [Plain]) (by simp [Plain]) (by simp [Plain]) i m
    have hall := readSpan_all h.arch 64 h.fits i
    rw [← hL.A]
    rw [exec_seq, hlen]
    have hbad : ∀ q : Res (Val × Nat), (∀ r, q ≠ .ok r) → ∀ e, e = (m, q >>= fun r => Res.ok ((⟨put vs x (.const 0), (r.2 : Int)⟩ : St), Ctrl.next)) → Reads C false .bytes x vs m q e :=
      fun q hq e he => ⟨[], .const 0, fun r hr => absurd hr (hq r), he⟩
    cases hd : Vtp.decodeVarint 64 C.dAtA i with
    | err e => exact hbad _ (by rintro r ⟨⟩) _ rfl
    | panic e => exact hbad _ (by rintro r ⟨⟩) _ rfl
    | diverge => exact hbad _ (by rintro r ⟨⟩) _ rfl
    | ok q =>
    simp only [Res.bind_ok]
    cases hjp : readSpan C.A 64 C.dAtA i with
    | err e => exact hbad _ (by rintro r ⟨⟩) _ rfl
    | panic e => exact hbad _ (by rintro r ⟨⟩) _ rfl
    | diverge => exact hbad _ (by rintro r ⟨⟩) _ rfl
    | ok r =>
    obtain ⟨j, p⟩ := r
    rw [hjp] at hall
    obtain ⟨h1, h2, h3⟩ := hall
    simp only at h1 h2 h3
    simp only [Res.bind_ok, andThen_next]
    have n1 : Id.postbytesIndex ≠ x := by rcases hx with rfl | rfl <;> decide
    have n2 : Id.intMapbyteLen ≠ x := by rcases hx with rfl | rfl <;> decide
    have n3 : Id.mapbyteLen ≠ x := by rcases hx with rfl | rfl <;> decide
    set vs' : List (Id × V) := (.postbytesIndex, .int (p : Int)) :: (.intMapbyteLen, .int ((p : Int) - j)) :: (.mapbyteLen, .num .uint64 q.1) :: vs with hvs
    have hfx : find vs' x = .ok v0 := by simp [hvs, find, n1, n2, n3, hf]
    have hpost : ∀ v, eval C ⟨put vs' x v, j⟩ m (Emit.var .postbytesIndex) = .ok (.int p) := fun v => by
      rw [eval_var (by decide), find_put_ne _ _ _ _ n1.symm]; simp [hvs, find]
    have hend : ∀ v w, Rep C false .bytes v w → Reads C false .bytes x vs m (.ok (w, p)) (exec C self (.assign (.id .iNdEx) (Emit.var .postbytesIndex)) ⟨put vs' x v, j⟩ m) := by
      intro v w hr
      refine Reads.done (v := v) (ext := [(.postbytesIndex, .int (p : Int)), (.intMapbyteLen, .int ((p : Int) - j)), (.mapbyteLen, .num .uint64 q.1)]) ?_ hr
      rw [exec_assign_index (hpost v)]
      simp [hvs, put, n1, n2, n3]
    have hslice := slice_all h2 h3
    by_cases ha : G.aliasing = true
    · have ha' := ha
      rw [hL.aliasing] at ha'
      rw [if_pos ha]
      simp only [ha', Bool.not_true, Bool.false_and, Bool.false_eq_true, if_false]
      rw [hslice, Res.bind_ok, exec_seq, exec_assign_id hpx.2.2.2 (eval_data eval_index (by rw [eval_var (by decide)]; simp [hvs, find]) h2 h3), andThen_next]
      refine hend _ _ ⟨by intro T hT; simp [varT] at hT, ?_⟩
      rw [keep_length h2 h3]
      simp [stored, ha', hL.later]
    · have ha' := ha
      rw [hL.aliasing] at ha'
      rw [if_neg ha]
      simp only [Bool.not_eq_true] at ha'
      simp only [ha', Bool.not_false, Bool.true_and, decide_eq_true_eq]
      have hmk : eval C ⟨vs', j⟩ m (.makeBytes (Emit.var .mapbyteLen)) = if q.1.toNat < 2 ^ (C.A.bits - 1) then .ok (.str (List.replicate q.1.toNat 0)) else .panic .makeLen := by
        rw [eval, eval_var (by decide)]
        have : find vs' .mapbyteLen = .ok (.num .uint64 q.1) := by simp [hvs, find]
        rw [this]
        simp only [Res.bind_ok, asInt, NTy.signed, Bool.false_eq_true, if_false]
        by_cases hb : q.1.toNat < 2 ^ (C.A.bits - 1)
        · rw [if_pos hb, if_pos ⟨Int.natCast_nonneg _, by exact_mod_cast hb⟩]; rfl
        · rw [if_neg hb, if_neg (fun hc => hb (by exact_mod_cast hc.2))]
      rw [exec_seq, exec_seq]
      by_cases hb : q.1.toNat < 2 ^ (C.A.bits - 1)
      · rw [if_neg (by omega), hslice, Res.bind_ok]
        rw [if_pos hb] at hmk
        have hn : q.1.toNat = p - j := by
          rw [readSpan_eq, hd, Res.bind_ok] at hjp
          have hv := decodeVarint_all 64 C.dAtA i
          rw [hd] at hv
          have hok := spanFrom_ok h.arch h.fits (wrap_lt h.arch _) hv.2 hjp
          rw [← wrap_toNat h.arch, Arch.wrap_small h.arch _ (by omega) (by omega)] at hok
          have := hok.2.2.2
          simp only at this
          omega
        rw [exec_assign_id hpx.2.2.2 hmk, andThen_next,
          exec_copy_id (hi := Emit.var .postbytesIndex) (n := q.1.toNat) hpx.2.2.2 h2 h3 hn (hpost _) (find_put_self _ _ _ _ hfx), andThen_next, put_put]
        refine hend _ _ ⟨by intro T hT; simp [varT] at hT, ?_⟩
        rw [keep_length h2 h3]
        simp [stored, ha']
      · rw [if_pos (by omega)]
        rw [if_neg hb] at hmk
        rw [exec, UM.bind_def, evalU, hmk]
        exact hbad _ (by rintro r ⟨⟩) _ rfl

end

end Vtp.GoU
