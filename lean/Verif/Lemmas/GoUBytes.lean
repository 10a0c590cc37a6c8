import Verif.Lemmas.GoUNum
/-! Running the printed statements for strings and byte slices. -/

namespace Vtp.GoU
open Spec

/-- The printed code runs in the environment of the model, and is printed for the same feature. -/
structure Link (G : GenCfg) (E : UEnv) (C : Ctx) : Prop where
  S : C.S = E.S
  R : C.R = E.R
  A : C.A = E.A
  later : C.later = E.later
  alloc : C.alloc = E.alloc
  aliasing : G.aliasing = E.aliasing

section
variable {C : Ctx} {self : Nat} {K : List Id}

/-- `iNdEx = postIndex` at the end. -/
theorem Ends.setIndex {vs : List (Id × V)} {X : UM Unit} {s : Stmt} {i : Int} {j p : Nat} {m : Val} {post : Id} (hp : post ≠ .iNdEx)
    (h : Ends (post :: K) vs ((X >>= fun _ => pure j) m) (exec C self s ⟨vs, i⟩ m)) (hf : find vs post = .ok (.int p)) :
    Ends K vs ((X >>= fun _ => pure p) m) (exec C self (s ;; .assign (.id .iNdEx) (Emit.var post)) ⟨vs, i⟩ m) := by
  obtain ⟨ext, h1, h2⟩ := h
  rw [exec_seq, h2, UM.bind_def, UM.bind_def]
  rcases X m with ⟨m', _ | e | q | _⟩
  · change Ends _ _ _ (andThen (m', .ok (⟨ext ++ vs, (j : Int)⟩, .next)) _)
    rw [andThen_next, exec_assign_index (j := (p : Int))]
    · exact ⟨ext, fun q hq => by have := h1 q hq; simp at this; exact this.2, rfl⟩
    · rw [eval_var hp, find_append _ _ _ (fun q hq => by have := h1 q hq; simp at this; exact this.1), hf]
  · exact .err
  · exact .panic
  · exact .diverge

theorem Ends.lift_ok {α : Type} {vs : List (Id × V)} {a : α} {g : α → UM Nat} {m : Val} {e : Val × Res (St × Ctrl)} (h : Ends K vs (g a m) e) :
    Ends K vs ((UM.lift (.ok a) >>= g) m) e := h

theorem eval_data {lo hi : Expr} {st : St} {m : Val} {a b : Nat} (h1 : eval C st m lo = .ok (.int a)) (h2 : eval C st m hi = .ok (.int b))
    (hab : a ≤ b) (hb : b ≤ C.dAtA.length) : eval C st m (.data lo hi) = .ok (.alias a (b - a)) := by
  rw [eval, h1, h2]
  have : span C (.int a) (.int b) = .ok (a, b - a) := by
    simp only [span]; rw [if_pos (by omega)]; simp
  simp [this]

theorem eval_unsafeStr {lo n : Expr} {st : St} {m : Val} {a k : Nat} (h1 : eval C st m lo = .ok (.int a)) (h2 : eval C st m n = .ok (.int k))
    (ha : a < C.dAtA.length) : eval C st m (.unsafeStr lo n) = .ok (.alias a k) := by
  rw [eval, h1, h2]
  simp [ha]

theorem now_eq (a b : Nat) : C.now a (b - a) = (C.dAtA.drop a).take (b - a) := rfl

theorem keep_length {E : UEnv} {d : Bytes} {a b : Nat} (hab : a ≤ b) (hb : b ≤ d.length) (off : Nat) :
    E.keep off ((d.drop a).take (b - a)) = if E.aliasing then (E.later.drop off).take (b - a) else (d.drop a).take (b - a) := by
  unfold UEnv.keep
  have : ((d.drop a).take (b - a)).length = b - a := by simp; omega
  rw [this]

/-- The value of a decoded string. -/
theorem run_stringValue {G : GenCfg} {E : UEnv} (hL : Link G E C) (f : FieldDesc) {vs : List (Id × V)} {j p : Nat} (hjp : j ≤ p) (hp : p ≤ C.dAtA.length)
    (h1 : find vs .postIndex = .ok (.int p)) (h2 : find vs .intStringLen = .ok (.int ((p : Int) - j))) (m : Val) :
    ∃ ext v, exec C self (Emit.stringValue G f).1 ⟨vs, j⟩ m = (m, .ok (⟨ext ++ vs, (j : Int)⟩, .next)) ∧
      (∀ q ∈ ext, q.1 = .stringValue) ∧ eval C ⟨ext ++ vs, j⟩ m (Emit.stringValue G f).2 = .ok v ∧
      stored C v = .ok (.str (E.keep (C.base + j) ((C.dAtA.drop j).take (p - j)))) := by
  have h2' : find vs .intStringLen = .ok (.int ((p - j : Nat) : Int)) := by rw [h2]; congr 2; omega
  rw [keep_length hjp hp]
  have hc : ∀ v, evalCond C ⟨(.stringValue, v) :: vs, j⟩ m (.bin .gt (Emit.var .intStringLen) (.lit 0)) = .ok (decide (p - j > 0)) := by
    intro v
    refine evalCond_of ?_
    rw [eval_bin (v := .int ((p - j : Nat) : Int)) (by rw [eval_var (by decide)]; simp [find, h2']) eval_lit]
    simp [binV, asInt]
  have hu : ∀ v, 0 < p - j → eval C ⟨(.stringValue, v) :: vs, j⟩ m (.unsafeStr Emit.iNdEx (Emit.var .intStringLen)) = .ok (.alias j (p - j)) := by
    intro v h0
    exact eval_unsafeStr eval_index (by rw [eval_var (by decide)]; simp [find, h2']) (by omega)
  unfold Emit.stringValue
  split
  · rename_i ha
    rw [hL.aliasing] at ha
    refine ⟨[(.stringValue, if p - j > 0 then .alias j (p - j) else .str [])], _, ?_, by simp, eval_var_head (by decide), ?_⟩
    · rw [exec_seq, exec_decl (by decide), andThen_next]
      by_cases h0 : p - j > 0
      · rw [exec_when_true (by rw [hc]; simp [h0]), inScope_def, exec_assign_id (by decide) (hu _ h0)]
        simp only [h0, put, if_true]
        rw [leave_eq ((.stringValue, .alias j (p - j)) :: vs) _ _ rfl]; rfl
      · rw [exec_when_false (by rw [hc]; simp [h0])]
        simp [h0, zero]
    · rw [if_pos ha, ← hL.later]
      by_cases h0 : p - j > 0
      · simp [h0, stored]
      · simp [h0, stored, show p - j = 0 by omega]
  · rename_i ha
    rw [hL.aliasing] at ha
    rw [if_neg ha]
    split
    · refine ⟨[(.stringValue, .str ((C.dAtA.drop j).take (p - j)))], _, ?_, by simp, eval_var_head (by decide), rfl⟩
      rw [exec_seq, exec_decl (by decide), andThen_next]
      by_cases h0 : p - j > 0
      · rw [exec_when_true (by rw [hc]; simp [h0]), inScope_def,
          exec_assign_id (v := .str ((C.dAtA.drop j).take (p - j))) (by decide) (by rw [eval, hu _ h0]; rfl)]
        simp only [put, if_true]
        rw [leave_eq ((.stringValue, .str ((C.dAtA.drop j).take (p - j))) :: vs) _ _ rfl]; rfl
      · rw [exec_when_false (by rw [hc]; simp [h0])]
        simp [zero, show p - j = 0 by omega]
    · refine ⟨[], _, exec_skip _ _, by simp, eval_conv (eval_data eval_index ((eval_var (by decide)).trans h1) hjp hp), rfl⟩

theorem run_uint64Len' {vs : List (Id × V)} (h : Std C vs) {len int post : Id} (hl : Plain len) (hn : Plain int) (hp : Plain post) (i : Nat) (m : Val) :
    ∃ q : BitVec 64, exec C self (Emit.uint64Len len int post) ⟨vs, i⟩ m =
    (m, readSpan C.A 64 C.dAtA i >>= fun r =>
      .ok (⟨(post, .int (r.2 : Int)) :: (int, .int ((r.2 : Int) - r.1)) :: (len, .num .uint64 q) :: vs, (r.1 : Int)⟩, .next)) := by
  rw [run_uint64Len h hl hn hp, readSpan_eq]
  cases hd : Vtp.decodeVarint 64 C.dAtA i with
  | ok q => exact ⟨q.1, rfl⟩
  | err e => exact ⟨0, rfl⟩
  | panic e => exact ⟨0, rfl⟩
  | diverge => exact ⟨0, rfl⟩

/-- The printed code for a string. -/
theorem ends_string {G : GenCfg} {E : UEnv} (hL : Link G E C) {vs : List (Id × V)} (h : Std C vs) (rec : SubDec) (d : MsgDesc) {f : FieldDesc}
    (hk : f.kind = .string) (p3 : Bool) (wire : BitVec 64) (i : Nat) (sl : List Val) (u x : Bytes) :
    Ends [.hasFields] vs (fieldItem E rec d f p3 wire C.dAtA C.base i (.msg sl u x)) (exec C self (Emit.stringItem G f p3) ⟨vs, i⟩ (.msg sl u x)) := by
  have hm : fieldItem E rec d f p3 wire C.dAtA C.base i = (do
      let (i, post) ← UM.lift (readSpan E.A 64 C.dAtA i)
      let s ← UM.lift (slice C.dAtA i post)
      store f (.str (E.keep (C.base + i) s))
      pure post) := by unfold fieldItem; rw [hk]
  obtain ⟨q, hlen⟩ := run_uint64Len' (self := self) h (len := .stringLen) (int := .intStringLen) (post := .postIndex) (by simp [Plain]) (by simp [Plain]) (by simp [Plain]) i (.msg sl u x)
  rw [hm, Emit.stringItem]
  have hall := readSpan_all h.arch 64 h.fits i
  refine Ends.bind (X := UM.lift (readSpan E.A 64 C.dAtA i)) _ (by rw [hlen, ← hL.A]; rfl) ?_
  rintro ⟨j, p⟩ hjp
  change readSpan E.A 64 C.dAtA i = _ at hjp
  rw [← hL.A] at hjp
  rw [hjp] at hall
  obtain ⟨_, h2, h3⟩ := hall
  simp only at h2 h3 ⊢
  rw [slice_all h2 h3]
  refine Ends.lift_ok ?_
  set vs' : List (Id × V) := (.postIndex, .int (p : Int)) :: (.intStringLen, .int ((p : Int) - j)) :: (.stringLen, .num .uint64 q) :: vs with hvs
  obtain ⟨ext, v, e1, e2, e3, e4⟩ := run_stringValue (self := self) hL f h2 h3 (vs := vs') (by simp [hvs, find]) (by simp [hvs, find]) (.msg sl u x)
  rw [exec_seq]
  change Ends _ _ _ (andThen (exec C self (Emit.stringValue G f).1 _ (.msg sl u x)) _)
  rw [e1, andThen_next]
  refine Ends.dropN (ext ++ [(.postIndex, .int (p : Int)), (.intStringLen, .int ((p : Int) - j)), (.stringLen, .num .uint64 q)]) ?_ ?_
  · intro r hr
    rcases List.mem_append.1 hr with hr | hr
    · rw [e2 r hr]; decide
    · simp at hr; rcases hr with rfl | rfl | rfl <;> simp
  have : ext ++ [(.postIndex, .int (p : Int)), (.intStringLen, .int ((p : Int) - j)), (.stringLen, .num .uint64 q)] ++ vs = ext ++ vs' := by simp [hvs]
  rw [this]
  refine Ends.setIndex (j := j) (by decide) ?_ ?_
  · exact ends_storeExpr f p3 false (by decide) (by decide) e3 e4
  · rw [find_append _ _ _ (fun r hr => by rw [e2 r hr]; decide)]; simp [hvs, find]

theorem eval_fresh {hi : Expr} {vs : List (Id × V)} {m : Val} {j p : Nat} (hA : C.A.Valid) (hF : C.A.Fits C.dAtA.length) (hjp : j ≤ p) (hp : p ≤ C.dAtA.length)
    (h1 : eval C ⟨vs, j⟩ m hi = .ok (.int p)) : eval C ⟨vs, j⟩ m (.makeBytes (.bin .sub hi Emit.iNdEx)) = .ok (.str (List.replicate (p - j) 0)) := by
  unfold Arch.Fits at hF
  rw [eval, eval_bin h1 eval_index]
  simp only [binV, Res.bind_ok, asInt]
  rw [Arch.wrap_small hA _ (by omega) (by omega), if_pos (by omega)]
  congr 3; omega

theorem copyBytes_all (n : Nat) (b : Bytes) (h : b.length = n) : copyBytes (List.replicate n 0) b = b := by
  simp [copyBytes, ← h]

theorem exec_copy_id {y : Id} {vs : List (Id × V)} {m : Val} {j p n : Nat} {hi : Expr} (hy : y ≠ .iNdEx) (hjp : j ≤ p) (hp : p ≤ C.dAtA.length) (hn : n = p - j)
    (h1 : eval C ⟨vs, j⟩ m hi = .ok (.int p)) (h2 : find vs y = .ok (.str (List.replicate n 0))) :
    exec C self (.copy (.id y) Emit.iNdEx hi) ⟨vs, j⟩ m = (m, .ok (⟨put vs y (.str ((C.dAtA.drop j).take (p - j))), j⟩, .next)) := by
  have hs : span C (.int j) (.int p) = .ok (j, p - j) := by
    simp only [span]; rw [if_pos (by omega)]; simp
  have hc : copyBytes (List.replicate n 0) (C.now j (p - j)) = (C.dAtA.drop j).take (p - j) :=
    copyBytes_all _ _ (by simp [Ctx.now]; omega)
  rw [exec]
  simp [UM.bind_def, spanU, evalU, h1, hs, readU, readPlace, St.look, hy, h2, writePlace, St.set, hc]

theorem exec_copy_last {s : Nat} {vs : List (Id × V)} {sl : List Val} {u x : Bytes} {j p n : Nat} {hi : Expr} (hjp : j ≤ p) (hp : p ≤ C.dAtA.length) (hn : n = p - j)
    (hs : s < sl.length) (xs sp : List Val)
    (h1 : eval C ⟨vs, j⟩ (.msg (sl.set s (.list (xs ++ [.str (List.replicate n 0)]) sp)) u x) hi = .ok (.int p)) :
    exec C self (.copy (.last s) Emit.iNdEx hi) ⟨vs, j⟩ (.msg (sl.set s (.list (xs ++ [.str (List.replicate n 0)]) sp)) u x) =
    (.msg (sl.set s (.list (xs ++ [.str ((C.dAtA.drop j).take (p - j))]) sp)) u x, .ok (⟨vs, j⟩, .next)) := by
  have hsp : span C (.int j) (.int p) = .ok (j, p - j) := by
    simp only [span]; rw [if_pos (by omega)]; simp
  have hc : copyBytes (List.replicate n 0) (C.now j (p - j)) = (C.dAtA.drop j).take (p - j) :=
    copyBytes_all _ _ (by simp [Ctx.now]; omega)
  rw [exec]
  simp [UM.bind_def, spanU, evalU, h1, hsp, readU, readPlace, slotOf, getSlot, hs, Val.elems, writePlace, stored, setSlot, hc]

theorem evalCond_nil {s : Nat} {st : St} {sl : List Val} {u x : Bytes} :
    evalCond C st (.msg sl u x) (.bin .eq (.pl (.field s)) .nil) = .ok ((sl.getD s .nil).isNil) := by
  have h1 : eval C st (.msg sl u x) (.pl (.field s)) = .ok (.val (sl.getD s .nil)) := by simp [eval, readPlace, slotOf, getSlot]
  refine evalCond_of ?_
  rw [eval_bin h1 (w := .val .nil) (by rw [eval])]
  simp [binV, equal]

/-- The printed code for a byte slice. -/
theorem ends_bytes {G : GenCfg} {E : UEnv} (hL : Link G E C) {vs : List (Id × V)} (h : Std C vs) (rec : SubDec) (d : MsgDesc) {f : FieldDesc}
    (hk : f.kind = .bytes) (p3 : Bool) (wire : BitVec 64) (i : Nat) (sl : List Val) (u x : Bytes) (hsl : f.slot < sl.length) :
    Ends [.hasFields] vs (fieldItem E rec d f p3 wire C.dAtA C.base i (.msg sl u x)) (exec C self (Emit.bytesItem G f) ⟨vs, i⟩ (.msg sl u x)) := by
  have hm : fieldItem E rec d f p3 wire C.dAtA C.base i = (do
      let (i, post) ← UM.lift (readSpan E.A E.A.bits C.dAtA i)
      let s ← UM.lift (slice C.dAtA i post)
      store f (.str (E.keep (C.base + i) s))
      pure post) := by unfold fieldItem; rw [hk]
  have hlen := run_intLen (self := self) h (len := .byteLen) (post := .postIndex) (by simp [Plain]) (by simp [Plain]) i (.msg sl u x)
  rw [hm, Emit.bytesItem]
  have hall := readSpan_all h.arch C.A.bits h.fits i
  simp only
  refine Ends.bind (X := UM.lift (readSpan E.A E.A.bits C.dAtA i)) _ (by rw [hlen, ← hL.A]; rfl) ?_
  rintro ⟨j, p⟩ hjp
  change readSpan E.A E.A.bits C.dAtA i = _ at hjp
  rw [← hL.A] at hjp
  rw [hjp] at hall
  obtain ⟨_, h2, h3⟩ := hall
  simp only at h2 h3 ⊢
  rw [slice_all h2 h3]
  refine Ends.lift_ok ?_
  refine Ends.dropN [(.postIndex, .int (p : Int)), (.byteLen, .int ((p : Int) - j))] (by simp) ?_
  change Ends _ ((.postIndex, .int (p : Int)) :: (.byteLen, .int ((p : Int) - j)) :: vs) _ (exec C self _ ⟨(.postIndex, .int (p : Int)) :: (.byteLen, .int ((p : Int) - j)) :: vs, j⟩ _)
  change Ends _ _ ((store f _ >>= fun _ => pure p : UM Nat) (.msg sl u x)) (exec C self _ _ (.msg sl u x))
  set vs' : List (Id × V) := (.postIndex, .int (p : Int)) :: (.byteLen, .int ((p : Int) - j)) :: vs with hvs
  refine Ends.setIndex (j := j) (by decide) ?_ (by simp [hvs, find])
  have hpost : ∀ m, eval C ⟨vs', j⟩ m (Emit.var .postIndex) = .ok (.int p) := fun m => by rw [eval_var (by decide)]; simp [hvs, find]
  rw [keep_length h2 h3]
  have hdata : ∀ m, eval C ⟨vs', j⟩ m (.data Emit.iNdEx (Emit.var .postIndex)) = .ok (.alias j (p - j)) := fun m => eval_data eval_index (hpost m) h2 h3
  have hfresh : ∀ m, eval C ⟨vs', j⟩ m (.makeBytes (.bin .sub (Emit.var .postIndex) Emit.iNdEx)) = .ok (.str (List.replicate (p - j) 0)) :=
    fun m => eval_fresh h.arch h.fits h2 h3 (hpost m)
  have hal : E.aliasing = true → stored C (.alias j (p - j)) = .ok (.str (if E.aliasing then (E.later.drop (C.base + j)).take (p - j) else (C.dAtA.drop j).take (p - j))) := by
    intro ha; rw [if_pos ha, ← hL.later]; rfl
  by_cases ho : f.oneof = true
  · rw [if_pos ho]
    by_cases ha : G.aliasing = true
    · rw [if_pos ha]
      rw [hL.aliasing] at ha
      exact Ends.define (by decide) (by decide) (hdata _) (ends_wrapper ho (eval_var_head (by decide)) (hal ha))
    · rw [if_neg ha, exec_seq, exec_seq, exec_define (by decide) (hfresh _), andThen_next,
        exec_copy_id (hi := Emit.var .postIndex) (by decide) h2 h3 rfl (by rw [eval_var (by decide)]; simp [hvs, find]) (by simp [find]), andThen_next]
      rw [hL.aliasing] at ha
      rw [if_neg ha]
      simp only [put, if_true]
      exact Ends.drop (by simp) (ends_wrapper ho (eval_var_head (by decide)) rfl)
  rw [if_neg ho]
  have ho' : f.oneof = false := by simpa using ho
  by_cases hr : (f.card == .repeated) = true
  · rw [if_pos hr]
    by_cases ha : G.aliasing = true
    · rw [if_pos ha]
      rw [hL.aliasing] at ha
      exact ends_append ho' hr (hdata _) (hal ha)
    · rw [if_neg ha, exec_seq, exec_append (hfresh _) rfl]
      rw [hL.aliasing] at ha
      rw [if_neg ha, UM.bind_def, store_msg]
      simp only [ho, hr, if_true, if_false]
      have hcp : ∀ xs sp, exec C self (.copy (.last f.slot) Emit.iNdEx (Emit.var .postIndex)) ⟨vs', j⟩
          (.msg (sl.set f.slot (.list (xs ++ [.str (List.replicate (p - j) 0)]) sp)) u x) =
          (.msg (sl.set f.slot (.list (xs ++ [.str ((C.dAtA.drop j).take (p - j))]) sp)) u x, .ok (⟨vs', j⟩, .next)) := fun xs sp =>
        exec_copy_last h2 h3 rfl hsl xs sp (hpost _)
      cases hv : sl.getD f.slot .nil with
      | nil =>
        simp only [appendVal, andThen_next]
        have := hcp [] []
        simp only [List.nil_append] at this
        rw [this]
        exact .of_eq rfl
      | list xs sp =>
        simp only [appendVal, andThen_next]
        rw [hcp]
        exact .of_eq rfl
      | _ => exact .panic
  · rw [if_neg hr]
    have hr' : (f.card == .repeated) = false := by simpa using hr
    by_cases ha : G.aliasing = true
    · rw [if_pos ha]
      rw [hL.aliasing] at ha
      exact ends_assign ho' hr' (hdata _) (hal ha)
    · rw [if_neg ha]
      rw [hL.aliasing] at ha
      rw [if_neg ha, UM.bind_def, store_msg]
      simp only [ho, hr, if_false]
      have he : eval C ⟨vs', j⟩ (.msg sl u x) (.appendReset f.slot (.data Emit.iNdEx (Emit.var .postIndex))) =
          .ok (.val (if (sl.getD f.slot .nil).isNil && ((C.dAtA.drop j).take (p - j)).isEmpty then .nil else .str ((C.dAtA.drop j).take (p - j)))) := by
        rw [eval, hdata]
        simp [slotOf, getSlot, Ctx.now]
      rw [exec_seq, exec_assign_field he rfl, andThen_next]
      have hg : ∀ v, (sl.set f.slot v).getD f.slot .nil = v := by intro v; simp [hsl]
      by_cases hc : ((sl.getD f.slot .nil).isNil && ((C.dAtA.drop j).take (p - j)).isEmpty) = true
      · rw [if_pos hc, exec_when_true (by rw [evalCond_nil, hg]; rfl), inScope_def, exec_assign_field (v := .str []) (by rw [eval]) rfl]
        simp only [Bool.and_eq_true, List.isEmpty_iff] at hc
        rw [hc.2]
        simp only [List.set_set, leave_self]
        exact .of_eq rfl
      · rw [if_neg hc, exec_when_false (by rw [evalCond_nil, hg]; rfl)]
        exact .of_eq rfl

end

end Vtp.GoU
