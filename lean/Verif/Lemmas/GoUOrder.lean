import Verif.Lemmas.GoUMethod
/-! The order in which required fields are checked decides only which of the missing ones is named in the error. -/

namespace Vtp

/-- Equal, or errors that name missing required fields. -/
def Res.SameBut {α : Type} (r s : Res α) : Prop := r = s ∨ ∃ a b, r = .err (.requiredNotSet a) ∧ s = .err (.requiredNotSet b)

/-- The same receiver and outcomes that are the same but for the missing field that is named. -/
def UM.SameBut {α : Type} (x y : UM α) : Prop := ∀ m, (x m).1 = (y m).1 ∧ (x m).2.SameBut (y m).2

/-- The same of decoders of sub-messages. -/
def SubDec.SameBut (r s : SubDec) : Prop := ∀ off t b, UM.SameBut (r off t b) (s off t b)

theorem Res.SameBut.refl {α : Type} (r : Res α) : r.SameBut r := .inl rfl

theorem Res.SameBut.bind {α β : Type} {r s : Res α} {f g : α → Res β} (h : r.SameBut s) (hf : ∀ a, (f a).SameBut (g a)) :
    (r >>= f).SameBut (s >>= g) := by
  rcases h with rfl | ⟨a, b, rfl, rfl⟩
  · cases r
    · exact hf _
    all_goals exact .inl rfl
  · exact .inr ⟨a, b, rfl, rfl⟩

theorem UM.SameBut.refl {α : Type} (x : UM α) : x.SameBut x := fun _ => ⟨rfl, .inl rfl⟩

theorem UM.SameBut.lift {α : Type} {r s : Res α} (h : r.SameBut s) : (UM.lift r).SameBut (UM.lift s) := fun _ => ⟨rfl, h⟩

theorem UM.SameBut.bind {α β : Type} {x y : UM α} {f g : α → UM β} (h : x.SameBut y) (hf : ∀ a, (f a).SameBut (g a)) :
    (x >>= f : UM β).SameBut (y >>= g : UM β) := by
  intro m
  obtain ⟨h1, h2⟩ := h m
  rw [UM.bind_def, UM.bind_def]
  rcases hx : x m with ⟨m1, r⟩
  rcases hy : y m with ⟨m2, s⟩
  rw [hx, hy] at h1 h2
  simp only at h1 h2
  subst h1
  rcases h2 with rfl | ⟨a, b, rfl, rfl⟩
  · cases r
    · exact hf _ _
    all_goals exact ⟨rfl, .inl rfl⟩
  · exact ⟨rfl, .inr ⟨a, b, rfl, rfl⟩⟩

section
variable {E : UEnv} {rec rec' : SubDec}

theorem sameBut_decodeMessage (h : rec.SameBut rec') (off t : Nat) (b : Bytes) : (decodeMessage E rec off t b).SameBut (decodeMessage E rec' off t b) := by
  intro m
  unfold decodeMessage
  split
  · exact ⟨rfl, .inl rfl⟩
  · exact h off t b m

theorem sameBut_mapItem (h : rec.SameBut rec') (k : Kind) (t : Nat) (d : Bytes) (base i : Nat) (old : Val) :
    (mapItem E rec k t d base i old).SameBut (mapItem E rec' k t d base i old) := by
  cases k
  case message =>
    unfold mapItem
    refine (Res.SameBut.refl _).bind fun q => (Res.SameBut.refl _).bind fun b => ?_
    obtain ⟨h1, h2⟩ := sameBut_decodeMessage (E := E) h (base + q.1) t b (zeroMsg E.S t)
    rcases hx : decodeMessage E rec (base + q.1) t b (zeroMsg E.S t) with ⟨m1, r⟩
    rcases hy : decodeMessage E rec' (base + q.1) t b (zeroMsg E.S t) with ⟨m2, s⟩
    rw [hx, hy] at h1 h2
    simp only at h1 h2
    subst h1
    rcases h2 with rfl | ⟨a, b, rfl, rfl⟩
    · exact .inl rfl
    · exact .inr ⟨a, b, rfl, rfl⟩
  all_goals exact .inl rfl

theorem sameBut_entryLoop (h : rec.SameBut rec') (md : MapDesc) (d : Bytes) (base post : Nat) : ∀ (n i : Nat) (k v : Val),
    (entryLoop E rec md d base post n i k v).SameBut (entryLoop E rec' md d base post n i k v) := by
  intro n
  induction n with
  | zero => intro i k v; exact .inl rfl
  | succ n ih =>
    intro i k v
    unfold entryLoop
    split
    · refine (Res.SameBut.refl _).bind fun q => ?_
      simp only
      split
      · exact (sameBut_mapItem h _ _ _ _ _ _).bind fun a => ih _ _ _
      · split
        · exact (sameBut_mapItem h _ _ _ _ _ _).bind fun a => ih _ _ _
        · exact (Res.SameBut.refl _).bind fun a => ih _ _ _
    · exact .inl rfl

theorem sameBut_mapEntry (h : rec.SameBut rec') (f : FieldDesc) (md : MapDesc) (d : Bytes) (base i post : Nat) :
    (mapEntry E rec f md d base i post).SameBut (mapEntry E rec' f md d base i post) := by
  unfold mapEntry
  exact (UM.SameBut.refl _).bind fun s => (UM.SameBut.refl _).bind fun _ => (UM.SameBut.lift (sameBut_entryLoop h md d base post _ _ _ _)).bind fun _ => .refl _

theorem sameBut_groupLoop (h : rec.SameBut rec') (f : FieldDesc) (wire : BitVec 64) (d : Bytes) (base start : Nat) : ∀ n i : Nat,
    (groupLoop E rec f wire d base start n i).SameBut (groupLoop E rec' f wire d base start n i) := by
  intro n
  induction n with
  | zero => intro i; exact .refl _
  | succ n ih =>
    intro i
    unfold groupLoop
    refine (UM.SameBut.refl _).bind fun q => ?_
    simp only
    split
    · refine (UM.SameBut.refl _).bind fun b => (UM.SameBut.refl _).bind fun v => ?_
      obtain ⟨h1, h2⟩ := sameBut_decodeMessage (E := E) h (base + start) f.msg b v
      rw [h1]
      exact (UM.SameBut.refl _).bind fun _ => (UM.SameBut.lift h2).bind fun _ => .refl _
    · refine (UM.SameBut.refl _).bind fun b => (UM.SameBut.refl _).bind fun k => ?_
      split
      · exact .refl _
      · exact ih _

theorem sameBut_messageItem (h : rec.SameBut rec') (d : MsgDesc) (f : FieldDesc) (off : Nat) (b : Bytes) :
    (messageItem E rec d f off b).SameBut (messageItem E rec' d f off b) := by
  unfold messageItem
  refine (UM.SameBut.refl _).bind fun s => (UM.SameBut.refl _).bind fun x => ?_
  obtain ⟨h1, h2⟩ := sameBut_decodeMessage (E := E) h off f.msg b x
  simp only
  rw [h1]
  split
  · exact (UM.SameBut.lift h2).bind fun _ => .refl _
  · exact (UM.SameBut.refl _).bind fun _ => UM.SameBut.lift h2

theorem sameBut_fieldItem (h : rec.SameBut rec') (d : MsgDesc) (f : FieldDesc) (p3 : Bool) (wire : BitVec 64) (b : Bytes) (base i : Nat) :
    (fieldItem E rec d f p3 wire b base i).SameBut (fieldItem E rec' d f p3 wire b base i) := by
  unfold fieldItem
  split
  · exact .refl _
  · exact .refl _
  · exact sameBut_groupLoop h f wire b base i _ _
  · refine (UM.SameBut.refl _).bind fun q => ?_
    simp only
    split
    · exact (sameBut_mapEntry h _ _ _ _ _ _).bind fun _ => .refl _
    · exact (UM.SameBut.refl _).bind fun s => (sameBut_messageItem h _ _ _ _).bind fun _ => .refl _
  · exact .refl _

theorem sameBut_packedLoop (h : rec.SameBut rec') (d : MsgDesc) (f : FieldDesc) (wire : BitVec 64) (b : Bytes) (base post : Nat) : ∀ n i : Nat,
    (packedLoop E rec d f wire b base post n i).SameBut (packedLoop E rec' d f wire b base post n i) := by
  intro n
  induction n with
  | zero => intro i; exact .refl _
  | succ n ih =>
    intro i
    unfold packedLoop
    split
    · exact (sameBut_fieldItem h _ _ _ _ _ _ _).bind fun j => ih j
    · exact .refl _

theorem sameBut_fieldCase (h : rec.SameBut rec') (d : MsgDesc) (f : FieldDesc) (wire : BitVec 64) (b : Bytes) (base i : Nat) :
    (fieldCase E rec d f wire b base i).SameBut (fieldCase E rec' d f wire b base i) := by
  unfold fieldCase
  simp only
  split
  · split
    · exact sameBut_fieldItem h _ _ _ _ _ _ _
    · split
      · exact (UM.SameBut.refl _).bind fun q => (UM.SameBut.refl _).bind fun s => (UM.SameBut.refl _).bind fun _ => sameBut_packedLoop h _ _ _ _ _ _ _ _
      · exact .refl _
  · split
    · exact .refl _
    · exact sameBut_fieldItem h _ _ _ _ _ _ _

theorem sameBut_recordStep (h : rec.SameBut rec') (t : Nat) (b : Bytes) (base i : Nat) (has : List (BitVec 64)) :
    (recordStep E rec t b base i has).SameBut (recordStep E rec' t b base i has) := by
  unfold recordStep
  refine (UM.SameBut.refl _).bind fun q => ?_
  simp only
  split
  · exact .refl _
  · split
    · exact .refl _
    · split
      · exact (sameBut_fieldCase h _ _ _ _ _ _).bind fun _ => .refl _
      · exact .refl _

theorem sameBut_recordLoop (h : rec.SameBut rec') (t : Nat) (b : Bytes) (base : Nat) : ∀ (n i : Nat) (has : List (BitVec 64)),
    (recordLoop E rec t b base n i has).SameBut (recordLoop E rec' t b base n i has) := by
  intro n
  induction n with
  | zero => intro i has; exact .refl _
  | succ n ih =>
    intro i has
    unfold recordLoop
    split
    · exact (sameBut_recordStep h _ _ _ _ _).bind fun q => ih _ _
    · exact .refl _

theorem markField_length {d : MsgDesc} {f : FieldDesc} {has has' : List (BitVec 64)} (h : markField d f has = .ok has') : has'.length = has.length := by
  unfold markField at h
  split at h
  · simp only at h
    split at h
    · cases h; simp
    · cases h
  · cases h; rfl

theorem recordStep_length {t : Nat} {b : Bytes} {base i : Nat} {has : List (BitVec 64)} {m m' : Val} {q : Nat × List (BitVec 64)}
    (h : recordStep E rec t b base i has m = (m', .ok q)) : q.2.length = has.length := by
  have hlift : ∀ {α β : Type} {r : Res α} {g : α → UM β} {m m' : Val} {b : β}, (UM.lift r >>= g : UM β) m = (m', .ok b) → ∃ a, r = .ok a ∧ g a m = (m', .ok b) := by
    intro α β r g m m' b h
    rw [UM.bind_def, UM.lift] at h
    cases r with
    | ok a => exact ⟨a, rfl, h⟩
    | err e => cases h
    | panic e => cases h
    | diverge => cases h
  have hbind : ∀ {α β : Type} {x : UM α} {g : α → UM β} {m m' : Val} {b : β}, (x >>= g : UM β) m = (m', .ok b) → ∃ a m1, g a m1 = (m', .ok b) := by
    intro α β x g m m' b h
    rw [UM.bind_def] at h
    rcases hx : x m with ⟨m1, a | _ | _ | _⟩ <;> rw [hx] at h
    · exact ⟨a, m1, h⟩
    all_goals cases h
  unfold recordStep at h
  obtain ⟨w, _, h⟩ := hlift h
  simp only at h
  split at h
  · cases h
  · split at h
    · cases h
    · rcases hfd : (E.S.msg t).fields.find? (fun f => f.num == ((w.1 >>> 3).setWidth 32).toNat) with _ | f <;> rw [hfd] at h
      · obtain ⟨a, m1, h⟩ := hbind h
        cases h
        rfl
      · obtain ⟨a, m1, h⟩ := hbind h
        obtain ⟨has', hm, h⟩ := hlift h
        cases h
        exact markField_length hm

theorem recordLoop_length {t : Nat} {b : Bytes} {base : Nat} : ∀ (n i : Nat) (has : List (BitVec 64)) (m m' : Val) (q : Nat × List (BitVec 64)),
    recordLoop E rec t b base n i has m = (m', .ok q) → q.2.length = has.length := by
  intro n
  induction n with
  | zero => intro i has m m' q h; cases h
  | succ n ih =>
    intro i has m m' q h
    unfold recordLoop at h
    split at h
    · rw [UM.bind_def] at h
      split at h
      · rename_i hs
        exact (ih _ _ _ _ _ h).trans (recordStep_length hs)
      all_goals cases h
    · cases h; rfl

/-- Which fields are missing does not depend on the order of the checks. -/
theorem checkRequired_cases {d : MsgDesc} {has : List (BitVec 64)} (hl : has.length = (noFields d).length) : ∀ fs : List FieldDesc, (∀ f ∈ fs, f ∈ d.fields) →
    (checkRequired d has fs = .ok () ∧ ∀ f ∈ fs, checkRequired d has [f] = .ok ()) ∨
    ((∃ a, checkRequired d has fs = .err (.requiredNotSet a)) ∧ ∃ f ∈ fs, checkRequired d has [f] ≠ .ok ()) := by
  intro fs
  induction fs with
  | nil => intro _; exact .inl ⟨rfl, by simp⟩
  | cons f fs ih =>
    intro hfs
    have h1 : checkRequired d has (f :: fs) = checkRequired d has [f] >>= fun _ => checkRequired d has fs := by
      rw [checkRequired, checkRequired, checkRequired]
      split
      · simp only
        split
        · split
          · rfl
          · rfl
        · rfl
      · rfl
    have h2 : checkRequired d has [f] = .ok () ∨ ∃ a, checkRequired d has [f] = .err (.requiredNotSet a) := by
      unfold checkRequired
      split
      · rename_i hc
        have hb := bit_lt (hfs f (by simp)) hc
        rw [← hl] at hb
        simp only [List.getElem?_eq_getElem hb]
        split
        · exact .inr ⟨_, rfl⟩
        · exact .inl rfl
      · exact .inl rfl
    rcases h2 with h2 | ⟨a, h2⟩
    · rcases ih (fun g hg => hfs g (by simp [hg])) with ⟨h3, h4⟩ | ⟨⟨a, h3⟩, g, hg, h4⟩
      · refine .inl ⟨by rw [h1, h2]; exact h3, ?_⟩
        intro g hg
        rcases List.mem_cons.1 hg with rfl | hg
        · exact h2
        · exact h4 g hg
      · exact .inr ⟨⟨a, by rw [h1, h2]; exact h3⟩, g, by simp [hg], h4⟩
    · exact .inr ⟨⟨a, by rw [h1, h2]; rfl⟩, f, by simp, by rw [h2]; simp⟩

theorem checkRequired_perm {d : MsgDesc} {has : List (BitVec 64)} (hl : has.length = (noFields d).length) {fs : List FieldDesc} (h : fs.Perm d.fields) :
    (checkRequired d has fs).SameBut (checkRequired d has d.fields) := by
  rcases checkRequired_cases hl fs (fun f hf => h.mem_iff.1 hf) with ⟨h1, h2⟩ | ⟨⟨a, h1⟩, f, hf, h2⟩ <;>
    rcases checkRequired_cases hl d.fields (fun f hf => hf) with ⟨h3, h4⟩ | ⟨⟨b, h3⟩, g, hg, h4⟩
  · rw [h1, h3]; exact .inl rfl
  · exact (h4 (h2 g (h.mem_iff.2 hg))).elim
  · exact (h2 (h4 f (h.mem_iff.1 hf))).elim
  · exact .inr ⟨a, b, h1, h3⟩

end

namespace GoU

section
variable {G : GenCfg} {E : UEnv}

theorem bodyIn_sameBut {rec rec' : SubDec} (h : rec.SameBut rec') : (bodyIn G E rec).SameBut (unmarshalBody E rec') := by
  intro off t b m
  unfold bodyIn unmarshalBody
  obtain ⟨h1, h2⟩ := sameBut_recordLoop (E := E) h t b off (b.length + 1) 0 (noFields (E.S.msg t)) m
  rw [UM.bind_def, UM.bind_def]
  rcases hx : recordLoop E rec t b off (b.length + 1) 0 (noFields (E.S.msg t)) m with ⟨m1, r⟩
  rcases hy : recordLoop E rec' t b off (b.length + 1) 0 (noFields (E.S.msg t)) m with ⟨m2, s⟩
  rw [hx, hy] at h1 h2
  simp only at h1 h2
  subst h1
  rcases h2 with rfl | ⟨a, b, rfl, rfl⟩
  · cases r with
    | ok q =>
      simp only
      exact ((UM.SameBut.lift (checkRequired_perm (recordLoop_length _ _ _ _ _ _ hx) (Go.messageFields_perm _))).bind fun _ => .refl _) _
    | err e => exact ⟨rfl, .inl rfl⟩
    | panic e => exact ⟨rfl, .inl rfl⟩
    | diverge => exact ⟨rfl, .inl rfl⟩
  · exact ⟨rfl, .inr ⟨a, b, rfl, rfl⟩⟩

theorem decodeIn_sameBut : ∀ n, (decodeIn G E n).SameBut (unmarshalN E n)
  | 0 => fun _ _ _ => .refl _
  | n + 1 => bodyIn_sameBut (decodeIn_sameBut n)

/-- The required fields of every message are checked in the order in which they are declared. -/
def SameOrder (G : GenCfg) (S : Schema) : Prop :=
  ∀ t, (Go.Emit.messageFields G.toGenCfg (S.msg t)).filter (fun f => f.card == .required) = (S.msg t).fields.filter (fun f => f.card == .required)

theorem decodeIn_eq (h : SameOrder G E.S) : ∀ n, decodeIn G E n = unmarshalN E n
  | 0 => rfl
  | n + 1 => by
    rw [decodeIn, unmarshalN, decodeIn_eq h n]
    funext off t b
    unfold bodyIn unmarshalBody
    congr 1
    funext q
    obtain ⟨i, has⟩ := q
    simp only
    rw [checkRequired_filter, h t, ← checkRequired_filter]

end

end GoU

end Vtp
