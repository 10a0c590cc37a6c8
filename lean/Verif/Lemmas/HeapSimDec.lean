import Verif.Lemmas.HeapSimOps
import Verif.Lemmas.HeapReset
import Verif.Model.Unmarshal
/-! # Decoding in memory and decoding of values: fields -/

namespace Vtp
open Spec

section
variable {S : Schema} {B : Bufs} {σ : HState} {R : List VItem}

/-! ## Bytes -/

theorem cut_all (b : Bytes) : cut b 0 b.length = b := by simp [cut]

theorem Spec.Holds.sealBytes {a off len : Nat} {c : Bytes} (hl : off + len ≤ c.length) (h : Holds S B σ (rawItem (.bytes c) a :: R)) :
    Holds S B σ ((.bytes, .bytes a off len, .str (cut c off len)) :: R) := by
  obtain ⟨F, h1, hg⟩ := h
  cases h1 with
  | raw hc hI => exact ⟨_, .bytes hc hl hI, hg⟩

theorem Spec.Holds.sealMem {a off len : Nat} {c : Bytes} (hl : off + len ≤ c.length) (h : Holds S B σ (rawItem (.bytes c) a :: R)) :
    Holds S B σ ((.mem, .bytes a off len, .str (cut c off len)) :: R) := by
  obtain ⟨F, h1, hg⟩ := h
  cases h1 with
  | raw hc hI => exact ⟨_, .mem hc hl hI, hg⟩

theorem copyBytes_sim (b : Bytes) (h : Holds S B σ R) :
    ∃ σ' v, hcopyBytes b σ = (σ', .ok v) ∧ v.isNil = false ∧ Holds S B σ' ((.bytes, v, .str b) :: R) := by
  refine ⟨_, _, rfl, rfl, ?_⟩
  have := Holds.sealBytes (off := 0) (len := b.length) (by simp) (h.alloc (.bytes b))
  rwa [cut_all] at this

/-- A slice that has to grow. -/
theorem growBytes_sim (g : Growth) (b : Bytes) (h : Holds S B σ R) :
    ∃ σ' a c, hgrowBytes g b σ = (σ', .ok (.bytes a 0 b.length)) ∧ b.length ≤ c.length ∧ cut c 0 b.length = b ∧ Holds S B σ' (rawItem (.bytes c) a :: R) := by
  refine ⟨_, _, b ++ List.replicate (g σ.next) 0, rfl, by simp, by simp [cut], h.alloc _⟩

/-- `append(s[:n], b...)`. -/
theorem appendTo_sim {a off n l : Nat} {c b : Bytes} (g : Growth) (hl : off + n ≤ c.length) (h : Holds S B σ (rawItem (.bytes c) a :: R)) :
    ∃ σ' a' off' c', happendBytes g (.bytes a off l) n b σ = (σ', .ok (.bytes a' off' (n + b.length))) ∧ off' + (n + b.length) ≤ c'.length ∧
      cut c' off' (n + b.length) = cut c off n ++ b ∧ Holds S B σ' (rawItem (.bytes c') a' :: R) := by
  have hap : happendBytes g (.bytes a off l) n b σ = (if off + n + b.length ≤ c.length then (do
        hwrite a (.bytes (c.take (off + n) ++ b ++ c.drop (off + n + b.length)))
        pure (.bytes a off (n + b.length)))
      else hgrowBytes g ((c.drop off).take n ++ b) : HM HV) σ := by
    unfold happendBytes
    simp only
    rw [HM.bind_ok (hread_ok h.read)]
  rw [hap]
  have hcn : (cut c off n).length = n := by simp [cut]; omega
  by_cases hc : off + n + b.length ≤ c.length
  · rw [if_pos hc]
    refine ⟨_, _, _, c.take (off + n) ++ b ++ c.drop (off + n + b.length), rfl, ?_, ?_, h.write _⟩
    · simp only [List.length_append, List.length_take, List.length_drop]
      omega
    · have h1 : (c.take (off + n)).drop off = cut c off n := by
        rw [cut, List.drop_take]
        congr 1
        omega
      rw [cut, List.append_assoc, List.drop_append_of_le_length (by simp; omega), h1, ← List.append_assoc,
        List.take_left' (by simp only [List.length_append, hcn])]
  · rw [if_neg hc]
    obtain ⟨σ', a', c', h1, h2, h3, h4⟩ := growBytes_sim g (cut c off n ++ b) h.tail
    refine ⟨σ', a', 0, c', ?_, ?_, ?_, h4⟩
    · rw [List.length_append, hcn] at h1
      exact h1
    · rw [List.length_append, hcn] at h2
      omega
    · rw [List.length_append, hcn] at h3
      exact h3

theorem Spec.Holds.openMem {s : HV} {v : Val} (h : Holds S B σ ((.mem, s, v) :: R)) :
    (s = .nil ∧ v = .nil ∧ Holds S B σ R) ∨ ∃ a off len c, s = .bytes a off len ∧ v = .str (cut c off len) ∧ off + len ≤ c.length ∧
      Holds S B σ (rawItem (.bytes c) a :: R) := by
  obtain ⟨F, h1, hg⟩ := h
  cases h1 with
  | nil _ hI => exact .inl ⟨rfl, rfl, F, hI, hg⟩
  | mem hc hl hI => exact .inr ⟨_, _, _, _, rfl, rfl, hl, _, .raw hc hI, hg⟩

theorem Spec.Holds.openBytes {s : HV} {v : Val} (hB : ¬ B.byt) (h : Holds S B σ ((.bytes, s, v) :: R)) :
    (s = .nil ∧ v = .nil ∧ Holds S B σ R) ∨ ∃ a off len c, s = .bytes a off len ∧ v = .str (cut c off len) ∧ off + len ≤ c.length ∧
      Holds S B σ (rawItem (.bytes c) a :: R) := by
  obtain ⟨F, h1, hg⟩ := h
  cases h1 with
  | nil _ hI => exact .inl ⟨rfl, rfl, F, hI, hg⟩
  | lent _ hb _ => exact absurd hb hB
  | bytes hc hl hI => exact .inr ⟨_, _, _, _, rfl, rfl, hl, _, .raw hc hI, hg⟩

/-- Unknown fields. -/
theorem appendMem_sim {s : HV} {v : Val} (g : Growth) (b : Bytes) (h : Holds S B σ ((.mem, s, v) :: R)) :
    ∃ σ' s' v', happendBytes g s (hunknownLen s) b σ = (σ', .ok s') ∧ v'.bytes = v.bytes ++ b ∧ Holds S B σ' ((.mem, s', v') :: R) := by
  rcases h.openMem with ⟨rfl, rfl, h'⟩ | ⟨a, off, len, c, rfl, rfl, hl, h'⟩
  · by_cases hb : b = []
    · subst hb
      exact ⟨σ, .nil, .nil, rfl, rfl, h'.addNil rfl⟩
    · obtain ⟨σ', a, c, h1, h2, h3, h4⟩ := growBytes_sim g b h'
      refine ⟨σ', _, .str (cut c 0 b.length), ?_, ?_, h4.sealMem (by omega)⟩
      · simp only [happendBytes, hb, if_false]
        exact h1
      · simp [Val.bytes, h3]
  · obtain ⟨σ', a', off', c', h1, h2, h3, h4⟩ := appendTo_sim (l := len) (b := b) g hl h'
    refine ⟨σ', _, .str (cut c' off' (len + b.length)), h1, ?_, h4.sealMem h2⟩
    simp [Val.bytes, h3]

/-- Bytes fields which are not part of somebody's buffer. -/
theorem appendOwn_sim {s : HV} {v : Val} (hB : ¬ B.byt) (g : Growth) (b : Bytes) (h : Holds S B σ ((.bytes, s, v) :: R)) :
    ∃ σ' s', (happendBytes g s 0 b >>= hnonNil) σ = (σ', .ok s') ∧ Holds S B σ' ((.bytes, s', .str b) :: R) := by
  rcases h.openBytes hB with ⟨rfl, rfl, h'⟩ | ⟨a, off, len, c, rfl, rfl, hl, h'⟩
  · by_cases hb : b = []
    · subst hb
      obtain ⟨σ', v, h1, -, h2⟩ := copyBytes_sim [] h'
      exact ⟨σ', v, h1, h2⟩
    · obtain ⟨σ', a, c, h1, h2, h3, h4⟩ := growBytes_sim g b h'
      refine ⟨σ', .bytes a 0 b.length, ?_, ?_⟩
      · have : happendBytes g .nil 0 b σ = (σ', .ok (.bytes a 0 b.length)) := by
          simp only [happendBytes, hb, if_false]
          exact h1
        rw [HM.bind_ok this]
        rfl
      · have := h4.sealBytes (off := 0) (len := b.length) (by omega)
        rwa [h3] at this
  · obtain ⟨σ', a', off', c', h1, h2, h3, h4⟩ := appendTo_sim (off := off) (n := 0) (l := len) (b := b) g (by omega) h'
    refine ⟨σ', .bytes a' off' (0 + b.length), ?_, ?_⟩
    · rw [HM.bind_ok h1]
      rfl
    · have := h4.sealBytes (off := off') (len := 0 + b.length) h2
      rw [h3] at this
      simpa [cut] using this

end

/-! ## The decoder's surroundings -/

section
variable {S : Schema} {B : Bufs} {σ : HState} {R : List VItem} {t : Nat} {p : HV} {f : FieldDesc}
variable {E : HEnv} {later : Bytes} (hE : HSimEnv S B E later)

include hE in
theorem string_sim (off : Nat) (b : Bytes) (h : Holds S B σ R) : Holds S B σ ((.flat, E.string off b, .str ((E.toU later).keep off b)) :: R) := by
  unfold HEnv.string UEnv.keep HEnv.toU
  by_cases ha : E.aliasing = true
  · simp only [ha, if_true]
    exact h.map fun F hr => ⟨F, le_rfl, .view (hE.buf ha).2 hr⟩
  · simp only [ha, Bool.false_eq_true, if_false]
    exact h.map fun F hr => ⟨F, le_rfl, .str hr⟩

theorem string_solid (E : HEnv) (off : Nat) (b : Bytes) : E.string off b ≠ .nil := by
  unfold HEnv.string
  split <;> simp

include hE in
theorem newBytes_sim (off : Nat) (b : Bytes) (h : Holds S B σ R) :
    ∃ σ' v, E.newBytes off b σ = (σ', .ok v) ∧ Holds S B σ' ((.bytes, v, .str ((E.toU later).keep off b)) :: R) := by
  unfold HEnv.newBytes UEnv.keep HEnv.toU
  by_cases ha : E.aliasing = true
  · simp only [ha, if_true]
    exact ⟨σ, _, rfl, h.map fun F hr => ⟨F, le_rfl, .lent (hE.buf ha).2 (hE.buf ha).1 hr⟩⟩
  · simp only [ha, Bool.false_eq_true, if_false]
    obtain ⟨σ', v, h1, -, h2⟩ := copyBytes_sim b h
    exact ⟨σ', v, h1, h2⟩

/-- Numbers and strings. -/
theorem store_sim {x : HV} {v : Val} (hf : (S.msg t).foreign = false) (hd : MsgFacts (S.msg t)) (hm : f ∈ (S.msg t).fields)
    (hk : fieldTy.isScalar f.kind = true) (hx : x ≠ .nil) : SimC S B t p [(.flat, x, v)] (hstore E (S.msg t) f p x) (store f v) := by
  unfold hstore store
  have ff := hd.fields f hm
  have he : elemTy f.kind f.msg = .flat := elemTy_flat hk
  by_cases ho : f.oneof = true
  · simp only [ho, if_true]
    have := wrapPut_sim (B := B) (p := p) (x := x) (v := v) hf hd hm ho
    rwa [he] at this
  · simp only [ho, Bool.false_eq_true, if_false]
    by_cases hc : (f.card == .repeated) = true
    · simp only [hc, if_true]
      have hmap : f.map = none := scalar_noMap hd hm (fun h => by rw [h] at hk; cases hk)
      have hty : fieldTy (S.msg t) f = .list .flat := by
        simp only [fieldTy, ho, hc, if_true, hmap, he]
        rfl
      exact appendPut_sim hf hd hm hty rfl
    · simp only [hc, Bool.false_eq_true, if_false]
      by_cases hp : ((S.msg t).proto3 && !f.synthetic) = true
      · simp only [hp, if_true]
        intro m R σ h
        have hty : fieldTy (S.msg t) f = .flat := by
          simp only [Bool.and_eq_true, Bool.not_eq_true'] at hp
          have hpres := ff.implicit (by simpa using hc) hp.1 (by simpa using ho) hp.2 (scalar_noMsg hk)
          simp [fieldTy, ho, hc, hpres, he]
        exact put_sim hf hd hm (hty ▸ h)
      · simp only [hp, Bool.false_eq_true, if_false]
        have hpres : f.presence = true := by
          cases h3 : (S.msg t).proto3 with
          | false => exact ff.proto2 (by simpa using hc) h3
          | true =>
            simp only [h3, Bool.true_and, Bool.not_eq_true', Bool.not_eq_false] at hp
            exact (ff.synth hp).2
        have hty : fieldTy (S.msg t) f = .box := by simp [fieldTy, ho, hc, hpres, hk]
        exact boxPut_sim hf hd hm hty hx

include hE in
/-- Bytes. -/
theorem storeBytes_sim {off : Nat} {b : Bytes} (hf : (S.msg t).foreign = false) (hd : MsgFacts (S.msg t)) (hm : f ∈ (S.msg t).fields)
    (hk : f.kind = .bytes) : SimU S B t p (hstoreBytes E f p off b) (store f (.str ((E.toU later).keep off b))) := by
  unfold hstoreBytes store
  have he : elemTy f.kind f.msg = .bytes := by rw [hk]; rfl
  intro m R σ h
  by_cases ho : f.oneof = true
  · simp only [ho, if_true]
    obtain ⟨σ', v, h1, h2⟩ := newBytes_sim hE off b h
    rw [HM.bind_ok h1]
    exact wrapPut_sim hf hd hm ho m R σ' (he ▸ h2.swap)
  · simp only [ho, Bool.false_eq_true, if_false]
    by_cases hc : (f.card == .repeated) = true
    · simp only [hc, if_true]
      have hmap : f.map = none := scalar_noMap hd hm (by rw [hk]; exact fun h => nomatch h)
      have hty : fieldTy (S.msg t) f = .list .bytes := by
        simp only [fieldTy, ho, hc, if_true, hmap, he]
        rfl
      rcases h.openSlot hf hd hm with ⟨rfl, rfl⟩ | ⟨O, s, sv, rfl, rfl, hO, h'⟩
      · exact ⟨rfl, h⟩
      · obtain ⟨σ', v, h1, h2⟩ := newBytes_sim hE off b h'
        rw [HM.bind_ok (hO.hget h'.read), HM.bind_ok h1, UM.bind_ok (hO.get sv)]
        rw [hty] at h2
        obtain ⟨σ'', v', h3, h4, h5⟩ := appendSet_sim E.extra hf hO hty rfl (h2.perm (List.Perm.trans (List.Perm.swap _ _ _) (List.Perm.cons _ (List.Perm.swap _ _ _))))
        rw [h3, UM.bind_ok (show UM.lift (appendVal sv _) (O.val sv) = (O.val sv, .ok v') by rw [h4]; rfl), hO.set]
        exact ⟨rfl, h5⟩
    · simp only [hc, Bool.false_eq_true, if_false]
      have hty : fieldTy (S.msg t) f = .bytes := by simp [fieldTy, ho, hc, hk, fieldTy.isScalar, elemTy]
      by_cases ha : E.aliasing = true
      · simp only [ha, if_true]
        refine put_sim hf hd hm (Holds.swap (h.map fun F hr => ⟨F, le_rfl, ?_⟩))
        rw [hty]
        simp only [UEnv.keep, HEnv.toU, ha, if_true]
        exact .lent (hE.buf ha).2 (hE.buf ha).1 hr
      · simp only [ha, Bool.false_eq_true, if_false]
        have hB : ¬ B.byt := fun hb => hc (beq_iff_eq.2 (hE.safe (by simpa using ha) hb t f hm hk (by simpa using ho)))
        simp only [UEnv.keep, HEnv.toU, ha, Bool.false_eq_true, if_false]
        rcases h.openSlot hf hd hm with ⟨rfl, rfl⟩ | ⟨O, s, sv, rfl, rfl, hO, h'⟩
        · exact ⟨rfl, h⟩
        · rw [hty] at h'
          obtain ⟨σ', s', h1, h2⟩ := appendOwn_sim hB E.extra b h'.swap
          show ((hgetSlot (.ptr O.a) f.slot >>= fun s => happendBytes E.extra s 0 b >>= fun s => hnonNil s >>= fun s => hsetSlot (.ptr O.a) f.slot s) σ).2 = _ ∧
            Holds S B ((hgetSlot (.ptr O.a) f.slot >>= fun s => happendBytes E.extra s 0 b >>= fun s => hnonNil s >>= fun s => hsetSlot (.ptr O.a) f.slot s) σ).1 _
          rw [HM.bind_ok (hO.hget h'.read)]
          have h3 : (happendBytes E.extra s 0 b >>= fun s => hnonNil s >>= fun s => hsetSlot (.ptr O.a) f.slot s) σ
              = hsetSlot (.ptr O.a) f.slot s' σ' := by
            rw [← HM.bind_assoc, HM.bind_ok h1]
          rw [h3]
          obtain ⟨σ'', h6, h7⟩ := set_sim (f := f) hf hO (hty ▸ h2.swap)
          rw [h6, hO.set]
          exact ⟨rfl, h7⟩

end

end Vtp
