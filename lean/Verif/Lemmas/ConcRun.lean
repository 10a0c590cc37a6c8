import Verif.Spec.Conc
/-! # Run alone, the code in steps does what the functions on memory do -/

namespace Vtp.Conc
open Spec

/-- Code in steps that, run alone, is the function on memory. -/
def Runs {α : Type} (x : Prog α) (y : HM α) : Prop := ∀ σ, x.run σ = y σ

namespace Runs
variable {α β : Type}

theorem pure (a : α) : Runs (Pure.pure a) (Pure.pure a) := fun _ => rfl

theorem lift (r : Res α) : Runs (Prog.lift r) (HM.lift r) := fun _ => rfl

theorem run_bind (x : Prog α) (f : α → Prog β) : ∀ σ, (x.bind f).run σ = HM.bind x.run (fun a => (f a).run) σ := by
  induction x with
  | done r => intro σ; cases r <;> rfl
  | read a k ih =>
    intro σ
    simp only [Prog.bind, Prog.run, HM.bind]
    cases σ.heap[a]? with
    | none => rfl
    | some c => exact ih c σ
  | write a c k ih => exact fun σ => ih _
  | alloc c k ih => exact fun σ => ih _ _
  | get want t k ih =>
    intro σ
    simp only [Prog.bind, Prog.run, HM.bind]
    cases σ.ask want with
    | none => exact ih _ _
    | some a =>
      simp only
      split_ifs
      · exact ih _ _
      · exact ih _ _
  | put t a k ih => exact fun σ => ih _

theorem bind {x : Prog α} {y : HM α} {f : α → Prog β} {g : α → HM β} (hx : Runs x y) (hf : ∀ a, Runs (f a) (g a)) : Runs (x >>= f) (y >>= g) := by
  intro σ
  show (x.bind f).run σ = HM.bind y g σ
  rw [run_bind]
  simp only [HM.bind, hx σ]
  rcases y σ with ⟨σ', r⟩
  cases r with
  | ok a => exact hf a σ'
  | _ => rfl

theorem read (a : Addr) : Runs (hread a) (Vtp.hread a) := by
  intro σ
  simp only [hread, Vtp.hread, Prog.run]
  cases σ.heap[a]? <;> rfl

theorem write (a : Addr) (c : Cell) : Runs (hwrite a c) (Vtp.hwrite a c) := fun _ => rfl

theorem alloc (c : Cell) : Runs (halloc c) (Vtp.halloc c) := fun _ => rfl

end Runs

/-- Going through both in parallel. -/
local macro "runs" "[" ts:term,* "]" : tactic => `(tactic| repeat' (first
  | exact Runs.pure _ | exact Runs.lift _ | exact Runs.read _ | exact Runs.write _ _ | exact Runs.alloc _
  $[| apply $ts]*
  | refine Runs.bind ?_ fun _ => ?_
  | (split <;> (try simp only [*]))))

theorem runs_hcopyBytes (b : Bytes) : Runs (hcopyBytes b) (Vtp.hcopyBytes b) := by
  unfold hcopyBytes Vtp.hcopyBytes
  runs []

theorem runs_hgrowBytes (extra : Growth) (b : Bytes) : Runs (hgrowBytes extra b) (Vtp.hgrowBytes extra b) := fun _ => rfl

theorem runs_hgrowArr (extra : Growth) (xs : List HV) (len : Nat) : Runs (hgrowArr extra xs len) (Vtp.hgrowArr extra xs len) := fun _ => rfl

theorem runs_happendBytes (extra : Growth) (s : HV) (n : Nat) (b : Bytes) : Runs (happendBytes extra s n b) (Vtp.happendBytes extra s n b) := by
  unfold happendBytes Vtp.happendBytes
  runs [runs_hgrowBytes]

theorem runs_happendTo (extra : Growth) (a len : Nat) (x : HV) (c : Cell) : Runs (happendTo extra a len x c) (Vtp.happendTo extra a len x c) := by
  unfold happendTo Vtp.happendTo
  runs [runs_hgrowArr]

theorem runs_happend (extra : Growth) (s x : HV) : Runs (happend extra s x) (Vtp.happend extra s x) := by
  unfold happend Vtp.happend
  runs [runs_hgrowArr, runs_happendTo]

theorem runs_hmakeSlice (n : Nat) : Runs (hmakeSlice n) (Vtp.hmakeSlice n) := by
  unfold hmakeSlice Vtp.hmakeSlice
  runs []

theorem runs_hgetSlot (p : HV) (slot : Nat) : Runs (hgetSlot p slot) (Vtp.hgetSlot p slot) := by
  unfold hgetSlot Vtp.hgetSlot
  runs []

theorem runs_hsetSlot (p : HV) (slot : Nat) (v : HV) : Runs (hsetSlot p slot v) (Vtp.hsetSlot p slot v) := by
  unfold hsetSlot Vtp.hsetSlot
  runs []

theorem runs_hnew (S : Schema) (t : Nat) : Runs (hnew S t) (Vtp.hnew S t) := by
  unfold hnew Vtp.hnew
  runs []

theorem runs_poolGet (S : Schema) (want : Option Addr) (t : Nat) : Runs (poolGet S want t) (Vtp.poolGet S want t) := by
  intro σ
  unfold poolGet Vtp.poolGet
  simp only [Prog.run]
  cases σ.ask want with
  | none => rfl
  | some a =>
    simp only
    split_ifs <;> rfl

theorem runs_poolPut (t : Nat) (a : Addr) : Runs (poolPut t a) (Vtp.poolPut t a) := fun _ => rfl

theorem runs_hnewBytes (E : HEnv) (off : Nat) (b : Bytes) : Runs (hnewBytes E off b) (HEnv.newBytes E off b) := by
  unfold hnewBytes HEnv.newBytes
  runs [runs_hcopyBytes]

theorem runs_hstore (E : HEnv) (d : MsgDesc) (f : FieldDesc) (p : HV) (v : HV) : Runs (hstore E d f p v) (Vtp.hstore E d f p v) := by
  unfold hstore Vtp.hstore
  runs [runs_happend, runs_hgetSlot, runs_hsetSlot]

theorem runs_hnonNil (s : HV) : Runs (hnonNil s) (Vtp.hnonNil s) := by
  unfold hnonNil Vtp.hnonNil
  runs [runs_hcopyBytes]

theorem runs_hstoreBytes (E : HEnv) (f : FieldDesc) (p : HV) (off : Nat) (b : Bytes) : Runs (hstoreBytes E f p off b) (Vtp.hstoreBytes E f p off b) := by
  unfold hstoreBytes Vtp.hstoreBytes
  runs [runs_happendBytes, runs_happend, runs_hgetSlot, runs_hsetSlot, runs_hnewBytes, runs_hnonNil]

theorem runs_happendUnknown (E : HEnv) (p : HV) (b : Bytes) : Runs (happendUnknown E p b) (Vtp.happendUnknown E p b) := by
  unfold happendUnknown Vtp.happendUnknown
  runs [runs_happendBytes]

theorem runs_hdecodeMessage (E : HEnv) {rec : HSubDec} {rec' : Vtp.HSubDec} (hr : ∀ a b c d, Runs (rec a b c d) (rec' a b c d)) (off t : Nat) (b : Bytes) (x : HV) : Runs (hdecodeMessage E rec off t b x) (Vtp.hdecodeMessage E rec' off t b x) := by
  unfold hdecodeMessage Vtp.hdecodeMessage
  runs [hr]

theorem runs_hnewSub (E : HEnv) (d : MsgDesc) (off t : Nat) : Runs (hnewSub E d off t) (Vtp.hnewSub E d off t) := by
  unfold hnewSub Vtp.hnewSub
  runs [runs_hnew, runs_poolGet]

theorem runs_hmapItem (E : HEnv) {rec : HSubDec} {rec' : Vtp.HSubDec} (hr : ∀ a b c d, Runs (rec a b c d) (rec' a b c d)) (k : Kind) (t : Nat) (d : Bytes) (base i : Nat) (old : BitVec 64) : Runs (hmapItem E rec k t d base i old) (Vtp.hmapItem E rec' k t d base i old) := by
  unfold hmapItem Vtp.hmapItem
  runs [hr, runs_hnew, runs_hnewBytes, runs_hdecodeMessage (hr := hr)]

theorem runs_hentryLoop (E : HEnv) {rec : HSubDec} {rec' : Vtp.HSubDec} (hr : ∀ a b c d, Runs (rec a b c d) (rec' a b c d)) (md : MapDesc) (d : Bytes) (base post : Nat) : ∀ x0 x1 x2 x3, Runs (hentryLoop E rec md d base post x0 x1 x2 x3) (Vtp.hentryLoop E rec' md d base post x0 x1 x2 x3) := by
  intro x0 x1 x2 x3
  induction x0 generalizing x1 x2 x3 with
  | zero => unfold hentryLoop Vtp.hentryLoop; runs [hr, runs_hmapItem (hr := hr)]
  | succ n ih =>
    unfold hentryLoop Vtp.hentryLoop
    runs [ih, hr, runs_hmapItem (hr := hr)]

theorem runs_hmapPut (s : HV) (k : Key) (v : HV) : Runs (hmapPut s k v) (Vtp.hmapPut s k v) := by
  unfold hmapPut Vtp.hmapPut
  runs []

theorem runs_hmakeMap (p : HV) (slot : Nat) : Runs (hmakeMap p slot) (Vtp.hmakeMap p slot) := by
  unfold hmakeMap Vtp.hmakeMap
  runs [runs_hgetSlot, runs_hsetSlot]

theorem runs_hmapEntry (E : HEnv) {rec : HSubDec} {rec' : Vtp.HSubDec} (hr : ∀ a b c d, Runs (rec a b c d) (rec' a b c d)) (f : FieldDesc) (md : MapDesc) (d : Bytes) (base i post : Nat) (p : HV) : Runs (hmapEntry E rec f md d base i post p) (Vtp.hmapEntry E rec' f md d base i post p) := by
  unfold hmapEntry Vtp.hmapEntry
  runs [hr, runs_hentryLoop (hr := hr), runs_hmapPut, runs_hmakeMap]

theorem runs_hgroupLoop (E : HEnv) {rec : HSubDec} {rec' : Vtp.HSubDec} (hr : ∀ a b c d, Runs (rec a b c d) (rec' a b c d)) (f : FieldDesc) (wire : BitVec 64) (d : Bytes) (base start : Nat) (p : HV) : ∀ x0 x1, Runs (hgroupLoop E rec f wire d base start p x0 x1) (Vtp.hgroupLoop E rec' f wire d base start p x0 x1) := by
  intro x0 x1
  induction x0 generalizing x1 with
  | zero => unfold hgroupLoop Vtp.hgroupLoop; runs [hr, runs_hgetSlot, runs_hdecodeMessage (hr := hr)]
  | succ n ih =>
    unfold hgroupLoop Vtp.hgroupLoop
    runs [ih, hr, runs_hgetSlot, runs_hdecodeMessage (hr := hr)]

theorem runs_hholds (s : HV) (n : Nat) : Runs (hholds s n) (Vtp.hholds s n) := by
  unfold hholds Vtp.hholds
  runs []

theorem runs_hmember (w : HV) : Runs (hmember w) (Vtp.hmember w) := by
  unfold hmember Vtp.hmember
  runs []

theorem runs_hspare (s : HV) : Runs (hspare s) (Vtp.hspare s) := by
  unfold hspare Vtp.hspare
  runs []

theorem runs_hreuse (d : MsgDesc) (s : HV) : Runs (hreuse d s) (Vtp.hreuse d s) := by
  unfold hreuse Vtp.hreuse
  runs [runs_hspare]

theorem runs_hmessageItem (E : HEnv) {rec : HSubDec} {rec' : Vtp.HSubDec} (hr : ∀ a b c d, Runs (rec a b c d) (rec' a b c d)) (d : MsgDesc) (f : FieldDesc) (off : Nat) (b : Bytes) (p : HV) : Runs (hmessageItem E rec d f off b p) (Vtp.hmessageItem E rec' d f off b p) := by
  unfold hmessageItem Vtp.hmessageItem
  runs [hr, runs_happend, runs_hgetSlot, runs_hsetSlot, runs_hnew, runs_hdecodeMessage (hr := hr), runs_hnewSub, runs_hholds, runs_hmember, runs_hreuse]

theorem runs_hsubItem (E : HEnv) {rec : HSubDec} {rec' : Vtp.HSubDec} (hr : ∀ a b c d, Runs (rec a b c d) (rec' a b c d)) (d : MsgDesc) (f : FieldDesc) (b : Bytes) (base i post : Nat) (p : HV) : Runs (hsubItem E rec d f b base i post p) (Vtp.hsubItem E rec' d f b base i post p) := by
  unfold hsubItem Vtp.hsubItem
  runs [hr, runs_hmapEntry (hr := hr), runs_hmessageItem (hr := hr)]

theorem runs_hdirect (E : HEnv) (f : FieldDesc) (proto3 : Bool) (b : Bytes) (i : Nat) (p : HV) : Runs (hdirect E f proto3 b i p) (Vtp.hdirect E f proto3 b i p) := by
  unfold hdirect Vtp.hdirect
  runs [runs_hsetSlot]

theorem runs_hfieldItem (E : HEnv) {rec : HSubDec} {rec' : Vtp.HSubDec} (hr : ∀ a b c d, Runs (rec a b c d) (rec' a b c d)) (d : MsgDesc) (f : FieldDesc) (proto3 : Bool) (wire : BitVec 64) (b : Bytes) (base i : Nat) (p : HV) : Runs (hfieldItem E rec d f proto3 wire b base i p) (Vtp.hfieldItem E rec' d f proto3 wire b base i p) := by
  unfold hfieldItem Vtp.hfieldItem
  runs [hr, runs_hstore, runs_hstoreBytes, runs_hgroupLoop (hr := hr), runs_hsubItem (hr := hr), runs_hdirect]

theorem runs_hpackedLoop (E : HEnv) {rec : HSubDec} {rec' : Vtp.HSubDec} (hr : ∀ a b c d, Runs (rec a b c d) (rec' a b c d)) (d : MsgDesc) (f : FieldDesc) (wire : BitVec 64) (b : Bytes) (base post : Nat) (p : HV) : ∀ x0 x1, Runs (hpackedLoop E rec d f wire b base post p x0 x1) (Vtp.hpackedLoop E rec' d f wire b base post p x0 x1) := by
  intro x0 x1
  induction x0 generalizing x1 with
  | zero => unfold hpackedLoop Vtp.hpackedLoop; runs [hr, runs_hfieldItem (hr := hr)]
  | succ n ih =>
    unfold hpackedLoop Vtp.hpackedLoop
    runs [ih, hr, runs_hfieldItem (hr := hr)]

theorem runs_hlenCap (s : HV) : Runs (hlenCap s) (Vtp.hlenCap s) := by
  unfold hlenCap Vtp.hlenCap
  runs []

theorem runs_hlen (s : HV) : Runs (hlen s) (Vtp.hlen s) := by
  unfold hlen Vtp.hlen
  runs []

theorem runs_hindex (s : HV) (i : Nat) : Runs (hindex s i) (Vtp.hindex s i) := by
  unfold hindex Vtp.hindex
  runs []

theorem runs_hprealloc (d : MsgDesc) (f : FieldDesc) (count : Nat) (p : HV) : Runs (hprealloc d f count p) (Vtp.hprealloc d f count p) := by
  unfold hprealloc Vtp.hprealloc
  runs [runs_hmakeSlice, runs_hgetSlot, runs_hsetSlot, runs_hlenCap]

theorem runs_hfieldCase (E : HEnv) {rec : HSubDec} {rec' : Vtp.HSubDec} (hr : ∀ a b c d, Runs (rec a b c d) (rec' a b c d)) (d : MsgDesc) (f : FieldDesc) (wire : BitVec 64) (b : Bytes) (base i : Nat) (p : HV) : Runs (hfieldCase E rec d f wire b base i p) (Vtp.hfieldCase E rec' d f wire b base i p) := by
  unfold hfieldCase Vtp.hfieldCase
  runs [hr, runs_hfieldItem (hr := hr), runs_hpackedLoop (hr := hr), runs_hprealloc]

theorem runs_hkeepUnknown (E : HEnv) (t : Nat) (p : HV) (s : Bytes) : Runs (hkeepUnknown E t p s) (Vtp.hkeepUnknown E t p s) := by
  unfold hkeepUnknown Vtp.hkeepUnknown
  runs [runs_happendUnknown]

theorem runs_hruntimePartial (E : HEnv) (t : Nat) (b : Bytes) (p : HV) : Runs (hruntimePartial E t b p) (Vtp.hruntimePartial E t b p) := by
  unfold hruntimePartial Vtp.hruntimePartial
  runs [runs_happendUnknown]

theorem runs_hunknownCase (E : HEnv) (t num : Nat) (b : Bytes) (i : Nat) (p : HV) : Runs (hunknownCase E t num b i p) (Vtp.hunknownCase E t num b i p) := by
  unfold hunknownCase Vtp.hunknownCase
  runs [runs_hkeepUnknown, runs_hruntimePartial]

theorem runs_hrecordStep (E : HEnv) {rec : HSubDec} {rec' : Vtp.HSubDec} (hr : ∀ a b c d, Runs (rec a b c d) (rec' a b c d)) (t : Nat) (b : Bytes) (base i : Nat) (has : List (BitVec 64)) (p : HV) : Runs (hrecordStep E rec t b base i has p) (Vtp.hrecordStep E rec' t b base i has p) := by
  unfold hrecordStep Vtp.hrecordStep
  runs [hr, runs_hfieldCase (hr := hr), runs_hunknownCase]

theorem runs_hrecordLoop (E : HEnv) {rec : HSubDec} {rec' : Vtp.HSubDec} (hr : ∀ a b c d, Runs (rec a b c d) (rec' a b c d)) (t : Nat) (b : Bytes) (base : Nat) (p : HV) : ∀ x0 x1 x2, Runs (hrecordLoop E rec t b base p x0 x1 x2) (Vtp.hrecordLoop E rec' t b base p x0 x1 x2) := by
  intro x0 x1 x2
  induction x0 generalizing x1 x2 with
  | zero => unfold hrecordLoop Vtp.hrecordLoop; runs [hr, runs_hrecordStep (hr := hr)]
  | succ n ih =>
    unfold hrecordLoop Vtp.hrecordLoop
    runs [ih, hr, runs_hrecordStep (hr := hr)]

theorem runs_hunmarshalBody (E : HEnv) {rec : HSubDec} {rec' : Vtp.HSubDec} (hr : ∀ a b c d, Runs (rec a b c d) (rec' a b c d)) : ∀ w x y z, Runs (hunmarshalBody E rec w x y z) (Vtp.hunmarshalBody E rec' w x y z) := by
  intro w x y z
  unfold hunmarshalBody Vtp.hunmarshalBody
  runs [hr, runs_hrecordLoop (hr := hr)]

theorem runs_hunmarshalN (E : HEnv) : ∀ x0 x1 x2 x3 x4, Runs (hunmarshalN E x0 x1 x2 x3 x4) (Vtp.hunmarshalN E x0 x1 x2 x3 x4) := by
  intro x0 x1 x2 x3 x4
  induction x0 generalizing x1 x2 x3 x4 with
  | zero => unfold hunmarshalN Vtp.hunmarshalN; runs []
  | succ n ih =>
    unfold hunmarshalN Vtp.hunmarshalN
    runs [ih, runs_hunmarshalBody (hr := ih)]

theorem runs_hunmarshalVT (E : HEnv) (t : Nat) (b : Bytes) (p : HV) : Runs (hunmarshalVT E t b p) (Vtp.hunmarshalVT E t b p) := by
  unfold hunmarshalVT Vtp.hunmarshalVT
  runs [runs_hunmarshalN]

theorem runs_hput (t : Nat) (p : HV) : Runs (hput t p) (Vtp.hput t p) := by
  unfold hput Vtp.hput
  runs [runs_poolPut]

theorem runs_hreturnWith {rec : HSubReset} {rec' : Vtp.HSubReset} (hr : ∀ a b, Runs (rec a b) (rec' a b)) (t : Nat) (p : HV) : Runs (hreturnWith rec t p) (Vtp.hreturnWith rec' t p) := by
  unfold hreturnWith Vtp.hreturnWith
  runs [hr, runs_hput]

theorem runs_hresetElem (S : Schema) {rec : HSubReset} {rec' : Vtp.HSubReset} (hr : ∀ a b, Runs (rec a b) (rec' a b)) (t : Nat) (x : HV) : Runs (hresetElem S rec t x) (Vtp.hresetElem S rec' t x) := by
  unfold hresetElem Vtp.hresetElem
  runs [hr]

theorem runs_hresetElems (S : Schema) {rec : HSubReset} {rec' : Vtp.HSubReset} (hr : ∀ a b, Runs (rec a b) (rec' a b)) (t : Nat) (s : HV) : ∀ x0 x1, Runs (hresetElems S rec t s x0 x1) (Vtp.hresetElems S rec' t s x0 x1) := by
  intro x0 x1
  induction x1 generalizing x0 with
  | zero => unfold hresetElems Vtp.hresetElems; runs [hr, runs_hindex, runs_hresetElem (hr := hr)]
  | succ n ih =>
    unfold hresetElems Vtp.hresetElems
    runs [ih, hr, runs_hindex, runs_hresetElem (hr := hr)]

theorem runs_hclear (k : Kind) (s : HV) : Runs (hclear k s) (Vtp.hclear k s) := by
  unfold hclear Vtp.hclear
  runs []

theorem runs_hcutList (s : HV) : Runs (hcutList s) (Vtp.hcutList s) := by
  unfold hcutList Vtp.hcutList
  runs []

theorem runs_hcutBytes (s : HV) : Runs (hcutBytes s) (Vtp.hcutBytes s) := by
  unfold hcutBytes Vtp.hcutBytes
  runs []

theorem runs_hresetList (S : Schema) {rec : HSubReset} {rec' : Vtp.HSubReset} (hr : ∀ a b, Runs (rec a b) (rec' a b)) (p : HV) (f : FieldDesc) : Runs (hresetList S rec p f) (Vtp.hresetList S rec' p f) := by
  unfold hresetList Vtp.hresetList
  runs [hr, runs_hgetSlot, runs_hlen, runs_hresetElems (hr := hr), runs_hclear]

theorem runs_hresetField (S : Schema) {rec : HSubReset} {rec' : Vtp.HSubReset} (hr : ∀ a b, Runs (rec a b) (rec' a b)) (p : HV) (f : FieldDesc) : Runs (hresetField S rec p f) (Vtp.hresetField S rec' p f) := by
  unfold hresetField Vtp.hresetField
  runs [hr, runs_hgetSlot, runs_hholds, runs_hmember, runs_hreturnWith (hr := hr), runs_hcutList, runs_hcutBytes, runs_hresetList (hr := hr)]

theorem runs_hresetFields (S : Schema) {rec : HSubReset} {rec' : Vtp.HSubReset} (hr : ∀ a b, Runs (rec a b) (rec' a b)) (p : HV) : ∀ x0, Runs (hresetFields S rec p x0) (Vtp.hresetFields S rec' p x0) := by
  intro x0
  induction x0 with
  | nil => unfold hresetFields Vtp.hresetFields; runs [hr, runs_hresetField (hr := hr)]
  | cons x l ih =>
    unfold hresetFields Vtp.hresetFields
    runs [ih, hr, runs_hresetField (hr := hr)]

theorem runs_hrestore (p : HV) : ∀ x0, Runs (hrestore p x0) (Vtp.hrestore p x0) := by
  intro x0
  induction x0 with
  | nil => unfold hrestore Vtp.hrestore; runs [runs_hsetSlot]
  | cons x l ih =>
    obtain ⟨_, _⟩ := x
    unfold hrestore Vtp.hrestore
    runs [ih, runs_hsetSlot]

theorem runs_hzero (S : Schema) (t : Nat) (p : HV) : Runs (hzero S t p) (Vtp.hzero S t p) := by
  unfold hzero Vtp.hzero
  runs []

theorem runs_hresetN (S : Schema) : ∀ x0 x1 x2, Runs (hresetN S x0 x1 x2) (Vtp.hresetN S x0 x1 x2) := by
  intro x0 x1 x2
  induction x0 generalizing x1 x2 with
  | zero => unfold hresetN Vtp.hresetN; runs []
  | succ n ih =>
    unfold hresetN Vtp.hresetN
    runs [ih, runs_hresetFields (hr := ih), runs_hrestore, runs_hzero]

theorem runs_hreadBytes (s : HV) : Runs (hreadBytes s) (Vtp.hreadBytes s) := by
  unfold hreadBytes Vtp.hreadBytes
  runs []

theorem runs_hruntimeClone (E : HKEnv) (t : Nat) (v : HV) : Runs (hruntimeClone E t v) (Vtp.hruntimeClone E t v) := by
  unfold hruntimeClone Vtp.hruntimeClone
  runs []

theorem runs_hcloneSingular (E : HKEnv) {rec : HSubClone} {rec' : Vtp.HSubClone} (hr : ∀ a b c, Runs (rec a b c) (rec' a b c)) (k : Kind) (t : Nat) (p : List Nat) (v : HV) : Runs (hcloneSingular E rec k t p v) (Vtp.hcloneSingular E rec' k t p v) := by
  unfold hcloneSingular Vtp.hcloneSingular
  runs [hr, runs_hcopyBytes, runs_hreadBytes, runs_hruntimeClone]

theorem runs_hsetIndex (s : HV) (i : Nat) (x : HV) : Runs (hsetIndex s i x) (Vtp.hsetIndex s i x) := by
  unfold hsetIndex Vtp.hsetIndex
  runs []

theorem runs_hmakeList (k : Kind) (n : Nat) : Runs (hmakeList k n) (Vtp.hmakeList k n) := by
  unfold hmakeList Vtp.hmakeList
  runs []

theorem runs_hcloneElems (E : HKEnv) {rec : HSubClone} {rec' : Vtp.HSubClone} (hr : ∀ a b c, Runs (rec a b c) (rec' a b c)) (k : Kind) (t : Nat) (p : List Nat) (s d : HV) : ∀ x0 x1, Runs (hcloneElems E rec k t p s d x0 x1) (Vtp.hcloneElems E rec' k t p s d x0 x1) := by
  intro x0 x1
  induction x1 generalizing x0 with
  | zero => unfold hcloneElems Vtp.hcloneElems; runs [hr, runs_hindex, runs_hcloneSingular (hr := hr), runs_hsetIndex]
  | succ n ih =>
    unfold hcloneElems Vtp.hcloneElems
    runs [ih, hr, runs_hindex, runs_hcloneSingular (hr := hr), runs_hsetIndex]

theorem runs_hcloneEntries (E : HKEnv) {rec : HSubClone} {rec' : Vtp.HSubClone} (hr : ∀ a b c, Runs (rec a b c) (rec' a b c)) (k : Kind) (t : Nat) (p : List Nat) (d : HV) : ∀ x0 x1, Runs (hcloneEntries E rec k t p d x0 x1) (Vtp.hcloneEntries E rec' k t p d x0 x1) := by
  intro x0 x1
  induction x1 generalizing x0 with
  | nil => unfold hcloneEntries Vtp.hcloneEntries; runs [hr, runs_hmapPut, runs_hcloneSingular (hr := hr)]
  | cons x l ih =>
    obtain ⟨_, _⟩ := x
    unfold hcloneEntries Vtp.hcloneEntries
    runs [ih, hr, runs_hmapPut, runs_hcloneSingular (hr := hr)]

theorem runs_hcloneMap (E : HKEnv) {rec : HSubClone} {rec' : Vtp.HSubClone} (hr : ∀ a b c, Runs (rec a b c) (rec' a b c)) (md : MapDesc) (p : List Nat) (v : HV) : Runs (hcloneMap E rec md p v) (Vtp.hcloneMap E rec' md p v) := by
  unfold hcloneMap Vtp.hcloneMap
  runs [hr, runs_hcloneEntries (hr := hr)]

theorem runs_hcloneList (E : HKEnv) {rec : HSubClone} {rec' : Vtp.HSubClone} (hr : ∀ a b c, Runs (rec a b c) (rec' a b c)) (f : FieldDesc) (p : List Nat) (v : HV) : Runs (hcloneList E rec f p v) (Vtp.hcloneList E rec' f p v) := by
  unfold hcloneList Vtp.hcloneList
  runs [hr, runs_hmakeList, runs_hcloneElems (hr := hr)]

theorem runs_hcloneContainer (E : HKEnv) {rec : HSubClone} {rec' : Vtp.HSubClone} (hr : ∀ a b c, Runs (rec a b c) (rec' a b c)) (f : FieldDesc) (p : List Nat) (v : HV) : Runs (hcloneContainer E rec f p v) (Vtp.hcloneContainer E rec' f p v) := by
  unfold hcloneContainer Vtp.hcloneContainer
  runs [hr, runs_hcloneMap (hr := hr), runs_hcloneList (hr := hr)]

theorem runs_hcloneBox (v : HV) : Runs (hcloneBox v) (Vtp.hcloneBox v) := by
  unfold hcloneBox Vtp.hcloneBox
  runs []

theorem runs_hcloneField (E : HKEnv) {rec : HSubClone} {rec' : Vtp.HSubClone} (hr : ∀ a b c, Runs (rec a b c) (rec' a b c)) (f : FieldDesc) (p : List Nat) (v : HV) : Runs (hcloneField E rec f p v) (Vtp.hcloneField E rec' f p v) := by
  unfold hcloneField Vtp.hcloneField
  runs [hr, runs_hcloneSingular (hr := hr), runs_hcloneContainer (hr := hr), runs_hcloneBox]

theorem runs_hcloneMember (E : HKEnv) {rec : HSubClone} {rec' : Vtp.HSubClone} (hr : ∀ a b c, Runs (rec a b c) (rec' a b c)) (f : FieldDesc) (p : List Nat) (v : HV) : Runs (hcloneMember E rec f p v) (Vtp.hcloneMember E rec' f p v) := by
  unfold hcloneMember Vtp.hcloneMember
  runs [hr, runs_hcloneSingular (hr := hr)]

theorem runs_hsetMember (r : HV) (n : Nat) (x : HV) : Runs (hsetMember r n x) (Vtp.hsetMember r n x) := by
  unfold hsetMember Vtp.hsetMember
  runs []

theorem runs_hcloneOneof (E : HKEnv) {rec : HSubClone} {rec' : Vtp.HSubClone} (hr : ∀ a b c, Runs (rec a b c) (rec' a b c)) (d : MsgDesc) (slot : Nat) (p : List Nat) (v : HV) : Runs (hcloneOneof E rec d slot p v) (Vtp.hcloneOneof E rec' d slot p v) := by
  unfold hcloneOneof Vtp.hcloneOneof
  runs [hr, runs_hcloneMember (hr := hr), runs_hsetMember]

theorem runs_hcloneFirst (E : HKEnv) {rec : HSubClone} {rec' : Vtp.HSubClone} (hr : ∀ a b c, Runs (rec a b c) (rec' a b c)) (d : MsgDesc) (p : List Nat) (m r : HV) : ∀ x0, Runs (hcloneFirst E rec d p m r x0) (Vtp.hcloneFirst E rec' d p m r x0) := by
  intro x0
  induction x0 with
  | nil => unfold hcloneFirst Vtp.hcloneFirst; runs [hr, runs_hgetSlot, runs_hsetSlot]
  | cons x l ih =>
    unfold hcloneFirst Vtp.hcloneFirst
    runs [ih, hr, runs_hgetSlot, runs_hsetSlot]

theorem runs_hassignTo (r : HV) (slot : Nat) : ∀ x0, Runs (hassignTo r slot x0) (Vtp.hassignTo r slot x0) := by
  intro x0
  cases x0 <;> (simp only [hassignTo, Vtp.hassignTo]; runs [runs_hsetSlot])

theorem runs_hcloneOut (E : HKEnv) {rec : HSubClone} {rec' : Vtp.HSubClone} (hr : ∀ a b c, Runs (rec a b c) (rec' a b c)) (d : MsgDesc) (f : FieldDesc) (p : List Nat) (v : HV) : Runs (hcloneOut E rec d f p v) (Vtp.hcloneOut E rec' d f p v) := by
  unfold hcloneOut Vtp.hcloneOut
  runs [hr, runs_hcloneField (hr := hr), runs_hcloneOneof (hr := hr)]

theorem runs_hcloneSecond (E : HKEnv) {rec : HSubClone} {rec' : Vtp.HSubClone} (hr : ∀ a b c, Runs (rec a b c) (rec' a b c)) (d : MsgDesc) (p : List Nat) (m r : HV) : ∀ x0, Runs (hcloneSecond E rec d p m r x0) (Vtp.hcloneSecond E rec' d p m r x0) := by
  intro x0
  induction x0 with
  | nil => unfold hcloneSecond Vtp.hcloneSecond; runs [hr, runs_hgetSlot, runs_hassignTo, runs_hcloneOut (hr := hr)]
  | cons x l ih =>
    unfold hcloneSecond Vtp.hcloneSecond
    runs [ih, hr, runs_hgetSlot, runs_hassignTo, runs_hcloneOut (hr := hr)]

theorem runs_hcloneAlloc (E : HKEnv) (p : List Nat) (t : Nat) : Runs (hcloneAlloc E p t) (Vtp.hcloneAlloc E p t) := by
  unfold hcloneAlloc Vtp.hcloneAlloc
  runs [runs_hnew, runs_poolGet]

theorem runs_hsetUnknown (r u : HV) : Runs (hsetUnknown r u) (Vtp.hsetUnknown r u) := by
  unfold hsetUnknown Vtp.hsetUnknown
  runs []

theorem runs_hgetUnknown (m : HV) : Runs (hgetUnknown m) (Vtp.hgetUnknown m) := by
  unfold hgetUnknown Vtp.hgetUnknown
  runs []

theorem runs_hmakeBytes (n : Nat) : Runs (hmakeBytes n) (Vtp.hmakeBytes n) := by
  unfold hmakeBytes Vtp.hmakeBytes
  runs []

theorem runs_hcopyInto (d : HV) (b : Bytes) : Runs (hcopyInto d b) (Vtp.hcopyInto d b) := by
  unfold hcopyInto Vtp.hcopyInto
  runs []

theorem runs_hcloneUnknown (E : HKEnv) (t : Nat) (m r : HV) : Runs (hcloneUnknown E t m r) (Vtp.hcloneUnknown E t m r) := by
  unfold hcloneUnknown Vtp.hcloneUnknown
  runs [runs_hreadBytes, runs_hsetUnknown, runs_hgetUnknown, runs_hmakeBytes, runs_hcopyInto]

theorem runs_hcloneBody (E : HKEnv) {rec : HSubClone} {rec' : Vtp.HSubClone} (hr : ∀ a b c, Runs (rec a b c) (rec' a b c)) : ∀ w x y, Runs (hcloneBody E rec w x y) (Vtp.hcloneBody E rec' w x y) := by
  intro w x y
  unfold hcloneBody Vtp.hcloneBody
  runs [hr, runs_hcloneFirst (hr := hr), runs_hcloneSecond (hr := hr), runs_hcloneAlloc, runs_hcloneUnknown]

theorem runs_hcloneN (E : HKEnv) : ∀ x0 x1 x2 x3, Runs (hcloneN E x0 x1 x2 x3) (Vtp.hcloneN E x0 x1 x2 x3) := by
  intro x0 x1 x2 x3
  induction x0 generalizing x1 x2 x3 with
  | zero => unfold hcloneN Vtp.hcloneN; runs []
  | succ n ih =>
    unfold hcloneN Vtp.hcloneN
    runs [ih, runs_hcloneBody (hr := ih)]

theorem bind_at {α β : Type} {x y : HM α} {f : α → HM β} {σ : HState} (h : x σ = y σ) : (x >>= f) σ = (y >>= f) σ := by
  show HM.bind x f σ = HM.bind y f σ
  simp only [HM.bind, h]

/-- The code of an operation, run alone from `σ`, does what the operation does, if the depth is enough. -/
theorem runs_op (S : Schema) (op : Op) (σ : HState) : ∃ n, (op.prog S n).run σ = op.run S σ := by
  cases op with
  | new t => exact ⟨0, Runs.bind (runs_hnew S t) (fun _ => Runs.pure _) σ⟩
  | get want t => exact ⟨0, Runs.bind (runs_poolGet S want t) (fun _ => Runs.pure _) σ⟩
  | put t a =>
    refine ⟨σ.fuel, (Runs.bind (runs_hreturnWith (fun t p => runs_hresetN S σ.fuel t p) t (.ptr a)) (fun _ => Runs.pure _) σ).trans ?_⟩
    exact bind_at (y := hreturnToVTPool S t (.ptr a)) rfl
  | reset t a =>
    refine ⟨σ.fuel, (Runs.bind (runs_hresetN S σ.fuel t (.ptr a)) (fun _ => Runs.pure _) σ).trans ?_⟩
    exact bind_at (y := hresetVT S t (.ptr a)) (by rw [hresetVT]; rfl)
  | decode E t b a => exact ⟨b.length + 1, Runs.bind (runs_hunmarshalN E _ 0 t b (.ptr a)) (fun _ => Runs.pure _) σ⟩
  | clone E t a =>
    refine ⟨σ.fuel, (Runs.bind (runs_hcloneN E σ.fuel [] t (.ptr a)) (fun _ => Runs.pure _) σ).trans ?_⟩
    exact bind_at (y := hcloneVT E t (.ptr a)) (by rw [hcloneVT])

/-- Running alone is one of the ways to go step by step. -/
theorem run_steps {α : Type} (p : Prog α) : ∀ σ, PSteps σ p (p.run σ).1 (.done (p.run σ).2) := by
  induction p with
  | done r => exact fun σ => .refl
  | read a k ih =>
    intro σ
    rw [Prog.run]
    cases h : σ.heap[a]? with
    | some c => exact .head (.read h) (ih c σ)
    | none => exact .head (.fault h) .refl
  | write a c k ih => exact fun σ => .head .write (ih _)
  | alloc c k ih => exact fun σ => .head .alloc (ih _ _)
  | get want t k ih =>
    intro σ
    rw [Prog.run]
    cases hq : σ.ask want with
    | none => exact .head .miss (ih _ _)
    | some a =>
      simp only
      split_ifs with h
      · exact .head (.got (by rintro rfl; cases hq) h) (ih _ _)
      · exact .head .miss (ih _ _)
  | put t a k ih => exact fun σ => .head .put (ih _)

end Vtp.Conc
