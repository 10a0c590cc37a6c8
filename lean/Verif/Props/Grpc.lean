import Verif.Spec.Grpc
import Mathlib.Data.List.Nodup
/-!
# The gRPC stubs: C66, C67, C68, C69
-/

namespace Vtp.Props
open Spec

/-- The entry of `Streams` one expects for a method. -/
def streamOf (s : Service) (m : Method) : StreamDesc := ⟨m.name, handlerName s m, m.serverStreams, m.clientStreams⟩

/-- `Streams` lists the streaming methods, in their order. -/
theorem streams_eq (s : Service) : ∀ ms : List Method, genStreams (ms.map (handlerName s)) ms = (ms.filter fun m => !m.unary).map (streamOf s)
  | [] => rfl
  | m :: ms => by
    have ih := streams_eq s ms
    cases hc : m.clientStreams <;> cases hs : m.serverStreams <;> simp [genStreams, Method.unary, streamOf, hc, hs, ih]

/-- `Methods` lists the others. -/
theorem methods_eq (s : Service) : ∀ ms : List Method, genMethods (ms.map (handlerName s)) ms = (ms.filter fun m => m.unary).map fun m => ⟨m.name, handlerName s m⟩
  | [] => rfl
  | m :: ms => by
    have ih := methods_eq s ms
    cases hc : m.clientStreams <;> cases hs : m.serverStreams <;> simp [genMethods, Method.unary, hc, hs, ih]

theorem clients_at (pool : Nat → Bool) (s : Service) : ∀ (ms : List Method) (a b i : Nat) (m : Method), ms[i]? = some m →
    (genClients pool s a b ms)[i]? = some (genClientMethod pool s m
      (if m.unary then a + ((ms.take i).filter fun m => m.unary).length else b + ((ms.take i).filter fun m => !m.unary).length))
  | [], _, _, _, _, h => by simp at h
  | x :: ms, a, b, 0, m, h => by
    simp only [List.getElem?_cons_zero, Option.some.injEq] at h
    subst h
    unfold genClients
    cases x.unary <;> simp
  | x :: ms, a, b, i + 1, m, h => by
    simp only [List.getElem?_cons_succ] at h
    unfold genClients
    cases hx : x.unary
    · simp only [Bool.false_eq_true, if_false, List.getElem?_cons_succ, clients_at pool s ms _ _ i m h, List.take_succ_cons, List.filter_cons, hx, Bool.not_false, if_true,
        List.length_cons]
      congr 3
      omega
    · simp only [if_true, List.getElem?_cons_succ, clients_at pool s ms _ _ i m h, List.take_succ_cons, List.filter_cons, hx, Bool.not_true, Bool.false_eq_true, if_false,
        List.length_cons]
      congr 3
      omega

/-- Position of an element among those that satisfy a predicate. -/
theorem filter_at {α : Type} (p : α → Bool) : ∀ (l : List α) (i : Nat) (x : α), l[i]? = some x → p x = true → (l.filter p)[((l.take i).filter p).length]? = some x
  | [], _, _, h, _ => by simp at h
  | y :: l, 0, x, h, hp => by
    simp only [List.getElem?_cons_zero, Option.some.injEq] at h
    subst h
    simp [hp]
  | y :: l, i + 1, x, h, hp => by
    have ih := filter_at p l i x (by simpa using h) hp
    cases hy : p y <;> simp [hy, ih]

/-- C66. The stub of a streaming method opens its stream with the method's own entry of `ServiceDesc.Streams`, name, handler and directions included; the index is in
range. Any mixture of unary and streaming methods. -/
theorem stream_index (pool : Nat → Bool) (s : Service) (i : Nat) (m : Method) (h : s.methods[i]? = some m) (hs : m.serverStreams = true ∨ m.clientStreams = true) :
    ∃ c k rest, (genService pool s).clients[i]? = some c ∧ c.stub = .newStream k (fullMethod s m) :: rest ∧
      (genService pool s).desc.streams[k]? = some ⟨m.name, handlerName s m, m.serverStreams, m.clientStreams⟩ := by
  have hu : m.unary = false := by
    unfold Method.unary
    rcases hs with h | h <;> simp [h]
  have hc := clients_at pool s s.methods 0 0 i m h
  simp only [hu, Bool.false_eq_true, if_false, Nat.zero_add] at hc
  obtain ⟨rest, hrest⟩ : ∃ rest, (genClientMethod pool s m ((s.methods.take i).filter fun m => !m.unary).length).stub =
      .newStream ((s.methods.take i).filter fun m => !m.unary).length (fullMethod s m) :: rest := by
    simp [genClientMethod, hu]
  refine ⟨_, _, rest, hc, hrest, ?_⟩
  simp only [genService]
  rw [streams_eq, List.getElem?_map, filter_at (fun m => !m.unary) s.methods i m h (by simp [hu])]
  rfl

theorem splitLast_path (a b : Bytes) (h : 47 ∉ b) : splitLast (a ++ 47 :: b) = some (a, b) := by
  have hr : (a ++ 47 :: b).reverse = b.reverse ++ 47 :: a.reverse := by simp
  have hi : (b.reverse ++ 47 :: a.reverse).idxOf 47 = b.reverse.length := by
    rw [List.idxOf_append_of_notMem (by simpa using h)]
    simp
  unfold splitLast
  simp only [hr, hi]
  rw [if_pos (by simp)]
  have hd : (b.reverse ++ 47 :: a.reverse).drop (b.reverse.length + 1) = a.reverse := by
    rw [List.drop_append, List.drop_of_length_le (by omega)]
    simp
  rw [hd]
  simp

theorem find_named {α : Type} (f : α → Bytes) : ∀ (l : List α) (x : α), x ∈ l → (l.map f).Nodup → l.find? (fun y => decide (f y = f x)) = some x
  | y :: l, x, h, hn => by
    simp only [List.map_cons, List.nodup_cons] at hn
    rcases List.mem_cons.1 h with rfl | h
    · simp
    · have : f y ≠ f x := fun e => hn.1 (e ▸ List.mem_map_of_mem h)
      rw [List.find?_cons, decide_eq_false this]
      exact find_named f l x h hn.2

/-- C67. A request sent by the stub of a method arrives at the handler of this method: with any services of different names registered, the path in the stub leads to
the method's entry, whose handler is the function generated for the method, which calls the implementation's method of this name, once, as its last action. -/
theorem request_routed (pool : Nat → Bool) (ss : List Service) (hn : (ss.map (·.fullName)).Nodup) {s : Service} (hs : s ∈ ss) (hok : ServiceOK s) {m : Method}
    (hm : m ∈ s.methods) :
    route (ss.map fun s => (genService pool s).desc) (fullMethod s m) = (if m.unary then .unary (handlerName s m) else .stream (streamOf s m)) ∧
    (genService pool s).handlers.find? (fun h => h.1 = handlerName s m) = some (handlerName s m, genServerMethod pool m) ∧
    ∃ before, (genServerMethod pool m).handler = before ++ [.call m.goName (!m.clientStreams)] ∧ ∀ n w, .call n w ∉ before := by
  have hfind : (ss.map fun s => (genService pool s).desc).find? (fun d => decide (d.serviceName = s.fullName)) = some (genService pool s).desc := by
    rw [List.find?_map]
    have : ((fun d : ServiceDesc => decide (d.serviceName = s.fullName)) ∘ fun s => (genService pool s).desc) = fun x : Service => decide (x.fullName = s.fullName) := rfl
    rw [this, find_named (·.fullName) ss s hs hn]
    rfl
  have sub : ∀ p : Method → Bool, ((s.methods.filter p).map (·.name)).Nodup := fun p => hok.names.sublist (List.filter_sublist.map _)
  refine ⟨?_, ?_, ?_⟩
  · unfold route fullMethod
    simp only
    rw [splitLast_path _ _ (hok.noSlash m hm)]
    simp only [hfind]
    have e1 : (genService pool s).desc.methods = (s.methods.filter fun m => m.unary).map fun m => ⟨m.name, handlerName s m⟩ := methods_eq s s.methods
    have e2 : (genService pool s).desc.streams = (s.methods.filter fun m => !m.unary).map (streamOf s) := streams_eq s s.methods
    rw [e1, e2]
    cases hu : m.unary
    · have hnone : ((s.methods.filter fun m => m.unary).map fun m => (⟨m.name, handlerName s m⟩ : MethodDesc)).find? (fun x => decide (x.name = m.name)) = none := by
        rw [List.find?_eq_none]
        intro x hx
        obtain ⟨y, hy, rfl⟩ := List.mem_map.1 hx
        simp only [List.mem_filter] at hy
        simp only [decide_eq_true_eq]
        intro he
        have := List.inj_on_of_nodup_map hok.names hy.1 hm he
        rw [this, hu] at hy
        simp at hy
      rw [hnone]
      simp only
      rw [List.find?_map]
      have : ((fun x : StreamDesc => decide (x.name = m.name)) ∘ streamOf s) = fun x : Method => decide (x.name = m.name) := rfl
      rw [this, find_named (·.name) _ m (by simp [hm, hu]) (sub _)]
      rfl
    · rw [List.find?_map]
      have : ((fun x : MethodDesc => decide (x.name = m.name)) ∘ fun m => (⟨m.name, handlerName s m⟩ : MethodDesc)) = fun x : Method => decide (x.name = m.name) := rfl
      rw [this, find_named (·.name) _ m (by simp [hm, hu]) (sub _)]
      rfl
  · simp only [genService]
    rw [List.find?_map]
    have hh : ∀ x y : Method, handlerName s x = handlerName s y ↔ x.goName = y.goName := by
      intro x y
      simp [handlerName]
    have : ((fun h : Bytes × ServerCode => decide (h.1 = handlerName s m)) ∘ fun m => (handlerName s m, genServerMethod pool m)) = fun x : Method => decide (x.goName = m.goName) := by
      funext x
      simp [hh]
    rw [this, find_named (·.goName) _ m hm hok.goNames]
    rfl
  · unfold genServerMethod Method.unary
    cases hc : m.clientStreams <;> cases hv : m.serverStreams
    · exact ⟨[_], rfl, by simp⟩
    · exact ⟨[_], rfl, by simp⟩
    · exact ⟨[], rfl, by simp⟩
    · exact ⟨[], rfl, by simp⟩

/-- C68. The two ends of a stream fit together. Requests: without client streaming the stub sends exactly one message of the input type and closes its side, and the
handler receives exactly one of this type and calls the implementation with it, and neither end can send or receive further ones; with client streaming nothing is sent or
received at first, and both ends have methods for messages of the input type. Responses: the client's stream has `Recv` exactly if the server's has `Send`, and
`CloseAndRecv` exactly if the server's has `SendAndClose`, for one message of the output type each. Received messages come from a pool exactly if their type is pooled. -/
theorem ends_agree (pool : Nat → Bool) (s : Service) (m : Method) (i : Nat) (h : m.unary = false) :
    let c := genClientMethod pool s m i
    let v := genServerMethod pool m
    (m.clientStreams = false → sends c.stub = [m.input] ∧ c.stub.getLast? = some .closeSend ∧ receives v.handler = [m.input] ∧
      v.handler.getLast? = some (.call m.goName true) ∧ c.send = none ∧ v.recv = none) ∧
    (m.clientStreams = true → sends c.stub = [] ∧ receives v.handler = [] ∧ c.send.map sends = some [m.input] ∧ v.recv.map receives = some [m.input]) ∧
    c.recv.map receives = v.send.map sends ∧ c.closeAndRecv.map receives = v.sendAndClose.map sends ∧
    c.recv.map receives = (if m.serverStreams then some [m.output] else none) ∧ c.closeAndRecv.map receives = (if m.serverStreams then none else some [m.output]) := by
  cases hc : m.clientStreams <;> cases hv : m.serverStreams <;> simp [Method.unary, hc, hv] at h <;>
    simp [genClientMethod, genServerMethod, Method.unary, hc, hv, sends, receives, allocMsg]

/-- C68, unary calls: one request of the input type, one response of the output type. -/
theorem ends_agree_unary (pool : Nat → Bool) (s : Service) (m : Method) (i : Nat) (h : m.unary = true) :
    (genClientMethod pool s m i).stub = [.invoke (fullMethod s m) ⟨m.output, pool m.output⟩] ∧
    (genServerMethod pool m).handler = [.dec ⟨m.input, pool m.input⟩, .call m.goName true] := by
  simp [genClientMethod, genServerMethod, h, allocMsg]

/-- C69. Inside of a service, methods with different Go names have different handlers. Missing: services of the same package (`handler_names_clash`). -/
theorem handler_names_partial (s : Service) (h : (s.methods.map (·.goName)).Nodup) : (s.methods.map (handlerName s)).Nodup := by
  rw [List.nodup_map_iff_inj_on (List.Nodup.of_map _ h)]
  intro x hx y hy e
  refine List.inj_on_of_nodup_map h hx hy ?_
  simpa [handlerName] using e

/-- C69 fails between services: the handler of `B_C` in service `A` and that of `C` in service `A_B` have the same name, so the generated file does not compile. -/
theorem handler_names_clash : ∃ (s s' : Service) (m m' : Method), ServiceOK s ∧ ServiceOK s' ∧ m ∈ s.methods ∧ m' ∈ s'.methods ∧ s.fullName ≠ s'.fullName ∧ s.goName ≠ s'.goName ∧
    handlerName s m = handlerName s' m' := by
  refine ⟨⟨[65], [65], [⟨[66, 95, 67], [66, 95, 67], false, false, 0, 0⟩]⟩, ⟨[65, 95, 66], [65, 95, 66], [⟨[67], [67], false, false, 0, 0⟩]⟩, _, _,
    ⟨?_, ?_, ?_⟩, ⟨?_, ?_, ?_⟩, List.mem_singleton_self _, List.mem_singleton_self _, ?_, ?_, ?_⟩ <;> decide

/-- C69 fails between services for types, too: `userWatchClient` is the stream of method `Watch` of service `User`, and the client of service `UserWatch`. -/
theorem type_names_clash : ∃ s s' : Service, ServiceOK s ∧ ServiceOK s' ∧ s.fullName ≠ s'.fullName ∧ s.goName ≠ s'.goName ∧ (serviceTypes s).Nodup ∧ (serviceTypes s').Nodup ∧
    ∃ t ∈ serviceTypes s, t ∈ serviceTypes s' := by
  refine ⟨⟨[85, 115, 101, 114], [85, 115, 101, 114], [⟨[87, 97, 116, 99, 104], [87, 97, 116, 99, 104], false, true, 0, 0⟩]⟩,
    ⟨[85, 115, 101, 114, 87, 97, 116, 99, 104], [85, 115, 101, 114, 87, 97, 116, 99, 104], [⟨[67], [67], false, false, 0, 0⟩]⟩,
    ⟨?_, ?_, ?_⟩, ⟨?_, ?_, ?_⟩, ?_, ?_, ?_, ?_, ?_⟩ <;> decide

theorem no_period (p m : Bytes) (c : UInt8) (hp : p ≠ []) (hc : c ∉ p) : ∀ (n : Nat) (g : Bytes), g.length ≤ n → p ++ g ≠ g ++ c :: m
  | 0, g, h, e => by
    have hg : g = [] := List.length_eq_zero_iff.1 (by omega)
    rw [hg] at e
    simp only [List.append_nil, List.nil_append] at e
    exact hc (e ▸ List.mem_cons_self)
  | n + 1, g, h, e => by
    rcases Nat.lt_or_ge g.length p.length with hl | hl
    · have e' := congrArg (fun l => l[g.length]?) e
      simp only [List.getElem?_append_left hl, List.getElem?_append_right (Nat.le_refl _), Nat.sub_self, List.getElem?_cons_zero] at e'
      exact hc (List.mem_of_getElem? e')
    · obtain ⟨g', rfl⟩ : p <+: g := by
        refine List.prefix_of_prefix_length_le (l₃ := p ++ g) (List.prefix_append _ _) ?_ hl
        rw [e]
        exact List.prefix_append _ _
      have hpl : 0 < p.length := List.length_pos_of_ne_nil hp
      refine no_period p m c hp hc n g' (by simp at h; omega) ?_
      simpa using e

/-- What `protogen` guarantees of `GoName`s: they begin with a capital letter. -/
def Capital : Bytes → Prop
  | [] => False
  | c :: _ => 65 ≤ c.toNat ∧ c.toNat ≤ 90

instance : DecidablePred Capital
  | [] => inferInstanceAs (Decidable False)
  | c :: _ => inferInstanceAs (Decidable (65 ≤ c.toNat ∧ c.toNat ≤ 90))

theorem unexport_ne (a b x y : Bytes) (ha : Capital a) (hb : Capital b) : unexport a ++ x ≠ b ++ y := by
  intro e
  cases a with
  | nil => exact ha
  | cons c a =>
    cases b with
    | nil => exact hb
    | cons d b =>
      simp only [unexport, List.cons_append, List.cons.injEq] at e
      have hc : 65 ≤ c.toNat ∧ c.toNat ≤ 90 := ha
      have hd : 65 ≤ d.toNat ∧ d.toNat ≤ 90 := hb
      rw [if_pos hc] at e
      have := congrArg UInt8.toNat e.1
      rw [UInt8.toNat_add] at this
      have h32 : (32 : UInt8).toNat = 32 := rfl
      omega

theorem client_ne_server (a b : Bytes) : a ++ clientB ≠ b ++ serverB := by
  intro e
  have := congrArg (fun l => l.reverse.head?) e
  simp [clientB, serverB] at this

/-- C69. All types declared for a service are different. Missing: services of the same package (`type_names_clash`). -/
theorem type_names_partial (s : Service) (hs : Capital s.goName) (hm : ∀ m ∈ s.methods, Capital m.goName) (hn : (s.methods.map (·.goName)).Nodup) : (serviceTypes s).Nodup := by
  have hne : ∀ m ∈ s.methods, m.goName ≠ [] := fun m h e => by
    have := hm m h
    rw [e] at this
    exact this
  have capU : ∀ x : Bytes, Capital (unimplementedB ++ x) := fun x => by simp [unimplementedB, Capital]
  have capV : ∀ x : Bytes, Capital (unsafeB ++ x) := fun x => by simp [unsafeB, Capital]
  have capG : ∀ x : Bytes, Capital (s.goName ++ x) := fun x => by
    cases h : s.goName with
    | nil => rw [h] at hs; exact hs.elim
    | cons c a => rw [h] at hs; exact hs
  have un : ∀ x b : Bytes, Capital b → unexport s.goName ++ x ≠ b := fun x b hb => by
    have := unexport_ne s.goName b x [] hs hb
    simpa using this
  have un' : ∀ x b : Bytes, Capital b → b ≠ unexport s.goName ++ x := fun x b hb e => un x b hb e.symm
  have perU : ∀ x y : Bytes, unimplementedB ++ (s.goName ++ x) ≠ s.goName ++ 95 :: (y ++ x) := fun x y e =>
    no_period unimplementedB y 95 (by decide) (by decide) _ s.goName (Nat.le_refl _) (List.append_cancel_right (bs := x) (by simpa using e))
  have perV : ∀ x y : Bytes, unsafeB ++ (s.goName ++ x) ≠ s.goName ++ 95 :: (y ++ x) := fun x y e =>
    no_period unsafeB y 95 (by decide) (by decide) _ s.goName (Nat.le_refl _) (List.append_cancel_right (bs := x) (by simpa using e))
  have cs : ∀ a b : Bytes, a ++ clientB ≠ b ++ serverB := client_ne_server
  have forms : ∀ m ∈ s.methods, ∀ t ∈ methodTypes s m, t = unexport s.goName ++ m.goName ++ clientB ∨ t = s.goName ++ 95 :: (m.goName ++ clientB) ∨
      t = unexport s.goName ++ m.goName ++ serverB ∨ t = s.goName ++ 95 :: (m.goName ++ serverB) := by
    intro m _ t ht
    unfold methodTypes at ht
    split at ht
    · simp at ht
    · simpa using ht
  have r1 : ∀ y x : Bytes, s.goName ++ 95 :: (y ++ x) = (s.goName ++ 95 :: y) ++ x := fun y x => by simp
  have r2 : ∀ p x : Bytes, p ++ (s.goName ++ x) = (p ++ s.goName) ++ x := fun p x => by simp
  unfold serviceTypes
  rw [List.nodup_append]
  refine ⟨?_, ?_, ?_⟩
  · have uv : ∀ a b : Bytes, unimplementedB ++ a ≠ unsafeB ++ b := fun a b e => by simp [unimplementedB, unsafeB] at e
    have gu : s.goName ++ serverB ≠ unimplementedB ++ (s.goName ++ serverB) := fun e => by
      have := congrArg List.length e
      simp only [unimplementedB, List.length_append, List.length_cons, List.length_nil] at this
      omega
    have gv : s.goName ++ serverB ≠ unsafeB ++ (s.goName ++ serverB) := fun e => by
      have := congrArg List.length e
      simp only [unsafeB, List.length_append, List.length_cons, List.length_nil] at this
      omega
    have cu : s.goName ++ clientB ≠ unimplementedB ++ (s.goName ++ serverB) := by rw [r2]; exact cs _ _
    have cv : s.goName ++ clientB ≠ unsafeB ++ (s.goName ++ serverB) := by rw [r2]; exact cs _ _
    simp only [List.nodup_cons, List.mem_cons, List.not_mem_nil, or_false, not_or, List.nodup_nil, not_false_eq_true, and_true]
    exact ⟨⟨un' _ _ (capG _), cs _ _, cu, cv⟩, ⟨un _ _ (capG _), un _ _ (capU _), un _ _ (capV _)⟩, ⟨gu, gv⟩, uv _ _⟩
  · rw [List.nodup_flatten]
    refine ⟨?_, ?_⟩
    · intro l hl
      obtain ⟨m, hm', rfl⟩ := List.mem_map.1 hl
      unfold methodTypes
      split
      · exact List.nodup_nil
      · simp only [List.nodup_cons, List.mem_cons, List.not_mem_nil, or_false, not_or, List.nodup_nil, not_false_eq_true, and_true, List.append_assoc]
        refine ⟨⟨un _ _ (capG _), ?_, un _ _ (capG _)⟩, ⟨un' _ _ (capG _), ?_⟩, un _ _ (capG _)⟩
        · rw [← List.append_assoc, ← List.append_assoc]; exact cs _ _
        · rw [r1, r1]; exact cs _ _
    · rw [List.pairwise_map]
      have hp : s.methods.Pairwise fun a b => a.goName ≠ b.goName := List.pairwise_map.1 hn
      refine hp.imp_of_mem ?_
      intro x y hx hy hxy t h1 h2
      have c1 : ∀ a z : Bytes, a ++ x.goName ++ z ≠ a ++ y.goName ++ z := fun a z e => hxy (by simpa using e)
      have c2 : ∀ z : Bytes, s.goName ++ 95 :: (x.goName ++ z) ≠ s.goName ++ 95 :: (y.goName ++ z) := fun z e => hxy (by simpa using e)
      rcases forms x hx t h1 with rfl | rfl | rfl | rfl <;> rcases forms y hy _ h2 with e | e | e | e
      · exact c1 _ _ e
      · rw [List.append_assoc] at e; exact un _ _ (capG _) e
      · exact cs _ _ e
      · rw [List.append_assoc] at e; exact un _ _ (capG _) e
      · rw [List.append_assoc] at e; exact un' _ _ (capG _) e
      · exact c2 _ e
      · rw [List.append_assoc] at e; exact un' _ _ (capG _) e
      · rw [r1, r1] at e; exact cs _ _ e
      · exact cs _ _ e.symm
      · rw [List.append_assoc] at e; exact un _ _ (capG _) e
      · exact c1 _ _ e
      · rw [List.append_assoc] at e; exact un _ _ (capG _) e
      · rw [List.append_assoc] at e; exact un' _ _ (capG _) e
      · rw [r1, r1] at e; exact cs _ _ e.symm
      · rw [List.append_assoc] at e; exact un' _ _ (capG _) e
      · exact c2 _ e
  · intro a ha b hb e
    obtain ⟨l, hl, hbl⟩ := List.mem_flatten.1 hb
    obtain ⟨m, hm', rfl⟩ := List.mem_map.1 hl
    subst e
    have hpos : 0 < m.goName.length := List.length_pos_of_ne_nil (hne m hm')
    simp only [List.mem_cons, List.not_mem_nil, or_false] at ha
    rcases forms m hm' a hbl with rfl | rfl | rfl | rfl
    all_goals rcases ha with e | e | e | e | e
    all_goals first
      | (rw [List.append_assoc] at e; exact un _ _ (capG _) e)
      | (rw [List.append_assoc] at e; exact un _ _ (capU _) e)
      | (rw [List.append_assoc] at e; exact un _ _ (capV _) e)
      | exact un' _ _ (capG _) e
      | exact cs _ _ e
      | exact cs _ _ e.symm
      | (rw [r1] at e; exact cs _ _ e)
      | (rw [r1] at e; exact cs _ _ e.symm)
      | (rw [r1, r2] at e; exact cs _ _ e)
      | exact perU _ _ e.symm
      | exact perV _ _ e.symm
      | (have := congrArg List.length e; simp only [List.length_append, List.length_cons] at this; omega)

/-- A service with a unary method between streaming ones, and another one. -/
def chat : Service := ⟨[112, 46, 67], [67], [⟨[65], [65], false, true, 0, 1⟩, ⟨[66], [66], false, false, 1, 2⟩, ⟨[68], [68], true, true, 2, 0⟩]⟩
def echo : Service := ⟨[112, 46, 69], [69], [⟨[65], [65], false, false, 0, 1⟩]⟩

theorem chat_ok : ServiceOK chat := ⟨by decide, by decide, by decide⟩

example : ∃ c rest, (genService (fun _ => false) chat).clients[2]? = some c ∧ c.stub = .newStream 1 [47, 112, 46, 67, 47, 68] :: rest := ⟨_, _, rfl, rfl⟩
example := stream_index (fun _ => false) chat 2 _ rfl (.inl rfl)
example := request_routed (fun t => t == 1) [echo, chat] (by decide) (s := chat) (by decide) chat_ok (m := ⟨[66], [66], false, false, 1, 2⟩) (by decide)
example := ends_agree (fun _ => true) chat ⟨[65], [65], false, true, 0, 1⟩ 0 rfl
example := ends_agree_unary (fun _ => true) echo ⟨[65], [65], false, false, 0, 1⟩ 0 rfl
example := handler_names_partial chat chat_ok.goNames
example := type_names_partial chat (by decide) (by decide) chat_ok.goNames

end Vtp.Props
