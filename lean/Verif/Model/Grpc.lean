import Verif.Model.Config
/-!
# The generated gRPC stubs and handlers, `features/grpc/grpc.go`

The emitted Go code is represented by what it does with its connection or stream. Comments, interfaces for embedding and deprecation
notices are left out. Line numbers are those of `features/grpc/grpc.go`.
-/

namespace Vtp

/-- What is used of `*protogen.Method`. Messages are numbered. (`features/grpc/grpc.go:55-107`) -/
structure Method where
  /-- `Desc.Name()` -/
  name : Bytes
  /-- `GoName` -/
  goName : Bytes
  clientStreams : Bool
  serverStreams : Bool
  input : Nat
  output : Nat
  deriving DecidableEq, Repr

/-- What is used of `*protogen.Service`. (`features/grpc/grpc.go:55-107`) -/
structure Service where
  /-- `Desc.FullName()` -/
  fullName : Bytes
  /-- `GoName` -/
  goName : Bytes
  methods : List Method
  deriving DecidableEq, Repr

/-- `!method.Desc.IsStreamingServer() && !method.Desc.IsStreamingClient()`, e.g. line 98.
(`features/grpc/grpc.go:98`) -/
def Method.unary (m : Method) : Bool := !m.serverStreams && !m.clientStreams

/-- `"/%s/%s"`, lines 240 and 348. (`features/grpc/grpc.go:240,348`) -/
def fullMethod (s : Service) (m : Method) : Bytes := 47 :: (s.fullName ++ 47 :: m.name)

/-- A new message of type `t` (`Alloc`, `generator/generatedfile.go:54-65`): from its pool or not. -/
structure Fresh where
  t : Nat
  pooled : Bool
  deriving DecidableEq, Repr

/-- `GeneratedFile.Alloc`, `generator/generatedfile.go:54-65`. -/
def allocMsg (pool : Nat → Bool) (t : Nat) : Fresh := ⟨t, pool t⟩

/-- Statements of stubs and handlers which use the connection, the stream or the implementation. Each is followed by `return` if it gives an error.
(`features/grpc/grpc.go:238-418`) -/
inductive Act where
  /-- `c.cc.Invoke(ctx, path, in, out, opts...)` -/
  | invoke (path : Bytes) (out : Fresh)
  /-- `c.cc.NewStream(ctx, &S_ServiceDesc.Streams[index], path, opts...)` -/
  | newStream (index : Nat) (path : Bytes)
  /-- `x.SendMsg(v)`, `v` being the argument of type `t` -/
  | send (t : Nat)
  /-- `x.CloseSend()` -/
  | closeSend
  /-- `x.RecvMsg(m)` for a new `m` -/
  | recv (m : Fresh)
  /-- `dec(in)` for a new `in` -/
  | dec (m : Fresh)
  /-- `srv.(XServer).goName(…)`; `withMsg`: one of the arguments is the message read before -/
  | call (goName : Bytes) (withMsg : Bool)
  deriving DecidableEq, Repr

/-- Code generated for a client method: the stub and the methods of the stream it returns, by name.
(`features/grpc/grpc.go:238-318`) -/
structure ClientCode where
  stub : List Act
  send : Option (List Act)
  recv : Option (List Act)
  closeAndRecv : Option (List Act)
  deriving DecidableEq, Repr

/-- `genClientMethod`, lines 238-318. (`features/grpc/grpc.go:238-318`) -/
def genClientMethod (pool : Nat → Bool) (s : Service) (m : Method) (index : Nat) : ClientCode :=
  if m.unary then ⟨[.invoke (fullMethod s m) (allocMsg pool m.output)], none, none, none⟩
  else
    { stub := .newStream index (fullMethod s m) :: (if !m.clientStreams then [.send m.input, .closeSend] else [])
      send := if m.clientStreams then some [.send m.input] else none
      recv := if m.serverStreams then some [.recv (allocMsg pool m.output)] else none
      closeAndRecv := if !m.serverStreams then some [.closeSend, .recv (allocMsg pool m.output)] else none }

/-- The loop over the methods, lines 95-107. (`features/grpc/grpc.go:95-107`) -/
def genClients (pool : Nat → Bool) (s : Service) : Nat → Nat → List Method → List ClientCode
  | _, _, [] => []
  | methodIndex, streamIndex, m :: ms =>
    if m.unary then genClientMethod pool s m methodIndex :: genClients pool s (methodIndex + 1) streamIndex ms
    else genClientMethod pool s m streamIndex :: genClients pool s methodIndex (streamIndex + 1) ms

/-- Code generated for a server method: the handler and the methods of the stream given to the implementation.
(`features/grpc/grpc.go:336-418`) -/
structure ServerCode where
  handler : List Act
  send : Option (List Act)
  sendAndClose : Option (List Act)
  recv : Option (List Act)
  deriving DecidableEq, Repr

/-- `genServerMethod`, lines 336-418. With an interceptor the call is made by the function passed to it (lines 346-353), which is the same call.
(`features/grpc/grpc.go:336-418,346-353`) -/
def genServerMethod (pool : Nat → Bool) (m : Method) : ServerCode :=
  if m.unary then ⟨[.dec (allocMsg pool m.input), .call m.goName true], none, none, none⟩
  else
    { handler := if !m.clientStreams then [.recv (allocMsg pool m.input), .call m.goName true] else [.call m.goName false]
      send := if m.serverStreams then some [.send m.output] else none
      sendAndClose := if !m.serverStreams then some [.send m.output] else none
      recv := if m.clientStreams then some [.recv (allocMsg pool m.input)] else none }

/-- `"_%s_%s_Handler"`, line 338. (`features/grpc/grpc.go:338`) -/
def handlerName (s : Service) (m : Method) : Bytes :=
  95 :: (s.goName ++ 95 :: (m.goName ++ [95, 72, 97, 110, 100, 108, 101, 114]))

/-- `unexport`, line 422. `strings.ToLower` of a single byte, which is a letter in a `GoName`.
(`features/grpc/grpc.go:422`) -/
def unexport : Bytes → Bytes
  | [] => []
  | c :: s => (if 65 ≤ c.toNat ∧ c.toNat ≤ 90 then c + 32 else c) :: s

/-- `"Client"` (`features/grpc/grpc.go:68`) -/
def clientB : Bytes := [67, 108, 105, 101, 110, 116]

/-- `"Server"` (`features/grpc/grpc.go:124`) -/
def serverB : Bytes := [83, 101, 114, 118, 101, 114]

/-- The types declared for a method, lines 256, 274, 358 and 376: none for a unary one.
(`features/grpc/grpc.go:256,274,358,376`) -/
def methodTypes (s : Service) (m : Method) : List Bytes :=
  if m.unary then [] else
    [unexport s.goName ++ m.goName ++ clientB, s.goName ++ 95 :: (m.goName ++ clientB),
      unexport s.goName ++ m.goName ++ serverB, s.goName ++ 95 :: (m.goName ++ serverB)]

/-- `"Unimplemented"` (`features/grpc/grpc.go:141`) -/
def unimplementedB : Bytes := [85, 110, 105, 109, 112, 108, 101, 109, 101, 110, 116, 101, 100]

/-- `"Unsafe"` (`features/grpc/grpc.go:162`) -/
def unsafeB : Bytes := [85, 110, 115, 97, 102, 101]

/-- The types declared for a service, lines 68, 81, 124, 141 and 162, and those of its methods.
(`features/grpc/grpc.go:68,81,124,141,162`) -/
def serviceTypes (s : Service) : List Bytes :=
  [s.goName ++ clientB, unexport s.goName ++ clientB, s.goName ++ serverB, unimplementedB ++ (s.goName ++ serverB),
    unsafeB ++ (s.goName ++ serverB)] ++ (s.methods.map (methodTypes s)).flatten

/-- `grpc.MethodDesc`: the handler is referred to by its name. (`features/grpc/grpc.go:190-200`) -/
structure MethodDesc where
  name : Bytes
  handler : Bytes
  deriving DecidableEq, Repr

/-- `grpc.StreamDesc`. (`features/grpc/grpc.go:201-217`) -/
structure StreamDesc where
  name : Bytes
  handler : Bytes
  serverStreams : Bool
  clientStreams : Bool
  deriving DecidableEq, Repr

/-- `grpc.ServiceDesc`, lines 187-219. (`features/grpc/grpc.go:187-219`) -/
structure ServiceDesc where
  serviceName : Bytes
  methods : List MethodDesc
  streams : List StreamDesc
  deriving DecidableEq, Repr

/-- The entries of `Methods`, lines 190-200. `hs` are the names of the handlers from the current method on.
(`features/grpc/grpc.go:190-200`) -/
def genMethods : List Bytes → List Method → List MethodDesc
  | h :: hs, m :: ms => if m.clientStreams || m.serverStreams then genMethods hs ms else ⟨m.name, h⟩ :: genMethods hs ms
  | _, _ => []

/-- The entries of `Streams`, lines 201-217. (`features/grpc/grpc.go:201-217`) -/
def genStreams : List Bytes → List Method → List StreamDesc
  | h :: hs, m :: ms => if !m.clientStreams && !m.serverStreams then genStreams hs ms
    else ⟨m.name, h, m.serverStreams, m.clientStreams⟩ :: genStreams hs ms
  | _, _ => []

/-- What is generated for a service, lines 55-221: the client methods, the functions of the handlers with their names, and the descriptor.
(`features/grpc/grpc.go:55-221`) -/
structure ServiceCode where
  clients : List ClientCode
  handlers : List (Bytes × ServerCode)
  desc : ServiceDesc
  deriving DecidableEq, Repr

/-- `genService`, lines 55-221. (`features/grpc/grpc.go:55-221`) -/
def genService (pool : Nat → Bool) (s : Service) : ServiceCode :=
  let names := s.methods.map (handlerName s)
  { clients := genClients pool s 0 0 s.methods
    handlers := s.methods.map fun m => (handlerName s m, genServerMethod pool m)
    desc := ⟨s.fullName, genMethods names s.methods, genStreams names s.methods⟩ }

end Vtp
