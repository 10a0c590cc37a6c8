import Verif.Model.Grpc
/-!
# What gRPC does with generated stubs and descriptors

The parts of grpc-go around the generated code: a server looks for the handler of a request in the descriptors registered with it.
-/

namespace Vtp.Spec

/-- What a server found for a request. -/
inductive Found where
  | unary (handler : Bytes)
  | stream (d : StreamDesc)
  | nothing
  deriving DecidableEq, Repr

/-- The part before the last slash and the part after it. -/
def splitLast (p : Bytes) : Option (Bytes × Bytes) :=
  let r := p.reverse
  if 47 ∈ r then some ((r.drop (r.idxOf 47 + 1)).reverse, (r.take (r.idxOf 47)).reverse) else none

/-- `(*Server).handleStream` of grpc-go: the path without the leading slash is split at the last slash into service and method; unary methods are looked up before
streams. Later registrations of a service name do not happen (`RegisterService` refuses them). -/
def route (ds : List ServiceDesc) (path : Bytes) : Found :=
  match path with
  | 47 :: p => match splitLast p with
    | some (svc, m) => match ds.find? (fun d => d.serviceName = svc) with
      | some d => match d.methods.find? (fun x => x.name = m) with
        | some x => .unary x.handler
        | none => match d.streams.find? (fun x => x.name = m) with
          | some x => .stream x
          | none => .nothing
      | none => .nothing
    | none => .nothing
  | _ => .nothing

/-- What protoc guarantees: names are identifiers, so there is no slash in them; the methods of a service have different names. `GoName` keeps different names
different unless they differ only in case and underscores, in which case the generated code does not compile. -/
structure ServiceOK (s : Service) : Prop where
  noSlash : ∀ m ∈ s.methods, 47 ∉ m.name
  names : (s.methods.map (·.name)).Nodup
  goNames : (s.methods.map (·.goName)).Nodup

/-- Messages which one end of a stream sends. -/
def sends (acts : List Act) : List Nat := acts.filterMap fun
  | .send t => some t
  | _ => none

/-- Messages which one end of a stream receives. -/
def receives (acts : List Act) : List Nat := acts.filterMap fun
  | .recv m => some m.t
  | .dec m => some m.t
  | _ => none

end Vtp.Spec
