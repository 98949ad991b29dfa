import Verif.Model.GrpcGen
/-!
# What generated gRPC code does when it is called

A small semantics of the generated declarations: what a call of a client method leads to at a server that runs the same package.
-/
namespace Verif.GrpcGen

/-- A Go package made of the code of some services. -/
structure Program where
  clients : List ClientMethod
  consts : List (Str × Str)
  descs : List ServiceDesc
  handlers : List Handler

def program (g : Gen) (services : List Service) : Program where
  clients := services.flatMap (clientMethods g)
  consts := services.flatMap fullMethods
  descs := services.map serviceDesc
  handlers := services.flatMap fun s => s.methods.map (handler s)

/-- What happens to a call: which method of which server type is called, which streaming mode either side uses, and whether the request
is sent and received at once. -/
structure Outcome where
  serverType : Str
  goName : Str
  clientMode : Bool × Bool
  serverMode : Bool × Bool
  sendFirst : Bool
  recvFirst : Bool

/-- The server takes what stands behind the last slash as the method. -/
def Routes (path service method : Str) : Prop := path = '/' :: (service ++ '/' :: method) ∧ '/' ∉ method

/-- The handler that a server runs for a path, and the streaming mode it uses. The server that is registered has the type that the
description names, so that the handler must expect it. -/
def Serves (p : Program) (path : Str) (h : Handler) (mode : Bool × Bool) : Prop :=
  ∃ svc meth, Routes path svc meth ∧ ∃ d ∈ p.descs, d.serviceName = svc ∧ h ∈ p.handlers ∧ h.serverType = d.handlerType ∧
    (((meth, h.name) ∈ d.methods ∧ h.unary = true ∧ mode = (false, false)) ∨
      ∃ sd ∈ d.streams, sd.name = meth ∧ sd.handler = h.name ∧ h.unary = false ∧ mode = (sd.cs, sd.ss))

/-- The mode and path with which a client method opens a call, and whether it sends the request at once. -/
def Opens (p : Program) : ClientBody → Str → Bool × Bool → Bool → Prop
  | .invoke sym, path, mode, first => (sym, path) ∈ p.consts ∧ mode = (false, false) ∧ first = true
  | .stream dv i sym f, path, mode, first =>
    (sym, path) ∈ p.consts ∧ (∃ d ∈ p.descs, d.var = dv ∧ ∃ sd, d.streams[i]? = some sd ∧ mode = (sd.cs, sd.ss)) ∧ first = f

/-- What a call of the method `name` of the client type `receiver` may lead to. -/
def Calls (p : Program) (receiver name : Str) (o : Outcome) : Prop :=
  ∃ c ∈ p.clients, c.receiver = receiver ∧ c.sig.name = name ∧ ∃ path, Opens p c.body path o.clientMode o.sendFirst ∧
    ∃ h, Serves p path h o.serverMode ∧ o.serverType = h.serverType ∧ o.goName = h.goName ∧ o.recvFirst = h.recvFirst

/-- The names of a file are as the compiler of proto files guarantees: full names of services and names of methods in a service are
distinct, and no name has a slash or is empty. -/
structure Named (services : List Service) : Prop where
  full : (services.map (·.fullName)).Nodup
  meth : ∀ s ∈ services, (s.methods.map (·.name)).Nodup
  slash : ∀ s ∈ services, ∀ m ∈ s.methods, '/' ∉ m.name
  go : ∀ s ∈ services, s.goName ≠ []

/-- A Go package declares no name twice. -/
def Compiles (g : Gen) (services : List Service) : Prop := (services.flatMap (decls g)).Nodup

/-- A name that generated names cannot be confused with. -/
structure Simple (s : Service) : Prop where
  head : ∃ c t, s.goName = c :: t ∧ c.toNat ∈ List.range' 65 26
  underscore : '_' ∉ s.goName
  noNew : ¬ ['N', 'e', 'w'] <+: s.goName
  noUnimplemented : ¬ ['U', 'n', 'i', 'm', 'p', 'l', 'e', 'm', 'e', 'n', 't', 'e', 'd'] <+: s.goName
  noUnsafe : ¬ ['U', 'n', 's', 'a', 'f', 'e'] <+: s.goName
  noRegister : ¬ ['R', 'e', 'g', 'i', 's', 't', 'e', 'r'] <+: s.goName
  methods : ∀ m ∈ s.methods, '_' ∉ m.goName
  distinct : (s.methods.map (·.goName)).Nodup

/-- The operations of the generic stream types of `google.golang.org/grpc`, with their messages. -/
inductive GenericOps : Ty → List (Op × Str) → Prop
  | bidiClient (i o) : GenericOps (.generic ['B', 'i', 'd', 'i', 'S', 't', 'r', 'e', 'a', 'm', 'i', 'n', 'g', 'C', 'l', 'i', 'e', 'n', 't'] [i, o])
      [(.send, i), (.recv, o)]
  | clientClient (i o) : GenericOps (.generic ['C', 'l', 'i', 'e', 'n', 't', 'S', 't', 'r', 'e', 'a', 'm', 'i', 'n', 'g', 'C', 'l', 'i', 'e', 'n', 't'] [i, o])
      [(.send, i), (.closeAndRecv, o)]
  | serverClient (o) : GenericOps (.generic ['S', 'e', 'r', 'v', 'e', 'r', 'S', 't', 'r', 'e', 'a', 'm', 'i', 'n', 'g', 'C', 'l', 'i', 'e', 'n', 't'] [o])
      [(.recv, o)]
  | bidiServer (i o) : GenericOps (.generic ['B', 'i', 'd', 'i', 'S', 't', 'r', 'e', 'a', 'm', 'i', 'n', 'g', 'S', 'e', 'r', 'v', 'e', 'r'] [i, o])
      [(.send, o), (.recv, i)]
  | clientServer (i o) : GenericOps (.generic ['C', 'l', 'i', 'e', 'n', 't', 'S', 't', 'r', 'e', 'a', 'm', 'i', 'n', 'g', 'S', 'e', 'r', 'v', 'e', 'r'] [i, o])
      [(.sendAndClose, o), (.recv, i)]
  | serverServer (o) : GenericOps (.generic ['S', 'e', 'r', 'v', 'e', 'r', 'S', 't', 'r', 'e', 'a', 'm', 'i', 'n', 'g', 'S', 'e', 'r', 'v', 'e', 'r'] [o])
      [(.send, o)]

end Verif.GrpcGen
