import Verif.Util.Str
/-!
# The generator of gRPC code for Go

`/repo/sdk/codegen/generators/golang/grpc/upstream_gen.go` and `generator.go`. Of the generated text, the model keeps the declarations:
their names, signatures, and what the bodies refer to. Comments, formatting, deprecation marks and annotations are left out.
-/
namespace Verif.GrpcGen

/-- `protogen.Method`: names in the proto file and in Go, streaming flags, Go identifiers of the messages. -/
structure Method where
  name : Str
  goName : Str
  cs : Bool
  ss : Bool
  input : Str
  output : Str
deriving DecidableEq, Repr

/-- `protogen.Service`. -/
structure Service where
  fullName : Str
  goName : Str
  methods : List Method
deriving DecidableEq, Repr

/-- `generator`, generator.go:28-31. -/
structure Gen where
  requireUnimplemented : Bool
  genericStreams : Bool
deriving DecidableEq, Repr

def sFullMethodName : Str := ['F', 'u', 'l', 'l', 'M', 'e', 't', 'h', 'o', 'd', 'N', 'a', 'm', 'e']
def sClient : Str := ['C', 'l', 'i', 'e', 'n', 't']
def sServer : Str := ['S', 'e', 'r', 'v', 'e', 'r']
def sNew : Str := ['N', 'e', 'w']
def sUnimplemented : Str := ['U', 'n', 'i', 'm', 'p', 'l', 'e', 'm', 'e', 'n', 't', 'e', 'd']
def sUnsafe : Str := ['U', 'n', 's', 'a', 'f', 'e']
def sRegister : Str := ['R', 'e', 'g', 'i', 's', 't', 'e', 'r']
def sServiceDesc : Str := ['S', 'e', 'r', 'v', 'i', 'c', 'e', 'D', 'e', 's', 'c']
def sHandler : Str := ['H', 'a', 'n', 'd', 'l', 'e', 'r']
def sMustEmbed : Str := ['m', 'u', 's', 't', 'E', 'm', 'b', 'e', 'd']
def sTestEmbedded : Str := ['t', 'e', 's', 't', 'E', 'm', 'b', 'e', 'd', 'd', 'e', 'd', 'B', 'y', 'V', 'a', 'l', 'u', 'e']

/-- `unexport`, upstream_gen.go:631. -/
def unexport : Str → Str
  | [] => []
  | c :: s => c.toLower :: s

/-- `formatFullMethodSymbol`, upstream_gen.go:48-50. -/
def fullMethodSymbol (s : Service) (m : Method) : Str := s.goName ++ '_' :: (m.goName ++ '_' :: sFullMethodName)

/-- The constants of `genFullMethods`, upstream_gen.go:52-65. -/
def fullMethods (s : Service) : List (Str × Str) :=
  s.methods.map fun m => (fullMethodSymbol s m, '/' :: (s.fullName ++ '/' :: m.name))

/-- Types in signatures. -/
inductive Ty
  | context
  | options
  | ptr (message : Str)
  | named (type : Str)
  | generic (type : Str) (params : List Str)
deriving DecidableEq, Repr

/-- A method signature: name, arguments, result (the error is left out). -/
structure Sig where
  name : Str
  args : List Ty
  result : Option Ty
deriving DecidableEq, Repr

def sBidi : Str := ['B', 'i', 'd', 'i', 'S', 't', 'r', 'e', 'a', 'm', 'i', 'n', 'g']
def sClientStreaming : Str := ['C', 'l', 'i', 'e', 'n', 't', 'S', 't', 'r', 'e', 'a', 'm', 'i', 'n', 'g']
def sServerStreaming : Str := ['S', 'e', 'r', 'v', 'e', 'r', 'S', 't', 'r', 'e', 'a', 'm', 'i', 'n', 'g']

/-- `clientStreamInterface` and `serverStreamInterface`, upstream_gen.go:342-351, 509-519; `side` is `Client` or `Server`. -/
def streamInterface (side : Str) (m : Method) : Ty :=
  if m.cs && m.ss then .generic (sBidi ++ side) [m.input, m.output]
  else if m.cs then .generic (sClientStreaming ++ side) [m.input, m.output]
  else .generic (sServerStreaming ++ side) [m.output]

/-- Name of the stream type of a method, e.g. upstream_gen.go:335. -/
def streamName (side : Str) (s : Service) (m : Method) : Str := s.goName ++ '_' :: (m.goName ++ side)

/-- `clientSignature`, upstream_gen.go:323-340. -/
def clientSig (g : Gen) (s : Service) (m : Method) : Sig :=
  ⟨m.goName, [.context] ++ (if !m.cs then [.ptr m.input] else []) ++ [.options],
    some (if !m.cs && !m.ss then .ptr m.output
      else if g.genericStreams then streamInterface sClient m else .named (streamName sClient s m))⟩

/-- `serverSignature`, upstream_gen.go:448-466. -/
def serverSig (g : Gen) (s : Service) (m : Method) : Sig :=
  ⟨m.goName,
    (if !m.cs && !m.ss then [.context] else []) ++ (if !m.cs then [.ptr m.input] else []) ++
      (if m.cs || m.ss then [if g.genericStreams then streamInterface sServer m else .named (streamName sServer s m)] else []),
    if !m.cs && !m.ss then some (.ptr m.output) else none⟩

/-- What the body of a client method does: `Invoke` with a constant, or `NewStream` with an element of a service description and a
constant, followed by sending the request at once. -/
inductive ClientBody
  | invoke (sym : Str)
  | stream (descVar : Str) (index : Nat) (sym : Str) (sendFirst : Bool)
deriving DecidableEq, Repr

structure ClientMethod where
  receiver : Str
  sig : Sig
  body : ClientBody
deriving DecidableEq, Repr

def serviceDescVar (s : Service) : Str := s.goName ++ '_' :: sServiceDesc

/-- The method itself in `genClientMethod`, upstream_gen.go:353-388. -/
def clientMethod (g : Gen) (s : Service) (m : Method) (index : Nat) : ClientMethod :=
  ⟨unexport s.goName ++ sClient, clientSig g s m,
    if !m.ss && !m.cs then .invoke (fullMethodSymbol s m) else .stream (serviceDescVar s) index (fullMethodSymbol s m) (!m.cs)⟩

/-- The loop over the methods of a service, upstream_gen.go:244-256, with `methodIndex` and `streamIndex`. -/
def clientMethodsFrom (g : Gen) (s : Service) : List Method → Nat → Nat → List ClientMethod
  | [], _, _ => []
  | m :: ms, methodIndex, streamIndex =>
    if !m.ss && !m.cs then clientMethod g s m methodIndex :: clientMethodsFrom g s ms (methodIndex + 1) streamIndex
    else clientMethod g s m streamIndex :: clientMethodsFrom g s ms methodIndex (streamIndex + 1)

def clientMethods (g : Gen) (s : Service) : List ClientMethod := clientMethodsFrom g s s.methods 0 0

/-- Operations of a stream. -/
inductive Op
  | send | recv | closeAndRecv | sendAndClose
deriving DecidableEq, Repr

/-- The interface of a client stream without generics, with the message of each operation, upstream_gen.go:400-416. -/
def clientOps (m : Method) : List (Op × Str) :=
  (if m.cs then [(.send, m.input)] else []) ++ (if m.ss then [(.recv, m.output)] else []) ++ (if !m.ss then [(.closeAndRecv, m.output)] else [])

/-- The interface of a server stream without generics, upstream_gen.go:571-587. -/
def serverOps (m : Method) : List (Op × Str) :=
  (if m.ss then [(.send, m.output)] else []) ++ (if !m.ss then [(.sendAndClose, m.output)] else []) ++ (if m.cs then [(.recv, m.input)] else [])

/-- `hname`, upstream_gen.go:523. -/
def handlerName (s : Service) (m : Method) : Str := '_' :: (s.goName ++ '_' :: (m.goName ++ '_' :: sHandler))

/-- A handler function: kind, whether it receives the request at once, and which method of which server type it calls. -/
structure Handler where
  name : Str
  unary : Bool
  recvFirst : Bool
  serverType : Str
  goName : Str
deriving DecidableEq, Repr

/-- The handler of `genServerMethod`, upstream_gen.go:521-560. -/
def handler (s : Service) (m : Method) : Handler :=
  ⟨handlerName s m, !m.cs && !m.ss, !m.cs, s.goName ++ sServer, m.goName⟩

structure StreamDesc where
  name : Str
  handler : Str
  ss : Bool
  cs : Bool
deriving DecidableEq, Repr

structure ServiceDesc where
  var : Str
  serviceName : Str
  handlerType : Str
  methods : List (Str × Str)
  streams : List StreamDesc
deriving DecidableEq, Repr

/-- `genServiceDesc`, upstream_gen.go:468-507, with the handler names collected at 110-116. -/
def serviceDesc (s : Service) : ServiceDesc :=
  let handlerNames := s.methods.map fun m => (handler s m).name
  let indexed := s.methods.zip handlerNames
  ⟨serviceDescVar s, s.fullName, s.goName ++ sServer,
    (indexed.filter fun x => !(x.1.cs || x.1.ss)).map fun x => (x.1.name, x.2),
    (indexed.filter fun x => !(!x.1.cs && !x.1.ss)).map fun x => ⟨x.1.name, x.2, x.1.ss, x.1.cs⟩⟩

def mustEmbed (s : Service) : Sig := ⟨sMustEmbed ++ sUnimplemented ++ s.goName ++ sServer, [], none⟩

/-- Methods of the server interface, upstream_gen.go:277-289. -/
def serverInterface (g : Gen) (s : Service) : List Sig :=
  s.methods.map (serverSig g s) ++ (if g.requireUnimplemented then [mustEmbed s] else [])

/-- Methods of the struct `Unimplemented…Server`, upstream_gen.go:90-105. -/
def unimplementedMethods (g : Gen) (s : Service) : List Sig :=
  s.methods.map (serverSig g s) ++ (if g.requireUnimplemented then [mustEmbed s] else []) ++ [⟨sTestEmbedded, [], none⟩]

/-- Methods of the interface `Unsafe…Server`, upstream_gen.go:299-301. -/
def unsafeMethods (s : Service) : List Sig := [mustEmbed s]

/-- Methods of the client interface, upstream_gen.go:220-228. -/
def clientInterface (g : Gen) (s : Service) : List Sig := s.methods.map (clientSig g s)

/-- Names declared for a stream at one side: the alias or interface, and the implementation if generics are not used,
upstream_gen.go:372, 390-418, 544, 561-589. -/
def streamDecls (g : Gen) (side : Str) (s : Service) (m : Method) : List Str :=
  if m.cs || m.ss then
    streamName side s m :: (if g.genericStreams then [] else [unexport s.goName ++ m.goName ++ side])
  else []

/-- Names declared at the top level for a service, in the order of `genService`, upstream_gen.go:201-321. -/
def decls (g : Gen) (s : Service) : List Str :=
  (fullMethods s).map (·.1) ++
  [s.goName ++ sClient, unexport (s.goName ++ sClient), sNew ++ (s.goName ++ sClient)] ++
  s.methods.flatMap (streamDecls g sClient s) ++
  [s.goName ++ sServer, sUnimplemented ++ (s.goName ++ sServer), sUnsafe ++ (s.goName ++ sServer), sRegister ++ (s.goName ++ sServer)] ++
  s.methods.flatMap (fun m => handlerName s m :: streamDecls g sServer s m) ++
  [serviceDescVar s]

/-- `protogen.File`; `requireUnimplemented` and `useGenericStreams` are the fields of the file option, if they are set. -/
structure File where
  generate : Bool
  filenamePrefix : Str
  services : List Service
  requireUnimplemented : Option Bool
  useGenericStreams : Option Bool
deriving DecidableEq, Repr

/-- `_grpc.pb.go` -/
def suffix : Str := ['_', 'g', 'r', 'p', 'c', '.', 'p', 'b', '.', 'g', 'o']

/-- `generateFile`, upstream_gen.go:131-136, 170-188. -/
def generateFile (g : Gen) (f : File) : Option (Str × Gen × List Service) :=
  if f.services = [] then none else some (f.filenamePrefix ++ suffix, g, f.services)

/-- `Generate`, generator.go:33-60. -/
def generate (files : List File) : List (Str × Gen × List Service) :=
  files.filterMap fun f =>
    if !f.generate then none
    else
      let g : Gen := ⟨false, true⟩
      let g := match f.requireUnimplemented with | some b => { g with requireUnimplemented := b } | none => g
      let g := match f.useGenericStreams with | some b => { g with genericStreams := b } | none => g
      generateFile g f

end Verif.GrpcGen
