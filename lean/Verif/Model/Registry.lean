/-!
# The types that the printer knows

`RegisterTypesForFile` and `RegisterExtensionsForFile`, /repo/pkg/format/protoprint/internal/registry.go. With these types the unknown fields of
options are parsed (C77), and the values of extensions are found.
-/
namespace Verif.Registry

/-- An extension: its name, the message that it extends, and its number. -/
structure Ext where
  name : String
  extendee : String
  number : Nat
deriving DecidableEq, Repr

/-- A type as `protoregistry.Types` holds it. -/
inductive Ty where
  | message (name : String)
  | enum (name : String)
  | extension (e : Ext)
deriving DecidableEq, Repr

def Ty.name : Ty → String
  | .message n => n
  | .enum n => n
  | .extension e => e.name

/-- A `protoreflect.MessageDescriptor`: the full name, and what is declared in it. -/
inductive Msg where
  | mk (name : String) (extensions : List Ext) (enums : List String) (messages : List Msg)

def Msg.name : Msg → String
  | .mk n _ _ _ => n

/-- A `protoreflect.FileDescriptor`: what is declared in it, and its imports with `IsPublic`. Imports have no cycles. -/
inductive File where
  | mk (extensions : List Ext) (enums : List String) (messages : List Msg) (imports : List (Bool × File))

/-- A `protoregistry.Types` (external): the maps `typesByName` and `extensionsByMessage`. -/
structure Reg where
  byName : String → Option Ty
  byNumber : String → Nat → Option Ty

def Reg.empty : Reg := ⟨fun _ => none, fun _ _ => none⟩

/-- `register` of protoregistry (external): nothing changes if there is a type with this name. -/
def Reg.register (r : Reg) (t : Ty) : Reg :=
  match r.byName t.name with
  | some _ => r
  | none => { r with byName := fun n => if n = t.name then some t else r.byName n }

/-- `RegisterExtension` of protoregistry (external): nothing changes if there is an extension of the message with this number or a type with
this name. The error is ignored, registry.go:29. -/
def Reg.registerExtension (r : Reg) (e : Ext) : Reg :=
  match r.byNumber e.extendee e.number with
  | some _ => r
  | none =>
    match r.byName e.name with
    | some _ => r
    | none =>
      { r.register (.extension e) with
        byNumber := fun m n => if m = e.extendee ∧ n = e.number then some (.extension e) else r.byNumber m n }

/-- The first part of `registerTypes`, registry.go:28-38. -/
def registerOwn (r : Reg) (exts : List Ext) (enums messages : List String) (extensionsOnly : Bool) : Reg :=
  let r := exts.foldl Reg.registerExtension r
  if extensionsOnly then r
  else
    let r := messages.foldl (fun r n => r.register (.message n)) r
    enums.foldl (fun r n => r.register (.enum n)) r

mutual

/-- `registerTypes` of a message, registry.go:27-42. -/
def registerMsg (only : Bool) (r : Reg) : Msg → Reg
  | .mk _ exts enums msgs => registerMsgs only (registerOwn r exts enums (msgs.map Msg.name) only) msgs

/-- The last loop, registry.go:39-41. -/
def registerMsgs (only : Bool) (r : Reg) : List Msg → Reg
  | [] => r
  | m :: ms => registerMsgs only (registerMsg only r m) ms

end

mutual

/-- `registerTypesForFile`, registry.go:17-25. -/
def registerFile (only publicOnly : Bool) (r : Reg) : File → Reg
  | .mk exts enums msgs imports =>
    registerImports only publicOnly (registerMsgs only (registerOwn r exts enums (msgs.map Msg.name) only) msgs) imports

/-- The loop over the imports, registry.go:19-24. -/
def registerImports (only publicOnly : Bool) (r : Reg) : List (Bool × File) → Reg
  | [] => r
  | (isPublic, f) :: fs => registerImports only publicOnly (if isPublic || !publicOnly then registerFile only true r f else r) fs

end

/-- `RegisterTypesForFile`, registry.go:13-15, with an empty registry, print.go:353-354. -/
def registerTypesForFile (f : File) : Reg := registerFile false false .empty f

/-- `RegisterExtensionsForFile`, registry.go:9-11. -/
def registerExtensionsForFile (f : File) : Reg := registerFile true false .empty f

end Verif.Registry
