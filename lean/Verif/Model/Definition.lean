import Verif.Model.Hover
import Verif.Model.PathSearch
import Verif.Model.References
import Verif.Util.Assoc
/-!
# Go to definition

`findDefinition` of `/repo/pkg/lsp/search.go:853-904`, `FindDefinitionForTypeDescriptor` of `/repo/pkg/lsp/cache.go:298-322`,
`findResultByPathLocked` and `findResultOrPartialResultByPathLocked`, cache.go:199-215, and `Definition` of `/repo/pkg/lsp/server.go:291-311`.
Descriptors (`D`) are those of `Model/PathSearch.lean`; their protos (`P`) are pointers. Ranges are those of the nodes, `toRange` is in
`Model/Outline.lean`.
-/
namespace Verif.Definition
open Verif.PathSearch (Schema Sort' Name)

/-- What descriptors are asked for besides the methods in `Schema`. -/
structure Descs (D P : Type) where
  schema : Schema D
  /-- `AsProto()` if the descriptor is a `protoutil.DescriptorProtoWrapper`. -/
  proto : D → Option P
  /-- `ParentFile().Path()`; `none` if the file is nil. -/
  parent : D → Option Str

/-- A node of a declaration: the range of its name, or a `NoSourceNode`. -/
inductive NameNode (ρ : Type)
  | node (range : ρ)
  | noSource
deriving DecidableEq, Repr

/-- `linker.Result`. -/
structure Res (D P ρ : Type) where
  /-- `MessageNode(p).GetName()`, `EnumNode(p).GetName()` and so on, for the sort of the declaration; `none`: the result has no such
  node for the proto, and the type assertion in the method panics. -/
  name : Sort' → P → Option (NameNode ρ)
  /-- `FindDescriptorByName`; `none` is nil. -/
  byName : Name → Option D
  /-- `FileNode()`. -/
  file : NameNode ρ
  /-- The name of the file in positions of its nodes. -/
  filename : Str

/-- Results, errors and panics. -/
inductive Out (α : Type)
  | ok (a : α)
  | error
  | panic
deriving DecidableEq, Repr

variable {D P ρ : Type}

/-- The end of `findDefinition`, search.go:897-903, with a node. -/
def reference (R : Res D P ρ) : NameNode ρ → Out (Str × ρ)
  | .node r => .ok (R.filename, r)
  | .noSource => .error

/-- The node of a proto. -/
def byProto (R : Res D P ρ) (k : Sort') : Option P → Out (Str × ρ)
  | none => .panic
  | some p =>
    match R.name k p with
    | none => .panic
    | some n => reference R n

/-- The node of the descriptor with the same name in the result, for descriptors that are not wrappers, search.go:872, 890. -/
def byFullName (I : Descs D P) (R : Res D P ρ) (k : Sort') (d : D) : Out (Str × ρ) :=
  match R.byName (I.schema.fullName d) with
  | none => .panic
  | some d' => byProto R k (I.proto d')

/-- `findDefinition`, search.go:853-904. -/
def findDefinition (I : Descs D P) (R : Res D P ρ) (d : D) : Out (Str × ρ) :=
  match I.schema.sort d with
  | .message => byProto R .message (I.proto d)
  | .enum => byProto R .enum (I.proto d)
  | .service => byProto R .service (I.proto d)
  | .method => byProto R .method (I.proto d)
  | .oneof => byProto R .oneof (I.proto d)
  | .enumValue =>
    match I.proto d with
    | some p => byProto R .enumValue (some p)
    | none => byFullName I R .enumValue d
  | .file => reference R R.file
  | s =>
    if I.schema.isExtension d = false then
      match I.proto d with
      | some p => byProto R .field (some p)
      | none => byFullName I R .field d
    else
      match I.proto d with
      | some p => byProto R .field (some p)
      | none => if s = .extension then byProto R .field (I.proto (I.schema.descriptor d)) else .error

/-- The parts of the cache: `c.partiallyLinkedResults`, `c.results` (in which `none` is a placeholder) and `PathToURI` (C10). -/
structure Cache (D P ρ υ : Type) where
  partials : List (Str × Res D P ρ)
  results : List (Str × Option (Res D P ρ))
  uri : Str → Option υ

variable {υ : Type}

/-- `findResultByPathLocked`, cache.go:199-208: a placeholder is not a `linker.Result`, and the type assertion panics. -/
def findResult (c : Cache D P ρ υ) (path : Str) : Out (Res D P ρ) :=
  match c.results.find? fun f => decide (f.1 = path) with
  | none => .error
  | some (_, none) => .panic
  | some (_, some r) => .ok r

/-- `findResultOrPartialResultByPathLocked`, cache.go:210-215. -/
def findResultOrPartial (c : Cache D P ρ υ) (path : Str) : Out (Res D P ρ) :=
  match Assoc.get c.partials path with
  | some r => .ok r
  | none => findResult c path

/-- The URI of the file of a reference, cache.go:314-321. -/
def location (c : Cache D P ρ υ) : Out (Str × ρ) → Out (υ × ρ)
  | .panic => .panic
  | .error => .error
  | .ok (f, r) =>
    match c.uri f with
    | none => .error
    | some u => .ok (u, r)

/-- `FindDefinitionForTypeDescriptor`, cache.go:298-322. -/
def definitionOf (I : Descs D P) (c : Cache D P ρ υ) (d : D) : Out (υ × ρ) :=
  match I.parent d with
  | none => .error
  | some path =>
    match findResultOrPartial c path with
    | .panic => .panic
    | .error => .error
    | .ok R => location c (findDefinition I R d)

/-- `TryFindPackageReferences`, packages.go:12-66, for the token at the cursor; nil is the empty list. `files` are the files with a package
of that name, or (`true`) below it; `rng` is the range of the first parts of the name in a package statement. -/
def packageLocations (tok : Nat) (decls : List Hover.Decl) (files : Str → Bool → List References.File) (rng : Nat → Nat → ρ) : List (Str × ρ) :=
  match Hover.refsPackage tok decls with
  | none => []
  | some (name, below) => (References.packageRefs (files name below) name below).map fun l => (l.uri, rng l.decl l.parts)

/-- `Definition`, server.go:291-311. `at'` is what `FindTypeDescriptorAtLocation` finds (C72), `packages` what `TryFindPackageReferences`
returns; the lock is not held between the two lookups, `c` is the cache at the second one. -/
def definition (I : Descs D P) (c : Cache D P ρ υ) (packages : List (υ × ρ)) : PathSearch.Result D → Out (List (υ × ρ))
  | .error => .error
  | .panic => .panic
  | .nothing => .ok packages
  | .found d _ =>
    match definitionOf I c d with
    | .ok l => .ok [l]
    | .error => .error
    | .panic => .panic

end Verif.Definition
