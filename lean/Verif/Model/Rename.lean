import Verif.Model.Completion
import Verif.Util.Assoc
/-!
# Model of the rename request

/repo/pkg/lsp/rename.go:11-194 (`PrepareRename`, `canRename`, `Rename`). What is at the position (C72), the definition and the
references of a descriptor (the fan-in of C25), the maps of the resolver (C10) and the table of descriptors are parameters.
The locks are those of C28.
-/
namespace Verif.Rename

/-- A range in a file. -/
abbrev Span := Nat × Nat

/-- An identifier or a compound identifier; a component whose `NodeInfo` is not valid has no range. -/
inductive Written where
  | ident (span : Span)
  | compound (span : Span) (components : List (Option Span))
deriving DecidableEq, Repr

/-- The node of a reference, unwrapped, rename.go:126-174. `decl` stands for the declarations with a name (map fields, fields, enum
values, oneofs, messages, enums, services, methods), `other` for all types of nodes that are not listed. -/
inductive Node where
  | name (w : Written)
  /-- `none`: the name is neither an identifier nor a compound identifier. -/
  | fieldRef (name : Option Written)
  | decl (name : Span)
  | rpcType (type : Written)
  | other
deriving DecidableEq, Repr

/-- `ast.NodeReference`: the file name and the node. -/
structure Ref where
  path : Str
  node : Node
deriving DecidableEq, Repr

/-- The dynamic type of a descriptor. -/
inductive Kind where
  | file | message | field | oneof | enum | enumValue | service | method | other
deriving DecidableEq, Repr

structure Desc where
  kind : Kind
  fullName : Str
deriving DecidableEq, Repr

/-- What the request reads from the cache. -/
structure Cache where
  /-- `FindTypeDescriptorAtLocation`: `none` is an error, `some none` a nil descriptor without error. The range is the second
  component. -/
  found : Option (Option (Desc × Span))
  /-- `desc.ParentFile()`, the result of that file and `findDefinition`; `none` is an error of one of them. -/
  definition : Desc → Option Ref
  /-- `FindReferencesForTypeDescriptor`. -/
  references : Desc → List Ref
  /-- `PathToURI`. -/
  uri : Str → Option Str
  /-- `IsRealWorkspaceLocalFile`. -/
  isLocal : Str → Bool
  /-- `LatestDocumentContentsWellFormed(uri, false)`; false also if it fails. -/
  wellFormed : Str → Bool
  /-- `FindDescriptorByName` finds something. -/
  taken : Str → Bool

structure Edit where
  span : Span
  text : Str
deriving DecidableEq, Repr

inductive Result (α : Type) where
  | ok (a : α)
  | error
  | panic
deriving DecidableEq, Repr

/-- `canRename`, rename.go:33-69, for a descriptor. -/
def canRename (c : Cache) (d : Desc) : Bool :=
  match d.kind with
  | .file => false
  | .other => false
  | _ =>
    match c.definition d with
    | none => false
    | some r =>
      match c.uri r.path with
      | none => false
      | some u => if c.isLocal u then c.wellFormed u else false

/-- `PrepareRename`, rename.go:11-31: the range and the placeholder. -/
def prepare (c : Cache) : Option (Span × Str) :=
  match c.found with
  | none => none
  | some none => none
  | some (some (d, rng)) => if canRename c d then some (rng, Completion.name d.fullName) else none

/-- `isLetter` of protoreflect. -/
def isLetter (c : Char) : Bool := c == '_' || ('a' ≤ c && c ≤ 'z') || ('A' ≤ c && c ≤ 'Z')

/-- `isLetterDigit` of protoreflect. -/
def isLetterDigit (c : Char) : Bool := isLetter c || ('0' ≤ c && c ≤ '9')

/-- The loop of `FullName.IsValid` of protoreflect: `start` says that an identifier has to start here. -/
def validLoop (start : Bool) : Str → Bool
  | [] => !start
  | ch :: s =>
    if start then isLetter ch && validLoop false s
    else if isLetterDigit ch then validLoop false s
    else ch == '.' && validLoop true s

/-- `FullName.IsValid` of protoreflect. -/
def isValid (n : Str) : Bool := validLoop true n

/-- What one turn of the loop does with the node: a range, `continue`, an error, or a crash (index out of range for a compound
identifier without components). -/
inductive Target where
  | span (s : Span)
  | skip
  | error
  | panic
deriving DecidableEq, Repr

/-- `Components[len(Components)-1]`, rename.go:134-140 and 146-152. -/
def lastComponent (cs : List (Option Span)) : Target :=
  match cs.getLast? with
  | none => .panic
  | some none => .skip
  | some (some s) => .span s

/-- The switch, rename.go:131-174. -/
def target : Node → Target
  | .name (.ident s) => .span s
  | .name (.compound _ cs) => lastComponent cs
  | .fieldRef (some (.ident s)) => .span s
  | .fieldRef (some (.compound _ cs)) => lastComponent cs
  | .fieldRef none => .skip
  | .decl s => .span s
  | .rpcType (.ident s) => .span s
  | .rpcType (.compound s _) => .span s
  | .other => .error

/-- The loop, rename.go:125-187. -/
def loop (c : Cache) (new : Str) (edits : List (Str × List Edit)) : List Ref → Result (List (Str × List Edit))
  | [] => .ok edits
  | r :: rs =>
    match target r.node with
    | .panic => .panic
    | .error => .error
    | .skip => loop c new edits rs
    | .span s =>
      match c.uri r.path with
      | none => .error
      | some u =>
        if c.isLocal u then loop c new (Assoc.set edits u ((Assoc.get edits u).getD [] ++ [⟨s, new⟩])) rs
        else .error

/-- `Rename`, rename.go:72-196. A nil descriptor is of no type that can be renamed. -/
def rename (c : Cache) (new : Str) : Result (List (Str × List Edit)) :=
  match c.found with
  | none => .error
  | some none => .error
  | some (some (d, _)) =>
    if canRename c d then
      let fqn := Completion.append (Completion.parent d.fullName) new
      if isValid fqn then
        if c.taken fqn then .error
        else
          match c.definition d with
          | none => .error
          | some r => loop c new [] (c.references d ++ [r])
      else .error
    else .error

end Verif.Rename
