import Mathlib.Data.List.Basic

/-!
# The refactoring "Simplify repeated options"

Models `simplifyRepeatedOptions`, `collectRepeatedOptionRefs` and `calcSimplifyRepeatedOptionsEdits`
(/repo/pkg/lsp/refactor.go 219-430, 939-1129): the values that several declarations give to a repeated
field of an extension are collected in one array.

* Nodes are compared by pointer in Go, by `id` here.
* Names are resolved: a part of the name of an option, and the name of a field in a message literal, is
  the field descriptor that it stands for (a number). A file that does not link has no such action.
* Values other than arrays are numbers. A message literal that is the value of an option is also a
  number (`self`) with its fields. Literals nested in the value of a field are not looked into; the code
  also visits those (refactor.go 408-411), which matters for recursive message types only.
* Separators and comments of fields and options are left out, except for the commas of arrays. The
  parent is not printed, the result is the new list of its declarations.
-/
namespace Verif.Simplify

/-- `ArrayLiteralElement`: a value or a comma. -/
inductive Item
  | val (v : Nat)
  | comma
deriving DecidableEq, Repr

/-- The value of a field in a message literal. -/
inductive FVal
  | atom (v : Nat)
  | array (items : List Item)
deriving DecidableEq, Repr

/-- `MessageFieldNode`. -/
structure Field where
  id : Nat
  desc : Nat
  incomplete : Bool
  val : FVal
deriving DecidableEq, Repr

/-- The value of an option. -/
inductive OVal
  | atom (v : Nat)
  | array (items : List Item)
  | literal (self : Nat) (fields : List Field)
deriving DecidableEq, Repr

/-- `OptionNode`; `name` has the field references of the name, without the dots. -/
structure Opt where
  id : Nat
  incomplete : Bool
  name : List Nat
  val : OVal
deriving DecidableEq, Repr

/-- The declarations in the parent: an option, or something else with the options that a walk through it
meets (those of nested messages, for instance). -/
inductive Decl
  | opt (o : Opt)
  | other (id : Nat) (inner : List Opt)
deriving DecidableEq, Repr

/-- The parent of the options. `replaceWithinParent` (refactor.go 957-974) handles messages only; options
of a file are not reached, since a file is not an `AnyFileElement`. -/
inductive Parent
  | message
  | enumOrService
deriving DecidableEq, Repr

/-- What the linker knows of a field descriptor. -/
structure Schema where
  isExt : Nat → Bool
  repeated : Nat → Bool

/-- Where the cursor is: on a part of the name of an option, or on the name of a field in the message
literal that is the value of an option. -/
inductive Cursor
  | name (o : Opt) (index : Nat)
  | field (o : Opt) (f : Field)
deriving DecidableEq, Repr

/-- The results of the first part of `collectRepeatedOptionRefs`. -/
structure Target where
  ext : Option Nat
  field : Nat
  container : Option Opt
deriving DecidableEq, Repr

def OVal.isLiteral : OVal → Bool
  | .literal _ _ => true
  | _ => false

/-- The search for the extension, from the part under the cursor to the left (refactor.go 285-297), on the
parts in reverse. -/
def extensionBefore (S : Schema) : List Nat → Option Nat
  | [] => none
  | p :: rest => if S.isExt p then some p else extensionBefore S rest

/-- The first part of `collectRepeatedOptionRefs` (refactor.go 263-331). -/
def target (S : Schema) : Cursor → Option Target
  | .name o index =>
    match o.name[index]? with
    | none => none
    | some x =>
      if S.repeated x then
        some
          { ext := extensionBefore S (o.name.take (index + 1)).reverse
            field := x
            container := if o.name.length = 1 ∧ o.val.isLiteral = true then some o else none }
      else none
  | .field o f =>
    if S.repeated f.desc then
      match o.name.getLast? with
      | some e => if S.isExt e then some { ext := some e, field := f.desc, container := some o } else none
      | none => none
    else none

/-- The options met by a walk through the parent. -/
def visited : List Decl → List Opt
  | [] => []
  | .opt o :: ds => o :: visited ds
  | .other _ inner :: ds => inner ++ visited ds

/-- The option sets the whole extension (refactor.go 341-357). -/
def isContainer (S : Schema) (ext : Option Nat) (o : Opt) : Bool :=
  !o.incomplete &&
    match o.name.getLast? with
    | some e => S.isExt e && decide (some e = ext)
    | none => false

/-- The search for an option that sets the whole extension (refactor.go 335-362). -/
def findContainer (S : Schema) (ext : Option Nat) (decls : List Decl) : Option Opt :=
  (visited decls).find? (isContainer S ext)

/-- What the loop over the parts of a name decides (refactor.go 375-401). -/
inductive Scan
  | skip | ref | descend
deriving DecidableEq, Repr

/-- The loop over the parts of a name (refactor.go 375-401), on the parts from the current one on. -/
def scan (S : Schema) (ext : Option Nat) (x : Nat) : List Nat → Scan
  | [] => .skip
  | [p] => if S.isExt p = true ∧ some p = ext then .descend else .skip
  | [p, q] => if S.isExt p = true ∧ some p = ext ∧ q = x then .ref else scan S ext x [q]
  | _ :: q :: r :: rest => scan S ext x (q :: r :: rest)

/-- `optionRefInfo`: the option, and the field of its literal if the reference is there. -/
structure Ref where
  opt : Opt
  field : Option Field
deriving DecidableEq, Repr

/-- The references in an option (refactor.go 369-427). -/
def optRefs (S : Schema) (ext : Option Nat) (x : Nat) (o : Opt) : List Ref :=
  if o.incomplete then []
  else
    match scan S ext x o.name with
    | .skip => []
    | .ref => [{ opt := o, field := none }]
    | .descend =>
      match o.val with
      | .literal _ fields =>
        (fields.filter fun f => !f.incomplete && decide (f.desc = x)).map fun f => { opt := o, field := some f }
      | _ => []

/-- The second walk of `collectRepeatedOptionRefs` (refactor.go 363-428). -/
def refs (S : Schema) (ext : Option Nat) (x : Nat) (decls : List Decl) : List Ref :=
  (visited decls).flatMap (optRefs S ext x)

/-- The elements of an array that is moved, with a comma at the end (refactor.go 1046-1054, 1077-1084). -/
def closeItems (items : List Item) : List Item :=
  match items.getLast? with
  | none => []
  | some .comma => items
  | some (.val _) => items ++ [.comma]

/-- The elements that the value of a field becomes (refactor.go 1041-1067). -/
def moveField : FVal → List Item
  | .array items => closeItems items
  | .atom v => [.val v, .comma]

/-- The elements that the value of an option becomes (refactor.go 1074-1096). -/
def moveOption : OVal → List Item
  | .array items => closeItems items
  | .atom v => [.val v, .comma]
  | .literal self _ => [.val self, .comma]

/-- The removal of the comma at the end (refactor.go 1103-1108). -/
def trimComma (items : List Item) : List Item :=
  match items.getLast? with
  | some .comma => items.dropLast
  | _ => items

/-- `replaceWithinParent` (refactor.go 957-974): `none` is a crash, an index of -1 in `slices.Replace`. -/
def replace (parent : Parent) (id : Nat) (new : List Opt) (decls : List Decl) : Option (List Decl) :=
  match parent with
  | .enumOrService => some decls
  | .message =>
    match decls with
    | [] => none
    | .opt o :: ds => if o.id = id then some (new.map .opt ++ ds) else (replace .message id new ds).map (.opt o :: ·)
    | d :: ds => (replace .message id new ds).map (d :: ·)

/-- The loop that removes options (refactor.go 1099-1101), on the options in reverse. -/
def removeAll (parent : Parent) : List Opt → List Decl → Option (List Decl)
  | [], decls => some decls
  | o :: os, decls =>
    match replace parent o.id [] decls with
    | none => none
    | some decls => removeAll parent os decls

/-- A change of the option with that identity, in place. -/
def change (id : Nat) (f : Opt → Opt) : List Decl → List Decl
  | [] => []
  | .opt o :: ds => .opt (if o.id = id then f o else o) :: change id f ds
  | .other n inner :: ds => .other n (inner.map fun o => if o.id = id then f o else o) :: change id f ds

/-- The container after the changes in place: the fields that were moved are gone, the array has its new
elements (refactor.go 979-985, 1069-1071). -/
def changeContainer (array : Option Nat) (moved : List Nat) (items : List Item) (o : Opt) : Opt :=
  match o.val with
  | .literal self fields =>
    { o with
      val := .literal self ((fields.filter fun f => !decide (f.id ∈ moved)).map fun f =>
        if some f.id = array then { f with val := .array items } else f) }
  | _ => o

inductive Outcome
  | noEdit
  | panic
  | edit (decls : List Decl)
deriving DecidableEq, Repr

/-- The fields of the container that set the target (refactor.go 993-999). -/
def withinFields (container : Option Opt) (rs : List Ref) : List Field :=
  match container with
  | none => []
  | some c => (rs.filter fun r => decide (r.opt.id = c.id)).filterMap fun r => r.field

/-- The options outside of the container that set the target (refactor.go 988-1000). -/
def outsideOpts (container : Option Opt) (rs : List Ref) : List Opt :=
  match container with
  | none => rs.map fun r => r.opt
  | some c => (rs.filter fun r => !decide (r.opt.id = c.id)).map fun r => r.opt

/-- `msgField.Val.GetArrayLiteral() != nil`. -/
def Field.isArray (f : Field) : Bool :=
  match f.val with
  | .array _ => true
  | .atom _ => false

/-- The elements of the array that is extended; a new array has none (refactor.go 1003-1016). -/
def startItems (array : Option Field) : List Item :=
  match array with
  | some ⟨_, _, _, .array items⟩ => items
  | _ => []

/-- The fields whose values are moved into the array: all but the array itself (refactor.go 1038-1068). -/
def movedFields (array : Option Field) (fields : List Field) : List Field :=
  fields.filter fun f => !decide (some f.id = array.map Field.id)

/-- The option that is put in the place of the first one (refactor.go 1010-1036). -/
def newOption (fresh : Nat) (ext : Option Nat) (x : Nat) (container : Option Opt) (array : Option Field)
    (moved : List Nat) (items : List Item) : Opt :=
  match container, array with
  | some c, some a => changeContainer (some a.id) moved items c
  | _, _ =>
    { id := fresh, incomplete := false, name := ext.toList
      val := .literal fresh [{ id := fresh, desc := x, incomplete := false, val := .array items }] }

/-- `calcSimplifyRepeatedOptionsEdits` (refactor.go 939-1129). `fresh` is the identity of the new nodes. -/
def simplifyEdits (parent : Parent) (fresh : Nat) (ext : Option Nat) (x : Nat) (container : Option Opt)
    (decls : List Decl) (rs : List Ref) : Outcome :=
  match rs with
  | [] => .noEdit
  | first :: _ =>
    let fields := withinFields container rs
    let outside := outsideOpts container rs
    let array := fields.find? Field.isArray
    let moved := movedFields array fields
    let items := trimComma (startItems array ++ moved.flatMap (fun f => moveField f.val) ++
      outside.flatMap (fun o => moveOption o.val))
    let changed := match container with
      | none => decls
      | some c => change c.id (changeContainer (array.map Field.id) (moved.map Field.id) items) decls
    match removeAll parent outside.reverse changed with
    | none => .panic
    | some left =>
      match replace parent first.opt.id [newOption fresh ext x container array (moved.map Field.id) items] left with
      | none => .panic
      | some out => .edit out

/-- `simplifyRepeatedOptions` (refactor.go 219-254): `none` if there is no such action. -/
def simplify (S : Schema) (parent : Parent) (fresh : Nat) (decls : List Decl) (c : Cursor) : Option Outcome :=
  match target S c with
  | none => none
  | some t =>
    let container := match t.container with
      | some o => some o
      | none => findContainer S t.ext decls
    some (simplifyEdits parent fresh t.ext t.field container decls (refs S t.ext t.field decls))

end Verif.Simplify
