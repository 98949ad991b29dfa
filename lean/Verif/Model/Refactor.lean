import Verif.Util.Decimal

/-!
# Model of the refactorings on messages

`/repo/pkg/lsp/refactor.go:444-937`. The model works on the declarations of a message. The
lookup of the message under the cursor, the printing of the new syntax tree and the edit that
replaces the text are left out.
-/
namespace Verif.Refactor

/-- A field: `id` is the identity of the syntax node; `label` and `opts` stand for the texts
of its label and of its options (empty: none). -/
structure Field where
  id : Nat
  label : Str
  ty : Str
  name : Str
  number : Nat
  opts : Str
deriving DecidableEq, Repr

/-- A declaration inside a message (`ast.MessageElement`). -/
inductive Decl where
  /-- plain field (`GetField() ≠ nil`) -/
  | field (f : Field)
  /-- map field; its type is `ty` -/
  | mapField (f : Field)
  /-- group; its body is not modelled -/
  | group (f : Field)
  /-- oneof with its fields -/
  | oneof (name : Str) (fs : List Field)
  /-- nested types, options, reserved ranges, ... -/
  | other (id : Nat)
deriving DecidableEq, Repr

/-- All fields of a declaration, as the descriptor of the message lists them. -/
def Decl.fields : Decl → List Field
  | .field f => [f]
  | .mapField f => [f]
  | .group f => [f]
  | .oneof _ fs => fs
  | .other _ => []

/-- `MessageDescriptor.Fields()` -/
def allFields (ds : List Decl) : List Field := ds.flatMap Decl.fields

/-! ## New names -/

/-- The loop of both `findNewUnused…Name` functions, refactor.go:908-913 and 922-927, with
`r` rounds left: `name` is tried, then `base` followed by `i`, and so on. -/
def nameLoop (used : Str → Bool) (base : Str) : Nat → Nat → Str → Str
  | 0, _, name => name
  | r + 1, i, name => if used name then nameLoop used base r (i + 1) (base ++ dec i) else name

/-- Kinds of siblings of a message. -/
inductive Kind where
  | message | enum | service | extension | field | oneof
deriving DecidableEq, Repr

/-- The literal `"NewMessage"`. -/
def newMessage : Str := "NewMessage".toList

/-- `findNewUnusedMessageName`, refactor.go:900-915; `siblings` are the definitions in the
parent of the message. The parent is a file or a message, both have `Messages()`. -/
def findNewUnusedMessageName (siblings : List (Kind × Str)) : Str :=
  nameLoop (fun n => siblings.contains (Kind.message, n)) newMessage 99 1 newMessage

/-- The prefix used for numbered names, refactor.go:919-921. `none`: the index panics on an
empty prefix. -/
def fieldBase (pre : Str) : Option Str :=
  match pre.getLast? with
  | none => none
  | some c => some (if isDigit c then pre ++ ['_'] else pre)

/-- `findNewUnusedFieldName`, refactor.go:917-929; `fields` are the names of the fields of the
message. -/
def findNewUnusedFieldName (fields : List Str) (pre : Str) : Option Str :=
  match fieldBase pre with
  | none => none
  | some base => some (nameLoop (fun n => fields.contains n) base 99 1 pre)

/-! ## Renumbering -/

/-- The loop at refactor.go:854-871, `number` is the next number. -/
def renumberLoop (number : Nat) : List Decl → List Decl
  | [] => []
  | .field f :: ds => .field { f with number := number } :: renumberLoop (number + 1) ds
  | d :: ds => d :: renumberLoop number ds

/-- `renumberFields`, refactor.go:846-878. -/
def renumber (ds : List Decl) : List Decl := renumberLoop 1 ds

/-- The test at refactor.go:831-840, `i` is the loop variable. -/
def canRenumberLoop (i : Nat) : List Field → Bool
  | [] => false
  | f :: fs => if f.number ≠ i + 1 then true else canRenumberLoop (i + 1) fs

/-- Whether the refactoring is offered, refactor.go:829-844. -/
def canRenumber (ds : List Decl) : Bool := canRenumberLoop 0 (allFields ds)

/-! ## Inlining -/

/-- Cardinality of a field of the inlined message. -/
inductive Card where
  | singular | repeated | map
deriving DecidableEq, Repr

/-- A field of the message to be inlined, as its descriptor shows it. `ty` is the text of its
type: for messages and enums the name made by `relativeFullName` (C18), for a map field the
name of the generated entry message. -/
structure NewField where
  name : Str
  ty : Str
  card : Card
deriving DecidableEq, Repr

/-- `largestFieldNumber`, refactor.go:709-719: only plain fields count. -/
def largest (ds : List Decl) : Nat :=
  ds.foldl (fun m d => match d with | .field f => max m f.number | _ => m) 0

/-- The name of an inlined field, refactor.go:750-753. -/
def inlineName (existing : List Str) (n : Str) : Option Str :=
  if existing.contains n then findNewUnusedFieldName existing n else some n

/-- The loop at refactor.go:739-765. `start` is the number of the first new field, `label` is
`optional` in proto2 files and empty otherwise. New nodes get the identity 0. `none`: panic. -/
def inlineFields (label : Str) (existing : List Str) : Nat → List NewField → Option (List Decl)
  | _, [] => some []
  | start, nf :: rest =>
    match inlineName existing nf.name with
    | none => none
    | some n =>
      match inlineFields label existing (start + 1) rest with
      | none => none
      | some r => some (.field ⟨0, label, nf.ty, n, start, []⟩ :: r)

/-- Replace the first plain field with identity `id` by the declarations `ins`;
refactor.go:709-723 (the field is blanked) and 767-771 (`slices.Insert`). -/
def replaceField (id : Nat) (ins : List Decl) : List Decl → List Decl
  | [] => []
  | .field f :: ds => if f.id = id then ins ++ ds else .field f :: replaceField id ins ds
  | d :: ds => d :: replaceField id ins ds

/-- `inlineMessageFields`, refactor.go:698-783. `none`: panic, in particular `toInsert[0]` when
the inlined message has no fields. -/
def inline (label : Str) (newFields : List NewField) (id : Nat) (ds : List Decl) : Option (List Decl) :=
  match inlineFields label ((allFields ds).map Field.name) (largest ds + 1) newFields with
  | none => none
  | some [] => none
  | some ins => some (replaceField id ins ds)

/-! ## Extraction -/

/-- Whether a declaration is one of the enclosed fields (`slices.Contains` compares pointers). -/
def enclosed (ids : List Nat) : Decl → Bool
  | .field f => ids.contains f.id
  | _ => false

/-- The loop at refactor.go:539-549 together with the replacement of the placeholder at
601-606: the first enclosed field is replaced by `new`, the others are removed. -/
def extractLoop (ids : List Nat) (new : Field) : Bool → List Decl → List Decl
  | _, [] => []
  | ins, d :: ds =>
    if enclosed ids d then
      if ins then extractLoop ids new true ds else .field new :: extractLoop ids new true ds
    else d :: extractLoop ids new ins ds

/-- The fields of the new message, refactor.go:550-583: type adapted by `retype` (which uses
`relativeFullName`), numbers `i + 1`. New nodes get the identity 0. -/
def newFields (retype : Field → Str) : Nat → List Field → List Field
  | _, [] => []
  | i, f :: fs => { f with id := 0, ty := retype f, number := i + 1 } :: newFields retype (i + 1) fs

/-- Result of an extraction: declarations of the old message, fields of the new one. -/
structure Extracted where
  old : List Decl
  new : List Field
deriving DecidableEq, Repr

/-- `extractFields`, refactor.go:526-616, for enclosed fields `fs` (in source order, not
empty: lines 493-495). `none`: `enclosedFields[0]` or the empty-prefix index panics, which
does not happen. -/
def extract (label : Str) (retype : Field → Str) (msgName : Str) (fs : List Field)
    (ds : List Decl) : Option Extracted :=
  match fs, findNewUnusedFieldName ((allFields ds).map Field.name) "newField".toList with
  | f :: _, some n =>
    some ⟨extractLoop (fs.map Field.id) ⟨0, label, msgName, n, f.number, []⟩ false ds,
      newFields retype 0 fs⟩
  | _, _ => none

/-! ## Indentation -/

/-- `indentTextHanging`, refactor.go:931-933: `strings.ReplaceAll` of a single character. -/
def indentTextHanging (text : Str) (k : Nat) : Str :=
  text.flatMap (fun c => if c = '\n' then '\n' :: List.replicate k ' ' else [c])

/-- `indentText`, refactor.go:935-937. -/
def indentText (text : Str) (k : Nat) : Str := List.replicate k ' ' ++ indentTextHanging text k

end Verif.Refactor
