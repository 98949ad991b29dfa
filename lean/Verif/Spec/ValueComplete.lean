import Verif.Model.ValueComplete
import Verif.Spec.OptionComplete
import Verif.Spec.PathSearch
/-!
# What completing values, fields and keywords is to do
-/
namespace Verif.ValueComplete
open Verif.OptionComplete (Place)

/-- The text of a snippet before and behind the place `${0}`, at which the cursor is put. -/
def hole : Str → Option (Str × Str)
  | [] => none
  | c :: s =>
    if ['$', '{', '0', '}'] <+: c :: s then some ([], (c :: s).drop 4)
    else (hole s).map fun x => (c :: x.1, x.2)

/-- The parts of the text of an edit before and behind the cursor once the edit has been made. -/
def parts (snippet : Bool) (text : Str) : Str × Str :=
  if snippet then (hole text).getD (text, []) else (text, [])

/-- The document after an item with an edit has been accepted, before and behind the cursor. -/
def accept (content : Str) (it : Item) : Option (Str × Str) :=
  match it.edit with
  | none => none
  | some e =>
    match Documents.offset content e.start.line e.start.char, Documents.offset content e.stop.line e.stop.char with
    | some a, some b => some (content.take a ++ (parts it.snippet e.text).1, (parts it.snippet e.text).2 ++ content.drop b)
    | _, _ => none

/-- What is to be seen of an item: its label and the document after it has been accepted. -/
def row (content : Str) (it : Item) : Str × Option (Str × Str) := (it.label, accept content it)

/-- A place with the cursor in a word: the word replaced by another one, with the cursor behind it. -/
def replaced (p : Place) (w : Str) : Str × Option (Str × Str) := (w, some (p.above ++ w, p.rest))

/-- What is inserted for a field in a message literal, before and behind the cursor. -/
def assignment (f : Field) : Str × Str :=
  if f.repeated then (f.name ++ ": [".toList, "]".toList)
  else if f.kind = .message ∨ f.kind = .group then (f.name ++ ": {\n  ".toList, "\n}".toList)
  else (f.name ++ ": ".toList, [])

/-- An element of a message literal: `[name]` or `name`. -/
structure Element where
  isExt : Bool
  name : Str
deriving DecidableEq, Repr

/-- A field may be added to a literal: it is repeated, or neither it nor another field of its oneof is there. -/
def MayAdd (fields : List Field) (elems : List Element) (f : Field) : Prop :=
  f.repeated = true ∨
    ((∀ e ∈ elems, e.isExt = false → e.name ≠ f.name) ∧
     ∀ g ∈ fields, (∃ e ∈ elems, e.isExt = false ∧ e.name = g.name) → f.oneof.isSome = true → g.oneof ≠ f.oneof)

instance (fields : List Field) (elems : List Element) (f : Field) : Decidable (MayAdd fields elems f) := inferInstanceAs (Decidable (_ ∨ _))

/-- How the type of a field is written in its declaration. -/
def declaredType (f : Field) : Str :=
  match f.kind with
  | .message => if f.mapEntry then "map<".toList ++ f.keyType ++ ", ".toList ++ f.valueType ++ ">".toList else f.type
  | .enum => f.type
  | .group => "group".toList
  | .bool => "bool".toList
  | .other n => n

/-- The words that can stand for a value of a field. -/
def words (f : Field) : List Str :=
  match f.kind with
  | .enum => f.values
  | .bool => ["true".toList, "false".toList]
  | _ => []

/-- The keywords that can begin a declaration of a file. -/
def topKeywords (f : File) : List Str :=
  (if f.syn = none ∧ f.edition = false then ["syntax".toList, "edition".toList] else []) ++
  (if f.package = false then ["package".toList] else []) ++
  ["import".toList, "option".toList, "message".toList, "enum".toList, "service".toList, "extend".toList]

/-- The keywords that can begin a declaration in a message. -/
def bodyKeywords (f : File) : List Str :=
  ["option".toList, "optional".toList, "repeated".toList, "enum".toList, "message".toList, "reserved".toList, "oneof".toList, "map".toList,
    "extend".toList] ++
  (if f.edition = false ∧ f.syn ≠ some "proto3".toList then ["required".toList, "group".toList] else []) ++
  (if f.edition = true ∨ f.syn ≠ some "proto3".toList then ["extensions".toList] else [])

end Verif.ValueComplete
