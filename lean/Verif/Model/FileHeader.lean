import Verif.Util.GoPdq
import Verif.Util.Str
/-!
# Model of the imports and options of a formatted file

/repo/pkg/format/formatter.go:262-351 (`writeFileHeader`), 2489-2528 (`importHasComment`,
`importSortOrder`), 2532-2562 (`StringForOptionName`, `StringForFieldReference`). How a single import or
option is written is not modelled here; a header is described by the imports and options that are
written, in order. Strings are compared character by character (Go compares bytes, which for UTF-8 is the
same order).
-/
namespace Verif.FileHeader

inductive Modifier where
  | plain | «public» | weak
deriving DecidableEq, Repr

/-- An import declaration: the path, the modifier, and whether `importHasComment` holds. -/
structure Import where
  path : Str
  modifier : Modifier
  commented : Bool
deriving DecidableEq, Repr

/-- `importSortOrder`, formatter.go:2519-2528. -/
def sortOrder : Modifier → Nat
  | .public => 2
  | .weak => 1
  | .plain => 3

/-- The comparison function of the imports, formatter.go:290-312. -/
def importLess (i j : Import) : Bool :=
  if i.path < j.path then true
  else if j.path < i.path then false
  else if sortOrder i.modifier > sortOrder j.modifier then true
  else if sortOrder i.modifier < sortOrder j.modifier then false
  else !j.commented

/-- The loop that writes the sorted imports, formatter.go:313-327: `prev` is the path of the previous
import of the sorted list. -/
def writeLoop : Option Str → List Import → List Import
  | _, [] => []
  | prev, i :: is =>
    if prev = some i.path ∧ i.commented = false then writeLoop (some i.path) is
    else i :: writeLoop (some i.path) is

def writeImports (sorted : List Import) : List Import := writeLoop none sorted

/-- The imports written for a file with at most 12 of them (for which `sort.Slice` is the insertion
sort). -/
def formatImports (is : List Import) : List Import := writeImports (goInsertionSort importLess is)

/-- A part of an option name: the name, and whether it is in parentheses. -/
structure NamePart where
  name : Str
  custom : Bool
deriving DecidableEq, Repr

/-- An option: its name, and which of the options it is. -/
structure Opt where
  name : List NamePart
  value : Str
deriving DecidableEq, Repr

/-- `StringForFieldReference`, formatter.go:2549-2562. -/
def partString (p : NamePart) : Str := if p.custom then ['('] ++ p.name ++ [')'] else p.name

/-- `StringForOptionName`, formatter.go:2532-2545. -/
def nameString (name : List NamePart) : Str := joinWith '.' (name.map partString)

/-- Whether the printed name starts with a parenthesis. -/
def isCustom (o : Opt) : Bool := ['('].isPrefixOf (nameString o.name)

/-- The comparison function of the options, formatter.go:328-345. -/
def optionLess (l r : Opt) : Bool :=
  if isCustom l && !isCustom r then false
  else if !isCustom l && isCustom r then true
  else decide (nameString l.name < nameString r.name)

/-- The options written for a file, formatter.go:328-350; `none` for lists on which `sort.Slice` takes a way that is not modelled (never
for at most 12 options). -/
def formatOptions (os : List Opt) : Option (List Opt) := goSlice optionLess os

end Verif.FileHeader
