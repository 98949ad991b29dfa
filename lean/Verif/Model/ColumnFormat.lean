import Verif.Util.Str
/-!
# Model of the alignment of fields in columns

/repo/pkg/format/column_format.go:33-203 (groups), 204-218 and 434-478 (a group), and
/repo/pkg/format/alg.go:13-54 (`splitSegmentedFields`). The parts of a field that the node writers
produce are given. An element of a text stands for a byte: widths are widths in bytes.
-/
namespace Verif.ColumnFormat

/-! ### Groups -/

/-- What the grouping looks at, column_format.go:53-188. `kind` is the result of `groupableNodeType`
(`none` for a node that is not grouped); `incomplete` is `IsIncomplete` of a field node; `alone` says that
the node is going to be written on several lines (lines 79-119); `flex` is the condition on the previous
node, lines 144-180, under which the next node may be in the same group. -/
structure Elem where
  node : Nat
  kind : Option Nat
  incomplete : Bool
  alone : Bool
  startLine : Nat
  endLine : Nat
  commented : Bool
  flex : Bool
deriving DecidableEq, Repr

/-- The variables `groups` and `currentGroup`, column_format.go:42-43. -/
structure Groups where
  groups : List (List Elem) := []
  current : List Elem := []

/-- `startNewGroup`, column_format.go:44-49. -/
def startNew (g : Groups) : Groups :=
  { groups := if g.current = [] then g.groups else g.groups ++ [g.current], current := [] }

/-- `currentGroup = append(currentGroup, e)`. -/
def add (g : Groups) (e : Elem) : Groups := { g with current := g.current ++ [e] }

/-- The body of the loop after the comparison of the kinds, column_format.go:64-188. -/
def place (g : Groups) (e : Elem) : Groups :=
  match e.kind with
  | none => startNew (add (startNew g) e)
  | some _ =>
    match g.current.getLast? with
    | none => add g e
    | some prev =>
      if e.incomplete then add (startNew g) e
      else if e.alone then startNew (add (startNew g) e)
      else if e.startLine = prev.startLine ∨ e.startLine = prev.startLine + 1 then
        add (if e.commented then startNew g else g) e
      else if e.startLine = prev.endLine + 1 ∧ prev.flex then add g e
      else add (startNew g) e

/-- The loop, column_format.go:52-189, after the first element; `kind` is the kind of the previous
element. -/
def groupLoop (g : Groups) (kind : Option Nat) : List Elem → Groups
  | [] => g
  | e :: es => groupLoop (place (if e.kind ≠ kind then startNew g else g) e) e.kind es

/-- The groups, column_format.go:41-194. -/
def groups : List Elem → List (List Elem)
  | [] => []
  | e :: es => (startNew (groupLoop (place {} e) e.kind es)).groups

/-- `groupStartIndexes`, column_format.go:196-203. -/
def startIndexes (start : Nat) : List (List Elem) → List Nat
  | [] => []
  | g :: gs => start :: startIndexes (start + g.length) gs

/-! ### Blocks of a group -/

/-- `segmentedField`, column_format.go:32-38. -/
structure Field where
  ctx : Str
  typeName : Str
  fieldName : Str
  equalsTag : Str
  lineEnd : Str
deriving DecidableEq, Repr

/-- The size of a field, alg.go:28-32. -/
def size (f : Field) : Nat :=
  if f.fieldName.length ≤ 3 ∨ f.typeName = ['o', 'p', 't', 'i', 'o', 'n'] then f.typeName.length + f.fieldName.length
  else f.typeName.length + f.fieldName.length * 2 / 3

/-- The loop of `splitSegmentedFields`, alg.go:21-52. `cur` is `fields[lower:i]`, `sizes` the sizes that are
summed up in `lnsum` and counted in `count`; `far` stands for the comparison with their geometric mean,
lines 34-36, which is done in floating point. -/
def splitLoop (far : List Nat → Nat → Bool) (prevSize : Nat) (sizes : List Nat) (cur : List Field) :
    List Field → List (List Field)
  | [] => [cur]
  | f :: fs =>
    if size f > 0 ∧ prevSize > 0 ∧ sizes ≠ [] ∧ (prevSize > 40 ∨ size f > 40) ∧ far sizes (size f) then
      cur :: splitLoop far (size f) (if size f > 0 then [size f] else []) [f] fs
    else splitLoop far (size f) (if size f > 0 then sizes ++ [size f] else sizes) (cur ++ [f]) fs

/-- `splitSegmentedFields`, alg.go:18-54. -/
def blocks (far : List Nat → Nat → Bool) (fields : List Field) : List (List Field) := splitLoop far 0 [] [] fields

/-! ### Writing a block -/

/-- The leading space of `lineEnd` is removed, column_format.go:441-448. -/
def strip (f : Field) : Field :=
  match f.lineEnd with
  | ' ' :: t => { f with lineEnd := t }
  | _ => f

/-- The longest string of a column, column_format.go:437-440. -/
def column (part : Field → Str) (block : List Field) : Nat := block.foldl (fun m f => max m (part f).length) 0

def spaces (n : Nat) : Str := List.replicate n ' '

/-- The extra space after a part, column_format.go:455-464. -/
def gap (s : Str) : Nat := if s.length = 0 then 0 else 1

/-- A field as it is written, column_format.go:452-474; `t`, `n` and `q` are the widths of the columns. -/
def writeField (t n q : Nat) (f : Field) : Str :=
  f.ctx ++ f.typeName ++ spaces (t - f.typeName.length + gap f.typeName) ++ f.fieldName ++
  spaces (n - f.fieldName.length + gap f.fieldName) ++ f.equalsTag ++
  (match f.lineEnd with
   | ';' :: _ => f.lineEnd
   | _ => spaces (q - f.equalsTag.length + gap f.equalsTag) ++ f.lineEnd)

/-- A block, column_format.go:435-476. -/
def writeBlock (block : List Field) : Str :=
  (block.map strip).flatMap
    (writeField (column Field.typeName block) (column Field.fieldName block) (column Field.equalsTag block))

/-! ### Writing a group -/

/-- An element of a group: an incomplete field, written directly to the buffer (column_format.go:219-222),
or the parts of a field; here `ctx` is what is written before the first node of the field. -/
inductive Item where
  | whole (text : Str)
  | field (f : Field)
deriving DecidableEq

/-- The loop over the elements of a group, column_format.go:210-433: the buffer, and `bufferedFields`. The
first node of a field takes what is in the buffer as `contextBytesStart` (line 215). -/
def bufferLoop (buf : Str) (fields : List Field) : List Item → Str × List Field
  | [] => (buf, fields)
  | .whole t :: is => bufferLoop (buf ++ t) fields is
  | .field f :: is => bufferLoop [] (fields ++ [{ f with ctx := buf ++ f.ctx }]) is

/-- What is written for a group, column_format.go:206-478. -/
def writeGroup (far : List Nat → Nat → Bool) (items : List Item) : Str :=
  let r := bufferLoop [] [] items
  r.1 ++ (blocks far r.2).flatMap writeBlock

end Verif.ColumnFormat
