import Verif.Model.PrintOrder

/-!
# The documented orders

Both orders are given by a key per element, a list of integers; keys are compared
lexicographically.
-/
namespace Verif.PrintOrder

/-- A name as a list of numbers. -/
def codes (n : Name) : List Int := n.map (fun c => (c.toNat : Int))

/-- A truth value as a number. -/
def bit (b : Bool) : Int := if b then 1 else 0

/-- "Package is always first, and imports are always second. Builtin options are always third."
(sort.go 5-7). -/
def rank : Kind → Int
  | .package => 0
  | .importK => 1
  | .option => 2
  | _ => 3

/-- The number of the list of the descriptor an element is in, as descriptor.proto numbers the
fields of `FileDescriptorProto`, `DescriptorProto`, `EnumDescriptorProto`,
`ServiceDescriptorProto` and `OneofDescriptorProto`. The fields of a oneof are in a list of the
message; the printer marks this by the sign of the number. -/
def listNumber (scope : Scope) (k : Kind) : Int :=
  match scope with
  | .file =>
    match k with
    | .package => 2
    | .importK => 3
    | .message => 4
    | .enum => 5
    | .service => 6
    | .extension => 7
    | .option => 8
    | _ => 0
  | .message =>
    match k with
    | .field => 2
    | .message => 3
    | .enum => 4
    | .extensionRange => 5
    | .extension => 6
    | .option => 7
    | .reservedRange => 9
    | .reservedName => 10
    | _ => 0
  | .enum =>
    match k with
    | .enumValue => 2
    | .option => 3
    | .reservedRange => 4
    | .reservedName => 5
    | _ => 0
  | .service =>
    match k with
    | .method => 2
    | .option => 3
    | _ => 0
  | .other =>
    match k with
    | .option => 2
    | .field => -2
    | _ => 0

/-- The key of the order of `SortElements` for elements with source locations: imports by name,
options builtin ones first, numbered elements by number, anything else in the order of the
descriptor: by the number of the list it is in and by its place there. -/
def key (scope : Scope) (e : Elem) : List Int :=
  rank (kind e.val) ::
    match e.val with
    | .pkg _ => []
    | .imp p => codes p
    | .options n => [bit (isCustom n), e.index]
    | .field n _ => [listNumber scope (kind e.val), n]
    | .enumValue n _ => [listNumber scope (kind e.val), n]
    | _ => [listNumber scope (kind e.val), e.index]

/-- The source info knows the element: it has a location for the path of the element, and the
path of that location starts with the path of the element. -/
def Located (scope : Scope) (info : List Int → Option (List Int)) (pre : List Int) (e : Elem) :
    Prop :=
  0 < listNumber scope (kind e.val) ∧ 0 ≤ e.index ∧
  ∃ rest, info (pre ++ [listNumber scope (kind e.val), e.index]) =
    some (pre ++ [listNumber scope (kind e.val), e.index] ++ rest)

/-- The source info does not know the element. -/
def Unlocated (scope : Scope) (info : List Int → Option (List Int)) (pre : List Int) (e : Elem) :
    Prop :=
  0 < listNumber scope (kind e.val) ∧ 0 ≤ e.index ∧
  info (pre ++ [listNumber scope (kind e.val), e.index]) = none

/-- "generally, we put unknown elements after known ones; except package, imports, and option
elements go first", the package before imports and those before options (print.go 2387-2401):
does an element of kind `k` without location go before one of kind `k'` with location? -/
def unknownGoesFirst (scope : Scope) (k k' : Kind) : Prop :=
  scope ≠ .other ∧ rank k < 3 ∧ rank k ≤ rank k'

/-- Elements whose order does not depend on their location: the package and imports, and the
fields of a oneof. -/
def Free (scope : Scope) (e : Elem) : Prop :=
  match e.val with
  | .pkg _ => True
  | .imp _ => True
  | .field _ none => scope = .other
  | _ => False

/-- Place of an element in the canonical order documented at `Printer.SortElements` (print.go
52-79). -/
def docRank (scope : Scope) (k : Kind) : Int :=
  match scope with
  | .file =>
    match k with
    | .package => 2
    | .importK => 3
    | .option => 4
    | .message => 5
    | .enum => 6
    | .service => 7
    | .extension => 8
    | _ => 9
  | _ =>
    match k with
    | .option => 1
    | .field => 2
    | .enumValue => 2
    | .method => 2
    | .message => 3
    | .enum => 4
    | .extensionRange => 5
    | .extension => 6
    | .reservedRange => 7
    | .reservedName => 8
    | _ => 9

/-- The key of the canonical order: messages, enums, services, methods, imports and reserved
names by name, options by name with custom options last, fields by tag, extensions by extendee
and tag, ranges by their start, enum values by number and name. -/
def docKey (scope : Scope) (e : Elem) : List Int :=
  docRank scope (kind e.val) ::
    match e.val with
    | .pkg n => codes n
    | .imp p => codes p
    | .options n => bit (isCustom n) :: codes n
    | .field n none => [n]
    | .field n (some x) => codes x ++ [-1, n]
    | .message n => codes n
    | .enum n => codes n
    | .service n => codes n
    | .method n => codes n
    | .extRange s => [s]
    | .reservedRange s => [s]
    | .reservedName n => codes n
    | .enumValue n a => n :: codes a

/-- The place of the kinds of elements in the lists the printer builds before it sorts
(print.go 573-598, 897-934, 1384-1394, 1495-1499, 1202-1218). -/
def block (scope : Scope) (k : Kind) : Int :=
  match scope with
  | .file =>
    match k with
    | .package => 0
    | .importK => 1
    | .option => 2
    | .message => 3
    | .enum => 4
    | .service => 5
    | .extension => 6
    | _ => 7
  | .message =>
    match k with
    | .option => 0
    | .reservedRange => 1
    | .reservedName => 2
    | .extensionRange => 3
    | .field => 4
    | .message => 5
    | .enum => 6
    | .extension => 7
    | _ => 8
  | .enum =>
    match k with
    | .option => 0
    | .enumValue => 1
    | .reservedRange => 2
    | .reservedName => 3
    | _ => 4
  | _ =>
    match k with
    | .option => 0
    | .method => 1
    | .field => 1
    | _ => 2

/-- The key of the order of `SortElements` for elements without source locations. -/
def bareKey (scope : Scope) (e : Elem) : List Int :=
  rank (kind e.val) ::
    match e.val with
    | .pkg _ => []
    | .imp p => codes p
    | .options n => [bit (isCustom n)]
    | .field n _ => [block scope (kind e.val), n]
    | .enumValue n _ => [block scope (kind e.val), n]
    | _ => [block scope (kind e.val)]

end Verif.PrintOrder
