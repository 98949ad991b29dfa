import Verif.Model.Simplify

/-!
# What the options of a message say

An option sets fields; a field is given by its path, the descriptors from the options message on. The
meaning of the declarations is, for every path, the list of the values that are set, in the order of the
declarations: what a repeated field contains.
-/
namespace Verif.Simplify

/-- The values in an array. -/
def values : List Item → List Nat
  | [] => []
  | .val v :: rest => v :: values rest
  | .comma :: rest => values rest

def fieldValues : FVal → List Nat
  | .atom v => [v]
  | .array items => values items

/-- The values that an option sets, with the paths of the fields. A message literal sets the fields in
it, unless it is an element of a repeated field. Unfinished options and fields do not count. -/
def optSettings (S : Schema) (o : Opt) : List (List Nat × Nat) :=
  if o.incomplete then []
  else
    match o.val with
    | .atom v => [(o.name, v)]
    | .array items => (values items).map fun v => (o.name, v)
    | .literal self fields =>
      if o.name.getLast?.any S.repeated then [(o.name, self)]
      else fields.flatMap fun f =>
        if f.incomplete then [] else (fieldValues f.val).map fun v => (o.name ++ [f.desc], v)

/-- The options declared directly in the message. -/
def options : List Decl → List Opt
  | [] => []
  | .opt o :: ds => o :: options ds
  | .other _ _ :: ds => options ds

/-- The other declarations. -/
def others : List Decl → List (Nat × List Opt)
  | [] => []
  | .opt _ :: ds => others ds
  | .other n inner :: ds => (n, inner) :: others ds

/-- The contents of the field at a path. -/
def contents (S : Schema) (decls : List Decl) (path : List Nat) : List Nat :=
  (((options decls).flatMap (optSettings S)).filter fun s => s.1 == path).map (·.2)

/-- The grammar of the elements of an array: values with commas between them, and perhaps one at the end,
where the parser has inserted one. -/
def wellFormed : List Item → Bool
  | [] => true
  | [.val _] => true
  | .val _ :: .comma :: rest => wellFormed rest
  | _ => false

/-- There is a comma after the last value. -/
def closed (items : List Item) : Prop := wellFormed items = true ∧ items.getLast?.all (· == .comma) = true

/-- There is none: the grammar of protobuf for arrays. -/
def strict (items : List Item) : Prop := wellFormed items = true ∧ items.getLast? ≠ some .comma

/-- The option has nothing to do with field `x` of extension `e`: it is unfinished, or it sets neither
the extension nor that field. -/
def Unrelated (e x : Nat) (o : Opt) : Prop :=
  o.incomplete = true ∨ ((∀ init, o.name ≠ init ++ [e]) ∧ ∀ init, o.name ≠ init ++ [e, x])

/-- `option path.x = ...`. -/
def Sets (path : List Nat) (x : Nat) (o : Opt) : Prop :=
  o.incomplete = false ∧ o.name = path ++ [x] ∧
    match o.val with
    | .atom _ => True
    | .array items => wellFormed items = true
    | .literal _ _ => True

/-- A declaration that is not changed. -/
def Kept (e x : Nat) : Decl → Prop
  | .opt o => Unrelated e x o
  | .other _ inner => ∀ o ∈ inner, Unrelated e x o

/-- A declaration after the container: not changed, or an option that sets the field. -/
def After (path : List Nat) (e x : Nat) (d : Decl) : Prop :=
  Kept e x d ∨ ∃ o, d = .opt o ∧ Sets path x o

/-- Does the option set the field? -/
def isSet (path : List Nat) (x : Nat) (d : Decl) : Bool :=
  match d with
  | .opt o => !o.incomplete && decide (o.name = path ++ [x])
  | .other _ _ => false

end Verif.Simplify
