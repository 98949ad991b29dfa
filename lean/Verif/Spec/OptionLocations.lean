import Verif.Model.OptionLocations

/-!
# Which location an option has

Paths as in `descriptor.proto`: pairs of a field number and an index.
-/
namespace Verif.OptionLocations

/-- The elements of a file that have options, and the fields of the descriptors that hold them. -/
inductive Child : Kind → Int → Kind → Prop
  | topMessage : Child .file 4 .message
  | topEnum : Child .file 5 .enum
  | service : Child .file 6 .service
  | topExtension : Child .file 7 .field
  | field : Child .message 2 .field
  | message : Child .message 3 .message
  | enum : Child .message 4 .enum
  | extensionRange : Child .message 5 .extensionRange
  | extension : Child .message 6 .field
  | oneof : Child .message 8 .oneof
  | value : Child .enum 2 .enumValue
  | method : Child .service 2 .method

/-- The path of an element. -/
inductive Element : List Int → Kind → Prop
  | file : Element [] .file
  | child {p : List Int} {k k' : Kind} {n : Int} (i : Int) (h : Element p k) (hc : Child k n k') : Element (p ++ [n, i]) k'

/-- The field of a descriptor that holds its options. -/
inductive Options : Kind → Int → Prop
  | file : Options .file 8
  | message : Options .message 7
  | field : Options .field 8
  | oneof : Options .oneof 2
  | extensionRange : Options .extensionRange 3
  | enum : Options .enum 3
  | enumValue : Options .enumValue 3
  | service : Options .service 3
  | method : Options .method 4

/-- `p` is the path of the option `tag` of an element. -/
def OptionAt (p : List Int) : Prop := ∃ e k o tag, Element e k ∧ Options k o ∧ p = e ++ [o, tag]

/-- The path `q` asks for the option `p`: for the whole, or for an element of its value, the first one if it is not repeated. -/
inductive Asks (p : List Int) : List Int → Prop
  | whole : Asks p p
  | element (n : Int) : Asks p (p ++ [n])

/-- The location can stand for the question: it is one of the option, and one of the element unless the first element is asked for. -/
def Supplies (l : Loc) (q : List Int) : Prop :=
  ∃ p, OptionAt p ∧ p <+: l.path ∧ (q = p ∨ q = p ++ [0] ∨ ∃ n, q = p ++ [n] ∧ q <+: l.path)

/-- The first of the locations with a property. -/
def First (P : Loc → Prop) (locs : List Loc) (l : Loc) : Prop := ∃ a b, locs = a ++ l :: b ∧ P l ∧ ∀ x ∈ a, ¬ P x

end Verif.OptionLocations
