import Verif.Model.PrintPath
import Verif.Spec.OptionLocations

/-!
# Where a descriptor is in its file
-/
namespace Verif.PrintPath

/-- A message with the names of its fields and extensions, oneofs, its enums (as lists of values), and nested messages. -/
inductive Msg where
  | mk (fields extensions oneofs : List Nat) (enums : List (List Nat)) (nested : List Msg)

/-- A file. -/
structure File where
  messages : List Msg
  enums : List (List Nat)
  services : List (List Nat)
  extensions : List Nat

/-- The elements of a file. -/
inductive Elem where
  | file (f : File)
  | message (m : Msg)
  | enum (values : List Nat)
  | service (methods : List Nat)
  | field (n : Nat)
  | extension (n : Nat)
  | oneof (n : Nat)
  | value (n : Nat)
  | method (n : Nat)

/-- The descriptor stands for the element: `Messages().Get(i)` and so on of its parent. -/
inductive Is (f : File) : Dsc → Elem → Prop
  | file : Is f .file (.file f)
  | topMessage {g p m} {i : Nat} (h : Is f p (.file g)) (hi : g.messages[i]? = some m) : Is f (.message p i) (.message m)
  | topEnum {g p m} {i : Nat} (h : Is f p (.file g)) (hi : g.enums[i]? = some m) : Is f (.enum p i) (.enum m)
  | service {g p m} {i : Nat} (h : Is f p (.file g)) (hi : g.services[i]? = some m) : Is f (.service p i) (.service m)
  | topExtension {g p m} {i : Nat} (h : Is f p (.file g)) (hi : g.extensions[i]? = some m) : Is f (.field p true i) (.extension m)
  | nested {fs xs os es ms p m} {i : Nat} (h : Is f p (.message (.mk fs xs os es ms))) (hi : ms[i]? = some m) : Is f (.message p i) (.message m)
  | enum {fs xs os es ms p m} {i : Nat} (h : Is f p (.message (.mk fs xs os es ms))) (hi : es[i]? = some m) : Is f (.enum p i) (.enum m)
  | field {fs xs os es ms p m} {i : Nat} (h : Is f p (.message (.mk fs xs os es ms))) (hi : fs[i]? = some m) : Is f (.field p false i) (.field m)
  | extension {fs xs os es ms p m} {i : Nat} (h : Is f p (.message (.mk fs xs os es ms))) (hi : xs[i]? = some m) :
      Is f (.field p true i) (.extension m)
  | oneof {fs xs os es ms p m} {i : Nat} (h : Is f p (.message (.mk fs xs os es ms))) (hi : os[i]? = some m) : Is f (.oneof p i) (.oneof m)
  | value {vs p m} {i : Nat} (h : Is f p (.enum vs)) (hi : vs[i]? = some m) : Is f (.value p i) (.value m)
  | method {vs p m} {i : Nat} (h : Is f p (.service vs)) (hi : vs[i]? = some m) : Is f (.method p i) (.method m)

/-- The repeated fields of `descriptor.proto` by their numbers. -/
def Elem.children : Elem → Int → List Elem
  | .file f, 4 => f.messages.map .message
  | .file f, 5 => f.enums.map .enum
  | .file f, 6 => f.services.map .service
  | .file f, 7 => f.extensions.map .extension
  | .message (.mk fs _ _ _ _), 2 => fs.map .field
  | .message (.mk _ _ _ _ ms), 3 => ms.map .message
  | .message (.mk _ _ _ es _), 4 => es.map .enum
  | .message (.mk _ xs _ _ _), 6 => xs.map .extension
  | .message (.mk _ _ os _ _), 8 => os.map .oneof
  | .enum vs, 2 => vs.map .value
  | .service ms, 2 => ms.map .method
  | _, _ => []

/-- The element at a path: `path` of `SourceCodeInfo.Location` in `descriptor.proto`. -/
inductive At : Elem → List Int → Elem → Prop
  | here (e) : At e [] e
  | step {e c e' : Elem} {n : Int} {i : Nat} {rest : List Int} (hi : (e.children n)[i]? = some c) (h : At c rest e') :
      At e (n :: (i : Int) :: rest) e'

/-- The place of an element of the oneof `index` in the message at `parent`. -/
def own (parent : List Int) (index : Nat) : El → List Int
  | .option tag => parent ++ [8, (index : Int), 2, (tag : Int)]
  | .field i => parent ++ [2, (i : Int)]

/-- The element is an option. -/
def El.isOption : El → Bool
  | .option _ => true
  | .field _ => false

end Verif.PrintPath
