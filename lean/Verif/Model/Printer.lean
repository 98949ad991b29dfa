import Verif.Model.PrintWriter
import Verif.Model.PrintComment
import Verif.Model.Quote
import Verif.Model.Qualify
import Verif.Model.Ranges
import Verif.Spec.Names
/-!
# Model of the descriptor printer

/repo/pkg/format/protoprint/print.go and message_literal.go: from a file descriptor to its source text.

Simplifications:
* A descriptor is a tree (`File`, `Msg`, `Enum`, `Service`, …) instead of an interface; the message type of a group or of a
  map field is given by its place among the messages declared beside the field, which is how `printField` finds it
  (print.go:1048-1083). Full names are computed from the names of the enclosing declarations.
* Options are given as `extractOptions` finds them (print.go:1905-1944), in the order `optionsAsElementAddrs` puts them
  (print.go:2062-2071); the names of custom options are shortened in the model.
* The order of the elements of a scope (`Printer.sort`, print.go:751-771) is a parameter, a function of the path of the
  scope and the elements; see `Model/PrintOrder.lean` for the orders themselves.
* `skip`, the set of elements that are not printed any more, and the decision what is printed are separated from the
  printing: `steps` and `enumSteps` yield the list of what is printed.
* Bytes of the text are characters (with codes below 256). The writer does not fail. `append` on paths copies (see Model/PrintPath.lean for where it does not).
* A crash is the flag `stuck`.
-/
namespace Verif.Printer
open Verif.PrintWriter (Writer write)
open Verif.Literal (Bytes)
open Verif.Ranges (Range showInt)

abbrev Path := List Int
abbrev QName := List Str

/-- `protoreflect.SourceLocation`: path and comments. -/
structure Loc where
  path : Path := []
  detached : List Str := []
  leading : Str := []
  trailing : Str := []
deriving DecidableEq, Repr

/-- `SourceInfoMap`, internal/source_info.go:9: all locations of a path (`GetAll`, 22-24). -/
abbrev SI := Path → List Loc

/-- `Get`, internal/source_info.go:13-19. -/
def SI.get (si : SI) (p : Path) : Option Loc := (si p).head?

/-! ### Descriptors -/

/-- Scalar kinds, print.go:827-857. -/
inductive Scalar
  | int32 | int64 | uint32 | uint64 | sint32 | sint64 | fixed32 | fixed64 | sfixed32 | sfixed64
  | float | double | bool | string | bytes
deriving DecidableEq, Repr

/-- The types of fields that are not groups or maps. -/
inductive VType
  | scalar (k : Scalar)
  | enum (q : QName)
  | message (q : QName)
deriving DecidableEq, Repr

inductive FType
  | plain (t : VType)
  | group (idx : Nat)
  | map (k : Scalar) (v : VType) (idx : Nat)
deriving DecidableEq, Repr

inductive Cardinality | optional | required | repeated
deriving DecidableEq, Repr

/-- A floating-point number; `text` is what `%f` prints of the absolute value. -/
inductive Fl
  | finite (neg : Bool) (text : Str)
  | inf (neg : Bool)
  | nan
deriving DecidableEq, Repr

/-- Values of options and fields other than messages. An enum value has a name if the number is known. -/
inductive SVal
  | int (z : Int)
  | float (f : Fl)
  | str (b : Bytes)
  | bytes (b : Bytes)
  | bool (b : Bool)
  | enum (name : Option Str) (z : Int)
deriving DecidableEq, Repr

/-- The name of a field in a message literal. -/
inductive LName
  | plain (s : Str)
  | ext (q : QName)
deriving DecidableEq, Repr

mutual
/-- A message value: its fields in the order of their numbers, or an `Any` whose type is known and whose bytes decode;
`url` is the domain and the name of the type. -/
inductive MLit
  | fields (fs : LFields)
  | any (dom : QName) (type : QName) (m : MLit)
/-- The value of a field: a map is a list of entries, in the order of their keys. -/
inductive Lit
  | scalar (v : SVal)
  | scalars (vs : List SVal)
  | msg (m : MLit)
  | msgs (isMap : Bool) (ms : MLits)
inductive MLits
  | nil
  | cons (m : MLit) (ms : MLits)
inductive LFields
  | nil
  | cons (name : LName) (v : Lit) (fs : LFields)
end

/-- The value of an option (print.go:1768-1792). -/
inductive OVal
  | scalar (v : SVal)
  | msg (m : MLit)

/-- A part of the name of an uninterpreted option. -/
inductive NamePart
  | plain (s : Str)
  | ext (rooted : Bool) (q : QName)
deriving DecidableEq, Repr

/-- The name of an option: of a field of the options message, of an extension, or as it was written. -/
inductive OName
  | plain (s : Str)
  | ext (q : QName)
  | raw (ps : List NamePart)
deriving DecidableEq, Repr

/-- `option`, print.go:299-302; an uninterpreted option may have no value. -/
structure Opt where
  name : OName
  val : Option OVal

/-- `map[int32][]option`: the options by the number of their field, in the order of `optionsAsElementAddrs`. -/
abbrev Opts := List (Int × List Opt)

structure Field where
  name : Str
  number : Nat
  card : Cardinality
  optionalKeyword : Bool
  proto3 : Bool
  type : FType
  /-- `ContainingOneof`, by index -/
  oneof : Option Nat := none
  /-- `Default`, if `HasDefault` -/
  default : Option SVal := none
  /-- the JSON name, if it is not the default one -/
  jsonName : Option Bytes := none
  opts : Opts := []

structure Ext where
  field : Field
  extendee : QName

structure Oneof where
  name : Str
  synthetic : Bool
  opts : Opts := []

structure EnumValue where
  name : Str
  number : Int
  opts : Opts := []

structure Enum where
  name : Str
  opts : Opts := []
  values : List EnumValue := []
  resRanges : List Range := []
  resNames : List Bytes := []

structure Method where
  name : Str
  input : QName
  output : QName
  clientStream : Bool
  serverStream : Bool
  opts : Opts := []

structure Service where
  name : Str
  opts : Opts := []
  methods : List Method := []

/-- A message without the messages declared in it. Extension ranges have options; `same i j` is `proto.Equal` of the
options of two of them. -/
structure MHead where
  name : Str
  messageSet : Bool := false
  opts : Opts := []
  fields : List Field := []
  oneofs : List Oneof := []
  enums : List Enum := []
  exts : List Ext := []
  extRanges : List (Range × Opts) := []
  sameOpts : Nat → Nat → Bool := fun _ _ => false
  resRanges : List Range := []
  resNames : List Bytes := []

inductive Msg
  | mk (head : MHead) (msgs : List Msg)

def Msg.head : Msg → MHead | .mk h _ => h
def Msg.msgs : Msg → List Msg | .mk _ ms => ms

structure Import where
  path : Bytes
  isPublic : Bool := false
  isWeak : Bool := false
deriving DecidableEq, Repr

inductive Syntax | proto2 | proto3 | editions
deriving DecidableEq, Repr

structure File where
  syn : Syntax
  package : QName := []
  imports : List Import := []
  opts : Opts := []
  msgs : List Msg := []
  enums : List Enum := []
  services : List Service := []
  exts : List Ext := []

/-- An element of a scope (`elementAddr`, print.go:2165-2169): the type of the element and its place; of options the
number. `sib` is a field of a oneof (negative tag, print.go:1213). -/
inductive Key
  | pkg | dep (i : Nat) | opt (tag : Int) | msg (i : Nat) | enum (i : Nat) | svc (i : Nat) | ext (i : Nat)
  | field (i : Nat) | sib (i : Nat) | extR (i : Nat) | resR (i : Nat) | resN (i : Nat) | value (i : Nat) | method (i : Nat)
deriving DecidableEq, Repr

/-- The printer: its options (print.go:47-173), `unicode.IsPrint`, and the order of elements. -/
structure Cfg where
  preferMulti : Bool := false
  indent : Str := [' ', ' ']
  omitDetached : Bool := false
  omitTrailing : Bool := false
  omitLeading : Bool := false
  omitTokens : Bool := false
  trailingSeparate : Bool := false
  compactImports : Bool := false
  compactTop : Bool := false
  compactRPCs : Bool := false
  compactOptions : Bool := false
  compactFields : Bool := false
  compactComments : Bool := false
  compactTrailing : Bool := false
  compactLiterals : Bool := false
  force : Bool := false
  optCount : Int := 0
  optLength : Int := 0
  litLength : Int := 0
  isPrint : Nat → Bool
  sort : Path → List Key → List Key

/-! ### Writing -/

structure W where
  w : Writer := {}
  stuck : Bool := false
deriving DecidableEq, Repr

def put (s : Str) (w : W) : W := { w with w := (write w.w s).1 }
/-- `fmt.Fprintln(w)` -/
def nl (w : W) : W := put ['\n'] w
def panic (w : W) : W := { w with stuck := true }

def chars (b : Bytes) : Str := b.map Char.ofNat

/-- A keyword. -/
def kw (s : String) : Str := s.toList

/-- `newLine`, print.go:510-514. -/
def newLine (compact : Bool) (w : W) : W := if compact then w else nl w

variable (c : Cfg) (si : SI)

def puts : List Str → W → W
  | [], w => w
  | s :: ss, w => puts ss (put s w)

/-- `indent`, print.go:2721-2725. -/
def indentW (n : Int) (w : W) : W := puts (List.replicate n.toNat c.indent) w

/-- `inline`, print.go:1727-1734. -/
def inline (n : Int) : Int := PrintComment.inline n

/-- `printComment`, print.go:2622-2719; the pieces are written at once. -/
def comment (text : Str) (ind : Int) (force : Bool) (w : W) : W × Bool :=
  match PrintComment.printComment ⟨c.preferMulti, c.indent, w.w.newline, w.w.space⟩ text ind force with
  | .panic => (panic w, false)
  | .ok t b => (put t w, b)

/-- print.go:2568-2585: what follows a detached comment. -/
def afterDetached (ind : Int) (r : W × Bool) : W :=
  if r.2 then newLine c.compactComments r.1
  else if ind < 0 then put [' '] r.1
  else newLine c.compactComments (nl r.1)

/-- The loop over the detached comments, print.go:2567-2586. -/
def detachedLoop (ind : Int) : List Str → W → W
  | [], w => w
  | t :: ts, w => detachedLoop ind ts (afterDetached c ind (comment c t ind true w))

/-- print.go:2589-2602. -/
def leadingPart (l : Loc) (ind : Int) (w : W) : W :=
  if c.omitLeading || l.leading.isEmpty then w
  else
    let r := comment c l.leading ind true w
    if r.2 then r.1 else if ind ≥ 0 then nl r.1 else put [' '] r.1

/-- `printLeadingComments`, print.go:2563-2605 (the result is not used). -/
def leadingComments (l : Loc) (ind : Int) (w : W) : W :=
  leadingPart c l ind (if c.omitDetached then w else detachedLoop c ind l.detached w)

/-- `printTrailingComments`, print.go:2607-2620. -/
def trailingComments (l : Loc) (ind : Int) (w : W) : W × Bool :=
  if c.omitTrailing || l.trailing.isEmpty then (w, false)
  else
    let r := comment c l.trailing ind c.trailingSeparate w
    if r.2 = false ∧ ind ≥ 0 then (nl r.1, true)
    else if ind < 0 then (put [' '] r.1, true)
    else (r.1, true)

/-- Whether the comments of the element are printed, print.go:2512-2514 and 2534-2536. -/
def shown (isDesc : Bool) (l : Option Loc) : Option Loc := if isDesc || !c.omitTokens then l else none

/-- print.go:2525-2528 and 2541-2544 -/
def endLine (ind : Int) (w : W) : W := if ind ≥ 0 ∧ w.w.newline = false then nl w else w

/-- `printElement`, print.go:2531-2545. -/
def element (isDesc : Bool) (l : Option Loc) (ind : Int) (el : W → W) (w : W) : W :=
  match shown c isDesc l with
  | none => endLine ind (el w)
  | some l => endLine ind (trailingComments c l ind (el (leadingComments c l ind w))).1

/-- The `trailer` of a block element, print.go:2517-2524. -/
def trailer (l : Option Loc) (ind : Int) (want : Bool) (w : W) : W :=
  match l with
  | none => w
  | some l =>
    let r := trailingComments c l ind w
    if r.2 && want && !c.compactTrailing then nl r.1 else r.1

/-- `printBlockElement`, print.go:2511-2529 (always of a descriptor). -/
def blockElement (l : Option Loc) (ind : Int) (el : (Int → Bool → W → W) → W → W) (w : W) : W :=
  match l with
  | none => endLine ind (el (fun _ _ w => w) w)
  | some l' => endLine ind (el (trailer c l) (leadingComments c l' ind w))

/-- `printfElementString`, `printElementString`, print.go:2547-2557. -/
def elementString (l : Option Loc) (ind : Int) (s : Str) (w : W) : W := element c false l (inline ind) (put s) w

/-! ### Names -/

/-- `qualifyElementName`, print.go:790-821, see `Model/Qualify.lean`. Names are not empty. -/
def qual (pk sc q : QName) (required : Int) : Str :=
  (Qualify.qualifyElementName c.force (dotted pk) (dotted sc) (dotted q) required).getD []

def Scalar.text : Scalar → Str
  | .int32 => kw "int32" | .int64 => kw "int64" | .uint32 => kw "uint32" | .uint64 => kw "uint64"
  | .sint32 => kw "sint32" | .sint64 => kw "sint64" | .fixed32 => kw "fixed32" | .fixed64 => kw "fixed64"
  | .sfixed32 => kw "sfixed32" | .sfixed64 => kw "sfixed64" | .float => kw "float" | .double => kw "double"
  | .bool => kw "bool" | .string => kw "string" | .bytes => kw "bytes"

def VType.text (pk sc : QName) : VType → Str
  | .scalar k => k.text
  | .enum q => qual c pk sc q 0
  | .message q => qual c pk sc q 0

/-- `typeString`, print.go:823-866; `names` are the names of the messages beside the field. -/
def FType.text (pk sc : QName) (names : List Str) : FType → Str
  | .plain t => t.text c pk sc
  | .group i => names.getD i []
  | .map k v _ => kw "map<" ++ k.text ++ [',', ' '] ++ v.text c pk sc ++ ['>']

/-! ### Values -/

/-- `%f` of a number: infinities and NaN as Go prints them. -/
def Fl.text : Fl → Str
  | .finite neg t => if neg then '-' :: t else t
  | .inf neg => if neg then kw "-Inf" else kw "+Inf"
  | .nan => kw "NaN"

/-- print.go:1769-1780 and `printValueLiteralToBuffer`, message_literal.go:160-180. -/
def SVal.text : SVal → Str
  | .int z => showInt z
  | .float f => f.text
  | .str b => chars (Quote.quotedString c.isPrint b)
  | .bytes b => chars (Quote.quotedBytes b)
  | .bool b => if b then kw "true" else kw "false"
  | .enum (some n) _ => n
  | .enum none z => showInt z

/-- `maybeNewline`, message_literal.go:182-190. -/
def litBreak (ind : Int) : Str :=
  if ind < 0 then [] else '\n' :: (List.replicate ind.toNat c.indent).flatten

/-- The indentation inside, message_literal.go:43-45. -/
def deeper (ind : Int) : Int := if ind ≥ 0 then ind + 1 else ind

/-- The threshold, print.go:1782-1785. -/
def litThreshold : Int := if c.litLength = 0 then 50 else c.litLength

/-- `printMessageLiteralToBufferMaybeCompact` and `printArrayLiteralToBufferMaybeCompact`, message_literal.go:93-111,
192-210; `text` is what is printed at an indentation. -/
def maybeCompact (text : Int → Str) (ind : Int) : Str :=
  if c.compactLiterals = true ∧ ind ≥ 0 ∧
    (((text (-1)).count ',' ≤ 1 ∧ (text (-1)).count '{' = 1) ∨ ((text (-1)).length : Int) ≤ litThreshold c) then text (-1)
  else text ind

/-- `printMapLiteralToBufferMaybeCompact`, message_literal.go:250-260. -/
def maybeCompactMap (text : Int → Str) (ind : Int) : Str :=
  if c.compactLiterals = true ∧ ind ≥ 0 ∧ ((text (-1)).length : Int) ≤ litThreshold c then text (-1) else text ind

def LName.text (pk sc : QName) : LName → Str
  | .plain s => s
  | .ext q => '[' :: qual c pk sc q (-1) ++ [']']

/-- The elements of an array of scalars, message_literal.go:226-239. -/
def scalarsText : List SVal → Str
  | [] => []
  | [v] => v.text c
  | v :: vs => v.text c ++ [',', ' '] ++ scalarsText vs

mutual
/-- `printMessageLiteralToBuffer`, message_literal.go:37-91, and `maybePrintAnyMessageToBuffer`, 113-158. -/
def MLit.text (pk sc : QName) : MLit → Int → Str
  | .fields fs, ind => '{' :: LFields.text pk sc true fs (deeper ind) ++ litBreak c ind ++ ['}']
  | .any dom ty m, ind =>
    '{' :: litBreak c (deeper ind) ++ '[' :: dotted dom ++ '/' :: dotted ty ++ [']', ':', ' '] ++
      maybeCompact c (MLit.text pk sc m) (deeper ind) ++ litBreak c ind ++ ['}']
/-- The value of a field, message_literal.go:74-83, 218-248, 262-278. -/
def Lit.text (pk sc : QName) : Lit → Int → Str
  | .scalar v, _ => v.text c
  | .scalars vs, ind => maybeCompact c (fun _ => '[' :: scalarsText c vs ++ [']']) ind
  | .msg m, ind => maybeCompact c (MLit.text pk sc m) ind
  | .msgs isMap ms, ind =>
    let text := fun i => '[' :: MLits.text pk sc true ms (deeper i) ++ litBreak c i ++ [']']
    if isMap then maybeCompactMap c text ind else maybeCompact c text ind
/-- The elements of an array of messages, message_literal.go:226-233; `first`: no comma before. -/
def MLits.text (pk sc : QName) (first : Bool) : MLits → Int → Str
  | .nil, _ => []
  | .cons m ms, ind =>
    (if first then [] else [',']) ++ litBreak c ind ++ maybeCompact c (MLit.text pk sc m) ind ++ MLits.text pk sc false ms ind
/-- The fields, message_literal.go:60-84. -/
def LFields.text (pk sc : QName) (first : Bool) : LFields → Int → Str
  | .nil, _ => []
  | .cons n v fs, ind =>
    (if first then [] else [',']) ++ litBreak c ind ++ n.text c pk sc ++ [':', ' '] ++ Lit.text pk sc v ind ++
      LFields.text pk sc false fs ind
end

def NamePart.text : NamePart → Str
  | .plain s => s
  | .ext rooted q => '(' :: (if rooted then ['.'] else []) ++ dotted q ++ [')']

/-- `uninterpretedToOptions`, print.go:2026-2060. -/
def rawName : List NamePart → Str
  | [] => []
  | [p] => p.text
  | p :: ps => p.text ++ '.' :: rawName ps

/-- The name of an option, print.go:1920-1931; `inMsg`: the options are those of a message. -/
def OName.text (pk sc : QName) (inMsg : Bool) : OName → Str
  | .plain s => s
  | .ext q => '(' :: qual c pk sc q (if inMsg then 1 else 0) ++ [')']
  | .raw ps => rawName ps

/-- Where an option stands: package, scope, and whether the scope is a message. -/
structure At where
  pk : QName
  sc : QName
  inMsg : Bool := false

/-- `printOption`, print.go:1765-1793. -/
def printOption (a : At) (o : Opt) (ind : Int) (w : W) : W :=
  let w := put (o.name.text c a.pk a.sc a.inMsg ++ [' ', '=', ' ']) w
  match o.val with
  | none => panic w
  | some (.scalar v) => put (v.text c) w
  | some (.msg m) => put (maybeCompact c (m.text c a.pk a.sc) ind) w

/-! ### Options -/

/-- The loop of `printOptions`, print.go:1714-1725; `i` is the number of the option. -/
def optionsLoop (ind : Int) (loc : Nat → Option Loc) (fn : Opt → Bool → W → W) (haveMore : Bool) : Nat → List Opt → W → W
  | _, [], w => w
  | i, o :: os, w =>
    optionsLoop ind loc fn haveMore (i + 1) os
      (element c false (loc i) ind (fn o (haveMore || !os.isEmpty)) w)

/-- `printOptionsLong`, print.go:1586-1601. -/
def optionsLong (a : At) (os : List Opt) (path : Path) (ind : Int) (w : W) : W :=
  optionsLoop c ind (fun i => si.get (path ++ [(i : Int)])) (fun o _ w =>
    if o.val.isNone then w
    else put [';'] (printOption c a o ind (put (kw "option ") (indentW c ind w)))) false 0 os w

/-- `a.opts[tag]` -/
def optsAt (os : Opts) (tag : Int) : List Opt := ((os.find? (fun p => p.1 == tag)).map Prod.snd).getD []

/-- print.go:1693-1705 -/
def shortFn (a : At) (expand : Bool) (ind : Int) (o : Opt) (more : Bool) (w : W) : W :=
  let w := printOption c a o ind (if expand then indentW c ind w else w)
  if more then put (if expand then [',', '\n'] else [',', ' ']) w else w

/-- The options in brackets, print.go:1672-1707: the list of keys. -/
def shortLoop (a : At) (os : Opts) (tag : Int) (path : Path) (ind : Int) (expand : Bool) : List Key → W → W
  | [], w => w
  | .opt t :: ks, w =>
    let optIndent := if expand then ind else inline ind
    let loc := fun (i : Nat) => si.get (if t < 0 then path ++ [-t] else path ++ [tag, t, (i : Int)])
    shortLoop a os tag path ind expand ks
      (optionsLoop c optIndent loc (shortFn c a expand optIndent) (!ks.isEmpty) 0 (optsAt os t) w)
  | _ :: ks, w => shortLoop a os tag path ind expand ks w

/-- `printOptionElementsShort`, print.go:1665-1712. -/
def elementsShort (a : At) (os : Opts) (tag : Int) (path : Path) (ind : Int) (expand : Bool) (ks : List Key) (w : W) : W :=
  if expand then
    put [']'] (indentW c ind (shortLoop c si a os tag path (ind + 1) true ks (put ['[', '\n'] w)))
  else put [']'] (shortLoop c si a os tag path ind false ks (put ['['] w))

/-- `optionsAsElementAddrs`, print.go:2062-2071. -/
def optKeys (os : Opts) : List Key := os.map (fun p => .opt p.1)

/-- The text written to a buffer is taken over, print.go:1652-1660. -/
def commit (w t : W) : W :=
  let b := if w.w.space ∧ t.w.out.head? = some ' ' then t.w.out.tail else t.w.out
  let w' := put b w
  { w := { w'.w with newline := t.w.newline, space := t.w.space }, stuck := w.stuck || t.stuck }

/-- `printOptionsShort`, print.go:1618-1663; `tag` is the tag of the options. -/
def optionsShort (a : At) (os : Opts) (tag : Int) (path : Path) (ind : Int) (w : W) : W :=
  if os.isEmpty then w
  else
    let ks := c.sort path (optKeys os)
    let count : Int := ((os.map (fun p => p.2.length)).sum : Nat)
    if count > (if c.optCount ≤ 0 then 3 else c.optCount) then elementsShort c si a os tag path ind true ks w
    else
      let t := elementsShort c si a os tag path ind false ks { w with w := { w.w with out := [] } }
      if (t.w.out.length : Int) - 3 > (if c.optLength ≤ 0 then 50 else c.optLength) then
        { elementsShort c si a os tag path ind true ks w with stuck := t.stuck || (elementsShort c si a os tag path ind true ks w).stuck }
      else commit w t

/-! ### Fields -/

/-- `shouldEmitLabel`, print.go:1153-1161. -/
def shouldEmitLabel (f : Field) : Bool :=
  f.optionalKeyword ||
    (!(match f.type with | .map .. => true | _ => false) && f.oneof.isNone &&
      (decide (f.card ≠ .optional) || !f.proto3))

/-- `labelString`, print.go:1163-1176. -/
def labelText (f : Field) : Str :=
  match f.card with
  | .optional => if f.optionalKeyword then kw "optional" else []
  | .required => kw "required"
  | .repeated => kw "repeated"

/-- The options of a field and the pseudo-options, print.go:1108-1133: the keys of these are negative. -/
def fieldOpts (isExt : Bool) (f : Field) : Opts :=
  f.opts ++
    (match f.default with
      | some v => if f.proto3 then [] else [((-7 : Int), [⟨.plain (kw "default"), some (.scalar v)⟩])]
      | none => []) ++
    (match f.jsonName with
      | some j => if isExt then [] else [((-10 : Int), [⟨.plain (kw "json_name"), some (.scalar (.str j))⟩])]
      | none => [])

/-- A message declared beside or in a declaration: its name and how its body is printed at a path and an indentation. -/
structure Kid where
  name : Str
  body : Path → Int → W → W

def Field.group? (f : Field) : Option Nat := match f.type with | .group i => some i | _ => none

/-- `printField`, print.go:1039-1151; `msgTag` is the tag of the messages beside the field. -/
def printField (pk sc : QName) (kids : List Kid) (msgTag : Int) (isExt : Bool) (f : Field) (path : Path) (ind : Int) (w : W) : W :=
  let groupPath := fun (i : Nat) => path.take (path.length - 2) ++ [msgTag, (i : Int)]
  let loc := match f.group? with
    | some i => si.get (groupPath i)
    | none => si.get path
  blockElement c loc ind (fun trail w =>
    let w := indentW c ind w
    let w := if shouldEmitLabel f then elementString c (si.get (path ++ [4])) ind (labelText f ++ [' ']) w else w
    let w := if f.group?.isSome then put (kw "group ") w else w
    let w := elementString c (si.get (path ++ [5])) ind (f.type.text c pk sc (kids.map Kid.name) ++ [' ']) w
    let w := if f.group?.isSome then w else elementString c (si.get (path ++ [1])) ind (f.name ++ [' ']) w
    let w := put ['=', ' '] w
    let w := elementString c (si.get (path ++ [3])) ind (dec f.number ++ [' ']) w
    let w := optionsShort c si ⟨pk, sc ++ [f.name], false⟩ (fieldOpts isExt f) 8 path ind w
    match f.group? with
    | none => trail ind false (put [';'] w)
    | some i =>
      let w := trail (ind + 1) true (put ['{', '\n'] w)
      let w := match kids[i]? with
        | some k => k.body (groupPath i) (ind + 1) w
        | none => panic w
      put ['}', '\n'] (indentW c ind w)) w

/-! ### Enums -/

/-- `printEnumValue`, print.go:1457-1473; the value is declared in the scope of the enum. -/
def printEnumValue (pk sc : QName) (v : EnumValue) (path : Path) (ind : Int) (w : W) : W :=
  element c true (si.get path) ind (fun w =>
    let w := elementString c (si.get (path ++ [1])) ind (v.name ++ [' ']) (indentW c ind w)
    let w := elementString c (si.get (path ++ [2])) ind (showInt v.number ++ [' ']) (put ['=', ' '] w)
    put [';'] (optionsShort c si ⟨pk, sc ++ [v.name], false⟩ v.opts 3 path ind w)) w

/-- The items of a statement with a comma between them. -/
def items (print : α → W → W) : Bool → List α → W → W
  | _, [], w => w
  | first, x :: xs, w => items print false xs (print x (if first then w else put [',', ' '] w))

/-- `printReservedRanges`, print.go:1315-1341: the ranges with the paths of their elements. -/
def printReservedRanges (maxVal : Int) (rs : List (Range × Path)) (ind : Int) (w : W) : W :=
  let w := put (kw "reserved ") (indentW c ind w)
  let w := items (fun r => element c false (si.get r.2) (inline ind) (put (Ranges.reservedItem maxVal r.1 ++ [' ']))) true rs w
  put [';', '\n'] w

/-- `printReservedNames`, print.go:1343-1360. -/
def printReservedNames (ns : List (Bytes × Path)) (ind : Int) (w : W) : W :=
  let w := put (kw "reserved ") (indentW c ind w)
  let w := items (fun r => elementString c (si.get r.2) ind (chars (Quote.quotedString c.isPrint r.1) ++ [' '])) true ns w
  put [';', '\n'] w

/-- What is printed of an enum, print.go:1414-1449. -/
inductive EStep
  | opt (tag : Int)
  | value (i : Nat)
  | ranges (is : List Nat)
  | names (is : List Nat)
deriving DecidableEq, Repr

def isResR : Key → Option Nat | .resR i => some i | _ => none
def isResN : Key → Option Nat | .resN i => some i | _ => none
def isExtR : Key → Option Nat | .extR i => some i | _ => none

/-- The following elements of the same type, print.go:1421-1432, 1436-1447. -/
def run (sel : Key → Option Nat) : List Key → List Nat
  | [] => []
  | k :: ks => match sel k with | some i => i :: run sel ks | none => []

/-- The loop of `printEnum`, print.go:1398-1450: `skipR` and `skipN` are the ranges and names in `skip`. -/
def enumSteps (e : Enum) : List Range → List Bytes → List Key → List EStep
  | _, _, [] => []
  | skipR, skipN, k :: ks =>
    match k with
    | .opt t => .opt t :: enumSteps e skipR skipN ks
    | .value i => .value i :: enumSteps e skipR skipN ks
    | .resR i =>
      if (e.resRanges.getD i ⟨0, 0⟩) ∈ skipR then enumSteps e skipR skipN ks
      else .ranges (i :: run isResR ks) ::
        enumSteps e (skipR ++ (run isResR ks).map (fun j => e.resRanges.getD j ⟨0, 0⟩)) skipN ks
    | .resN i =>
      if (e.resNames.getD i []) ∈ skipN then enumSteps e skipR skipN ks
      else .names (i :: run isResN ks) ::
        enumSteps e skipR (skipN ++ (run isResN ks).map (fun j => e.resNames.getD j [])) ks
    | _ => enumSteps e skipR skipN ks

/-- The places of a list. -/
def places (mk : Nat → Key) (n : Nat) : List Key := (List.range n).map mk

/-- print.go:1384-1394 -/
def enumKeys (e : Enum) : List Key :=
  optKeys e.opts ++ places .value e.values.length ++ places .resR e.resRanges.length ++ places .resN e.resNames.length

/-- One step; the newline before it is printed unless it is the first element. -/
def runEStep (pk sc : QName) (e : Enum) (path : Path) (ind : Int) (s : EStep) (w : W) : W :=
  match s with
  | .opt t => optionsLong c si ⟨pk, sc ++ [e.name], false⟩ (optsAt e.opts t) (path ++ [3, t]) ind w
  | .value i =>
    match e.values[i]? with
    | some v => printEnumValue c si pk sc v (path ++ [2, (i : Int)]) ind w
    | none => panic w
  | .ranges is => printReservedRanges c si 2147483647 (is.map fun i => (e.resRanges.getD i ⟨0, 0⟩, path ++ [4, (i : Int)])) ind w
  | .names is => printReservedNames c si (is.map fun i => (e.resNames.getD i [], path ++ [5, (i : Int)])) ind w

/-- A list of steps with newlines before them; there is none before the first element of a scope. -/
def runSteps (compact : Bool) (one : α → W → W) : Bool → List α → W → W
  | _, [], w => w
  | first, s :: ss, w => runSteps compact one false ss (one s (if first then w else newLine compact w))

/-- `printEnum`, print.go:1362-1455. -/
def printEnum (pk sc : QName) (e : Enum) (path : Path) (ind : Int) (w : W) : W :=
  blockElement c (si.get path) ind (fun trail w =>
    let w := elementString c (si.get (path ++ [1])) ind (e.name ++ [' ']) (put (kw "enum ") (indentW c ind w))
    let w := trail (ind + 1) true (put ['{', '\n'] w)
    let w := runSteps c.compactFields (runEStep c si pk sc e path (ind + 1)) true
      (enumSteps e [] [] (c.sort path (enumKeys e))) w
    put ['}', '\n'] (indentW c ind w)) w

/-! ### Extensions -/

/-- `isSpanWithin`, print.go:689-707; `none`: index out of range. -/
def isSpanWithin (span enclosing : Path) : Option Bool := do
  let start ← enclosing[0]?
  let stop ← if enclosing.length = 3 then enclosing[0]? else enclosing[2]?
  let s0 ← span[0]?
  if s0 < start ∨ s0 > stop then return false
  if s0 = start then return decide ((← span[1]?) ≥ (← enclosing[1]?))
  else if s0 = stop then return decide ((← span[1]?) ≤ (← enclosing.getLast?))
  else return true

/-- The loop of `findExtSi`, print.go:681-685: the number of the location. -/
def findExtLoop (path : Path) : Nat → List Loc → Option (Option Nat)
  | _, [] => some none
  | i, l :: ls =>
    match isSpanWithin path l.path with
    | none => none
    | some true => some (some i)
    | some false => findExtLoop path (i + 1) ls

/-- `findExtSi`, print.go:677-687, for the location of an extension (print.go:722-723): it has a path if there is one. -/
def findExtSi (path : Path) (extSis : List Loc) : Option (Option Nat) :=
  if (si path).isEmpty then some none else findExtLoop path 0 extSis

/-- The key of an `extensionDecl`, print.go:717-749: the extended message and the location; `path` is that of the list of
extensions. -/
def extClass (exts : List Ext) (path : Path) (i : Nat) : Option (QName × Option Nat) :=
  match exts[i]? with
  | none => none
  | some x => (findExtSi si (path ++ [(i : Int)]) (si path)).map (fun l => (x.extendee, l))

/-- `computeExtensions` crashes. -/
def extsPanic (exts : List Ext) (path : Path) : Bool :=
  (List.range exts.length).any (fun i => (extClass si exts path i).isNone)

/-- `exts.sourceInfo` -/
def extLoc (exts : List Ext) (path : Path) (i : Nat) : Option Loc :=
  match extClass si exts path i with
  | some (_, some j) => (si path)[j]?
  | _ => none

/-- The fields of a declaration: those of the same class from the element on, at most as many as there are in the class,
print.go:1258-1276. -/
def extMembers (exts : List Ext) (path : Path) (i : Nat) (ks : List Key) : List Nat :=
  let cls := extClass si exts path i
  let count := ((List.range exts.length).filter (fun j => extClass si exts path j = cls)).length
  ((ks.filterMap (fun k => match k with | .ext j => some j | _ => none)).filter
    (fun j => extClass si exts path j = cls)).take count

/-- The fields of the block, print.go:1258-1276. -/
def extFields (pk sc : QName) (kids : List Kid) (msgTag : Int) (exts : List Ext) (path : Path) (ind : Int) (is : List Nat) (w : W) : W :=
  runSteps c.compactFields (fun i w =>
    match exts[i]? with
    | some x => printField c si pk sc kids msgTag true x.field (path ++ [(i : Int)]) ind w
    | none => panic w) true is w

/-- `printExtensions`, print.go:1244-1280; `path` is that of the list of extensions, `is` the fields of the block. -/
def printExtensions (pk sc : QName) (kids : List Kid) (msgTag : Int) (exts : List Ext) (path : Path) (ind : Int) (is : List Nat)
    (w : W) : W :=
  match is with
  | [] => panic w
  | i :: _ =>
    match exts[i]? with
    | none => panic w
    | some x =>
      let loc := extLoc si exts path i
      let w := match loc with | some l => leadingComments c l ind w | none => w
      let w := put (kw "extend ") (indentW c ind w)
      let w := elementString c (si.get (path ++ [0, 2])) ind (qual c pk sc x.extendee 0 ++ [' ']) w
      let w := put ['{', '\n'] w
      let w := match loc with
        | some l =>
          let r := trailingComments c l (ind + 1) w
          if r.2 && !c.compactTrailing then nl r.1 else r.1
        | none => w
      let w := extFields c si pk sc kids msgTag exts path (ind + 1) is w
      put ['}', '\n'] (indentW c ind w)

/-! ### Messages -/

/-- What is printed of a message or a file. -/
inductive Step
  | pkg | dep (i : Nat) | opt (tag : Int) | field (i : Nat) | oneof (j : Nat) (is : List Nat) | exts (is : List Nat)
  | msg (i : Nat) | enum (i : Nat) | svc (i : Nat) | extRanges (is : List Nat) | ranges (is : List Nat) | names (is : List Nat)
deriving DecidableEq, Repr

/-- The messages that are not printed: those of groups and maps, print.go:908-915, 922-930, 590-598. -/
def hidden (fs : List Field) (exts : List Ext) : List Nat :=
  fs.filterMap (fun f => match f.type with | .group i => some i | .map _ _ i => some i | _ => none) ++
    exts.filterMap (fun x => x.field.group?)

/-- The oneof a field is printed in, print.go:970-971. -/
def realOneof (h : MHead) (i : Nat) : Option Nat :=
  match h.fields[i]? with
  | none => none
  | some f =>
    match f.oneof with
    | none => none
    | some j => if (h.oneofs[j]?.map Oneof.synthetic).getD false then none else some j

/-- The fields of a oneof, print.go:1205-1216: from the element on, at most as many as there are. -/
def oneofMembers (h : MHead) (j : Nat) (ks : List Key) : List Nat :=
  let count := (h.fields.filter (fun f => f.oneof = some j)).length
  ((ks.filterMap (fun k => match k with | .field i => some i | _ => none)).filter
    (fun i => decide ((h.fields[i]?.bind Field.oneof) = some j))).take count

/-- The loop of `printMessageBody`, print.go:937-1036. `skipAddrs` as there; `skipO` and `skipE` stand for the fields in
`skip`: the oneofs and declarations of extensions that have been printed. -/
def steps (h : MHead) (path : Path) : Nat → List Nat → List (Option (QName × Option Nat)) → List Key → List Step
  | _, _, _, [] => []
  | n + 1, so, se, _ :: ks => steps h path n so se ks
  | 0, so, se, k :: ks =>
    match k with
    | .opt t => .opt t :: steps h path 0 so se ks
    | .field i =>
      match realOneof h i with
      | none => .field i :: steps h path 0 so se ks
      | some j =>
        if j ∈ so then steps h path 0 so se ks
        else .oneof j (oneofMembers h j (k :: ks)) :: steps h path 0 (j :: so) se ks
    | .ext i =>
      let cls := extClass si h.exts (path ++ [6]) i
      if cls ∈ se then steps h path 0 so se ks
      else .exts (extMembers si h.exts (path ++ [6]) i (k :: ks)) :: steps h path 0 so (cls :: se) ks
    | .msg i => if i ∈ hidden h.fields h.exts then steps h path 0 so se ks else .msg i :: steps h path 0 so se ks
    | .enum i => .enum i :: steps h path 0 so se ks
    | .extR i =>
      let more := run (fun k => match isExtR k with | some j => if h.sameOpts i j then some j else none | none => none) ks
      .extRanges (i :: more) :: steps h path more.length so se ks
    | .resR i => .ranges (i :: run isResR ks) :: steps h path (run isResR ks).length so se ks
    | .resN i => .names (i :: run isResN ks) :: steps h path (run isResN ks).length so se ks
    | _ => steps h path 0 so se ks

/-- print.go:894-930 -/
def msgKeys (h : MHead) (nmsgs : Nat) : List Key :=
  optKeys h.opts ++ places .resR h.resRanges.length ++ places .resN h.resNames.length ++ places .extR h.extRanges.length ++
    places .field h.fields.length ++ places .msg nmsgs ++ places .enum h.enums.length ++ places .ext h.exts.length

/-- An element of a oneof, print.go:1229-1236. -/
def runOStep (pk sc : QName) (kids : List Kid) (h : MHead) (o : Oneof) (parent oopath : Path) (ind : Int) (k : Key) (w : W) : W :=
  match k with
  | .opt t => optionsLong c si ⟨pk, sc ++ [o.name], false⟩ (optsAt o.opts t) (oopath ++ [2, t]) ind w
  | .sib i =>
    match h.fields[i]? with
    | some f => printField c si pk sc kids 3 false f (parent ++ [2, (i : Int)]) ind w
    | none => panic w
  | _ => w

/-- `printOneOf`, print.go:1182-1242; `is` are the fields. -/
def printOneOf (pk sc : QName) (kids : List Kid) (h : MHead) (j : Nat) (is : List Nat) (parent : Path) (ind : Int) (w : W) : W :=
  match h.oneofs[j]? with
  | none => panic w
  | some o =>
    let oopath := parent ++ [8, (j : Int)]
    blockElement c (si.get oopath) ind (fun trail w =>
      let w := elementString c (si.get (oopath ++ [1])) ind (o.name ++ [' ']) (put (kw "oneof ") (indentW c ind w))
      let w := trail (ind + 1) true (put ['{', '\n'] w)
      let w := runSteps c.compactFields (runOStep c si pk sc kids h o parent oopath (ind + 1)) true
        (c.sort oopath (optKeys o.opts ++ is.map .sib)) w
      put ['}', '\n'] (indentW c ind w)) w

/-- `printExtensionRanges`, print.go:1282-1313: the ranges with the paths of their elements, and the options of the last. -/
def printExtensionRanges (pk sc : QName) (maxTag : Int) (rs : List (Range × Path)) (os : Opts) (path : Path) (ind : Int) (w : W) : W :=
  let w := put (kw "extensions ") (indentW c ind w)
  let w := items (fun r => element c true (si.get r.2) (inline ind) (put (Ranges.extensionItem maxTag r.1 ++ [' ']))) true rs w
  put [';', '\n'] (optionsShort c si ⟨pk, sc, true⟩ os 3 path ind w)

/-- `printMessage`, print.go:868-883. -/
def printMessage (k : Kid) (path : Path) (ind : Int) (w : W) : W :=
  blockElement c (si.get path) ind (fun trail w =>
    let w := elementString c (si.get (path ++ [1])) ind (k.name ++ [' ']) (put (kw "message ") (indentW c ind w))
    let w := trail (ind + 1) true (put ['{', '\n'] w)
    put ['}', '\n'] (indentW c ind (k.body path (ind + 1) w))) w

/-- One step of a message, print.go:958-1035. `sc` is the full name of the message. -/
def runStep (pk sc : QName) (kids : List Kid) (h : MHead) (path : Path) (ind : Int) (s : Step) (w : W) : W :=
  match s with
  | .opt t => optionsLong c si ⟨pk, sc, true⟩ (optsAt h.opts t) (path ++ [7, t]) ind w
  | .field i =>
    match h.fields[i]? with
    | some f => printField c si pk sc kids 3 false f (path ++ [2, (i : Int)]) ind w
    | none => panic w
  | .oneof j is => printOneOf c si pk sc kids h j is path ind w
  | .exts is => printExtensions c si pk sc kids 3 h.exts (path ++ [6]) ind is w
  | .msg i =>
    match kids[i]? with
    | some k => printMessage c si k (path ++ [3, (i : Int)]) ind w
    | none => panic w
  | .enum i =>
    match h.enums[i]? with
    | some e => printEnum c si pk sc e (path ++ [4, (i : Int)]) ind w
    | none => panic w
  | .extRanges is =>
    let last := is.getLastD 0
    printExtensionRanges c si pk sc (Ranges.getMaxTag h.messageSet)
      (is.map fun (i : Nat) => (((h.extRanges[i]?).map Prod.fst).getD ⟨0, 0⟩, path ++ [5, (i : Int)]))
      (((h.extRanges[last]?).map Prod.snd).getD []) (path ++ [5, (last : Int)]) ind w
  | .ranges is =>
    printReservedRanges c si (Ranges.getMaxTag h.messageSet)
      (is.map fun i => (h.resRanges.getD i ⟨0, 0⟩, path ++ [9, (i : Int)])) ind w
  | .names is => printReservedNames c si (is.map fun i => (h.resNames.getD i [], path ++ [10, (i : Int)])) ind w
  | _ => w

/-- Whether the first element is printed, i.e. the first that is printed is not preceded by a newline. -/
def firstShown (h : MHead) (ks : List Key) : Bool :=
  match ks with
  | .msg i :: _ => !decide (i ∈ hidden h.fields h.exts)
  | _ => true

/-- `printMessageBody`, print.go:885-1037. -/
def printMessageBody (pk sc : QName) (kids : List Kid) (h : MHead) (path : Path) (ind : Int) (w : W) : W :=
  if extsPanic si h.exts (path ++ [6]) then panic w
  else runSteps c.compactFields (runStep c si pk sc kids h path ind)
    (firstShown h (c.sort path (msgKeys h kids.length)))
    (steps si h path 0 [] [] (c.sort path (msgKeys h kids.length))) w

mutual
/-- A message in the scope `sc`. -/
def Msg.kid (pk sc : QName) : Msg → Kid
  | .mk h ms => ⟨h.name, printMessageBody c si pk (sc ++ [h.name]) (Msg.kids pk (sc ++ [h.name]) ms) h⟩
def Msg.kids (pk sc : QName) : List Msg → List Kid
  | [] => []
  | m :: ms => Msg.kid pk sc m :: Msg.kids pk sc ms
end

/-! ### Services and files -/

/-- `printMethod`, print.go:1523-1584. The options of a method are printed in its body. -/
def printMethod (pk sc : QName) (m : Method) (path : Path) (ind : Int) (w : W) : W :=
  blockElement c (si.get path) ind (fun trail w =>
    let w := elementString c (si.get (path ++ [1])) ind m.name (put (kw "rpc ") (indentW c ind w))
    let inName := (if m.clientStream then kw "stream " else []) ++ qual c pk pk m.input 0
    let w := elementString c (si.get (path ++ [2])) ind inName (put ['('] w)
    let outName := (if m.serverStream then kw "stream " else []) ++ qual c pk pk m.output 0
    let w := elementString c (si.get (path ++ [3])) ind outName (put (kw ") returns (") w)
    let w := put [')', ' '] w
    if m.opts.isEmpty then trail ind false (put [';'] w)
    else
      let w := trail (ind + 1) true (put ['{', '\n'] w)
      let w := runSteps c.compactOptions (fun k w =>
        match k with
        | .opt t => optionsLong c si ⟨pk, sc ++ [m.name], false⟩ (optsAt m.opts t) (path ++ [4, t]) (ind + 1) w
        | _ => w) true (c.sort path (optKeys m.opts)) w
      put ['}', '\n'] (indentW c ind w)) w

/-- `printService`, print.go:1475-1521. -/
def printService (pk : QName) (s : Service) (path : Path) (ind : Int) (w : W) : W :=
  blockElement c (si.get path) ind (fun trail w =>
    let w := elementString c (si.get (path ++ [1])) ind (s.name ++ [' ']) (put (kw "service ") (indentW c ind w))
    let w := trail (ind + 1) true (put ['{', '\n'] w)
    let w := runSteps c.compactRPCs (fun k w =>
      match k with
      | .opt t => optionsLong c si ⟨pk, pk ++ [s.name], false⟩ (optsAt s.opts t) (path ++ [3, t]) (ind + 1) w
      | .method i =>
        match s.methods[i]? with
        | some m => printMethod c si pk (pk ++ [s.name]) m (path ++ [2, (i : Int)]) (ind + 1) w
        | none => panic w
      | _ => w) true (c.sort path (optKeys s.opts ++ places .method s.methods.length)) w
    put ['}', '\n'] (indentW c ind w)) w

/-- `%q` of an import path, which has no characters that are not printable. -/
def goQuote (b : Bytes) : Bytes := 34 :: b.flatMap (fun x => if x = 34 ∨ x = 92 then [92, x] else [x]) ++ [34]

/-- `Syntax.String` of protoreflect. -/
def Syntax.text : Syntax → Str
  | .proto2 => kw "proto2" | .proto3 => kw "proto3" | .editions => kw "editions"

/-- The modifier of the first import with the path, print.go:630-641. -/
def modifier (is : List Import) (path : Bytes) : Str :=
  match is.find? (fun i => i.path == path) with
  | some i => if i.isPublic then kw "public " else if i.isWeak then kw "weak " else []
  | none => []

/-- print.go:571-598 -/
def fileKeys (f : File) : List Key :=
  (if f.package = [] then [] else [.pkg]) ++ places .dep f.imports.length ++ optKeys f.opts ++ places .msg f.msgs.length ++
    places .enum f.enums.length ++ places .svc f.services.length ++ places .ext f.exts.length

/-- Whether a blank line follows, print.go:645-652. -/
def blankAfter (s : Key) (ks : List Key) : Bool :=
  match s with
  | .dep _ => if c.compactImports then !(match ks with | .dep _ :: _ => true | _ => false) else true
  | _ => true

/-- The loop of `printFile`, print.go:604-674: the steps, each with the flag `needsBlankLine` before it. -/
def fileSteps (f : File) : Bool → List (Option (QName × Option Nat)) → List Key → List (Bool × Step)
  | _, _, [] => []
  | blank, se, k :: ks =>
    match k with
    | .pkg => (blank, .pkg) :: fileSteps f (blankAfter c k ks) se ks
    | .dep i => (blank, .dep i) :: fileSteps f (blankAfter c k ks) se ks
    | .opt t => (blank, .opt t) :: fileSteps f (blankAfter c k ks) se ks
    | .msg i =>
      if i ∈ hidden [] f.exts then fileSteps f blank se ks
      else (blank, .msg i) :: fileSteps f (blankAfter c k ks) se ks
    | .enum i => (blank, .enum i) :: fileSteps f (blankAfter c k ks) se ks
    | .svc i => (blank, .svc i) :: fileSteps f (blankAfter c k ks) se ks
    | .ext i =>
      let cls := extClass si f.exts [7] i
      if cls ∈ se then fileSteps f blank se ks
      else (blank, .exts (extMembers si f.exts [7] i (k :: ks))) :: fileSteps f (blankAfter c k ks) (cls :: se) ks
    | _ => fileSteps f blank se ks

/-- The source info with the location of the package also at its first element, print.go:560-561. -/
def fileSI : SI := fun p => if p = [2, 0] ∧ si p = [] then (si.get [2]).toList else si p

/-- One step of a file, print.go:619-673. -/
def runFStep (f : File) (kids : List Kid) (s : Step) (w : W) : W :=
  let si := fileSI si
  match s with
  | .pkg => element c false (si.get [2, 0]) 0 (put (kw "package " ++ dotted f.package ++ [';'])) w
  | .dep i =>
    match f.imports[i]? with
    | some im =>
      element c false (si.get [3, (i : Int)]) 0
        (put (kw "import " ++ modifier f.imports im.path ++ chars (goQuote im.path) ++ [';'])) w
    | none => panic w
  | .opt t => optionsLong c si ⟨f.package, f.package, false⟩ (optsAt f.opts t) [8, t] 0 w
  | .msg i =>
    match kids[i]? with
    | some k => printMessage c si k [4, (i : Int)] 0 w
    | none => panic w
  | .enum i =>
    match f.enums[i]? with
    | some e => printEnum c si f.package f.package e [5, (i : Int)] 0 w
    | none => panic w
  | .svc i =>
    match f.services[i]? with
    | some s => printService c si f.package s [6, (i : Int)] 0 w
    | none => panic w
  | .exts is => printExtensions c si f.package f.package kids 4 f.exts [7] 0 is w
  | _ => w

def runFSteps (f : File) (kids : List Kid) : List (Bool × Step) → W → W
  | [], w => w
  | (b, s) :: ss, w => runFSteps f kids ss (runFStep c si f kids s (if b then newLine c.compactTop w else w))

/-- `printFile`, print.go:552-675. -/
def printFile (f : File) (w : W) : W :=
  let w := element c false ((fileSI si).get [12]) 0 (put (kw "syntax = " ++ '"' :: f.syn.text ++ ['"', ';'])) w
  let w := newLine c.compactTop w
  if extsPanic (fileSI si) f.exts [7] then panic w
  else runFSteps c si f (Msg.kids c (fileSI si) f.package f.package f.msgs)
    (fileSteps c (fileSI si) f false [] (c.sort [] (fileKeys f))) w

/-- `PrintProto` of a file, print.go:331-361: the text, or a crash. -/
def print (f : File) : Option Str :=
  let w := printFile c si f {}
  if w.stuck then none else some w.w.out

end Verif.Printer
