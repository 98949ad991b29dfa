import Verif.Model.InlineComment
import Verif.Model.BlockComment
import Verif.Model.ColumnFormat
/-!
# Model of the formatter: how a syntax tree is written

/repo/pkg/format/formatter.go:53-76 (`saveState`, `mergeState`), 226-227, 372-577 (declarations at the top, options),
594-900 (messages and literals), 915-1310 (fields, enums, services, groups, ranges), 1321-1725 (option lists, arrays,
bodies, compound literals), 1736-1925 (`writeNode`), 1955-2220 (`writeStart`, `writeInline`, `writeBodyEnd`,
`writeBodyEndInline`, `writeLineEnd`), 2228-2318 (comments), and /repo/pkg/format/column_format.go:17-481.

The nodes of the syntax tree are those of the package `ast` of protocompile, which is not part of the repository. A
terminal node carries its text and what `NodeInfo` says about it; for another node, `NodeInfo` gives the comments and
the white space of its first and of its last token. A node that is created by the formatter has no comments. Where the
code does not compare with `nil`, the node is present: the parser of protocompile inserts missing semicolons as
virtual nodes. The places where a missing node would lead to a `nil` dereference set `stuck`.
-/
namespace Verif.Formatter
open Verif.FormatWriter (St)
open Verif.InlineComment (Comment)
open Verif.ColumnFormat (Field Elem)

/-! ### Tokens and the state -/

/-- A terminal node: a rune, the text of a string literal in the source, or another text. -/
inductive Term where
  | rune (c : Char)
  | text (s : Str)
  | string (raw : Str)
deriving DecidableEq, Repr

/-- A terminal node with its `NodeInfo`: leading white space, comments, line; `virtual` is `RuneNode.Virtual`. -/
structure Tok where
  term : Term
  ws : Str := []
  leading : List Comment := []
  trailing : List Comment := []
  line : Nat := 0
  virtual : Bool := false

/-- A rune node that the formatter creates, e.g. formatter.go:563. -/
def Tok.new (c : Char) : Tok := { term := .rune c }

/-- The rune of a rune node; `Indent` and `isOpenBrace` look at it. -/
def Tok.rune? (t : Tok) : Option Char :=
  match t.term with
  | .rune c => some c
  | _ => none

/-- `isOpenBrace`, formatter.go:2566-2577. -/
def isOpen (r : Option Char) : Bool := r == some '{' || r == some '[' || r == some '<'

/-- `newlineCount`, formatter.go:2586-2588. -/
def newlines (s : Str) : Nat := s.count '\n'

/-- The state of the formatter, formatter.go:41-76. `prev` is `none` if `previousNode` is nil; otherwise it says
whether that node is an open brace. `err` says that `writeNode` reported an error, `stuck` that the code panics. -/
structure F where
  w : St := {}
  prev : Option Bool := none
  inCompact : Bool := false
  stuck : Bool := false

def F.prevOpen (f : F) : Bool := f.prev == some true

/-- Parameters: `pfx` see `BlockComment`, `far` see `ColumnFormat`. -/
structure Cfg where
  pfx : Char → Option Nat
  far : List Nat → Nat → Bool

def setPrev (b : Bool) (f : F) : F := { f with prev := some b }
def setInline (b : Bool) (f : F) : F := { f with w := { f.w with inline := b } }
def setCompact (b : Bool) (f : F) : F := { f with inCompact := b }
def space (f : F) : F := { f with w := FormatWriter.space f.w }
def put (s : Str) (f : F) : F := { f with w := FormatWriter.write f.w s }
/-- `P("")`. -/
def newline (f : F) : F := { f with w := FormatWriter.P f.w [] }
def indentIn (f : F) : F := { f with w := FormatWriter.incr f.w }
def indentOut (f : F) : F := { f with w := FormatWriter.decr f.w }
def indentation (r : Option Char) (f : F) : F := { f with w := FormatWriter.indentation f.w r }
def panic (f : F) : F := { f with stuck := true }

/-! ### Comments -/

/-- `writeInlineComments`, formatter.go:2265-2288. -/
def inlineComments (cs : List Comment) (f : F) : F := { f with w := InlineComment.writeInlineComments f.w cs }

section
variable (cfg : Cfg)

/-- `writeComment`, formatter.go:2320-2418. -/
def comment (text : Str) (f : F) : F := { f with w := BlockComment.writeComment cfg.pfx f.w text }

/-- The loop of `writeMultilineCommentsMaybeCompact`, formatter.go:2225-2243. -/
def multilineLoop (compact : Bool) : List Comment → F → F
  | [], f => f
  | c :: cs, f =>
    let f1 := if !compact && newlines c.leadingWhitespace > 1 then newline f else f
    multilineLoop false cs (put ['\n'] (comment cfg c.text f1))

/-- `writeMultilineCommentsMaybeCompact`, formatter.go:2223-2244. -/
def multiline (force : Bool) (cs : List Comment) (f : F) : F := multilineLoop cfg (force || f.prevOpen) cs f

/-- The loop of `writeTrailingEndComments`, formatter.go:2306-2316; `i` is the index of the comment. -/
def trailingLoop (i : Nat) : List Comment → F → F
  | [], f => f
  | c :: cs, f =>
    let f1 := if c.leadingWhitespace.contains '\n' then newline f
      else if i > 0 ∧ c.leadingWhitespace ≠ [] then space f else f
    trailingLoop (i + 1) cs (comment cfg c.text f1)

/-- `writeTrailingEndComments`, formatter.go:2305-2318. -/
def trailingEnd (cs : List Comment) (f : F) : F := newline (trailingLoop cfg 0 cs f)

/-! ### Terminal nodes -/

/-- The text written for a string literal, `writeStringLiteral`, formatter.go:1771-1782; see `Requote`. -/
def requote (raw : Str) : Str :=
  if raw.length > 1 ∧ raw.head? = some '\'' ∧ raw.getLast? = some '\'' then '"' :: raw.tail.dropLast ++ ['"'] else raw

/-- The text that is written for a terminal node. -/
def Tok.str (t : Tok) : Str :=
  match t.term with
  | .rune c => [c]
  | .text s => s
  | .string raw => requote raw

/-- `writeNode` of a terminal node, formatter.go:1736-1738, 1760-1794, 1816-1834. -/
def Tok.write (t : Tok) (f : F) : F :=
  match t.term with
  | .rune c => { f with w := FormatWriter.writeRune f.w c }
  | _ => put t.str f

/-- `writeStartMaybeCompact` up to the call of the node writer, formatter.go:1963-2008; `ws` and `leading` belong to
the first token of the node, `r` is its rune if it is a rune node. -/
def startPre (force : Bool) (ws : Str) (leading : List Comment) (r : Option Char) (f : F) : F :=
  let compact := force || f.prevOpen
  let f1 :=
    if leading ≠ [] then
      let g := multiline cfg force leading f
      if !force && newlines ws > 1 then newline g else g
    else if !compact && newlines ws > 1 then newline f
    else f
  indentation r f1

/-- `writeStartMaybeCompact` after the call of the node writer, formatter.go:2010-2013 and 1971. -/
def startPost (trailing : List Comment) (r : Option Char) (f : F) : F :=
  setPrev (isOpen r) (if trailing ≠ [] then inlineComments trailing f else f)

/-- `writeStartMaybeCompact` of a terminal node, formatter.go:1959-2014. -/
def startMaybe (force : Bool) (t : Tok) (f : F) : F :=
  startPost t.trailing t.rune? (t.write (startPre cfg force t.ws t.leading t.rune? f))

/-- `writeStart` of a terminal node, formatter.go:1955-1957. -/
def start (t : Tok) (f : F) : F := startMaybe cfg false t f

/-- Leading comments in-line, e.g. formatter.go:2040-2045. -/
def leadInline (t : Tok) (f : F) : F :=
  if t.leading ≠ [] then
    let g := inlineComments t.leading f
    if t.ws ≠ [] then space g else g
  else f

/-- `writeInline` of a terminal node, formatter.go:2025-2049. -/
def inl (t : Tok) (f : F) : F :=
  setInline false (setPrev (isOpen t.rune?) (inlineComments t.trailing (t.write (leadInline t (setInline true f)))))

/-- `writeInline` of several nodes, one after the other. -/
def inls : List Tok → F → F
  | [], f => f
  | t :: ts, f => inls ts (inl t f)

/-- The comments after the end of a body, formatter.go:2097-2104 and 2162-2170. -/
def endComments (t : Tok) (semi : Option Tok) : List Comment :=
  if t.trailing ≠ [] then t.trailing
  else match semi with
    | some s => if s.virtual then s.trailing else []
    | none => []

/-- The comments before the end of a body, formatter.go:2083-2095. -/
def endLead (inlined : Bool) (t : Tok) (f : F) : F :=
  if inlined then leadInline t f else indentation t.rune? (multiline cfg false t.leading f)

/-- `writeBodyEnd` of a terminal node, formatter.go:2069-2105. -/
def bodyEnd (t : Tok) (semi : Option Tok) (inlined : Bool) (f : F) : F :=
  let g := t.write (endLead cfg inlined t f)
  let h := if t.trailing = [] ∧ (match semi with | some s => s.virtual | none => false) = true then space g else g
  setPrev (isOpen t.rune?) (trailingEnd cfg (endComments t semi) h)

/-- `writeLineElement` of a terminal node, formatter.go:2107-2109. -/
def lineElement (t : Tok) (f : F) : F := bodyEnd cfg t none false f

/-- `writeBodyEndInline` of a terminal node, formatter.go:2137-2171. -/
def bodyEndInline (t : Tok) (semi : Option Tok) (inlined : Bool) (f : F) : F :=
  let g := t.write (endLead cfg inlined t f)
  setPrev (isOpen t.rune?) (if endComments t semi ≠ [] then inlineComments (endComments t semi) g else g)

/-- `writeLineEnd` of a terminal node, formatter.go:2184-2207. -/
def lineEnd (t : Tok) (f : F) : F :=
  setPrev (isOpen t.rune?) (trailingEnd cfg t.trailing (space (t.write (leadInline t f))))

/-- `writeLineEnd` of a node that may be missing. -/
def lineEnd? : Option Tok → F → F
  | some t, f => lineEnd cfg t f
  | none, f => panic f

/-! ### Bodies -/

/-- `writeOpenBracePrefix`, formatter.go:1590-1605. -/
def openBrace (t : Tok) (f : F) : F :=
  let g := t.write (leadInline t f)
  setPrev (isOpen t.rune?) (if t.trailing ≠ [] then trailingEnd cfg t.trailing g else newline g)

/-- `writeOpenBracePrefixInline`, formatter.go:1607-1620. -/
def openBraceInline (t : Tok) (f : F) : F :=
  let g := t.write (leadInline t f)
  setPrev (isOpen t.rune?) (if t.trailing ≠ [] then inlineComments t.trailing g else g)

/-- `writeOpenBracePrefixForArray`, formatter.go:1624-1637. -/
def openBraceForArray (t : Tok) (f : F) : F :=
  let g := t.write (indentation t.rune? (if t.leading ≠ [] then multiline cfg false t.leading f else f))
  setPrev (isOpen t.rune?) (if t.trailing ≠ [] then trailingEnd cfg t.trailing g else newline g)

/-- `writeBody`, formatter.go:1559-1585; `elems` is `elementWriterFunc`. Both braces are present. -/
def body (op cl : Tok) (semi : Option Tok) (elems : Option (F → F)) (openW : Tok → F → F)
    (closeW : Tok → Option Tok → Bool → F → F) (f : F) : F :=
  match elems with
  | none =>
    if op.trailing = [] ∧ cl.leading = [] then closeW cl semi true (inl op f)
    else closeW cl semi false (openW op f)
  | some e => closeW cl semi false (e (openW op f))

/-! ### Columns -/

/-- How the element of a container is written: `node` as a whole and not in a column (column_format.go:418-426),
`whole` as a whole in a column (lines 219-222), or in cells; `outer` is what is written to the formatter itself
instead of the copy (lines 262-267). -/
inductive Writer where
  | node (w : F → F)
  | whole (w : F → F)
  | cells (outer : F → F) (w : F → F × Field)

/-- `io.ReadAll(colBuf)`. -/
def drain (f : F) : Str × F := (f.w.out, { f with w := { f.w with out := [] } })

/-- The loop over the elements of a group, column_format.go:210-433: the formatter, its copy `c` with the buffer, and
`bufferedFields`. -/
def groupLoop : List Writer → F → F → List Field → F × F × List Field
  | [], f, c, fs => (f, c, fs)
  | .node _ :: ws, f, c, fs => groupLoop ws (panic f) c fs
  | .whole w :: ws, f, c, fs => groupLoop ws f (w c) fs
  | .cells outer w :: ws, f, c, fs =>
    let r := w c
    groupLoop ws (outer f) r.1 (fs ++ [r.2])

/-- `saveState`, formatter.go:78-90. -/
def save (f : F) : F := { f with w := { f.w with out := [], failed := false } }

/-- `mergeState`, formatter.go:92-101; `text` is the content of the buffer. Errors of the copy are not taken over. -/
def merge (f c : F) (text : Str) : F :=
  { c with w := { c.w with out := f.w.out ++ text, failed := f.w.failed }, stuck := f.stuck || c.stuck }

/-- A group, column_format.go:205-480. -/
def writeGroup (ws : List Writer) (f : F) : F :=
  match ws with
  | [.node w] => w f
  | _ =>
    let r := groupLoop ws f (save f) []
    merge r.1 r.2.1 (r.2.1.w.out ++ (ColumnFormat.blocks cfg.far r.2.2).flatMap ColumnFormat.writeBlock)

/-- The writers of the elements of a group. -/
def pick (es : List (Elem × Writer)) (g : List Elem) : List Writer :=
  g.filterMap fun e => (es[e.node]?).map Prod.snd

/-- `columnFormatElements`, column_format.go:40-481. -/
def columns (es : List (Elem × Writer)) (f : F) : F :=
  (ColumnFormat.groups (es.zipIdx.map fun p => { p.1.1 with node := p.2 })).foldl
    (fun f g => writeGroup cfg (pick es g) f) f

/-! ### Names, literals -/

/-- A name: one identifier, or the components of a compound one, with dots. -/
abbrev Name := List Tok

/-- A field reference, `FieldReferenceNode`. -/
structure Ref where
  op : Option Tok := none
  url : Option Name := none
  slash : Option Tok := none
  name : Name
  cl : Option Tok := none

/-- Optional nodes written in-line. -/
def inl? : Option Tok → F → F
  | some t, f => inl t f
  | none, f => f

/-- `writeInline` of a name: an identifier, or `writeCompoundIdent`, formatter.go:1640-1644. -/
def inlName (n : Name) (f : F) : F := inls n f

/-- The end of a field reference, e.g. formatter.go:1020-1026. -/
def closeRef (r : Ref) (f : F) : F :=
  match r.cl with
  | some t => inl t f
  | none => if r.op.isSome then inl (Tok.new ')') f else f

/-- `writeFieldReference`, formatter.go:1010-1027. -/
def Ref.write (r : Ref) (f : F) : F :=
  closeRef r (inlName r.name (inl? r.slash (inlName (r.url.getD []) (inl? r.op f))))

mutual
/-- The value of an option or of a field of a message literal. `neg` is a `NegativeIntLiteralNode` or a
`SignedFloatLiteralNode`. After an element of an array there may be a comma. -/
inductive Value where
  | term (t : Tok)
  | ident (ts : List Tok)
  | neg (sign num : Tok)
  | strings (parts : List Tok)
  | array (op : Tok) (vs : Values) (cl : Tok) (semi : Option Tok)
  | msg (op : Tok) (fs : MFields) (cl : Tok) (semi : Option Tok)
/-- The elements of an array literal. -/
inductive Values where
  | nil
  | cons (v : Value) (comma : Option Tok) (vs : Values)
/-- The fields of a message literal. -/
inductive MFields where
  | nil
  | cons (name : Ref) (sep : Option Tok) (v : Value) (semi : Option Tok) (fs : MFields)
end

/-- The first token of a name. -/
def nameFirst (n : Name) : Tok := n.headD (Tok.new ' ')
def nameLast (n : Name) : Tok := n.getLastD (Tok.new ' ')

/-- The first token of a reference. -/
def Ref.first (r : Ref) : Tok := r.op.getD (nameFirst (r.url.getD r.name))
def Ref.last (r : Ref) : Tok := r.cl.getD (nameLast r.name)

def Value.first : Value → Tok
  | .term t => t
  | .ident ts => nameFirst ts
  | .neg s _ => s
  | .strings ps => nameFirst ps
  | .array op _ _ _ => op
  | .msg op _ _ _ => op

def Value.last : Value → Tok
  | .term t => t
  | .ident ts => nameLast ts
  | .neg _ n => n
  | .strings ps => nameLast ps
  | .array _ _ cl _ => cl
  | .msg _ _ cl _ => cl

/-- `messageLiteralShouldBeExpanded`, formatter.go:676-694. -/
def expandedM : MFields → Bool
  | .nil => false
  | .cons name _ _ _ _ => name.first.ws.contains '\n'

/-- `arrayLiteralShouldBeExpanded`, formatter.go:696-707. -/
def expandedA : Values → Bool
  | .nil => false
  | .cons v _ _ => v.first.ws.contains '\n'

/-- Whether a value is a literal that is going to be expanded, column_format.go:104-112. -/
def Value.expanded : Value → Bool
  | .array _ vs _ _ => expandedA vs
  | .msg _ fs _ _ => expandedM fs
  | _ => false

/-- Whether the next element may be in the same group although the previous one ends on another line than it starts,
column_format.go:148-168. -/
def Value.flex : Value → Bool
  | .array _ vs _ _ => !expandedA vs
  | .msg _ fs _ _ => !expandedM fs
  | .strings _ => false
  | _ => true

/-- The loop of `writeCompoundStringLiteral`, formatter.go:1686-1693. -/
def stringsLoop (trailing : Bool) : List Tok → F → F
  | [], f => f
  | [t], f => if trailing then start cfg t f else lineElement cfg t f
  | t :: ts, f => stringsLoop trailing ts (lineElement cfg t f)

/-- `writeCompoundStringLiteral`, formatter.go:1677-1697. -/
def compoundStrings (indent trailing : Bool) (ps : List Tok) (f : F) : F :=
  let g := stringsLoop cfg trailing ps ((if indent then indentIn else id) (newline f))
  (if indent then indentOut else id) g

/-- `writeCompoundStringLiteralForArray`, formatter.go:1722-1733. -/
def stringsForArray (last : Bool) (ps : List Tok) (f : F) : F := stringsLoop cfg (!last) ps f

/-- `writeNegativeIntLiteralForArray`, `writeSignedFloatLiteralForArray`, formatter.go:1751-1761, 1804-1814. -/
def negForArray (last : Bool) (sign num : Tok) (f : F) : F :=
  if last then lineEnd cfg num (start cfg sign f) else inl num (start cfg sign f)

/-- `writeInline` of a value, of which the writer is given, formatter.go:2025-2049. -/
def inlWith (v : Value) (w : F → F) (f : F) : F :=
  match v with
  | .term t => inl t f
  | _ => setInline false (w (setInline true f))

/-- `writeLineEnd` of a value, formatter.go:2184-2207. -/
def lineEndWith (v : Value) (w : F → F) (f : F) : F :=
  match v with
  | .term t => lineEnd cfg t f
  | _ =>
    let g := w f
    if g.w.last ≠ '\n' then newline g else g

/-- The separator after an element of an array that is not the last one, formatter.go:1435-1442, 1455-1460. -/
def arraySep (inlined : Bool) (comma : Option Tok) (f : F) : F :=
  match comma with
  | none => panic f
  | some c => if inlined then space (inl c f) else lineEnd cfg c f

/-- What the grouping sees of a field of a message literal, column_format.go:19-20, 94-119, 148-168. -/
def fieldElem (name : Ref) (v : Value) (semi : Option Tok) : Elem :=
  { node := 0, kind := some 1, incomplete := false, alone := v.expanded, startLine := name.first.line,
    endLine := (semi.getD v.last).line, commented := !name.first.leading.isEmpty, flex := v.flex }

/-- The name of a field of a message literal in its cells, column_format.go:324-349: the text before it, the name with
the separator, and the state after it. -/
def fieldHead (name : Ref) (sep : Option Tok) (f : F) : Str × Str × F :=
  let first := match name.op with | some t => t | none => nameFirst name.name
  let f0 := startPre cfg false first.ws first.leading (match name.op with | some t => t.rune? | none => none) f
  let ctx := (drain f0).1
  let g0 := (drain f0).2
  let g1 := match name.op with
    | some t =>
      inlName name.name (inl? name.slash (inlName (name.url.getD []) (startPost t.trailing t.rune? (t.write g0))))
    | none => startPost (nameLast name.name).trailing none
      (match name.name with | [t] => t.write g0 | ts => inls ts g0)
  let g2 := inl (sep.getD (Tok.new ':')) (closeRef name g1)
  (ctx, (drain g2).1, (drain g2).2)

/-- The separator of a field of an expanded message literal, column_format.go:354-360. A missing one is created with
the last token of the field, and therefore with the comments of that token. -/
def fieldSemi (v : Value) (semi : Option Tok) : Tok :=
  match semi with
  | some t => { t with term := .rune ',' }
  | none => { v.last with term := .rune ',', virtual := false }

/-- A field of an expanded message literal, column_format.go:323-364; `w` writes the value. -/
def fieldCells (name : Ref) (sep : Option Tok) (v : Value) (semi : Option Tok) (w : F → F) (f : F) : F × Field :=
  let r := fieldHead cfg name sep f
  let g := lineEnd cfg (fieldSemi v semi) (w r.2.2)
  ((drain g).2, { ctx := r.1, typeName := [], fieldName := r.2.1, equalsTag := [], lineEnd := (drain g).1 })

mutual
/-- `writeNode` of a value, formatter.go:1840-1921. -/
def Value.write : Value → F → F
  | .term t, f => t.write f
  | .ident ts, f => inls ts f
  | .neg s n, f => inl n (inl s f)
  | .strings ps, f => compoundStrings cfg true true ps f
  -- `writeArrayLiteral`, formatter.go:1421-1475
  | .array op vs cl semi, f =>
    let inlined := !expandedA vs
    body op cl semi (match vs with | .nil => none | .cons .. => some (Values.write inlined vs))
      (if inlined then openBraceInline else openBrace cfg) (bodyEndInline cfg) f
  -- `writeMessageLiteral`, formatter.go:626-642
  | .msg op fs cl semi, f =>
    if expandedM fs then body op cl semi (some (columns cfg (MFields.writers fs))) (openBrace cfg) (bodyEndInline cfg) f
    else inl cl (MFields.compact fs (inl op f))
/-- The loop of `writeArrayLiteral`, formatter.go:1426-1461. -/
def Values.write (inlined : Bool) : Values → F → F
  | .nil, f => f
  | .cons v comma vs, f =>
    match v, vs with
    | .term t, .nil => if inlined then bodyEndInline cfg t none true f else lineElement cfg t f
    | .term t, vs => Values.write inlined vs (arraySep cfg inlined comma (startMaybe cfg inlined t f))
    | v, .nil => Value.forArray (!inlined) v f
    | v, vs => Values.write inlined vs (arraySep cfg inlined comma (Value.forArray false v f))
/-- `writeCompositeValueForArrayLiteral`, formatter.go:1497-1513, and `writeMessageLiteralForArray`, 646-674. -/
def Value.forArray (last : Bool) : Value → F → F
  | .strings ps, f => stringsForArray cfg last ps f
  | .neg s n, f => negForArray cfg last s n f
  | .msg op fs cl semi, f =>
    if expandedM fs then
      body op cl semi (some (columns cfg (MFields.writers fs))) (openBraceForArray cfg)
        (if last then bodyEnd cfg else bodyEndInline cfg) f
    else
      let g := inl cl (MFields.compact fs (inl op (indentation op.rune? f)))
      if last then newline g else g
  | _, f => panic f
/-- `maybeWriteCompactMessageLiteral`, the loop, formatter.go:721-738. -/
def MFields.compact : MFields → F → F
  | .nil, f => f
  | .cons name sep v semi fs, f =>
    let g := inlWith v (Value.write v) (space (inl (sep.getD (Tok.new ':')) (setInline false (name.write (setInline true f)))))
    match fs with
    | .nil => g
    | fs => MFields.compact fs (space (inl (semi.getD (Tok.new ',')) g))
/-- The elements of a message literal for `columnFormatElements`. -/
def MFields.writers : MFields → List (Elem × Writer)
  | .nil => []
  | .cons name sep v semi fs =>
    (fieldElem name v semi, .cells id (fieldCells cfg name sep v semi (Value.write v))) :: MFields.writers fs
end

/-- `writeInline` of a value. -/
def Value.inl (v : Value) (f : F) : F := inlWith v (v.write cfg) f
/-- `writeLineEnd` of a value. -/
def Value.lineEnd (v : Value) (f : F) : F := lineEndWith cfg v (v.write cfg) f

/-! ### Options -/

/-- A part of an option name. -/
inductive Part where
  | ref (r : Ref)
  | dot (t : Tok)

abbrev OptName := List Part

def Part.first : Part → Tok
  | .ref r => r.first
  | .dot t => t
def Part.last : Part → Tok
  | .ref r => r.last
  | .dot t => t
def optFirst (n : OptName) : Tok := (n.head?.map Part.first).getD (Tok.new ' ')
def optLast (n : OptName) : Tok := (n.getLast?.map Part.last).getD (Tok.new ' ')

/-- `writeNode` of a part. -/
def Part.write : Part → F → F
  | .ref r, f => r.write f
  | .dot t, f => t.write f

/-- `writeNode` of a name, formatter.go:1640-1644 and 1817-1819. -/
def nameWrite (n : Name) (f : F) : F :=
  match n with
  | [t] => t.write f
  | ts => inls ts f

/-- The first part of the name of an option in an option list, formatter.go:541-566. -/
def Part.writeFirst : Part → F → F
  | .ref r, f =>
    let g := match r.op with
      | some t => inlName r.name (inlineComments t.trailing (t.write f))
      | none => inlineComments (nameLast r.name).trailing (nameWrite r.name f)
    closeRef r g
  | .dot t, f => t.write f

/-- `writeOptionName`, formatter.go:536-570. -/
def optNameWrite (n : OptName) (f : F) : F :=
  match n with
  | [] => f
  | p :: ps => ps.foldl (fun f p => p.write f) (if f.inCompact then p.writeFirst f else p.write f)

/-- An option, `OptionNode`; an option of an option list has no keyword. -/
structure Opt where
  kw : Option Tok := none
  name : Option OptName
  eq : Option Tok
  val : Option Value
  semi : Option Tok

def Opt.first (o : Opt) : Tok :=
  match o.kw, o.name with
  | some t, _ => t
  | none, some n => optFirst n
  | none, none => o.semi.getD (Tok.new ' ')
def Opt.last (o : Opt) : Tok := o.semi.getD ((o.val.map Value.last).getD (Tok.new ' '))

/-- `writeOptionPrefix`, formatter.go:515-527. -/
def optPrefix (o : Opt) (f : F) : F :=
  let n := o.name.getD []
  let g := match o.kw with
    | some t => optNameWrite n (space (start cfg t f))
    | none => startPost (optLast n).trailing none
        (optNameWrite n (startPre cfg false (optFirst n).ws (optFirst n).leading none f))
  space (inl? o.eq (space g))

/-- `writeOption`, formatter.go:471-492. -/
def Opt.write (o : Opt) (f : F) : F :=
  let g := optPrefix cfg o f
  match o.semi with
  | some s =>
    (match o.val with
     | some (.strings ps) => lineEnd cfg s (compoundStrings cfg true true ps g)
     | some v => lineEnd cfg s (v.inl cfg g)
     | none => panic g)
  | none =>
    (match o.val with
     | some (.strings ps) => compoundStrings cfg true false ps g
     | some v => v.inl cfg g
     | none => panic g)

/-- What the grouping sees of an option, column_format.go:21-22 and 148-168. -/
def Opt.elem (o : Opt) : Elem :=
  { node := 0, kind := some 2, incomplete := false, alone := false, startLine := o.first.line, endLine := o.last.line,
    commented := !o.first.leading.isEmpty, flex := (o.val.map Value.flex).getD true }

/-- The separator of an option of an option list, column_format.go:408-412. -/
def optSemi (semi : Option Tok) : Option Tok := semi.map fun t => { t with term := .rune ',' }

/-- The value of an option, column_format.go:391-416; `last` says that it is the last one. -/
def optValue (last : Bool) (o : Opt) (f : F) : F :=
  match o.val with
  | some (.strings ps) => lineEnd? cfg o.semi (compoundStrings cfg true true ps f)
  | v =>
    if f.inCompact then
      if last then (match v with | some v => v.lineEnd cfg f | none => f)
      else lineEnd? cfg (optSemi o.semi) (match v with | some v => v.write cfg f | none => f)
    else lineEnd? cfg o.semi (match v with | some v => v.write cfg f | none => f)

/-- An option in cells, column_format.go:365-417. -/
def Opt.cells (last : Bool) (o : Opt) (f : F) : F × Field :=
  -- the keyword
  let kw : Str × Str × F := match o.kw with
    | some t =>
      let d := drain (startPre cfg false t.ws t.leading t.rune? f)
      let e := drain (startPost t.trailing t.rune? (t.write d.2))
      (d.1, e.1, e.2)
    | none => ([], [], f)
  -- the name
  let nm : Str × Str × F := match o.name with
    | some n =>
      (match o.kw with
       | none =>
         let d := drain (startPre cfg false (optFirst n).ws (optFirst n).leading none kw.2.2)
         let e := drain (startPost (optLast n).trailing none (optNameWrite n d.2))
         (d.1, e.1, e.2)
       | some _ => let e := drain (optNameWrite n kw.2.2); (kw.1, e.1, e.2))
    | none => (kw.1, [], kw.2.2)
  -- the sign
  let eq : Str × F := match o.eq with
    | some t => drain (inl t nm.2.2)
    | none => ([], nm.2.2)
  let v := drain (optValue cfg last o eq.2)
  (v.2, { ctx := nm.1, typeName := kw.2.1, fieldName := nm.2.1, equalsTag := eq.1, lineEnd := v.1 })

/-- The options of an option list or of a file for `columnFormatElements`. -/
def optWriters : List Opt → List (Elem × Writer)
  | [] => []
  | o :: os => (o.elem, .cells id (o.cells cfg os.isEmpty)) :: optWriters os

/-- An option list, `CompactOptionsNode`. -/
structure Compact where
  op : Tok
  opts : List Opt
  cl : Tok
  semi : Option Tok := none

/-- `hasInteriorComments` of the options, formatter.go:1398-1411. -/
def interior : List Opt → Bool
  | [] => false
  | [_] => false
  | o :: p :: os => !o.last.trailing.isEmpty || !p.first.leading.isEmpty || interior (p :: os)

/-- `compactOptionsShouldBeExpanded`, formatter.go:1279-1291. -/
def Compact.expanded (c : Compact) : Bool :=
  match c.opts with
  | [] => false
  | o :: _ => o.first.ws.contains '\n' || interior c.opts

/-- The loop of `writeCompactOptions`, formatter.go:1343-1370. -/
def compactLoop (cl : Tok) : List Opt → F → F
  | [], f => inl cl f
  | o :: os, f =>
    if o.name.isNone ∧ o.eq.isNone ∧ o.val.isNone ∧ o.semi.isSome then compactLoop cl os f
    else
      let n := o.name.getD []
      let g := inl? o.eq (space (setInline false (optNameWrite n (setInline true f))))
      match o.val with
      | some (.strings ps) => inl cl (compoundStrings cfg false true ps g)
      | none => panic g
      | some v =>
        let h := v.inl cfg (space g)
        compactLoop cl os (match o.semi, os with
          | some s, _ :: _ => space (inl { s with term := .rune ',' } h)
          | _, _ => h)

/-- `writeCompactOptions`, formatter.go:1321-1396. -/
def Compact.write (c : Compact) (f : F) : F :=
  let f := setCompact true f
  setCompact false
    (if !c.expanded && !interior c.opts then
      if c.opts = [] then f else compactLoop cfg c.cl c.opts (inl c.op f)
    else body c.op c.cl c.semi (if c.opts = [] then none else some (columns cfg (optWriters cfg c.opts)))
      (openBrace cfg) (bodyEndInline cfg) f)

/-- Whether an option list is present and is going to be expanded, column_format.go:79 and 88. -/
def expands : Option Compact → Bool
  | some c => c.expanded
  | none => false

/-- An option list that may be missing, with a space before it, e.g. formatter.go:969-972. -/
def compact? : Option Compact → F → F
  | some c, f => c.write cfg (space f)
  | none, f => f

/-! ### Fields and enum values -/

/-- A field, `FieldNode`; `incomplete` is `IsIncomplete`. -/
structure FieldDecl where
  label : Option Tok := none
  type : Name
  name : Option Tok
  eq : Option Tok
  tag : Option Tok
  opts : Option Compact := none
  semi : Option Tok
  incomplete : Bool := false

/-- `writeCompountIdentForFieldName`, formatter.go:1655-1668, with the node writer; `ctx` is called between the start
and the node. -/
def typeStart (n : Name) (pre : F → F) (f : F) : F :=
  match n with
  | [] => panic f
  | [t] => startPost t.trailing t.rune? (t.write (pre (startPre cfg false t.ws t.leading t.rune? f)))
  | t :: ts =>
    let g := startPost t.trailing t.rune? (t.write (pre (startPre cfg false t.ws t.leading t.rune? f)))
    if t.rune?.isSome then inls (t :: ts) g else inls ts g

/-- A node that is expected to be present. -/
def need : Option Tok → F → F
  | some t, f => inl t f
  | none, f => panic f

/-- An optional node with a space before it. -/
def spaced? : Option Tok → F → F
  | some t, f => inl t (space f)
  | none, f => f

/-- `writeField`, formatter.go:940-974. -/
def FieldDecl.write (x : FieldDecl) (f : F) : F :=
  let g := match x.label with
    | some l => inlName x.type (space (start cfg l f))
    | none => typeStart cfg x.type id f
  lineEnd? cfg x.semi (compact? cfg x.opts (spaced? x.tag (spaced? x.eq (spaced? x.name g))))

def FieldDecl.first (x : FieldDecl) : Tok := x.label.getD (nameFirst x.type)

/-- What the grouping sees of a field, column_format.go:71-86, 169-177. -/
def FieldDecl.elem (x : FieldDecl) : Elem :=
  { node := 0, kind := some 1, incomplete := x.incomplete, alone := expands x.opts, startLine := x.first.line,
    endLine := (x.semi.getD x.first).line, commented := !x.first.leading.isEmpty,
    flex := decide ((nameLast x.type).line > (nameFirst x.type).line) || (x.opts.isSome && !expands x.opts) }

/-- An option list without a space before it. -/
def tight? : Option Compact → F → F
  | some c, f => c.write cfg f
  | none, f => f

/-- The cells of a field after the type, e.g. column_format.go:241-257; `name` writes the name. -/
def tailCells (ctx type : Str) (name eq tag : F → F) (opts : Option Compact) (semi : Option Tok) (f : F) : F × Field :=
  let d1 := drain (name f)
  let d2 := drain (tag (space (eq d1.2)))
  let d3 := drain (lineEnd? cfg semi (tight? cfg opts d2.2))
  (d3.2, { ctx := ctx, typeName := type, fieldName := d1.1, equalsTag := d2.1, lineEnd := d3.1 })

/-- The type of a field, column_format.go:223-238: the text before it, the type, and the state. -/
def typeCells (x : FieldDecl) (f : F) : Str × Str × F :=
  match x.label with
  | some l =>
    let d := drain (startPre cfg false l.ws l.leading l.rune? f)
    let e := drain (inlName x.type (space (startPost l.trailing l.rune? (l.write d.2))))
    (d.1, e.1, e.2)
  | none =>
    match x.type with
    | [] => ([], [], panic f)
    | t :: ts =>
      let d := drain (startPre cfg false t.ws t.leading t.rune? f)
      let g := startPost t.trailing t.rune? (t.write d.2)
      let e := drain (if ts ≠ [] ∧ t.rune?.isSome then inls (t :: ts) g else inls ts g)
      (d.1, e.1, e.2)

/-- A field in cells, column_format.go:218-257. -/
def FieldDecl.cells (x : FieldDecl) (f : F) : F × Field :=
  let r := typeCells cfg x f
  tailCells cfg r.1 r.2.1 (need x.name) (need x.eq) (need x.tag) x.opts x.semi r.2.2

def FieldDecl.writer (x : FieldDecl) : Writer := if x.incomplete then .whole (x.write cfg) else .cells id (x.cells cfg)

/-- A map field, `MapFieldNode` with its `MapTypeNode`; `typeSemi` is the semicolon of the latter. -/
structure MapDecl where
  kw : Tok
  op : Tok
  key : Tok
  comma : Tok
  type : Name
  cl : Tok
  typeSemi : Option Tok := none
  name : Tok
  eq : Tok
  tag : Tok
  opts : Option Compact := none
  semi : Option Tok

/-- The comments after the map type, formatter.go:1001-1006. -/
def mapComments (x : MapDecl) (f : F) : F :=
  match x.typeSemi with
  | some s => if s.trailing ≠ [] then inlineComments s.trailing f else f
  | none => f

/-- `writeMapType` after the keyword, formatter.go:993-1000. -/
def mapRest (x : MapDecl) (f : F) : F := inl x.cl (inlName x.type (space (inl x.comma (inl x.key (inl x.op f)))))

/-- `writeMapField`, formatter.go:977-990. -/
def MapDecl.write (x : MapDecl) (f : F) : F :=
  let g := mapComments x (mapRest x (start cfg x.kw f))
  lineEnd? cfg x.semi (compact? cfg x.opts (inl x.tag (space (inl x.eq (space (inl x.name (space g)))))))

/-- What the grouping sees of a map field. -/
def MapDecl.elem (x : MapDecl) : Elem :=
  { node := 0, kind := some 1, incomplete := false, alone := false, startLine := x.kw.line,
    endLine := (x.semi.getD x.kw).line, commented := !x.kw.leading.isEmpty, flex := false }

/-- A map field in cells, column_format.go:258-288; the comments after the type go to `outer`. -/
def MapDecl.cells (x : MapDecl) (f : F) : F × Field :=
  let d := drain (startPre cfg false x.kw.ws x.kw.leading x.kw.rune? f)
  let e := drain (mapRest x (startPost x.kw.trailing x.kw.rune? (x.kw.write d.2)))
  tailCells cfg d.1 e.1 (inl x.name) (inl x.eq) (inl x.tag) x.opts x.semi e.2

/-- An enum value, `EnumValueNode`. -/
structure EnumVal where
  name : Tok
  eq : Tok
  num : Value
  opts : Option Compact := none
  semi : Option Tok

/-- What the grouping sees of an enum value, column_format.go:87-93. -/
def EnumVal.elem (x : EnumVal) : Elem :=
  { node := 0, kind := some 1, incomplete := false, alone := expands x.opts, startLine := x.name.line,
    endLine := (x.semi.getD x.name).line, commented := !x.name.leading.isEmpty, flex := false }

/-- An enum value in cells, column_format.go:289-311. -/
def EnumVal.cells (x : EnumVal) (f : F) : F × Field :=
  let d := drain (startPre cfg false x.name.ws x.name.leading x.name.rune? f)
  tailCells cfg d.1 [] (fun g => startPost x.name.trailing x.name.rune? (x.name.write g)) (inl x.eq)
    (fun g => x.num.inl cfg g) x.opts (x.semi.map fun t => { t with term := .rune ';' }) d.2

/-! ### Ranges -/

/-- An element of a reserved or extension range: a comma, a range, or a name. -/
inductive RangeElem where
  | comma (t : Tok)
  | range (start : Value) (to : Option Tok) (stop : Option Value)
  | name (v : Value)

/-- `writeRange`, formatter.go:1262-1277. -/
def rangeWrite (s : Value) (to : Option Tok) (stop : Option Value) (f : F) : F :=
  let g := spaced? to (s.inl cfg f)
  match stop with
  | some v => v.inl cfg (space g)
  | none => g

/-- One step of the loops of `writeExtensionRange` and `writeReserved`, formatter.go:1230-1236, 1251-1257. -/
def RangeElem.write : RangeElem → F → F
  | .comma t, f => inl t f
  | .range s to stop, f => setInline false (rangeWrite cfg s to stop (setInline true (space f)))
  | .name v, f => v.inl cfg (space f)

/-! ### Declarations -/

/-- The type of a method, `RPCTypeNode`. -/
structure RPCType where
  op : Tok
  stream : Option Tok := none
  type : Name
  cl : Tok

/-- `writeInline` of the type of a method: `writeRPCType`, formatter.go:1130-1138. -/
def RPCType.write (x : RPCType) (f : F) : F :=
  let g := inl x.op (setInline true f)
  let h := match x.stream with
    | some s => space (inl s g)
    | none => g
  setInline false (inl x.cl (inlName x.type h))

mutual
/-- A declaration. `block` is a message, an enum, a oneof, an extension (all with columns) or a service; `name` is
what follows the keyword. A method without body has a semicolon instead of the braces. -/
inductive Decl where
  | empty (t : Tok)
  | option (o : Opt)
  | field (x : FieldDecl)
  | mapField (x : MapDecl)
  | enumValue (x : EnumVal)
  | extensions (kw : Tok) (es : List RangeElem) (opts : Option Compact) (semi : Option Tok)
  | reserved (kw : Tok) (es : List RangeElem) (semi : Option Tok)
  | block (kw : Tok) (name : Name) (column : Bool) (op : Tok) (ds : Decls) (cl : Tok) (semi : Option Tok)
  | group (label : Option Tok) (kw name eq tag : Tok) (opts : Option Compact) (op : Tok) (ds : Decls) (cl : Tok)
      (semi : Option Tok)
  | rpc (kw name : Tok) (input : RPCType) (ret : Tok) (output : RPCType) (op : Option Tok) (ds : Decls)
      (cl : Option Tok) (semi : Option Tok)
/-- The declarations in a body. -/
inductive Decls where
  | nil
  | cons (d : Decl) (ds : Decls)
end

/-- The elements without a special treatment in `columnFormatElements` are in groups of their own. -/
def plainElem : Elem :=
  { node := 0, kind := none, incomplete := false, alone := false, startLine := 0, endLine := 0, commented := false,
    flex := false }

/-- `writeCompositeTypeBody`, formatter.go:1516-1530. -/
def typeBody (op cl : Tok) (semi : Option Tok) (elems : Option (F → F)) (f : F) : F :=
  body op cl semi elems (openBrace cfg) (bodyEnd cfg) f

/-- The start of a group, formatter.go:1192-1210. -/
def groupHead (label : Option Tok) (kw name eq tag : Tok) (opts : Option Compact) (f : F) : F :=
  let g := match label with
    | some l => inl kw (space (start cfg l f))
    | none => start cfg kw f
  space (compact? cfg opts (inl tag (space (inl eq (space (inl name (space g)))))))

mutual
/-- `writeNode` of a declaration, formatter.go:1840-1921; `writeEnumValue` is not reached from there. -/
def Decl.write : Decl → F → F
  | .empty _, f => f
  | .option o, f => o.write cfg f
  | .field x, f => x.write cfg f
  | .mapField x, f => x.write cfg f
  | .enumValue _, f => panic f
  -- `writeExtensionRange`, formatter.go:1227-1242
  | .extensions kw es opts semi, f =>
    lineEnd? cfg semi (compact? cfg opts (es.foldl (fun f e => e.write cfg f) (space (start cfg kw f))))
  -- `writeReserved`, formatter.go:1249-1259
  | .reserved kw es semi, f => lineEnd? cfg semi (es.foldl (fun f e => e.write cfg f) (start cfg kw f))
  -- `writeMessage`, `writeEnum`, `writeExtend`, `writeService`, `writeOneOf`, formatter.go:594-611, 888-905,
  -- 1036-1055, 1065-1084, 1150-1167
  | .block kw name column op ds cl semi, f =>
    typeBody cfg op cl semi
      (match ds with
       | .nil => none
       | .cons .. => some (if column then columns cfg (Decls.writers ds) else Decls.write ds))
      (space (inlName name (space (start cfg kw f))))
  -- `writeGroup`, formatter.go:1180-1218
  | .group label kw name eq tag opts op ds cl semi, f =>
    typeBody cfg op cl semi (match ds with | .nil => none | .cons .. => some (Decls.write ds))
      (groupHead cfg label kw name eq tag opts f)
  -- `writeRPC`, formatter.go:1094-1127
  | .rpc kw name input ret output op ds cl semi, f =>
    let g := output.write (space (inl ret (space (input.write (inl name (space (start cfg kw f)))))))
    match ds with
    | .nil => lineEnd cfg (Tok.new ';') g
    | .cons d ds =>
      match op, cl with
      | some op, some cl => typeBody cfg op cl semi (some (Decls.write (.cons d ds))) (space g)
      | _, _ => panic g
/-- The declarations one after the other. -/
def Decls.write : Decls → F → F
  | .nil, f => f
  | .cons d ds, f => Decls.write ds (Decl.write d f)
/-- The declarations for `columnFormatElements`. -/
def Decls.writers : Decls → List (Elem × Writer)
  | .nil => []
  | .cons d ds =>
    (match d with
     | .option o => (o.elem, .cells id (o.cells cfg (match ds with | .nil => true | _ => false)))
     | .field x => (x.elem, x.writer cfg)
     | .mapField x => (x.elem, .cells (mapComments x) (x.cells cfg))
     | .enumValue x => (x.elem, .cells id (x.cells cfg))
     | d => (plainElem, .node (Decl.write d))) :: Decls.writers ds
end

/-! ### Files -/

/-- The syntax or edition, `SyntaxNode`, `EditionNode`. -/
structure Syntax where
  kw : Tok
  eq : Tok
  val : Value
  semi : Option Tok

/-- `writeSyntax`, `writeEdition`, formatter.go:375-396. -/
def Syntax.write (x : Syntax) (f : F) : F :=
  lineEnd? cfg x.semi (x.val.inl cfg (space (inl x.eq (space (start cfg x.kw f)))))

/-- The package, `PackageNode`. -/
structure Package where
  kw : Tok
  name : Option Name
  semi : Option Tok

/-- `writePackage`, formatter.go:403-410. -/
def Package.write (x : Package) (f : F) : F :=
  lineEnd? cfg x.semi (inlName (x.name.getD []) (space (start cfg x.kw f)))

/-- An import, `ImportNode`; `path` is `Name.AsString()`, `commented` is `importHasComment`. -/
structure Import where
  kw : Tok
  modifier : Option Tok := none
  name : Value
  semi : Option Tok
  path : Str
  commented : Bool

/-- `writeImport`, formatter.go:417-432. -/
def Import.write (force : Bool) (x : Import) (f : F) : F :=
  let g := space (startMaybe cfg force x.kw f)
  let h := match x.modifier with
    | some m => space (inl m g)
    | none => g
  lineEnd? cfg x.semi (x.name.inl cfg h)

/-- `leadingCommentsContainBlankLine`, formatter.go:2478-2487, for a node with the given first token. -/
def blankBefore (t : Tok) : Bool :=
  t.leading.any (fun c => decide (newlines c.leadingWhitespace > 1)) || decide (newlines t.ws > 1)

/-- An empty line before a node unless it is the first one, e.g. formatter.go:316-318. -/
def separate (t : Tok) (f : F) : F := if f.prev.isSome && !blankBefore t then newline f else f

/-- The imports after the first one, formatter.go:315-328; `path` is the path of the import before. -/
def importsRest (path : Str) : List Import → F → F
  | [], f => f
  | i :: is, f => importsRest i.path is (if i.path = path ∧ i.commented = false then f else i.write cfg true f)

/-- The imports, sorted, formatter.go:315-328. -/
def importsWrite : List Import → F → F
  | [], f => f
  | i :: is, f => importsRest cfg i.path is (i.write cfg false (separate i.kw f))

/-- The options of the file, sorted, formatter.go:347-350. -/
def fileOptions : List Opt → F → F
  | [], f => f
  | o :: os, f => columns cfg (optWriters cfg (o :: os)) (separate o.first f)

/-- A file. `imports` and `options` are already sorted with `sort.Slice`; `decls` are the other declarations. -/
structure File where
  «syntax» : Option Syntax
  package : Option Package
  imports : List Import
  options : List Opt
  decls : List Decl
  eof : List Comment

/-- The first token of a declaration. -/
def Decl.first : Decl → Tok
  | .empty t => t
  | .option o => o.first
  | .field x => x.first
  | .mapField x => x.kw
  | .enumValue x => x.name
  | .extensions kw _ _ _ => kw
  | .reserved kw _ _ => kw
  | .block kw _ _ _ _ _ _ => kw
  | .group label kw _ _ _ _ _ _ _ _ => label.getD kw
  | .rpc kw _ _ _ _ _ _ _ _ => kw

/-- One step of `writeFileTypes`, formatter.go:356-367. -/
def typeWrite (d : Decl) (f : F) : F :=
  match d with
  | .empty _ => f
  | d => d.write cfg (separate d.first f)

/-- `writeFile`, formatter.go:233-245, with `writeFileHeader`, 262-351. -/
def File.write (x : File) (f : F) : F :=
  let f1 := match x.syntax with | some s => s.write cfg f | none => f
  let f2 := match x.package with | some p => p.write cfg f1 | none => f1
  let f3 := fileOptions cfg x.options (importsWrite cfg x.imports f2)
  let f4 := multiline cfg false x.eof (x.decls.foldl (fun f d => typeWrite cfg d f) f3)
  if f4.w.last ≠ '\x00' ∧ f4.w.last ≠ '\n' then newline f4 else f4

/-- The formatted text. -/
def format (x : File) : Str := (x.write cfg {}).w.out

end
end Verif.Formatter
