import Verif.Spec.FormatTokens
/-!
# Specification: the comments of a text and of a syntax tree

The comments of a source text, what a comment says (its words, without the marks that begin and end it), and the comments of
a syntax tree in the order of the source. `Plain` lists the places of a tree at which the formatter does not keep comments.
-/
namespace Verif.Lexer

/-- What one character does to the comments: the comment that ends with it, and what has been read of the current one. -/
def stepC : Mode → Str → Char → List Str × Str
  | .slash, _, c => if c = '/' ∨ c = '*' then ([], ['/', c]) else ([], [])
  | .line, b, c => if c = '\n' then ([b], []) else ([], b ++ [c])
  | .block, b, c => ([], b ++ [c])
  | .star, b, c => if c = '/' then ([b ++ [c]], []) else ([], b ++ [c])
  | _, _, _ => ([], [])

/-- The comments that end in a text, and what has been read of the last one. -/
def commentsFrom : Mode → Str → Str → List Str × Str
  | _, b, [] => ([], b)
  | m, b, c :: s =>
    ((stepC m b c).1 ++ (commentsFrom (step m c).2 (stepC m b c).2 s).1, (commentsFrom (step m c).2 (stepC m b c).2 s).2)

/-- A line comment at the end of the text. -/
def pending : Mode → Str → List Str
  | .line, b => [b]
  | _, _ => []

def allComments (m : Mode) (b : Str) (s : Str) : List Str :=
  (commentsFrom m b s).1 ++ pending (lexFrom m s).2 (commentsFrom m b s).2

/-- The comments of a text. -/
def comments (s : Str) : List Str := allComments .idle [] s

end Verif.Lexer

namespace Verif.Formatter
open Verif.Lexer Verif.Comment
open Verif.InlineComment (Comment)

def flush (a : Str) : List Str := if a = [] then [] else [a]

/-- The words of a text: what is between white space; `a` is the beginning of the current word. -/
def wordsFrom : Str → Str → List Str
  | a, [] => flush a
  | a, c :: s => if isSpace c then flush a ++ wordsFrom [] s else wordsFrom (a ++ [c]) s

def words (s : Str) : List Str := wordsFrom [] s

/-- The text of a comment without the marks at its ends. -/
def inside (c : Str) : Str := if ['/', '/'].isPrefixOf c then c.drop 2 else (c.drop 2).dropLast.dropLast

/-- What a comment says. -/
def content (c : Str) : List Str := words (inside c)

/-- What the comments of a text say. -/
def said (s : Str) : List (List Str) := (comments s).map content

/-! ### The comments of a tree -/

def conts (cs : List Comment) : List (List Str) := cs.map (fun c => content c.text)

/-- The comments of a token. -/
def Tok.told (t : Tok) : List (List Str) := conts t.leading ++ conts t.trailing

def told (ts : List Tok) : List (List Str) := ts.flatMap Tok.told

/-- The comments of the token are all comments of the source. -/
def Seen (t : Tok) : Prop := (∀ c ∈ t.leading, c.virtual = false) ∧ ∀ c ∈ t.trailing, c.virtual = false

mutual
/-- The tokens of a value, also those that the parser has inserted: they may have comments. -/
def Value.nodes : Value → List Tok
  | .term t => [t]
  | .ident ts => ts
  | .neg s n => [s, n]
  | .strings ps => ps
  | .array op vs cl semi => op :: (Values.nodes vs ++ cl :: semi.toList)
  | .msg op fs cl semi => op :: (MFields.nodes fs ++ cl :: semi.toList)
def Values.nodes : Values → List Tok
  | .nil => []
  | .cons v comma vs => Value.nodes v ++ (comma.toList ++ Values.nodes vs)
def MFields.nodes : MFields → List Tok
  | .nil => []
  | .cons name sep v semi fs => name.src ++ (sep.toList ++ (Value.nodes v ++ (semi.toList ++ MFields.nodes fs)))
end

def Opt.nodes (o : Opt) : List Tok :=
  o.kw.toList ++ ((o.name.getD []).flatMap Part.src ++ (o.eq.toList ++ ((o.val.map Value.nodes).getD [] ++ o.semi.toList)))

def Compact.nodes (c : Compact) : List Tok := c.op :: (c.opts.flatMap Opt.nodes ++ c.cl :: c.semi.toList)

def compactNodes : Option Compact → List Tok
  | some c => c.nodes
  | none => []

def FieldDecl.nodes (x : FieldDecl) : List Tok :=
  x.label.toList ++ (x.type ++ (x.name.toList ++ (x.eq.toList ++ (x.tag.toList ++ (compactNodes x.opts ++ x.semi.toList)))))

def MapDecl.nodes (x : MapDecl) : List Tok :=
  [x.kw, x.op, x.key, x.comma] ++ (x.type ++ (x.cl :: (x.typeSemi.toList ++ ([x.name, x.eq, x.tag] ++
    (compactNodes x.opts ++ x.semi.toList)))))

def EnumVal.nodes (x : EnumVal) : List Tok :=
  [x.name, x.eq] ++ (x.num.nodes ++ (compactNodes x.opts ++ x.semi.toList))

def RangeElem.nodes : RangeElem → List Tok
  | .comma t => [t]
  | .range s mid stop => s.nodes ++ (mid.toList ++ (stop.map Value.nodes).getD [])
  | .name v => v.nodes

mutual
def Decl.nodes : Decl → List Tok
  | .empty t => [t]
  | .option o => o.nodes
  | .field x => x.nodes
  | .mapField x => x.nodes
  | .enumValue x => x.nodes
  | .extensions kw es opts semi => kw :: (es.flatMap RangeElem.nodes ++ (compactNodes opts ++ semi.toList))
  | .reserved kw es semi => kw :: (es.flatMap RangeElem.nodes ++ semi.toList)
  | .block kw name _ op ds cl semi => kw :: (name ++ op :: (Decls.nodes ds ++ cl :: semi.toList))
  | .group label kw name eq tag opts op ds cl semi =>
    label.toList ++ ([kw, name, eq, tag] ++ (compactNodes opts ++ op :: (Decls.nodes ds ++ cl :: semi.toList)))
  | .rpc kw name input ret output op ds cl semi =>
    kw :: name :: (input.src ++ ret :: (output.src ++ (op.toList ++ (Decls.nodes ds ++ (cl.toList ++ semi.toList)))))
def Decls.nodes : Decls → List Tok
  | .nil => []
  | .cons d ds => Decl.nodes d ++ Decls.nodes ds
end

def Syntax.nodes (x : Syntax) : List Tok := x.kw :: x.eq :: (x.val.nodes ++ x.semi.toList)

def Package.nodes (x : Package) : List Tok := x.kw :: (x.name.getD [] ++ x.semi.toList)

def Import.nodes (x : Import) : List Tok := x.kw :: (x.modifier.toList ++ (x.name.nodes ++ x.semi.toList))

/-- The tokens of a file. -/
def File.nodes (x : File) : List Tok :=
  (x.syntax.map Syntax.nodes).getD [] ++ ((x.package.map Package.nodes).getD [] ++ (x.imports.flatMap Import.nodes ++
    (x.options.flatMap Opt.nodes ++ x.decls.flatMap Decl.nodes)))

/-- What the comments of a file say. -/
def File.told (x : File) : List (List Str) := Formatter.told x.nodes ++ conts x.eof

/-! ### The places at which comments are not kept -/

/-- The token has no comments. -/
def Silent (t : Tok) : Prop := t.leading = [] ∧ t.trailing = []

def Silent? (t : Option Tok) : Prop := ∀ s, t = some s → Silent s

/-- The separator after a closing brace or bracket: only one that the parser has inserted may have comments, after it, and
only if there are none after the brace. -/
def EndPlain (cl : Tok) (semi : Option Tok) : Prop :=
  ∀ s, semi = some s → s.leading = [] ∧ (s.trailing = [] ∨ s.virtual = true ∧ cl.trailing = [])

/-- A name that is not in parentheses or brackets is a single identifier. -/
def RefPlain (r : Ref) : Prop := r.op = none → r.name.length = 1

mutual
def Value.Plain : Value → Prop
  | .array _ vs cl semi => Values.Plain vs ∧ EndPlain cl semi
  | .msg _ fs cl semi => MFields.Plain (expandedM fs) fs ∧ if expandedM fs then EndPlain cl semi else Silent? semi
  | _ => True
/-- There are no comments at a comma after the last element. -/
def Values.Plain : Values → Prop
  | .nil => True
  | .cons v comma vs => Value.Plain v ∧ (vs.isNil = true → Silent? comma) ∧ Values.Plain vs
/-- On several lines: there are no comments at a single value before a separator, nor at the end of a compound value that has
no separator. On one line: there are none at a separator after the last field. -/
def MFields.Plain (expanded : Bool) : MFields → Prop
  | .nil => True
  | .cons name _ v semi fs => Value.Plain v ∧ MFields.Plain expanded fs ∧
    (if expanded then RefPlain name ∧
        match semi, v with
        | some _, .term t => Silent t
        | some _, _ => True
        | none, .term _ => True
        | none, v => Silent v.last
      else (match fs with | .nil => Silent? semi | _ => True))
end

/-- Where an option is: in a list of declarations that is written in columns, in one that is not, in an option list on
several lines or on one line (and whether it is the last one there). -/
inductive Place where
  | column
  | line
  | expanded (last : Bool)
  | compact (last : Bool)
deriving DecidableEq, Repr

/-- The first part of the name of an option. -/
def FirstPlain (n : OptName) : Prop := ∀ r ps, n = .ref r :: ps → RefPlain r

def Opt.PlainAt (o : Opt) : Place → Prop
  | .column => o.kw.isSome = true ∧ ∀ t, o.val = some (.term t) → Silent t
  | .line => o.kw.isSome = true
  | .expanded last => (∀ n, o.name = some n → FirstPlain n ∧ (optLast n).trailing = []) ∧
      if last then ∀ v, o.val = some v → v.isStrings = false → Silent? o.semi else ∀ t, o.val = some (.term t) → Silent t
  | .compact last => (∀ n, o.name = some n → FirstPlain n ∧ (optFirst n).leading = []) ∧ (last = true → Silent? o.semi)

structure Opt.Plain (p : Place) (o : Opt) : Prop where
  dots : ∀ n, o.name = some n → ∀ d, Part.dot d ∈ n → Silent d
  val : ∀ v, o.val = some v → v.Plain
  place : o.PlainAt p

def optsPlain (expanded : Bool) : List Opt → Prop
  | [] => True
  | o :: os => o.Plain (if expanded then .expanded os.isEmpty else .compact os.isEmpty) ∧ optsPlain expanded os

structure Compact.Plain (c : Compact) : Prop where
  opts : optsPlain c.expanded c.opts
  empty : c.opts = [] → Silent c.op ∧ Silent c.cl
  semi : if c.expanded then EndPlain c.cl c.semi else Silent? c.semi

def CompactPlain? (c : Option Compact) : Prop := ∀ d, c = some d → d.Plain

def RangeElem.Plain : RangeElem → Prop
  | .comma _ => True
  | .range s _ stop => s.Plain ∧ ∀ v, stop = some v → v.Plain
  | .name v => v.Plain

mutual
def Decl.Plain (column : Bool) : Decl → Prop
  | .empty t => Silent t
  | .option o => o.Plain (if column then .column else .line)
  | .field x => CompactPlain? x.opts
  | .mapField x => CompactPlain? x.opts ∧ Silent? x.typeSemi
  | .enumValue x => x.num.Plain ∧ CompactPlain? x.opts
  | .extensions _ es opts _ => (∀ e ∈ es, e.Plain) ∧ CompactPlain? opts
  | .reserved _ es _ => ∀ e ∈ es, e.Plain
  | .block _ _ column _ ds cl semi => Decls.Plain column ds ∧ EndPlain cl semi
  | .group _ _ _ _ _ opts _ ds cl semi => CompactPlain? opts ∧ Decls.Plain false ds ∧ EndPlain cl semi
  | .rpc _ _ _ _ _ op ds cl semi => Decls.Plain false ds ∧
    if ds.isNil then Silent? op ∧ Silent? cl ∧ Silent? semi else ∀ y, cl = some y → EndPlain y semi
def Decls.Plain (column : Bool) : Decls → Prop
  | .nil => True
  | .cons d ds => Decl.Plain column d ∧ Decls.Plain column ds
end

/-- A file with comments only where the formatter keeps them. -/
structure File.Plain (x : File) : Prop where
  seen : ∀ t ∈ x.nodes, Seen t
  «syntax» : ∀ s, x.syntax = some s → s.val.Plain
  imports : ∀ i ∈ x.imports, i.name.Plain ∧ (i.commented = false → ∀ t ∈ i.nodes, Silent t)
  options : ∀ o ∈ x.options, o.Plain .column
  decls : ∀ d ∈ x.decls, d.Plain false

end Verif.Formatter
