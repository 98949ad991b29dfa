import Verif.Spec.PrintedDecls
import Verif.Spec.PrintedWf
/-!
# Specification: the comments of a printed descriptor

Where the comments of the elements of a descriptor stand in a text, independently of the printer.
-/
namespace Verif.Printer
open Verif.Lexer Verif.Decls Verif.Literal

/-- What is put around the lines of a comment: white space, slashes, and stars. -/
def decor (x : Char) : Bool := x == ' ' || x == '\t' || x == '\n' || x == '/' || x == '*'

/-- A blank or a tab. -/
def blank (x : Char) : Bool := x == ' ' || x == '\t'

/-- The text consists of the lines (perhaps without blanks at their ends) in this order, with nothing but decoration around them. -/
inductive Framed : List Str → Str → Prop
  | nil (d : Str) : (∀ x ∈ d, decor x = true) → Framed [] d
  | cons (d ws t ws' : Str) (ls : List Str) (r : Str) : (∀ x ∈ d, decor x = true) → (∀ x ∈ ws, blank x = true) →
      (∀ x ∈ ws', blank x = true) → Framed ls r → Framed ((ws ++ t ++ ws') :: ls) (d ++ t ++ r)

/-- The lines of a text. -/
def lines (s : Str) : List Str := splitOn '\n' s

/-- The comments before an element that are to be printed. -/
def before (c : Cfg) (l : Loc) : List Str :=
  (if c.omitDetached then [] else l.detached) ++ (if c.omitLeading then [] else [l.leading])

/-- The comments after an element. -/
def after (c : Cfg) (l : Loc) : List Str := if c.omitTrailing then [] else [l.trailing]

/-- Not the end of a statement or of the head of a declaration. -/
def Inner (ts : List Str) : Prop := ∀ t ∈ ts, t ≠ [';'] ∧ t ≠ ['{'] ∧ t ≠ ['}']

/-- The tokens are those of one statement or of the head of one declaration, up to its `;` or `{`; it contains the tokens `main`, which are
followed by options in brackets at most (or by the types of a method). -/
def Statement (main ts : List Str) : Prop :=
  ∃ pre args opts close, ts = pre ++ main ++ args ++ opts ++ [close] ∧ (close = [';'] ∨ close = ['{']) ∧ Inner pre ∧ Inner args ∧
    (opts = [] ∨ ∃ o, opts = [['[']] ++ o ++ [[']']])

/-- The text contains the statement (or head of a declaration) with the tokens `main`, directly before it the comments that belong before it,
and directly after it those that belong after it. -/
def Commented (c : Cfg) (l : Loc) (main : List Str) (out : Str) : Prop :=
  ∃ a s b s' r, out = a ++ s ++ b ++ s' ++ r ∧
    Framed ((before c l).flatMap lines) s ∧ lex s = [] ∧
    Statement main (lex b) ∧
    Framed ((after c l).flatMap lines) s' ∧ lex s' = []

/-! ### The elements of a descriptor: the path of their location, and what they are declared with -/

inductive EnumEl (e : Enum) (p : Path) : Path → List Str → Prop
  | self : EnumEl e p p ["enum".toList, e.name]
  | value (i : Nat) (v : EnumValue) : e.values[i]? = some v → EnumEl e p (p ++ [2, (i : Int)]) ([v.name, ['=']] ++ intToks v.number)

/-- A field at a path, beside messages at another. A group is declared by its message: that is what is at the location. -/
inductive FieldEl (f : Field) (p : Path) (ms : List Msg) (mp : Int → Path) : Path → List Str → Prop
  | plain : (∀ j, f.type ≠ .group j) → FieldEl f p ms mp p [f.name, ['='], dec f.number]
  | group (j : Nat) (m : Msg) : f.type = .group j → ms[j]? = some m → FieldEl f p ms mp (mp j) ["group".toList, m.head.name, ['='], dec f.number]

/-- The elements in a message at a path. -/
inductive MsgEl : Msg → Path → Path → List Str → Prop
  | field (h : MHead) (ms : List Msg) (p q : Path) (ts : List Str) (i : Nat) (f : Field) : h.fields[i]? = some f →
      FieldEl f (p ++ [2, (i : Int)]) ms (fun j => p ++ [3, j]) q ts → MsgEl (.mk h ms) p q ts
  | ext (h : MHead) (ms : List Msg) (p q : Path) (ts : List Str) (i : Nat) (x : Ext) : h.exts[i]? = some x →
      FieldEl x.field (p ++ [6, (i : Int)]) ms (fun j => p ++ [3, j]) q ts → MsgEl (.mk h ms) p q ts
  | oneof (h : MHead) (ms : List Msg) (p : Path) (j : Nat) (o : Oneof) : h.oneofs[j]? = some o → o.synthetic = false →
      MsgEl (.mk h ms) p (p ++ [8, (j : Int)]) ["oneof".toList, o.name]
  | enum (h : MHead) (ms : List Msg) (p q : Path) (ts : List Str) (i : Nat) (e : Enum) : h.enums[i]? = some e →
      EnumEl e (p ++ [4, (i : Int)]) q ts → MsgEl (.mk h ms) p q ts
  | msg (h : MHead) (ms : List Msg) (p : Path) (j : Nat) (m : Msg) : ms[j]? = some m → declared h.fields h.exts j = false →
      MsgEl (.mk h ms) p (p ++ [3, (j : Int)]) ["message".toList, m.head.name]
  | nested (h : MHead) (ms : List Msg) (p q : Path) (ts : List Str) (j : Nat) (m : Msg) : ms[j]? = some m →
      (∀ f ∈ h.fields, ∀ k v, f.type ≠ .map k v j) → MsgEl m (p ++ [3, (j : Int)]) q ts → MsgEl (.mk h ms) p q ts

/-- The elements of a file. -/
inductive FileEl (f : File) : Path → List Str → Prop
  | msg (j : Nat) (m : Msg) : f.msgs[j]? = some m → declared [] f.exts j = false → FileEl f [4, (j : Int)] ["message".toList, m.head.name]
  | nested (q : Path) (ts : List Str) (j : Nat) (m : Msg) : f.msgs[j]? = some m → MsgEl m [4, (j : Int)] q ts → FileEl f q ts
  | enum (q : Path) (ts : List Str) (i : Nat) (e : Enum) : f.enums[i]? = some e → EnumEl e [5, (i : Int)] q ts → FileEl f q ts
  | service (i : Nat) (s : Service) : f.services[i]? = some s → FileEl f [6, (i : Int)] ["service".toList, s.name]
  | method (i : Nat) (s : Service) (k : Nat) (m : Method) : f.services[i]? = some s → s.methods[k]? = some m →
      FileEl f [6, (i : Int), 2, (k : Int)] ["rpc".toList, m.name]
  | ext (q : Path) (ts : List Str) (i : Nat) (x : Ext) : f.exts[i]? = some x →
      FieldEl x.field [7, (i : Int)] f.msgs (fun j => [4, j]) q ts → FileEl f q ts

/-- The syntax, the package, and the imports: what their declarations consist of. The location of the package is that of the path `[2]`. -/
inductive HeaderEl (f : File) : Path → (List Str → Prop) → Prop
  | syn : HeaderEl f [12] (fun ts => ∃ t, f.syn.Means t ∧ ts = ["syntax".toList, ['='], t])
  | package : f.package ≠ [] → HeaderEl f [2] (fun ts => ts = "package".toList :: segToks f.package)
  | imp (i : Nat) (im : Import) : f.imports[i]? = some im →
      HeaderEl f [3, (i : Int)] (fun ts => ∃ m t, im.Means (m, t) ∧ ts = ["import".toList] ++ m.toks ++ [t])

end Verif.Printer
