import Verif.Model.Hover
import Verif.Spec.CursorPath
/-!
# What hover should show
-/
namespace Verif.Hover

open CursorPath

/-- Every step from a node to a child counts. -/
inductive Positive : Node → Prop
  | mk (i e kids) : (∀ x ∈ kids, 1 ≤ x.1) → (∀ x ∈ kids, Positive x.2) → Positive (.mk i e kids)

/-- The tree as the walker sees it when the token at the position is the name of the declaration at the path `decl`: it enters the
nodes that contain the token, which are the declaration, those around it, and the identifier itself. -/
structure NameAt (root : Node) (start : Pos) (decl : List Nat) (info : Info) (k : Nat) : Prop where
  positive : Positive root
  declaration : ∃ len, At (fun _ => True) root decl len info
  only : ∀ q len i, At (fun _ => True) root q len i → q <+: decl ∨ (q = decl ++ [k] ∧ i.kind = .other)
  noSep : ∀ q len i, At (fun _ => True) root q len i → i.sepHit = false
  inside : Covers info start

/-- A line that ends a fenced code block of three backticks (CommonMark 4.5): at most three spaces, at least three backticks, and nothing else
but blanks. -/
def Closing (line : Str) : Prop :=
  ∃ a b c, line = List.replicate a ' ' ++ (List.replicate b '`' ++ List.replicate c ' ') ∧ a ≤ 3 ∧ 3 ≤ b

/-- A Markdown text that shows nothing but one block of code with the given lines. -/
def Shows (value : Str) (lines : List Str) : Prop :=
  ∃ first close rest, value = joinWith '\n' (first :: (lines ++ close :: rest)) ∧ (∀ l ∈ first :: (lines ++ close :: rest), '\n' ∉ l) ∧
    first = ['`', '`', '`', 'p', 'r', 'o', 't', 'o', 'b', 'u', 'f'] ∧ (∀ l ∈ lines, ¬ Closing l) ∧ Closing close ∧
    ∀ l ∈ rest, ∀ c ∈ l, c = ' '

/-- The declarations of a file whose first package statement has the given name. -/
def PackageIs (decls : List Decl) (parts : List Ident) : Prop :=
  ∃ before name after, decls = before ++ Decl.package (some name) :: after ∧ (∀ d ∈ before, d = .other) ∧
    ((∃ i, name = .ident i ∧ parts = [i]) ∨ (name = .compound parts ∧ 2 ≤ parts.length))

/-- The name that the first parts make up. -/
def PrefixName (parts : List Ident) (n : Nat) (name : Str) : Prop := name = joinWith '.' ((parts.take n).map (·.val))

end Verif.Hover
