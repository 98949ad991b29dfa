import Verif.Model.Inspect
/-!
# Which tokens and comments the walk is to find
-/
namespace Verif.Inspect

/-- Which leaves get tokens, with type and modifier. -/
def tokensOf (outs : List Out) : List (Nat × Typ × Mods) :=
  outs.flatMap fun o => match o with
    | .tok ids t m => ids.map fun i => (i, t, m)
    | _ => []

/-- Before which leaves comments are highlighted, and behind which. -/
def leadsOf (outs : List Out) : List Nat := outs.filterMap fun o => match o with
  | .lead i => some i
  | _ => none

def trailsOf (outs : List Out) : List Nat := outs.filterMap fun o => match o with
  | .trail i => some i
  | _ => none

/-! ## The leaves of a tree, in the order of the text -/

def Name.ids : Name → List Nat
  | .ident l => [l.id]
  | .compound first rest _ _ => (first :: rest).map (·.id)

def Ref.ids : Ref → List Nat
  | .any op url slash name cl => op.id :: (url.ids ++ slash.id :: (name.ids ++ [cl.id]))
  | .ext op name cl => op.id :: (name.ids ++ [cl.id])
  | .plain name => [name.id]

def Part.ids : Part → List Nat
  | .ext op name cl => op.id :: (name.ids ++ [cl.id])
  | .plain name _ => name.ids
  | .dot l => [l.id]

mutual
def ids : Tree → List Nat
  | .leaf l => [l.id]
  | .special l => [l.id]
  | .named _ n => n.ids
  | .node kids => idss kids
  | .optionName parts => parts.flatMap Part.ids
  | .option _ pre val post => idss pre ++ ids val ++ idss post
  | .field _ ref sep val post => ref.ids ++ idss sep ++ ids val ++ idss post
  | .array kids => idss kids

def idss : List Tree → List Nat
  | [] => []
  | t :: ts => ids t ++ idss ts
end

/-! ## The tokens, in the order of the text -/

/-- Where a value stands. -/
inductive Ctx
  | none
  | option (k : Kind)
  | value (k : Kind)
  | element (k : Kind)

def Ctx.ofOption : Option Kind → Ctx
  | .none => .none
  | some k => .option k

def Ctx.ofValue : Option Kind → Ctx
  | .none => .none
  | some k => .value k

def Truth (text : Str) : Prop := text = ['t', 'r', 'u', 'e'] ∨ text = ['f', 'a', 'l', 's', 'e']

instance (text : Str) : Decidable (Truth text) := inferInstanceAs (Decidable (_ ∨ _))

/-- `inf` and `nan`, in capital or small letters. -/
def Special (text : Str) : Prop := text.map Char.toLower ∈ [['i', 'n', 'f'], ['n', 'a', 'n']]

instance (text : Str) : Decidable (Special text) := inferInstanceAs (Decidable (_ ∈ _))

/-- The signs that have no token. -/
def Sign (c : Char) : Prop := c ∈ ['{', '}', '(', ')', '[', ']', '<', '>', '.', ',', ';', ':']

instance (c : Char) : Decidable (Sign c) := inferInstanceAs (Decidable (_ ∈ _))

/-- A word that is a value: `true` and `false` are keywords, `inf` and `nan` numbers, others may be values of the enum. -/
def word : Ctx → Nat → Str → List (Nat × Typ × Mods)
  | .option .bool, id, text => [(id, if Truth text then .keyword else .variable, .none)]
  | .option (.enum values), id, text => [(id, if text ∈ values then .enumMember else .variable, .none)]
  | .option .float, id, text => if Special text then [(id, .number, .none)] else []
  | .value .bool, id, text | .element .bool, id, text => if Truth text then [(id, .keyword, .none)] else []
  | .value (.enum values), id, text | .element (.enum values), id, text => if text ∈ values then [(id, .enumMember, .none)] else []
  | _, _, _ => []

/-- The token of a leaf by itself: keywords, numbers, strings and operators. -/
def leafToken (c : Ctx) (l : Leaf) : List (Nat × Typ × Mods) :=
  match l.term with
  | .ident text keyword => if keyword then [(l.id, .keyword, .none)] else word c l.id text
  | .number => [(l.id, .number, .none)]
  | .str embedded => if embedded then [] else [(l.id, .string, .none)]
  | .rune r virtual => if virtual ∨ r.toNat = 0 ∨ Sign r then [] else [(l.id, .operator, .none)]

/-- Every leaf of a name is highlighted in the same way. -/
def nameTokens (n : Name) (t : Typ) (m : Mods) : List (Nat × Typ × Mods) := n.ids.map fun i => (i, t, m)

/-- A type is highlighted as a type; compound names of the package `google.protobuf` have the modifier for library types. -/
def Mark.expected : Mark → Name → List (Nat × Typ × Mods)
  | .whole t m, n => nameTokens n t m
  | .split m, .ident l => nameTokens (.ident l) .type m
  | .split _, .compound f r w g => nameTokens (.compound f r w g) .type (if g then .library else .none)

def Ref.expected : Ref → List (Nat × Typ × Mods)
  | .any op url slash name cl => (op.id, .operator, .none) :: (nameTokens url .type .library ++
      (slash.id, .type, .library) :: (nameTokens name .type .none ++ [(cl.id, .operator, .none)]))
  | .ext op name cl => (op.id, .operator, .none) :: (nameTokens name .property .none ++ [(cl.id, .operator, .none)])
  | .plain name => [(name.id, .property, .none)]

def Part.expected : Part → List (Nat × Typ × Mods)
  | .ext op name cl => (op.id, .operator, .none) :: (nameTokens name .property .none ++ [(cl.id, .operator, .none)])
  | .plain name pseudo => nameTokens name (if pseudo then .keyword else .property) .none
  | .dot l => [(l.id, .property, .none)]

mutual
/-- The tokens of a tree. -/
def expected (c : Ctx) : Tree → List (Nat × Typ × Mods)
  | .leaf l => leafToken c l
  | .special l => [(l.id, .number, .none)]
  | .named m n => m.expected n
  | .node kids => expecteds .none kids
  | .optionName parts => parts.flatMap Part.expected
  | .option fd pre val post => expecteds .none pre ++ expected (.ofOption fd) val ++ expecteds .none post
  | .field fd ref sep val post => ref.expected ++ expecteds .none sep ++ expected (.ofValue fd) val ++ expecteds .none post
  | .array kids => expecteds (match c with | .value k => .element k | _ => .none) kids

def expecteds (c : Ctx) : List Tree → List (Nat × Typ × Mods)
  | [] => []
  | t :: ts => expected c t ++ expecteds c ts
end

/-! ## Trees for which this holds -/

/-- A part of a name: an identifier that is not marked as a keyword, or a dot. -/
def Leaf.Plain (l : Leaf) : Prop := (∃ text, l.term = .ident text false) ∨ l.term = .rune '.' false

def Name.Plain : Name → Prop
  | .ident l => l.Plain
  | .compound first rest _ _ => ∀ l ∈ first :: rest, l.Plain

/-- `[name]` or `name`, not `[url/name]`. -/
def Ref.Plain : Ref → Prop
  | .any _ _ _ _ _ => False
  | .ext op name cl => op.term = .rune '[' false ∧ name.Plain ∧ cl.term = .rune ']' false
  | .plain name => name.Plain

/-- A value: not `inf` or `nan` where a number of floating point is expected; words are not marked as keywords. -/
def ValueOk (fd : Option Kind) : Tree → Prop
  | .special _ => fd ≠ some .float
  | .leaf l => ∀ text, l.term ≠ .ident text true
  | _ => True

/-- An element of an array: in addition, not `true` or `false` where a truth value is expected. -/
def ElementOk (fd : Option Kind) (t : Tree) : Prop :=
  ValueOk fd t ∧ ∀ l text keyword, t = .leaf l → l.term = .ident text keyword → fd = some .bool → ¬ Truth text

mutual
def Fine : Tree → Prop
  | .leaf _ => True
  | .special _ => True
  | .named _ _ => False
  | .node kids => FineKids kids
  | .optionName _ => True
  | .option _ pre val post => Fines pre ∧ Fine val ∧ Fines post
  | .field fd ref sep val post => ref.Plain ∧ ValueOk fd val ∧ (∀ kids, val = .array kids → ∀ k ∈ kids, ElementOk fd k) ∧
      Fines sep ∧ Fine val ∧ Fines post
  | .array kids => Fines kids

def Fines : List Tree → Prop
  | [] => True
  | t :: ts => Fine t ∧ Fines ts

def FineKids : List Tree → Prop
  | [] => True
  | .named _ n :: ts => n.Plain ∧ FineKids ts
  | t :: ts => Fine t ∧ FineKids ts
end

/-! ## Comments -/

/-- Leaves without a token of their own whose comments are highlighted: punctuation and strings of CEL expressions. -/
def quietLeaf (l : Leaf) : List Nat :=
  match l.term with
  | .str true => [l.id]
  | .rune r virtual => if virtual = false ∧ r.toNat ≠ 0 ∧ Sign r then [l.id] else []
  | _ => []

mutual
def quiet : Tree → List Nat
  | .leaf l => quietLeaf l
  | .special _ => []
  | .named _ _ => []
  | .node kids => quiets kids
  | .optionName _ => []
  | .option _ pre val post => quiets pre ++ quiet val ++ quiets post
  | .field _ _ sep val post => quiets sep ++ quiet val ++ quiets post
  | .array kids => quiets kids

def quiets : List Tree → List Nat
  | [] => []
  | t :: ts => quiet t ++ quiets ts
end

/-- Names without dots. -/
def Leaf.Word (l : Leaf) : Prop := ∃ text, l.term = .ident text false

def Name.Word : Name → Prop
  | .ident l => l.Word
  | .compound _ _ _ _ => False

def Ref.Word : Ref → Prop
  | .plain name => name.Word
  | _ => False

def Part.Word : Part → Prop
  | .ext _ name _ => name.Word
  | .plain name _ => name.Word
  | .dot _ => True

mutual
/-- Trees in which all names are single words. -/
def Words : Tree → Prop
  | .leaf _ => True
  | .special _ => True
  | .named _ n => n.Word
  | .node kids => Wordss kids
  | .optionName parts => ∀ p ∈ parts, p.Word
  | .option _ pre val post => Wordss pre ∧ Words val ∧ Wordss post
  | .field _ ref sep val post => ref.Word ∧ Wordss sep ∧ Words val ∧ Wordss post
  | .array kids => Wordss kids

def Wordss : List Tree → Prop
  | [] => True
  | t :: ts => Words t ∧ Wordss ts
end

end Verif.Inspect
