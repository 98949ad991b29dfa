/-!
# Model of the semantic tokens of a string literal with escapes

/repo/pkg/lsp/semantic.go:704-788 (`inspectStringLiteralWithEscapeSequences`). The matches of the regular
expression are a parameter. `raw` is the length of the text between the quotes. Columns are numbers without
overflow; the line, language, node and path of the tokens, which are the same for all of them, are left out, and
so are the comments of the node.
-/
namespace Verif.StringTokens

/-- A token: column, length, and whether its type is the one for escapes (`semanticTypeRegexp`). -/
structure Tok where
  start : Nat
  len : Nat
  escape : Bool
deriving DecidableEq, Repr

/-- The token for plain text before a match, semantic.go:734-746. -/
def plain (start i a : Nat) : List Tok × Nat :=
  if i < a then ([⟨start + i, a - i, false⟩], a) else ([], i)

/-- The token for a match, semantic.go:747-759. -/
def escaped (start i a b : Nat) : List Tok × Nat :=
  if i = a then ([⟨start + i, b - a, true⟩], b) else ([], i)

/-- The loop over the matches, semantic.go:732-760: the tokens and the last value of `i`. -/
def loop (start : Nat) (i : Nat) : List (Nat × Nat) → List Tok × Nat
  | [] => ([], i)
  | m :: ms =>
    let p := plain start i m.1
    let e := escaped start p.2 m.1 m.2
    let r := loop start e.2 ms
    (p.1 ++ e.1 ++ r.1, r.2)

/-- The token after the last match, semantic.go:761-774. The subtraction of the condition is that of
integers; for short texts it is negative and the condition is false, as here. -/
def trailing (start i raw : Nat) : List Tok × Nat :=
  if i < raw - 2 then ([⟨start + i, raw - 1 - i, false⟩], raw - 1) else ([], i)

/-- All tokens; `col` is the column of the opening quote, semantic.go:715-785. -/
def tokens (col raw : Nat) (ms : List (Nat × Nat)) : List Tok :=
  let l := loop (col + 1) 0 ms
  let t := trailing (col + 1) l.2 raw
  ⟨col, 1, false⟩ :: (l.1 ++ t.1 ++ [⟨col + 1 + t.2, 1, false⟩])

end Verif.StringTokens
