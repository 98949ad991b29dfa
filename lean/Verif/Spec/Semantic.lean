/-!
The client side of LSP 3.17 `textDocument/semanticTokens`: "Integer Encoding for
Tokens". Numbers are unbounded here, so that wrap-around on the server side
would be visible.
-/
namespace Verif.Semantic

/-- A token at an absolute position. -/
structure Token where
  line : Nat
  start : Nat
  len : Nat
  typ : Nat
  mods : Nat
deriving DecidableEq, Repr

/-- Decode the integer array: the line of a token is relative to the previous
token; the start character is relative to the previous token's start if both are on
the same line, and absolute otherwise. `none` if the length is not a multiple of
five. -/
def decodeFrom (line start : Nat) : List Nat → Option (List Token)
  | [] => some []
  | dl :: ds :: len :: typ :: mods :: rest =>
    let line' := line + dl
    let start' := if dl = 0 then start + ds else ds
    (decodeFrom line' start' rest).map (⟨line', start', len, typ, mods⟩ :: ·)
  | _ => none

def decode (ws : List Nat) : Option (List Token) := decodeFrom 0 0 ws

end Verif.Semantic
