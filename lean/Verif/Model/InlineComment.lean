import Verif.Model.FormatWriter
/-!
# Model of comments written in-line

/repo/pkg/format/formatter.go:2265-2291 (`writeInlineComments`).
-/
namespace Verif.InlineComment
open Verif.FormatWriter

/-- A comment: its text, and what is needed of its position. -/
structure Comment where
  text : Str
  leadingWhitespace : Str
  virtual : Bool

/-- The text that is written for a comment, formatter.go:2275-2288. -/
def inlineText (text : Str) : Str :=
  if ['/', '/'].isPrefixOf text then ['/', '*', ' '] ++ trimSpace (text.drop 2) ++ [' ', '*', '/']
  else joinWith ' ' ((splitOn '\n' text).map trimSpace)

/-- One iteration of the loop; `i` is the index of the comment. -/
def writeOne (i : Nat) (st : St) (c : Comment) : St :=
  if c.virtual then st
  else
    let st' := if i > 0 ∨ c.leadingWhitespace ≠ [] ∨ st.last = ';' ∨ st.last = '}' then space st else st
    write st' (inlineText c.text)

/-- The loop. -/
def writeLoop (i : Nat) (st : St) : List Comment → St
  | [] => st
  | c :: cs => writeLoop (i + 1) (writeOne i st c) cs

def writeInlineComments (st : St) (cs : List Comment) : St := writeLoop 0 st cs

end Verif.InlineComment
