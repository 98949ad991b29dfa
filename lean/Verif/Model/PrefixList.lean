import Verif.Util.Str
/-!
# Model of `CreatePrefixList` and `JsonName`

/repo/pkg/format/protoprint/internal/util.go:225-284.
-/
namespace Verif.PrefixList

/-- The second pass, util.go:274-280: `pre` is what has been read, `numDots` the counter, `arr` the
slice being filled. -/
def fill : Str → Str → Nat → List Str → List Str
  | _, [], _, arr => arr
  | pre, c :: rest, numDots, arr =>
    if c = '.' then fill (pre ++ [c]) rest (numDots - 1) (arr.set numDots pre)
    else fill (pre ++ [c]) rest numDots arr

/-- `CreatePrefixList`, util.go:257-284. -/
def createPrefixList (pkg : Str) : List Str :=
  if pkg = [] then [[]]
  else
    let numDots := pkg.countP (fun c => decide (c = '.'))
    if numDots = 0 then [pkg, []]
    else (fill [] pkg numDots (List.replicate (numDots + 2) [])).set 0 pkg

/-- The loop of `JsonName`, util.go:228-239; `toUpper` is `unicode.ToUpper`. -/
def jsonLoop (toUpper : Char → Char) : Bool → Str → Str
  | _, [] => []
  | nextUpper, r :: s =>
    if r = '_' then jsonLoop toUpper true s
    else if nextUpper then toUpper r :: jsonLoop toUpper false s
    else r :: jsonLoop toUpper false s

/-- `JsonName`, util.go:225-241. -/
def jsonName (toUpper : Char → Char) (name : Str) : Str := jsonLoop toUpper false name

/-- The option `json_name` of a field, protoprint/print.go:1128-1133. -/
def jsonOption (toUpper : Char → Char) (isExtension : Bool) (jsn name : Str) : Option Str :=
  if isExtension = false ∧ jsn ≠ [] ∧ jsn ≠ jsonName toUpper name then some jsn else none

end Verif.PrefixList
