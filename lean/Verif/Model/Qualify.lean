import Verif.Util.Str

/-!
# Model of the name shortening of the descriptor printer

`/repo/pkg/format/protoprint/print.go:775-821`. Strings are lists of characters.
-/
namespace Verif.Qualify

/-- `fqn[1:]` if the name starts with a dot, print.go:799-801. `none`: the index panics on
an empty name. -/
def stripDot : Str → Option Str
  | [] => none
  | c :: t => some (if c = '.' then t else c :: t)

/-- `scope[:strings.LastIndex(scope[:len(scope)-1], ".")+1]`, print.go:815-816. -/
def outer (scope : Str) : Str :=
  match lastIndexChar '.' scope.dropLast with
  | some i => scope.take (i + 1)
  | none => []

/-- The loop at print.go:809-819. `fuel` bounds the number of rounds, `none` if it does not
suffice. -/
def loop (pkg fqn : Str) (required : Int) : Nat → Str → Int → Option Str
  | 0, _, _ => none
  | fuel + 1, scope, count =>
    if scope = [] then some fqn
    else if scope.isPrefixOf fqn ∧ required ≤ count then some (fqn.drop scope.length)
    else if scope = pkg ++ ['.'] then some fqn
    else loop pkg fqn required fuel (outer scope) (count + 1)

/-- The scope the loop starts with, print.go:803-807. -/
def startScope (pkg scope : Str) (required : Int) : Str :=
  if required < 0 then pkg ++ ['.']
  else if scope ≠ [] ∧ scope.getLast? ≠ some '.' then scope ++ ['.']
  else scope

/-- `Printer.qualifyElementName`, print.go:790-821; `force` is the printer option
`ForceFullyQualifiedNames`. `none`: panic, or (impossible, see C19) not enough fuel. -/
def qualifyElementName (force : Bool) (pkg scope fqn : Str) (required : Int) : Option Str :=
  match stripDot fqn with
  | none => none
  | some fqn' =>
    if force then some ('.' :: fqn')
    else
      let sc := startScope pkg scope required
      loop pkg fqn' required (sc.length + 1) sc 0

/-- print.go:786-788. -/
def qualifyName (force : Bool) (pkg scope fqn : Str) : Option Str :=
  qualifyElementName force pkg scope fqn 0

/-- `qualifyMessageOptionName`, print.go:773-778: the scope of the message itself may not be
cut off. -/
def qualifyMessageOptionName (force : Bool) (pkg scope fqn : Str) : Option Str :=
  qualifyElementName force pkg scope fqn 1

/-- `qualifyExtensionLiteralName`, print.go:780-784: only the package may be cut off. -/
def qualifyExtensionLiteralName (force : Bool) (pkg scope fqn : Str) : Option Str :=
  qualifyElementName force pkg scope fqn (-1)

end Verif.Qualify
