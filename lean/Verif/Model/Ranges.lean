import Verif.Model.PrintWriter
import Verif.Util.Decimal
/-!
# Model of printed reserved and extension ranges

/repo/pkg/format/protoprint/print.go:1282-1341, 2287-2297 and 2317-2319. Descriptors without source info
(so that `printElement` prints no comments) and extension ranges without options. The text goes
through the writer of `Model/PrintWriter.lean`. Numbers are integers; `end-1` does not overflow, since
the end of a range is never the smallest int32.
-/
namespace Verif.Ranges
open Verif.PrintWriter

/-- `%d` -/
def showInt (i : Int) : Str := if i < 0 then '-' :: dec i.natAbs else dec i.natAbs

def kwTo : Str := [' ', 't', 'o', ' ']
def kwMax : Str := ['m', 'a', 'x']
def kwReserved : Str := ['r', 'e', 's', 'e', 'r', 'v', 'e', 'd']
def kwExtensions : Str := ['e', 'x', 't', 'e', 'n', 's', 'i', 'o', 'n', 's']

/-- A range as stored in the printer: `reservedRange`, print.go:305-307, or the bounds of an extension
range. -/
structure Range where
  start : Int
  stop : Int
deriving DecidableEq, Repr

/-- One reserved range, print.go:1327-1336. -/
def reservedItem (maxVal : Int) (r : Range) : Str :=
  if r.start = r.stop - 1 ∨ r.start = r.stop then showInt r.start
  else if r.stop - 1 = maxVal then showInt r.start ++ kwTo ++ kwMax
  else showInt r.start ++ kwTo ++ showInt (r.stop - 1)

/-- One extension range, print.go:1299-1306. -/
def extensionItem (maxTag : Int) (r : Range) : Str :=
  if r.start = r.stop - 1 then showInt r.start
  else if r.stop - 1 = maxTag then showInt r.start ++ kwTo ++ kwMax
  else showInt r.start ++ kwTo ++ showInt (r.stop - 1)

/-- The writes for the items: every item is followed by a blank; `", "` between them. -/
def itemWrites : List Str → List Str
  | [] => []
  | [x] => [x ++ [' ']]
  | x :: xs => (x ++ [' ']) :: [',', ' '] :: itemWrites xs

/-- The writes for a statement, print.go:1283-1312 and 1316-1340; `indent` are the writes of the
indentation. -/
def statement (indent : List Str) (kw : Str) (items : List Str) : List Str :=
  indent ++ (kw ++ [' ']) :: itemWrites items ++ [[';', '\n']]

/-- `printReservedRanges` -/
def printReserved (indent : List Str) (maxVal : Int) (rs : List Range) : Str :=
  (writeAll (statement indent kwReserved (rs.map (reservedItem maxVal)))).out

/-- `printExtensionRanges` -/
def printExtensions (indent : List Str) (maxTag : Int) (rs : List Range) : Str :=
  (writeAll (statement indent kwExtensions (rs.map (extensionItem maxTag)))).out

/-- `GetMaxTag`, internal/util.go:288-293. -/
def getMaxTag (messageSet : Bool) : Int := if messageSet then 2147483646 else 536870911

/-- The range of a message as given by protoreflect (the end is exclusive), print.go:2294-2296. -/
def messageRange (first last : Int) : Range := ⟨first, last + 1⟩

/-- The range of an enum as given by protoreflect, where the end is *inclusive*, print.go:2317-2319. -/
def enumRange (first last : Int) : Range := ⟨first, last⟩

end Verif.Ranges
