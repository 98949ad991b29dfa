import Verif.Util.Str
import Verif.Util.Decimal
import Verif.Util.Sort

/-!
# Completion: result lists, ordering of type names, relative names, replaced text

Models parts of `/repo/pkg/lsp/completion.go`.
-/
namespace Verif.Completion

/-! ## The final pass over completion items -/

/-- `protocol.CompletionItem`; `ident` stands for everything but the two fields set by
the final pass. -/
structure Item where
  ident : Nat
  preselect : Bool
  sortText : Str
deriving DecidableEq, Repr

/-- `fmt.Sprintf("%0wd", n)` for `n ≥ 0`: at least `w` digits, padded with zeros. -/
def padded (w n : Nat) : Str :=
  let d := dec n
  List.replicate (w - d.length) (digitChar 0) ++ d

/-- The loop over the items, `/repo/pkg/lsp/completion.go:28-37`, from index `i` on, with
the variable `foundPreselect`. Returns its final value as well. -/
def passLoop (i : Nat) (found : Bool) : List Item → List Item × Bool
  | [] => ([], found)
  | it :: rest =>
    let r := passLoop (i + 1) (found || it.preselect) rest
    (⟨it.ident, it.preselect && !found, padded 5 i⟩ :: r.1, r.2)

/-- Set `Preselect` of item 0 (line 39). -/
def preselectFirst : List Item → List Item
  | [] => []
  | it :: rest => { it with preselect := true } :: rest

/-- The deferred function of `GetCompletions`, `/repo/pkg/lsp/completion.go:25-42`. -/
def finish (items : List Item) : List Item :=
  let r := passLoop 0 false items
  if r.2 then r.1 else preselectFirst r.1

/-! ## Ordering of type names -/

/-- `nameDistance` on the parts: the loop at `/repo/pkg/lsp/completion.go:1448-1454`. `i`
is the loop variable, `nf`, `nt` the total numbers of parts. -/
def distLoop (nf nt : Nat) : Nat → List Str → List Str → Int
  | i, f :: fs, t :: ts =>
    if f ≠ t then (nf : Int) - i + nt - i else distLoop nf nt (i + 1) fs ts
  | _, _, _ =>
    let m := min nf nt
    ((nf : Int) - m) - ((nt : Int) - m)

/-- `nameDistance`, `/repo/pkg/lsp/completion.go:1436-1455`. `strings.Split` never returns
an empty slice, so the two length tests at 1442-1446 are never true. -/
def nameDistance (from_ to : Str) : Int :=
  if from_ = to then 0
  else
    let pf := splitOn '.' from_
    let pt := splitOn '.' to
    distLoop pf.length pt.length 0 pf pt

/-- A candidate (`protoreflect.Descriptor`): its full name and the package of its file. -/
structure Cand where
  fullName : Str
  pkg : Str
deriving DecidableEq, Repr

/-- `entry`, `/repo/pkg/lsp/completion.go:1369-1373`. -/
structure Entry where
  cand : Cand
  pkgDistance : Int
  scopeDistance : Int
deriving DecidableEq, Repr

/-- The entry computed for a candidate, `/repo/pkg/lsp/completion.go:1381-1392`. -/
def mkEntry (pkgScope scope : Str) (c : Cand) : Entry :=
  let pd := nameDistance pkgScope c.pkg
  ⟨c, pd, if pd = 0 ∧ scope ≠ [] then nameDistance scope c.fullName else 0⟩

/-- One level of the comparison of `affineEntrySort` for unequal distances. -/
def distLess (a b : Int) : Bool :=
  if a = 0 ∨ b = 0 then decide (a = 0)
  else if decide (a < 0) = decide (b < 0) then decide (max a (-a) < max b (-b))
  else decide (a < 0)

/-- The comparison given to `sort.Slice`, `/repo/pkg/lsp/completion.go:1407-1429`. -/
def less (a b : Entry) : Bool :=
  if a.pkgDistance = b.pkgDistance then
    if a.scopeDistance = b.scopeDistance then decide (a.cand.fullName < b.cand.fullName)
    else distLess a.scopeDistance b.scopeDistance
  else distLess a.pkgDistance b.pkgDistance

/-- `distanceSort`, `/repo/pkg/lsp/completion.go:1379-1398`: `out` is a possible result of
sorting `cands` in place. -/
def DistanceSort (pkgScope scope : Str) (cands out : List Cand) : Prop :=
  ∃ es, SortSlice less (cands.map (mkEntry pkgScope scope)) es ∧ out = es.map Entry.cand

/-! ## relativeFullName -/

/-- `FullName.Parent` of `protoreflect`: the part before the last dot, or empty. -/
def parent (n : Str) : Str :=
  match lastIndexChar '.' n with
  | some i => n.take i
  | none => []

/-- `FullName.Name` of `protoreflect`: the part behind the last dot. -/
def name (n : Str) : Str :=
  match lastIndexChar '.' n with
  | some i => n.drop (i + 1)
  | none => n

/-- `FullName.Append` of `protoreflect`. -/
def append (s n : Str) : Str := if s = [] then n else s ++ '.' :: n

/-- The loop at `/repo/pkg/lsp/completion.go:1471-1479`: compare byte by byte, remember
the last common dot. Returns `(i, lastDot)`. -/
def commonLoop : Str → Str → Nat → Nat → Nat × Nat
  | a :: as, b :: bs, i, lastDot =>
    if a = b then commonLoop as bs (i + 1) (if a = '.' then i else lastDot) else (i, lastDot)
  | _, _, i, lastDot => (i, lastDot)

/-- `lastDot` after lines 1469-1482. -/
def cutIndex (targetPkg fromPkg : Str) : Nat :=
  let l := min targetPkg.length fromPkg.length
  let r := commonLoop targetPkg fromPkg 0 0
  if r.1 = l then r.1 else r.2

/-- Lines 1484-1488 resp. 1489-1493. -/
def cutAt (lastDot : Nat) (pkg : Str) : Str :=
  if lastDot < pkg.length then pkg.drop (lastDot + 1) else []

/-- The loop at `/repo/pkg/lsp/completion.go:1497-1512`; `stack` has its last element
first. `fuel` bounds the number of rounds; `none` if it does not suffice. -/
def walk (targetPkg fromPkg nm : Str) : Nat → Str → List Str → Option Str
  | 0, _, _ => none
  | fuel + 1, pkg, stack =>
    if pkg = fromPkg then some (append (stack.foldl append []) nm)
    else if pkg = [] then some (append targetPkg nm)
    else walk targetPkg fromPkg nm fuel (parent pkg) (name pkg :: stack)

/-- `relativeFullName`, `/repo/pkg/lsp/completion.go:1465-1513`. -/
def relativeFullName (target fromPkg : Str) : Option Str :=
  let targetPkg := parent target
  let k := cutIndex targetPkg fromPkg
  let tp := if 0 < k then cutAt k targetPkg else targetPkg
  let fp := if 0 < k then cutAt k fromPkg else fromPkg
  walk tp fp (name target) (tp.length + 1) tp []

/-! ## findPartialNames -/

/-- `findPartialNames`, `/repo/pkg/lsp/completion.go:1517-1535`, for a valid node at the
byte offsets `[start, stop)` of `content`. Slicing out of range panics in Go; callers of
this definition assume `stop ≤ content.length`. -/
def findPartialNames (content : Str) (start stop pos : Nat) : Str × Str :=
  (if start < pos then (content.drop start).take (min pos stop - start) else [],
   if pos < stop then (content.drop (max start pos)).take (stop - max start pos) else [])

/-- The range replaced by a completion item (e.g. lines 635-638, 912-913, 994-995,
1088-1089): columns and byte offsets differ by the offset of the line start, which is left
out. -/
def replaceRange (pos : Nat) (names : Str × Str) : Nat × Nat :=
  (pos - names.1.length, pos + names.2.length)

end Verif.Completion
