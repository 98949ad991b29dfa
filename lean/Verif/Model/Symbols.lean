import Verif.Util.BinSearch
import Verif.Util.Str

/-!
# Workspace symbol search

Models `/repo/pkg/x/symbols/symbols.go`.
-/
namespace Verif.Symbols

/-- `SymbolInformation`, `/repo/pkg/x/symbols/symbols.go:73-77`. Scores are only compared
with each other and with zero in the store; they are natural numbers here (any finite set
of non-negative floats is order-isomorphic to one, zero to zero). `sym` is the byte
string. -/
structure Entry where
  score : Nat
  sym : List Nat
  data : Nat
deriving DecidableEq, Repr

/-- The zero value filling the array initially. -/
def Entry.zero : Entry := ⟨0, [], 0⟩

/-- The predicate given to `sort.Search`, `/repo/pkg/x/symbols/symbols.go:40-49`: does
the stored entry `r` come behind `si`. -/
def behind (r si : Entry) : Bool :=
  if r.score ≠ si.score then decide (r.score < si.score)
  else if r.sym.length ≠ si.sym.length then decide (si.sym.length < r.sym.length)
  else decide (si.sym < r.sym)

/-- The predicate on indices of the array `res`. -/
def behindAt (res : List Entry) (si : Entry) (i : Nat) : Bool :=
  match res[i]? with
  | some r => behind r si
  | none => false

/-- `TooLow`, `/repo/pkg/x/symbols/symbols.go:56-58`; `none` (index out of range) if the
array is empty. -/
def tooLow (res : List Entry) (score : Nat) : Option Bool :=
  res.getLast?.map (fun last => decide (score ≤ last.score))

/-- `Store`, `/repo/pkg/x/symbols/symbols.go:36-54`, on the array `res` of fixed length.
`none` models the run-time panic of an index out of range. -/
def store (res : List Entry) (si : Entry) : Option (List Entry) :=
  match tooLow res si.score with
  | none => none
  | some true => some res
  | some false =>
    let i := sortSearch res.length (behindAt res si)
    if i < res.length then some (res.take i ++ si :: (res.drop i).dropLast) else none

/-- A sequence of `Store` calls on a fresh store with `k` slots (`maxSymbols` = 100). -/
def storeAll (k : Nat) (xs : List Entry) : Option (List Entry) :=
  xs.foldlM store (List.replicate k Entry.zero)

/-- `Results`, `/repo/pkg/x/symbols/symbols.go:60-71`. -/
def results {β : Type} (resolve : Entry → Option β) : List Entry → List β
  | [] => []
  | e :: es =>
    if e.score = 0 then []
    else
      match resolve e with
      | some b => b :: results resolve es
      | none => results resolve es

/-- `maxSymbols`, `/repo/pkg/x/symbols/symbols.go:17`. -/
def maxSymbols : Nat := 100

/-! ## Queries -/

/-- A matcher on symbol names: the score (`MatcherFunc`, lines 133-136). The returned
index is not used by the caller (`/repo/pkg/lsp/symbols.go:74`) and left out; the chunks
are one string there. Scores are rationals instead of floats (no underflow). -/
abbrev Matcher := Str → Rat

/-- `SmartCase`, `/repo/pkg/x/symbols/symbols.go:140-151`; `lower` is `strings.ToLower`. -/
def smartCase (lower : Str → Str) (q : Str) (m : Matcher) : Matcher := fun s =>
  if lower q = q then m (lower s) else m s

/-- `strings.Contains`. -/
def containsSub (pat : Str) : Str → Bool
  | [] => pat = []
  | c :: t => pat.isPrefixOf (c :: t) || containsSub pat t

/-- The matcher of one field, `/repo/pkg/x/symbols/symbols.go:98-124`. -/
def fieldMatcher (lower : Str → Str) (fuzzy : Str → Matcher) (field : Str) : Matcher :=
  match field with
  | '^' :: prefix_ => smartCase lower prefix_ (fun s => if prefix_.isPrefixOf s then 1 else 0)
  | '\'' :: exact_ => smartCase lower exact_ (fun s => if containsSub exact_ s then 1 else 0)
  | _ =>
    if field.getLast? = some '$' then
      smartCase lower field.dropLast (fun s => if field.dropLast.isSuffixOf s then 1 else 0)
    else fuzzy field

/-- `ComboMatcher.Match`, `/repo/pkg/x/symbols/symbols.go:165-176` (score only). -/
def combo (fs : List Matcher) : Matcher := fun s => fs.foldl (fun score f => score * f s) 1

/-- `/repo/pkg/x/symbols/symbols.go:94-96, 127-130`: how the matchers of the fields are
put together. -/
def combine : List Matcher → Matcher
  | [] => fun _ => 0
  | [f] => f
  | fs => combo fs

/-- `ParseQuery`, `/repo/pkg/x/symbols/symbols.go:92-131`. -/
def parseQuery (lower : Str → Str) (fuzzy : Str → Matcher) (q : Str) : Matcher :=
  combine ((fieldsBy isSpace q).map (fieldMatcher lower fuzzy))

end Verif.Symbols
