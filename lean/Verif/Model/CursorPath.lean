/-!
The node of the syntax tree a cursor is in, and the nodes a selection covers
(pkg/lsp/search.go 648-851, pkg/lsp/refactor.go 432-443).

`ast.Inspect` with an `AncestorTracker` (both in protocompile, outside the
repository) visits a node before its children and offers, at each node, the
path from the file to it.  Here a syntax tree is a finite tree whose nodes carry
what the functions look at: their kind, their extent, their closing tokens.

Simplifications:
* positions are zero-based line/character pairs, as in LSP; the conversion from
  the one-based positions of the parser is `toRange` (range.go);
* whether the walker enters a node (`ast.WithIntersection`, `ast.WithRange`) is a
  flag of the node;
* a path is the list of the child numbers taken, with the number of path steps
  (one for a field, two for an element of a repeated field) of each edge.
-/

namespace Verif.CursorPath

/-- `protocol.Position`. -/
structure Pos where
  line : Nat
  char : Nat
deriving DecidableEq, Repr

/-- The Go types of the syntax nodes told apart by the functions. -/
inductive Kind
  | file | importK | syntaxK | message | enum | enumValue | service | rpc | extend
  | option | messageLiteral | optionName | messageField | compactOptions | field
  | fieldReference | rpcType | package | error | group | mapField | other
deriving DecidableEq, Repr

/-- A closing token of a node: where it ends, and whether it was made up by the
parser (`RuneNode.Virtual`). -/
structure Close where
  stop : Pos
  virtual : Bool
deriving DecidableEq, Repr

/-- What is looked at in a node besides its children.  `semicolon` is nil or the
final semicolon, `close` is nil or the closing brace, bracket or parenthesis,
`incomplete` is `IsIncomplete()` of an extend node, `sepHit` says that the node is a
message field with a name and a separator and that the token at the cursor is that
separator (search.go 738). -/
structure Info where
  kind : Kind
  start : Pos
  stop : Pos
  semicolon : Option Close
  close : Option Close
  incomplete : Bool
  sepHit : Bool
deriving DecidableEq, Repr

/-- A syntax tree.  `entered` says that the walker enters the node; each child
comes with the number of path steps that lead to it. -/
inductive Node
  | mk (info : Info) (entered : Bool) (kids : List (Nat × Node))

/-- `tracker.Values()`: the child numbers taken, whether the path continues to
the name of a message field (search.go 742-745), and the number of path steps
(`len(values.Path)`). -/
structure Found where
  path : List Nat
  name : Bool
  len : Nat
deriving DecidableEq, Repr

/-- `protocol.Intersect` of a range with the empty range at `p`
(outside the repository): the range, ends included, contains `p`. -/
def intersect (s e p : Pos) : Bool :=
  if decide (s.line > p.line) || decide (e.line < p.line) then false
  else !((s.line == p.line && decide (s.char > p.char))
    || (e.line == p.line && decide (e.char < p.char)))

/-- `intersectsLocation` (search.go 652-655). -/
def intersectsLocation (i : Info) (p : Pos) : Bool := intersect i.start i.stop p

/-- `intersectsLocationExclusive` (search.go 656-669). -/
def intersectsLocationExclusive (i : Info) (c : Option Close) (p : Pos) : Bool :=
  match c with
  | none => intersectsLocation i p
  | some c =>
    if c.virtual then intersectsLocation i p
    else if intersect i.start c.stop p then
      decide (p.line < c.stop.line) || decide (p.char < c.stop.char)
    else false

/-- Whether the path to a node is kept (the switch of search.go 678-773). -/
def eligible (i : Info) (p : Pos) : Bool :=
  match i.kind with
  | .importK | .syntaxK | .enumValue | .option | .field | .package =>
    intersectsLocationExclusive i i.semicolon p
  | .message | .enum | .service | .messageLiteral | .compactOptions | .rpcType =>
    intersectsLocationExclusive i i.close p
  | .rpc =>
    match i.semicolon with
    | some s => intersectsLocationExclusive i (some s) p
    | none =>
      match i.close with
      | some _ => false
      | none => false
  | .extend =>
    if i.incomplete then intersectsLocation i p
    else intersectsLocationExclusive i i.close p
  | .optionName | .messageField | .fieldReference | .error => intersectsLocation i p
  | .file | .group | .mapField | .other => false

/-- The paths appended at one node (search.go 678-773). -/
def here (i : Info) (p : Pos) (path : List Nat) (len : Nat) : List Found :=
  (if eligible i p then [{ path := path, name := false, len := len }] else [])
  ++ (if i.kind = .messageField ∧ i.sepHit then
        [{ path := path, name := true, len := len + 1 }] else [])

mutual
/-- The paths appended by `ast.Inspect` below a node (search.go 677-775). -/
def collect (p : Pos) (path : List Nat) (len : Nat) : Node → List Found
  | .mk i entered kids =>
    if entered then here i p path len ++ collectKids p path len 0 kids else []
/-- The same for the children from number `k` on. -/
def collectKids (p : Pos) (path : List Nat) (len k : Nat) : List (Nat × Node) → List Found
  | [] => []
  | (steps, n) :: rest =>
    collect p (path ++ [k]) (len + steps) n ++ collectKids p path len (k + 1) rest
end

/-- "take the longest path" (search.go 779-785): the loop, with the path at
`longestPathIdx` so far. -/
def longest (best : Found) : List Found → Found
  | [] => best
  | f :: rest => if f.len > best.len then longest f rest else longest best rest

/-- `findPathIntersectingToken` (search.go 648-787).  The path to the file has one
step, the root. -/
def findPathIntersectingToken (root : Node) (p : Pos) : Option Found :=
  match collect p [] 1 root with
  | [] => none
  | f :: rest => some (longest f (f :: rest))

/-- What a visitor of `findPathsEnclosingRange` does at a node: leave it, look at
the children only, or record the path and look at the children. -/
inductive Visit
  | skip | descend | record
deriving DecidableEq, Repr

/-- `DefaultEnclosingRangeVisitor` (search.go 799-827). -/
def defaultVisitor : Kind → Visit
  | .file => .descend
  | .importK | .syntaxK | .message | .enum | .enumValue | .service | .rpc | .extend
  | .option | .messageLiteral | .optionName | .messageField | .compactOptions | .field
  | .fieldReference | .rpcType | .package | .error => .record
  | .group | .mapField | .other => .skip

/-- `newFieldVisitor` (refactor.go 432-443). -/
def newFieldVisitor : Kind → Visit
  | .message | .group | .field | .mapField => .record
  | .file => .descend
  | _ => .skip

/-- `visitEnclosingRange` (search.go 789-797). -/
def visitEnclosingRange (f : Found) (acc : List Found) : List Found :=
  match acc.getLast? with
  | none => acc ++ [f]
  | some l => if f.len ≥ l.len then acc ++ [f] else acc

mutual
/-- `ast.Inspect` with a visitor of this kind, threading the slice of paths. -/
def visit (v : Kind → Visit) (path : List Nat) (len : Nat) (acc : List Found) : Node → List Found
  | .mk i entered kids =>
    if entered then
      match v i.kind with
      | .skip => acc
      | .descend => visitKids v path len 0 acc kids
      | .record =>
        visitKids v path len 0
          (visitEnclosingRange { path := path, name := false, len := len } acc) kids
    else acc
/-- The same for the children from number `k` on. -/
def visitKids (v : Kind → Visit) (path : List Nat) (len k : Nat) (acc : List Found) :
    List (Nat × Node) → List Found
  | [] => acc
  | (steps, n) :: rest =>
    visitKids v path len (k + 1) (visit v (path ++ [k]) (len + steps) acc n) rest
end

/-- The loop that looks for the lower bound (search.go 843-849), on the paths before
the lower bound, last one first: how many of them are kept. -/
def lowerBound (l : Nat) : List Found → List Found
  | [] => []
  | f :: rest => if f.len < l then [] else f :: lowerBound f.len rest

/-- `findPathsEnclosingRange` (search.go 829-851). -/
def findPathsEnclosingRange (v : Kind → Visit) (root : Node) : Option (List Found) :=
  match (visit v [] 1 [] root).reverse with
  | [] => none
  | f :: rest => some ((lowerBound f.len rest).reverse ++ [f])

end Verif.CursorPath
