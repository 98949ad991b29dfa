import Verif.Util.Str

/-!
# URI/path mapping, suffix matching, go_package scan, workspace-local test

Models parts of `/repo/pkg/lsp/resolver.go`.
-/
namespace Verif.Resolver

abbrev Uri := String
abbrev Path := Str

/-- `ImportSource`, `/repo/pkg/lsp/resolver.go:32-40`. -/
inductive ImportSource
  | wellKnown | relativePath | localGoModule | goModuleCache | synthetic
deriving DecidableEq, Repr

/-- The three maps guarded by `pathsMu`, `/repo/pkg/lsp/resolver.go:42-53`. -/
structure State where
  pathOf : Uri → Option Path      -- filePathsByURI
  uriOf : Path → Option Uri       -- fileURIsByPath
  sourceOf : Uri → Option ImportSource

def State.empty : State := ⟨fun _ => none, fun _ => none, fun _ => none⟩

/-- Map update / deletion. -/
def upd {α β : Type} [DecidableEq α] (m : α → Option β) (k : α) (v : Option β) : α → Option β :=
  fun x => if x = k then v else m x

/-- Outcome of opening the file and looking up its Go module
(`os.Open`, `LookupGoModule`): `found p` carries the resulting
`filepath.Join(module, filepath.Base(filename))`. -/
inductive Lookup
  | openFailed
  | noModule
  | failed
  | found (p : Path)
deriving DecidableEq, Repr

/-- One modification (`file.Modification`) as seen by `UpdateURIPathMappings`, plus the
assignment made when an import is resolved (`translate`, lines 783-785 and 797-799).
For `create`, `rel` is the document's path relative to the workspace folder. -/
inductive Op
  | open_ (u : Uri)
  | close (u : Uri)
  | change (u : Uri) (l : Lookup)         -- also Save
  | create (u : Uri) (l : Lookup) (rel : Path)
  | delete (u : Uri)
  | translate (u : Uri) (p : Path) (src : ImportSource)
deriving DecidableEq, Repr

/-- `r.filePathsByURI[u] = p; r.fileURIsByPath[p] = u`. -/
def State.setBoth (s : State) (u : Uri) (p : Path) : State :=
  { s with pathOf := upd s.pathOf u (some p), uriOf := upd s.uriOf p (some u) }

/-- A Go map read of a missing key yields the zero value `""`. -/
def goGet (o : Option Path) : Path := o.getD []

/-- The loop body of `UpdateURIPathMappings`, `/repo/pkg/lsp/resolver.go:113-204`, and
the assignments at 783-785 / 797-799. Logging is left out. -/
def State.step (s : State) : Op → State
  | .open_ _ => s
  | .close _ => s
  | .change u l =>
    if s.sourceOf u = some .localGoModule then
      let existing := goGet (s.pathOf u)
      match l with
      | .openFailed => s
      | .noModule =>
        { pathOf := upd s.pathOf u none, uriOf := upd s.uriOf existing none,
          sourceOf := upd s.sourceOf u none }
      | .failed => s
      | .found p =>
        if p ≠ existing then
          let s' := s.setBoth u p
          if existing ≠ [] then { s' with uriOf := upd s'.uriOf existing none } else s'
        else s
    else s
  | .create u l rel =>
    match l with
    | .openFailed => s
    | .noModule =>
      { s.setBoth u rel with sourceOf := upd s.sourceOf u (some .relativePath) }
    | .failed => s
    | .found p =>
      { s.setBoth u p with sourceOf := upd s.sourceOf u (some .localGoModule) }
  | .delete u =>
    { pathOf := upd s.pathOf u none, uriOf := upd s.uriOf (goGet (s.pathOf u)) none,
      sourceOf := upd s.sourceOf u none }
  | .translate u p src =>
    { s.setBoth u p with sourceOf := upd s.sourceOf u (some src) }

/-- A batch or history of modifications, in order. -/
def State.run (s : State) (ops : List Op) : State := ops.foldl State.step s

/-- `PathToURI`, `/repo/pkg/lsp/resolver.go:74-87`: a `;packagename` suffix is removed
first. -/
def State.pathToURI (s : State) (p : Path) : Option Uri := s.uriOf (p.takeWhile (· ≠ ';'))

/-- `URIToPath`, `/repo/pkg/lsp/resolver.go:89-98`. -/
def State.uriToPath (s : State) (u : Uri) : Option Path := s.pathOf u

/-! ## FindSuffixMatchedPath -/

/-- The scoring loop, `/repo/pkg/lsp/resolver.go:853-859`: compare `targetParts` with
the source parts starting at the current offset, stop at the first difference. -/
def scoreAt (target : List Str) : List Str → Nat
  | [] => 0
  | s :: ss =>
    match target with
    | [] => 0
    | t :: ts => if t = s then scoreAt ts ss + 1 else 0

/-- Go's `append(a[:start], xs...)` on a slice whose backing array is `a` itself
(length = capacity): returns the new backing array contents of `a` and the value of the
resulting slice. `strings.Split` allocates exactly as many elements as it returns, so
capacity = length here. -/
def appendInto (a : List Str) (start : Nat) (xs : List Str) : List Str × List Str :=
  if start + xs.length ≤ a.length then
    (a.take start ++ xs ++ a.drop (start + xs.length), a.take start ++ xs)
  else (a, a.take start ++ xs)

/-- `append(append(sourceParts[:start], targetParts...), base)`: the second append writes
into the same array only if the first one did (a reallocated slice is private). -/
def appendBoth (a : List Str) (start : Nat) (target : List Str) (base : Str) :
    List Str × List Str :=
  let r := appendInto a start target
  if start + target.length ≤ a.length then
    let r' := appendInto r.1 (start + target.length) [base]
    (r'.1, r.2 ++ [base])
  else (r.1, r.2 ++ [base])

/-- `match`, `/repo/pkg/lsp/resolver.go:813-816`; the path is kept as the list of parts
handed to `filepath.Join`. -/
structure Match where
  parts : List Str
  score : Nat
deriving DecidableEq, Repr

/-- The loop over offsets, `/repo/pkg/lsp/resolver.go:833-866`, with
`start = len(sourceParts) - offset` counting down from `start - 1` to `0`; `a` is the
(mutable) array of source parts. -/
def collect (target : List Str) (base : Str) : Nat → List Str → List Match
  | 0, _ => []
  | start + 1, a =>
    let sc := scoreAt target (a.drop start)
    if 0 < sc then
      let r := appendBoth a start target base
      ⟨r.2, sc⟩ :: collect target base start r.1
    else collect target base start a

/-- `if sourceParts[0] == "" { sourceParts[0] = "/" }`, lines 829-831. -/
def fixRoot : List Str → List Str
  | [] :: t => ['/'] :: t
  | l => l

/-- The result of `FindSuffixMatchedPath`, `/repo/pkg/lsp/resolver.go:818-883`, for a
target with a directory part: `target` and `source` are the directory parts split at
`/`, `base` is `filepath.Base(target)`. `sort.Slice` is not stable, so any match of
highest score may come first: the result is a relation. `none` is the result `"", false`. -/
def FindSuffix (target : List Str) (base : Str) (source : List Str) (r : Option (List Str)) : Prop :=
  let s := fixRoot source
  let ms := collect target base s.length s
  match r with
  | none => ms = []
  | some parts => ∃ m ∈ ms, m.parts = parts ∧ ∀ m' ∈ ms, m'.score ≤ m.score

/-! ## FastLookupGoModule -/

/-- The scan `for ; index < len(line); index++ { if line[index] == c { break } }`. -/
def scanTo (c : Char) (line : Str) (index : Nat) : Nat :=
  index + ((line.drop index).takeWhile (· ≠ c)).length

/-- `line[a:b]`. -/
def slice (line : Str) (a b : Nat) : Str := (line.drop a).take (b - a)

/-- The literal `"option"`. -/
def kwOption : Str := "option".toList
/-- The literal `"go_package"`. -/
def kwGoPackage : Str := 'g' :: "o_package".toList

/-- `endIdx`, `/repo/pkg/lsp/resolver.go:663-667`: the last quote, or the first `;` of
the line if it lies between. -/
def endIndex (line : Str) (startIdx last : Nat) : Nat :=
  match indexChar ';' line with
  | some semi => if startIdx < semi ∧ semi < last then semi else last
  | none => last

/-- The loop body of `FastLookupGoModule`, `/repo/pkg/lsp/resolver.go:641-671`; `none`
means `continue`. A missing index (-1 in Go) makes the comparisons at 665 and 668 fail
resp. succeed, as here. -/
def scanLine (line : Str) : Option Str :=
  if kwOption.isPrefixOf line then
    match indexSub kwGoPackage line with
    | none => none
    | some i =>
      let index := scanTo '"' line (scanTo '=' line i)
      if index = line.length then none
      else
        let startIdx := index + 1
        match lastIndexChar '"' line with
        | none => none
        | some last =>
          let endIdx := endIndex line startIdx last
          if endIdx ≤ startIdx then none else some (slice line startIdx endIdx)
  else none

/-- `FastLookupGoModule`, `/repo/pkg/lsp/resolver.go:636-674`, on the lines of the file
(`bufio.Scanner`; its 64 KiB line limit is not modelled). `none` is the error. -/
def fastLookup (lines : List Str) : Option Str := lines.findSome? scanLine

/-! ## IsRealWorkspaceLocalFile -/

/-- What the test at `/repo/pkg/lsp/resolver.go:572-612` observes about a document. -/
structure DocInfo where
  isFile : Bool            -- uri.IsFile()
  synthetic : Bool         -- in syntheticFiles
  source : Option ImportSource
  readable : Bool          -- ReadFile succeeded
  regular : Bool           -- Lstat succeeded and the mode is regular
  path : Path
deriving DecidableEq, Repr

/-- `IsRealWorkspaceLocalFile`, `/repo/pkg/lsp/resolver.go:572-612`. -/
def isRealWorkspaceLocal (folder : Path) (d : DocInfo) : Bool :=
  if !d.isFile then false
  else if d.synthetic then false
  else if d.source = some .synthetic ∨ d.source = some .goModuleCache ∨ d.source = some .wellKnown then
    false
  else if !d.readable then false
  else if !d.regular then false
  else folder.isPrefixOf d.path

end Verif.Resolver
