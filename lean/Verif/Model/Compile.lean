import Verif.Util.Assoc
/-!
# Model of the compile bookkeeping

/repo/pkg/lsp/compiler.go:24-140 (`postInvalidateHook`, `preCompile`, `compileLocked`) and
/repo/pkg/lsp/cache.go:217-222 (lookups). Paths and results are numbers; a result stands for the pointer and
for what is read from it (its pragmas). The compiler is the environment: it calls the hooks and delivers
results. Maps are association lists. The in-flight tables and diagnostics of the hooks are left out.
-/
namespace Verif.Compile

open Verif.Assoc

/-- A file in `c.results`; `none` is a placeholder. -/
structure Entry where
  path : Nat
  res : Option Nat
deriving DecidableEq, Repr

/-- `c.results`, `c.partiallyLinkedResults`, `c.unlinkedResults` and `c.pragmas`. -/
structure St where
  results : List Entry
  part : List (Nat × Nat)
  unl : List (Nat × Nat)
  pragmas : List (Nat × Nat)
deriving Repr

def St.init : St := ⟨[], [], [], []⟩

/-- The search loops with assignment, compiler.go:97-108, 120-125, 138-143: the first file with the path is
replaced. -/
def replaceFirst (p : Nat) (r : Option Nat) : List Entry → List Entry
  | [] => []
  | e :: es => if e.path = p then ⟨p, r⟩ :: es else e :: replaceFirst p r es

/-- The loop of the invalidation hook, compiler.go:35-40: the first file with the path is removed. -/
def removeFirst (p : Nat) : List Entry → List Entry
  | [] => []
  | e :: es => if e.path = p then es else e :: removeFirst p es

/-- Whether the loop finds the path, compiler.go:97-100. -/
def found (p : Nat) (es : List Entry) : Bool := es.any fun e => decide (e.path = p)

/-- `p.update(pragmas)` if there is an entry, compiler.go:103-105. -/
def updatePragmas (m : List (Nat × Nat)) (p id : Nat) : List (Nat × Nat) :=
  match get m p with
  | some _ => set m p id
  | none => m

/-- A fully linked file, compiler.go:87-115. -/
def addFile (s : St) (f : Nat × Nat) : St :=
  if found f.1 s.results then
    { results := replaceFirst f.1 (some f.2) s.results, part := del s.part f.1, unl := del s.unl f.1,
      pragmas := updatePragmas s.pragmas f.1 f.2 }
  else
    { results := s.results ++ [⟨f.1, some f.2⟩], part := del s.part f.1, unl := del s.unl f.1,
      pragmas := set s.pragmas f.1 f.2 }

/-- A partially linked file, compiler.go:116-132. -/
def addPartial (s : St) (f : Nat × Nat) : St :=
  { results := replaceFirst f.1 none s.results, part := set s.part f.1 f.2, unl := del s.unl f.1, pragmas := set s.pragmas f.1 f.2 }

/-- A file that is only parsed, compiler.go:133-150. -/
def addUnlinked (s : St) (f : Nat × Nat) : St :=
  { results := replaceFirst f.1 none s.results, part := del s.part f.1, unl := set s.unl f.1 f.2, pragmas := set s.pragmas f.1 f.2 }

/-- What the compiler does: it calls `preCompile` for a file, ends a compilation with results or with an error
other than invalid source, or reports a file as invalidated. -/
inductive Ev where
  | pre (p : Nat)
  | done (files partials unlinked : List (Nat × Nat))
  | failed
  | invalidated (p : Nat) (willRecompile : Bool)
deriving Repr

def step (s : St) : Ev → St
  | .pre p => { s with part := del s.part p, unl := del s.unl p }
  | .done fs ps us => us.foldl addUnlinked (ps.foldl addPartial (fs.foldl addFile s))
  | .failed => s
  | .invalidated p again => if again then s else { s with results := removeFirst p s.results }

def run (evs : List Ev) : St := evs.foldl step St.init

/-- What a lookup gives: a linked, partially linked or unlinked result, or a placeholder. -/
inductive Found where
  | linked (id : Nat)
  | part (id : Nat)
  | unl (id : Nat)
  | placeholder
deriving DecidableEq, Repr

/-- `findParseResultByPathLocked`, cache.go:217-222, before the type assertion. -/
def findParse (s : St) (p : Nat) : Option Found :=
  match get s.unl p with
  | some id => some (.unl id)
  | none =>
    match get s.part p with
    | some id => some (.part id)
    | none =>
      match s.results.find? fun e => decide (e.path = p) with
      | some ⟨_, some id⟩ => some (.linked id)
      | some ⟨_, none⟩ => some .placeholder
      | none => none

end Verif.Compile
