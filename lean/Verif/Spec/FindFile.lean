import Verif.Model.FindFile

/-!
# What finding an imported file means
-/
namespace Verif.FindFile

/-! The parts of paths that have a meaning to the program. -/
def litGoogle : Str := ['g', 'o', 'o', 'g', 'l', 'e']
def litGithub : Str := ['g', 'i', 't', 'h', 'u', 'b', '.', 'c', 'o', 'm']
def litGogo : Str := ['g', 'o', 'g', 'o']
def litGoogleapis : Str := ['g', 'o', 'o', 'g', 'l', 'e', 'a', 'p', 'i', 's']
def litProtobuf : Str := ['p', 'r', 'o', 't', 'o', 'b', 'u', 'f']
def litGogoproto : Str := ['g', 'o', 'g', 'o', 'p', 'r', 'o', 't', 'o']
def litGogoFile : Str := ['g', 'o', 'g', 'o', '.', 'p', 'r', 'o', 't', 'o']
def litProto : Str := ['.', 'p', 'r', 'o', 't', 'o']

/-- The path begins with `google/`. -/
def BelowGoogle (path : Path) : Prop := ∃ rest, rest ≠ [] ∧ path = litGoogle :: rest

/-- What the editor shows for a document: an open document as it is there, else the file; a synthetic document has the text that was
made for it. -/
def shown (W : World) (st : State) : Uri → Option Text
  | .file f => (W.overlay f).or (W.disk f)
  | .proto p => st.synthetic (.proto p)

/-- The server can say where the result comes from: its path belongs to a document, and the document has that text. A descriptor
without text belongs to a synthetic document. -/
def Located (W : World) (st : State) (r : Found) : Prop :=
  ∃ u, st.uriOf r.resolved = some u ∧
    match r.source with
    | .text t => shown W st u = some t
    | .desc _ => u = .proto r.resolved

/-- No file of a Go module is open in the editor. -/
def Closed (W : World) : Prop := ∀ q pkg name, W.findPackage q = some pkg → W.overlay (pkg.dir ++ [name]) = none

/-- Files of Go modules have at most 1 MB. -/
def Small (W : World) : Prop :=
  ∀ q pkg name t, W.findPackage q = some pkg → W.disk (pkg.dir ++ [name]) = some t → t.length ≤ 1048576

/-- A part of a path that is a name. -/
def plain (part : Str) : Prop := part ≠ [] ∧ part ≠ ['.'] ∧ part ≠ ['.', '.']

/-- The directory or file that one comes to from an absolute directory, part by part: an empty part and `.` stay, `..` goes up (and
stays at the root), a name goes down. -/
def walk (dir : File) (p : List Str) : File :=
  p.foldl (fun d part => if part = [] ∨ part = ['.'] then d else if part = ['.', '.'] then d.dropLast else d ++ [part]) dir

/-- Paths of Go packages are clean, not empty, and valid, and do not begin with `google/`. Packages that are found by an alternative
path are not those of `github.com/gogo/googleapis`. -/
structure Sane (W : World) : Prop where
  valid : ∀ q pkg, W.findPackage q = some pkg → W.validImport q = true ∧ q ≠ [] ∧ q.head? ≠ some litGoogle ∧ ∀ part ∈ q, plain part
  alternative : ∀ e p q pkg, W.applyEdits e p = some q → W.findPackage q = some pkg → ¬ [litGithub, litGogo, litGoogleapis] <+: q

/-- No document of the workspace gets a path that begins with `google/`. -/
def NoGoogle (W : World) (st : State) : Op → Prop
  | .find _ none => True
  | .find path (some importing) => 
    ∀ name, (translate W st path importing).2 = some name → ¬ BelowGoogle name ∨ (st.uriOf path).isSome
  | .incomplete _ _ => True
  | .create _ p _ => ¬ BelowGoogle p
  | .move _ p => ¬ BelowGoogle p
  | .delete _ => True

/-- The same for a history. -/
def NoGoogleRun (P : Program) (st : State) : List (World × Op) → Prop
  | [] => True
  | (W, op) :: rest => NoGoogle W st op ∧ NoGoogleRun P (step P W st op) rest

/-- Lookups of paths, and compilations. -/
inductive Lookup : Op → Prop
  | find (path : Path) : Lookup (.find path none)
  | incomplete (order : List Uri) (linked : Path → Option Text) : Lookup (.incomplete order linked)

end Verif.FindFile
