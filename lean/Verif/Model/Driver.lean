import Verif.Model.Documents
import Verif.Model.Transform
import Verif.Util.Str
/-!
# Model of the compiler driver

/repo/sdk/driver/driver.go:95-211 (`Compile`), 217-238 (`sortAndFilterResults`), /repo/pkg/lsp/externalapi.go:29-43
(`XGetLinkerResults`). The diagnostics of the files and the linked files are inputs. A character of a text stands for a byte;
the columns of a diagnostic count bytes (that is how driver.go:166-176 uses them). Messages are records; their layout and
colours (driver.go:151-185) are not modelled.
-/
namespace Verif.Driver

open Documents (Res)

/-- `protocol.Diagnostic`; severities are 1 (error), 2 (warning), 3 (information), 4 (hint). `unnecessary`: the tags have
`protocol.Unnecessary`. -/
structure Diag where
  severity : Nat
  startLine : Nat
  startChar : Nat
  endLine : Nat
  endChar : Nat
  text : Str
  unnecessary : Bool
deriving DecidableEq, Repr

/-- A message: severity, file, line (from 1), text, and the source line in three parts: before, in, and after the range. -/
structure Message where
  severity : Nat
  file : Str
  line : Nat
  text : Str
  context : Option (Str × Str × Str)
deriving DecidableEq, Repr

/-- `Mapper.PositionOffset` (gopls) of column 0 of a line; the line after the last one is the end of the text. -/
def lineOff : Str → Nat → Option Nat
  | _, 0 => some 0
  | [], 1 => some 0
  | [], _ + 2 => none
  | c :: t, l + 1 => if c = '\n' then (lineOff t l).map (· + 1) else (lineOff t (l + 1)).map (· + 1)

/-- driver.go:165-176: the line from `startPos` to before `endPos - 1` (a Go slice expression, which panics if the bounds
are not in order) and its parts. -/
def context (content : Str) (startPos endPos startChar endChar : Nat) : Res (Str × Str × Str) :=
  if endPos ≤ startPos then .panic
  else
    let line := (content.take (endPos - 1)).drop startPos
    if line.length < startChar || line.length < endChar || endChar < startChar then .ok ([], line, [])
    else .ok (line.take startChar, (line.drop startChar).take (endChar - startChar), line.drop endChar)

/-- The body of the loop over the diagnostics of a file, driver.go:113-187: `ok none` if there is no message. -/
def message (file content : Str) (d : Diag) : Res (Option Message) :=
  if d.startLine ≠ d.endLine then .ok none
  else
    match lineOff content d.startLine, lineOff content (d.endLine + 1) with
    | some a, some b =>
      if d.severity ≤ 2 && !d.unnecessary then
        match context content a b d.startChar d.endChar with
        | .ok c => .ok (some ⟨d.severity, file, d.startLine + 1, d.text, some c⟩)
        | .err => .err
        | .panic => .panic
      else .ok (some ⟨d.severity, file, d.startLine + 1, d.text, none⟩)
    | _, _ => .err

/-- The loop over the diagnostics of a file. -/
def messages (file content : Str) : List Diag → Res (List Message)
  | [] => .ok []
  | d :: ds =>
    match message file content d with
    | .err => .err
    | .panic => .panic
    | .ok m =>
      match messages file content ds with
      | .err => .err
      | .panic => .panic
      | .ok ms => .ok (m.toList ++ ms)

/-- A file with diagnostics: its name relative to the workspace, its text (`none`: there is no mapper) and the diagnostics. -/
structure Source where
  file : Str
  content : Option Str
  diags : List Diag
deriving DecidableEq, Repr

/-- The loop over the files, driver.go:104-189; the order of a Go map is any order. -/
def allMessages : List Source → Res (List Message)
  | [] => .ok []
  | f :: fs =>
    match f.content with
    | none => .err
    | some content =>
      match messages f.file content f.diags with
      | .err => .err
      | .panic => .panic
      | .ok ms =>
        match allMessages fs with
        | .err => .err
        | .panic => .panic
        | .ok rest => .ok (ms ++ rest)

/-- A result of the linker. -/
structure Linked where
  res : Transform.Res
  placeholder : Bool
  editions : Bool
deriving DecidableEq, Repr

/-- `XGetLinkerResults`, externalapi.go:29-43. -/
def linkerResults (linked : List Linked) : List Transform.Res :=
  (linked.filter fun l => !l.placeholder && !l.editions).map Linked.res

/-- `filepath.Rel(base, target)` for clean absolute paths as lists of names: `none` if the result begins with `..` (then
`filepath.IsLocal` is false, driver.go:233). -/
def rel : List Str → List Str → Option (List Str)
  | [], t => some t
  | _ :: _, [] => none
  | b :: bs, c :: cs => if b = c then rel bs cs else none

/-- The disk, and the directory in which the process runs. -/
structure Env where
  exists_ : List Str → Bool
  cwd : List Str

/-- The test of `sortAndFilterResults`, driver.go:224-236, for the path of a file (`none`: the URI is not a file). A relative
name given to `os.Stat` is resolved in the current directory. -/
def isLocal (env : Env) (ws : List Str) (path : Option (List Str)) : Bool :=
  match path with
  | none => false
  | some p =>
    match rel ws p with
    | none => false
    | some r => env.exists_ (env.cwd ++ r)

/-- `Results`, driver.go:72-81 (without the descriptor protos and the maps). -/
structure Results where
  error : Bool
  messages : List Message
  all : List Transform.Res
  local_ : List Transform.Res
deriving DecidableEq, Repr

/-- `Compile`, driver.go:95-211. `pathOf` gives the path of the file of a linked result. -/
def compile (env : Env) (ws : List Str) (pathOf : Nat → Option (List Str)) (sources : List Source) (linked : List Linked) :
    Res Results :=
  match allMessages sources with
  | .err => .err
  | .panic => .panic
  | .ok ms =>
    if sources.any fun f => f.diags.any fun d => d.severity == 1 then .ok ⟨true, ms, [], []⟩
    else
      match Transform.topologicalSort (linkerResults linked) with
      | .error _ => .panic
      | .ok sorted => .ok ⟨false, ms, sorted, Transform.localFiles (fun p => isLocal env ws (pathOf p)) sorted⟩

end Verif.Driver
