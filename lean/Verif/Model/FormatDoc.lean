import Verif.Model.Documents
import Verif.Util.Str
/-!
# Model of a formatting request

/repo/pkg/lsp/format.go:11-44 (`FormatDocument`), /repo/pkg/lsp/documents.go:52-103 (`DidModifyFiles`), 105-132
(`LatestDocumentContentsWellFormed`), 140-157 (`GetMapper`), for one document. Requests are handled one after the other
(C26). The parser, the formatter and the difference of two texts are
parameters. Columns count characters, as in `Verif.Documents`.
-/
namespace Verif.FormatDoc

open Documents

/-- A diagnostic of the compiler: a `parser.ParseError`, a `parser.ExtendedSyntaxError`, or another one. -/
inductive Kind
  | parseError
  | extended (canFormat : Bool)
  | other
deriving DecidableEq, Repr

/-- The parser: the tree that becomes the parse result of the file (`none`: the last one stays), and the diagnostics. -/
abbrev Parser (T : Type) := Str → Option T × List Kind

/-- What the server knows about a document: the text of an open document, the file, the last parse result, the diagnostics. -/
structure Doc (T : Type) where
  overlay : Option Str
  disk : Option Str
  tree : Option T
  diags : List Kind
deriving DecidableEq, Repr

variable {T : Type}

/-- The text that the file system with overlays gives for the document. -/
def Doc.current (d : Doc T) : Option Str := d.overlay.or d.disk

/-- Compiling the document, /repo/pkg/lsp/compiler.go:62-113. A file that cannot be read keeps its parse result. -/
def compile (parse : Parser T) (d : Doc T) : Doc T :=
  match d.current with
  | none => { d with diags := [.other] }
  | some text => { d with tree := (parse text).1.or d.tree, diags := (parse text).2 }

/-- At the start every file of the workspace is compiled. -/
def start (parse : Parser T) (disk : Option Str) : Doc T := compile parse ⟨none, disk, none, []⟩

/-- Notifications of the client; `protobuf` says whether the language of an opened document is `protobuf`. `disk`: the file has
changed. -/
inductive Event
  | opened (protobuf : Bool) (text : Str)
  | changed (text : Str)
  | saved
  | closed
  | disk (text : Option Str)
deriving DecidableEq, Repr

/-- `DidModifyFiles`; `none` if `UpdateOverlays` fails (lines 92-94 panic): a document that is open cannot be opened, one that is
not open cannot be changed, saved or closed. -/
def step (parse : Parser T) (d : Doc T) : Event → Option (Doc T)
  | .opened protobuf text =>
    if d.overlay.isSome then none
    else if protobuf then some (compile parse { d with overlay := some text })
    else some { d with overlay := some text }
  | .changed text => if d.overlay.isSome then some (compile parse { d with overlay := some text }) else none
  | .saved => if d.overlay.isSome then some (compile parse d) else none
  | .closed => if d.overlay.isSome then some { d with overlay := none } else none
  | .disk text => some (compile parse { d with disk := text })

/-- A sequence of notifications. -/
def run (parse : Parser T) (d : Doc T) : List Event → Option (Doc T)
  | [] => some d
  | e :: es =>
    match step parse d e with
    | none => none
    | some d' => run parse d' es

/-- `latestDocumentContentsWellFormedLocked` with `strict`, documents.go:113-132. -/
def wellFormed (strict : Bool) : List Kind → Bool
  | [] => true
  | .parseError :: _ => false
  | .extended canFormat :: ds => if strict && !canFormat then false else wellFormed strict ds
  | .other :: ds => wellFormed strict ds

/-- `Mapper.OffsetPosition` (gopls) for an offset in the text. -/
def position : Str → Nat → Pos
  | _, 0 => ⟨0, 0⟩
  | [], _ + 1 => ⟨0, 0⟩
  | c :: t, n + 1 =>
    let p := position t n
    if c = '\n' then ⟨p.line + 1, p.char⟩ else if p.line = 0 then ⟨0, p.char + 1⟩ else p

/-- `protocol.EditsFromDiffEdits` (gopls); an offset behind the end is an error. -/
def fromDiff (text : Str) : List Edit → Option (List Change)
  | [] => some []
  | e :: es =>
    if e.start ≤ text.length ∧ e.stop ≤ text.length then
      (fromDiff text es).map fun cs => ⟨some (position text e.start, position text e.stop), 0, e.new⟩ :: cs
    else none

/-- The formatter: whether the tree has the pragma `nofmt`, the formatted text (`none`: an error), the difference of texts. -/
structure Tools (T : Type) where
  nofmt : T → Bool
  format : T → Option Str
  diff : Str → Str → List Edit

/-- `FormatDocument`, format.go:11-44. `tree = none`: there is no parse result (lines 24-27); a parse result without tree (lines
29-31) comes only from files that are not parsed and is not modelled. The range argument is never given (server.go:737). -/
def formatDocument (tools : Tools T) (d : Doc T) : Res (List Change) :=
  if wellFormed true d.diags then
    match d.current with
    | none => .err
    | some text =>
      match d.tree with
      | none => .err
      | some tree =>
        if tools.nofmt tree then .ok []
        else
          match tools.format tree with
          | none => .err
          | some out =>
            match fromDiff text (tools.diff text out) with
            | none => .err
            | some cs => .ok cs
  else .ok []

end Verif.FormatDoc
