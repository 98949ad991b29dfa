/-!
# Resolving a code action

`ResolveCodeAction` (/repo/pkg/lsp/server.go:864-876) with the queue of deferred actions (/repo/pkg/lsp/refactor.go:40-104), a document that is
edited meanwhile, and a client that applies the edits.
-/
namespace Verif.ResolveEdit

abbrev Uri := Nat
abbrev Text := Nat
abbrev Edits := List Nat

/-- `protocol.WorkspaceEdit`: `Changes`, and `DocumentChanges` with the version of the document. -/
structure WorkspaceEdit where
  changes : List (Uri × Edits)
  documentChanges : List (Uri × Nat × Edits)
deriving DecidableEq, Repr

/-- What the closure of an action does, refactor.go:243-255 and the other calls of `enqueue`: it fails, or sets the edit, which has changes of the
document of the mapper, which is that of the request. All closures that succeed set the edit (refactor.go:247, 635, 786, 886). -/
inductive Closure where
  | fails
  | sets (edits : Edits)
deriving DecidableEq, Repr

/-- A pending action: the identifier, the document and the version of the syntax tree (`fileNode.Version()`, refactor.go:243), and the closure.
`made` is the text of that version. -/
structure Pending where
  id : Nat
  uri : Uri
  version : Nat
  closure : Closure
  made : Text
deriving DecidableEq, Repr

/-- The edit after `resolveCodeAction`. -/
def closureEdit (p : Pending) : Option WorkspaceEdit :=
  match p.closure with
  | .fails => none
  | .sets edits => some ⟨[(p.uri, edits)], []⟩

/-- `protocol.TextEditsToDocumentChanges` (external). -/
def textEditsToDocumentChanges (uri : Uri) (version : Nat) (edits : Edits) : List (Uri × Nat × Edits) := [(uri, version, edits)]

/-- `ResolveCodeAction`, server.go:864-876, of a pending action; `none` is an error. `resolveEdits` is `clientSupportsResolveEdits`,
server.go:822-825. The client gives back the data of the action as it got them. -/
def resolve (resolveEdits : Bool) (p : Pending) : Option WorkspaceEdit :=
  match closureEdit p with
  | none => none
  | some e =>
    if resolveEdits then
      some ⟨[], textEditsToDocumentChanges p.uri p.version ((e.changes.lookup p.uri).getD [])⟩
    else some e

/-- An answer on its way to the client. `made` is the text for which the edits are. -/
structure Answer where
  edit : WorkspaceEdit
  made : Text
deriving DecidableEq, Repr

/-- The documents of the client with their versions; all texts with versions that the server was told; the pending actions; the answers. -/
structure State where
  docs : Uri → Nat × Text
  told : Uri → List (Nat × Text)
  pending : List Pending
  answers : List Answer

/-- What is seen. -/
inductive Event where
  | none
  | reopened
  | applied (uri : Uri) (text : Text) (edits : Edits) (made : Text)
  | refused (uri : Uri)
deriving DecidableEq, Repr

/-- The document of the client, after it got the text `t` as version `v`. -/
def State.told1 (s : State) (u : Uri) (v : Nat) (t : Text) : State :=
  { s with
    docs := fun x => if x = u then (v, t) else s.docs x
    told := fun x => if x = u then (v, t) :: s.told u else s.told x }

/-- The steps. Applying an edit is a change of the document, which is a further step. -/
inductive Step (resolveEdits : Bool) : State → Event → State → Prop
  /-- The user changes a document: the version increases. -/
  | change (s : State) (u : Uri) (v : Nat) (t : Text) (h : (s.docs u).1 < v) : Step resolveEdits s .none (s.told1 u v t)
  /-- The user closes and opens a document: the version begins anew. -/
  | reopen (s : State) (u : Uri) (v : Nat) (t : Text) : Step resolveEdits s .reopened (s.told1 u v t)
  /-- The server offers an action, made from a syntax tree of any text that it was told. -/
  | offer (s : State) (p : Pending) (h : (p.version, p.made) ∈ s.told p.uri) : Step resolveEdits s .none { s with pending := p :: s.pending }
  /-- The time of an action is up, refactor.go:62-64. -/
  | expire (s : State) (id : Nat) : Step resolveEdits s .none { s with pending := s.pending.filter fun p => p.id ≠ id }
  /-- The server resolves an action. -/
  | resolve (s : State) (p : Pending) (h : p ∈ s.pending) (e : WorkspaceEdit) (he : resolve resolveEdits p = some e) :
      Step resolveEdits s .none { s with pending := s.pending.filter fun q => q.id ≠ p.id, answers := ⟨e, p.made⟩ :: s.answers }
  /-- The client applies `DocumentChanges`: it compares the version (specification of the protocol). -/
  | applyVersion (s : State) (a : Answer) (h : a ∈ s.answers) (u : Uri) (v : Nat) (es : Edits) (hd : (u, v, es) ∈ a.edit.documentChanges)
      (hv : (s.docs u).1 = v) : Step resolveEdits s (.applied u (s.docs u).2 es a.made) s
  /-- It refuses edits of another version. -/
  | refuse (s : State) (a : Answer) (h : a ∈ s.answers) (u : Uri) (v : Nat) (es : Edits) (hd : (u, v, es) ∈ a.edit.documentChanges)
      (hv : (s.docs u).1 ≠ v) : Step resolveEdits s (.refused u) s
  /-- The client applies `Changes`. -/
  | applyChanges (s : State) (a : Answer) (h : a ∈ s.answers) (u : Uri) (es : Edits) (hc : (u, es) ∈ a.edit.changes) :
      Step resolveEdits s (.applied u (s.docs u).2 es a.made) s

/-- Executions from a state in which nothing is pending and the server knows the texts of the client. -/
inductive Run (resolveEdits : Bool) : List Event → State → Prop
  | init (docs : Uri → Nat × Text) : Run resolveEdits [] ⟨docs, fun u => [docs u], [], []⟩
  | step {log s e t} (h : Run resolveEdits log s) (hs : Step resolveEdits s e t) : Run resolveEdits (log ++ [e]) t

end Verif.ResolveEdit
