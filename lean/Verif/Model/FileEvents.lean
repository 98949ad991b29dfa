import Verif.Model.Documents
import Verif.Model.Resolver
/-!
# Model of file notifications

/repo/pkg/lsp/documents.go:52-103 (`DidModifyFiles`, complete) and the notification handlers of
/repo/pkg/lsp/server.go:324-521 (`DidOpen`, `DidClose`, `DidChange`, `DidChangeWatchedFiles`, `DidCreateFiles`,
`DidDeleteFiles`, `DidRenameFiles`, `DidSave`) that call it. All documents belong to one workspace. Reading a file
through the overlay file system does not fail (line 80).
-/
namespace Verif.FileEvents

open Verif.Documents Verif.Resolver

/-- A modification, with what the lookup of its Go module gives at this time and, for a new file, its path relative to
the workspace folder (resolver.go:113-204). -/
structure Entry where
  mod : Modification
  lookup : Lookup := .noModule
  rel : Path := []
deriving DecidableEq

/-- The update of the maps for a modification, resolver.go:114-204. -/
def Entry.op (e : Entry) : Op :=
  match e.mod.action with
  | .open => .open_ e.mod.uri
  | .close => .close e.mod.uri
  | .change => .change e.mod.uri e.lookup
  | .save => .change e.mod.uri e.lookup
  | .create => .create e.mod.uri e.lookup e.rel
  | .delete => .delete e.mod.uri

/-- `UpdateURIPathMappings`, resolver.go:110-205. -/
def updateMappings (s : State) (es : List Entry) : State := s.run (es.map Entry.op)

/-- The first loop, documents.go:54-61: the paths of deleted documents, before the update. -/
def deletedPaths (s : State) : List Entry → List Path
  | [] => []
  | e :: es =>
    if e.mod.action = .delete then
      match s.uriToPath e.mod.uri with
      | some p => p :: deletedPaths s es
      | none => deletedPaths s es
    else deletedPaths s es

/-- The paths that the second loop adds to `toRecompile`, documents.go:65-88; `s` is the state after the update. -/
def changedPaths (s : State) : List Entry → List Path
  | [] => []
  | e :: es =>
    if e.mod.action = .open ∧ e.mod.languageID ≠ "protobuf" then changedPaths s es
    else match s.uriToPath e.mod.uri with
      | none => changedPaths s es
      | some p => if e.mod.action = .close then changedPaths s es else p :: changedPaths s es

/-- What a call of `DidModifyFiles` does: the maps, the batch given to `UpdateOverlays` and to the version queue (a
panic in the loop of lines 89-91 ends the server), and the paths given to `Compile`. -/
structure Outcome where
  state : State
  batch : Res (List Modification)
  recompile : List Path

/-- `DidModifyFiles`, documents.go:52-103. -/
def didModify (s : State) (es : List Entry) : Outcome :=
  let s' := updateMappings s es
  { state := s'
    batch := processedBatch (fun u => (s'.uriToPath u).isSome) (es.map Entry.mod)
    recompile := deletedPaths s es ++ changedPaths s' es }

/-- `DidDeleteFiles`, server.go:453-473. -/
def deleteEntries (uris : List Uri) : List Entry :=
  uris.map fun u => { mod := { uri := u, action := .delete, version := -1, languageID := "" } }

/-- `DidCreateFiles`, server.go:430-450; each file with its lookup and relative path. -/
def createEntries (files : List (Uri × Lookup × Path)) : List Entry :=
  files.map fun f => { mod := { uri := f.1, action := .create, version := -1, languageID := "" }, lookup := f.2.1, rel := f.2.2 }

/-- `DidRenameFiles`, server.go:476-505: a deletion and a creation for every file. -/
def renameEntries (files : List (Uri × Uri × Lookup × Path)) : List Entry :=
  files.flatMap fun f =>
    [{ mod := { uri := f.1, action := .delete, version := -1, languageID := "" } },
     { mod := { uri := f.2.1, action := .create, version := -1, languageID := "" }, lookup := f.2.2.1, rel := f.2.2.2 }]

end Verif.FileEvents
