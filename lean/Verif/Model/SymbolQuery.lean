import Verif.Model.Symbols

/-!
# Model of the workspace symbol request

`QueryWorkspaceSymbols`, `/repo/pkg/lsp/symbols.go:50-107`, with `rangeAllDescriptorsLocked`,
`/repo/pkg/lsp/cache.go:461-473`: one goroutine per file walks through the declarations and sends them
to a channel, another goroutine receives them and stores them (`Model/Symbols.lean`). Declarations are
numbers; `Desc` says what they are.
-/
namespace Verif.SymbolQuery

open Verif.Symbols

inductive DKind where
  | message
  | enum
  | service
  | method
  | field
  | enumValue
  | oneof
  | file
deriving DecidableEq, Repr

/-- `protocol.SymbolKind` -/
inductive SKind where
  | class_
  | enum
  | interface_
  | function
  | field
  | enumMember
  | null
deriving DecidableEq, Repr

/-- A descriptor. `parent`: the full name of the parent, `none` if it is the file; `path`: the path of
its file; `node`: the range of its syntax node, `none` if there is none (`res.Node`, line 114). -/
structure Desc where
  kind : DKind
  name : Str
  parent : Option Str
  path : Str
  placeholder : Bool := false
  mapEntry : Bool := false
  node : Option (Nat × Nat)
deriving DecidableEq, Repr

/-- The declarations that are sent, symbols.go:82-95. -/
def eligible (d : Desc) : Bool :=
  match d.kind with
  | .message => !(d.placeholder || d.mapEntry)
  | .enum => true
  | .service => true
  | .method => true
  | .field => true
  | .enumValue => true
  | _ => false

/-- `symbolKind`, symbols.go:134-153. -/
def symbolKind : DKind → SKind
  | .message => .class_
  | .enum => .enum
  | .service => .interface_
  | .method => .function
  | .field => .field
  | .enumValue => .enumMember
  | _ => .null

/-- `protocol.SymbolInformation` -/
structure Shown where
  name : Str
  kind : SKind
  uri : Str
  range : Nat × Nat
  container : Str
deriving DecidableEq, Repr

/-- `toSymbolInformation`, symbols.go:110-132. -/
def toSymbolInformation (uri : Str) (d : Desc) : Option Shown :=
  match d.node with
  | some r => some ⟨d.name, symbolKind d.kind, uri, r, d.parent.getD []⟩
  | none => none

/-- What the request works on. `info`: the declarations; `score`: the score of the name for the query
(`matchFunc`, line 72-74), see `Symbols.Entry`; `sym`: the name in bytes; `uriOf`: `PathToURI`;
`found`: `FindResultByURI` finds a result; `cpu`: `runtime.NumCPU()`. -/
structure Cfg where
  info : Nat → Desc
  score : Nat → Nat
  sym : Nat → List Nat
  uriOf : Str → Option Str
  found : Str → Bool
  cpu : Nat

/-- What is stored for a declaration, lines 75-79. -/
def Cfg.entry (cfg : Cfg) (i : Nat) : Entry := ⟨cfg.score i, cfg.sym i, i⟩

/-- The resolver of the store, lines 56-67. -/
def Cfg.resolve (cfg : Cfg) (e : Entry) : Option Shown :=
  match cfg.uriOf (cfg.info e.data).path with
  | none => none
  | some uri => if cfg.found uri then toSymbolInformation uri (cfg.info e.data) else none

/-- A goroutine that walks through a file; `fin`: it has returned. -/
structure Prod where
  todo : List Nat
  fin : Bool := false
deriving DecidableEq, Repr

inductive Answer where
  | nil
  | symbols (l : List Shown)
  | panic
deriving DecidableEq, Repr

inductive Main where
  | ranging
  | selecting
  | returned (a : Answer)
deriving DecidableEq, Repr

/-- `files`: the results that are not yet looked at, `none`: a placeholder; `prods`: the goroutines of
the group; `failed`: one of them has returned an error; `stored`: the declarations that the consumer
has received; `cancelled`: the context of the request. -/
structure St where
  files : List (Option (List Nat))
  prods : List Prod := []
  chan : List Nat := []
  closed : Bool := false
  stored : List Nat := []
  consumed : Bool := false
  cancelled : Bool := false
  failed : Bool := false
  panicked : Bool := false
  main : Main := .ranging
deriving DecidableEq, Repr

/-- `store.Results()`, line 103. -/
def answer (cfg : Cfg) (stored : List Nat) : Answer :=
  match storeAll maxSymbols (stored.map cfg.entry) with
  | some arr => .symbols (results cfg.resolve arr)
  | none => .panic

inductive Label where
  | cancel
  | launch
  | send (i : Nat)
  | fail (i : Nat)
  | finish (i : Nat)
  | recv
  | done
  | close
  | select (b : Bool)
deriving DecidableEq, Repr

/-- The number of goroutines of the group that have not returned. -/
def running (ps : List Prod) : Nat := (ps.filter (fun p => !p.fin)).length

/-- A step; `none`: not possible.
* `launch`: cache.go:464-471, `eg.Go` blocks while `NumCPU` goroutines run (`SetLimit`, line 463);
* `send`: the callback of symbols.go:82-98 for the next declaration; the channel has room for
  `NumCPU + 1` (line 54);
* `fail`: `RangeDescriptors` returns an error because its context is done (the context of the request
  or, after an error, that of the group);
* `recv`, `done`: lines 71-81;
* `close`: `eg.Wait()` returns (cache.go:472), lines 99-102;
* `select`: lines 102-107. -/
def step (cfg : Cfg) (s : St) : Label → Option St
  | .cancel => if s.cancelled then none else some { s with cancelled := true }
  | .launch =>
    match s.files with
    | [] => none
    | none :: fs => some { s with files := fs }
    | some ds :: fs =>
      if running s.prods < cfg.cpu then some { s with files := fs, prods := s.prods ++ [⟨ds, false⟩] } else none
  | .send i =>
    match s.prods[i]? with
    | some ⟨d :: ds, false⟩ =>
      if eligible (cfg.info d) then
        if s.closed then some { s with panicked := true }
        else if s.chan.length < cfg.cpu + 1 then
          some { s with prods := s.prods.set i ⟨ds, false⟩, chan := s.chan ++ [d] }
        else none
      else some { s with prods := s.prods.set i ⟨ds, false⟩ }
    | _ => none
  | .fail i =>
    match s.prods[i]? with
    | some ⟨ds, false⟩ =>
      if s.cancelled || s.failed then some { s with prods := s.prods.set i ⟨ds, true⟩, failed := true } else none
    | _ => none
  | .finish i =>
    match s.prods[i]? with
    | some ⟨[], false⟩ => some { s with prods := s.prods.set i ⟨[], true⟩ }
    | _ => none
  | .recv =>
    match s.chan with
    | d :: c => some { s with chan := c, stored := s.stored ++ [d] }
    | [] => none
  | .done => if s.closed && s.chan.isEmpty && !s.consumed then some { s with consumed := true } else none
  | .close =>
    if s.main = .ranging ∧ s.files = [] ∧ running s.prods = 0 then
      some { s with closed := true, main := if s.failed then .returned .nil else .selecting }
    else none
  | .select b =>
    if s.main = .selecting then
      if b then (if s.consumed then some { s with main := .returned (answer cfg s.stored) } else none)
      else (if s.cancelled then some { s with main := .returned .nil } else none)
    else none

/-- The states that are reached from the files of the cache, in the order of `c.results`. -/
inductive Reach (cfg : Cfg) (files : List (Option (List Nat))) : St → Prop
  | init : Reach cfg files { files := files }
  | step {s t l} : Reach cfg files s → step cfg s l = some t → Reach cfg files t

/-- `Symbol`, `/repo/pkg/lsp/server.go:855-861`: the answers of the caches one after the other; a nil
answer is empty. -/
def symbolAnswer : List Answer → Option (List Shown)
  | [] => some []
  | .nil :: as => symbolAnswer as
  | .symbols l :: as => (symbolAnswer as).map (l ++ ·)
  | .panic :: _ => none

end Verif.SymbolQuery
