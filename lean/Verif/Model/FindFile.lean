import Verif.Util.Str

/-!
# Model of how the files that are imported are found

`Resolver.FindFileByPath` (/repo/pkg/lsp/resolver.go:277-318) and everything it calls, with
`ImportFromGoModule` and `ImplicitGoPackagePath` of /repo/pkg/lsp/golang.go, and
`CheckIncompleteDescriptors`.

A path is the list of its parts between the slashes; file names are absolute. Contents are lists of characters, each of which counts
as one byte. Outside the model, as parameters: the descriptors linked into the program and their printed form (`Program`); the file
system, the documents open in the editor, the Go module resolver, `module.CheckImportPath`, the diffs of alternative package paths,
the descriptor in generated code, the imports of generated code, and the result of `FindSuffixMatchedPath` (C11) (`World`). Left
out: locking (C28), logging, versions of results, the original names of synthetic files (they are only exported for tests), and
directories with the name of a proto file.
-/
namespace Verif.FindFile

/-- A path of an import or of a Go package, split at the slashes. -/
abbrev Path := List Str
/-- An absolute and clean file name, split at the slashes. -/
abbrev File := List Str
/-- The contents of a file. -/
abbrev Text := Str

/-- The two kinds of document URIs; `proto p` is `proto://p#folder`, resolver.go:479-483 and 511-515. -/
inductive Uri
  | file (f : File)
  | proto (p : Path)
deriving DecidableEq, Repr

/-- `ImportSource`, resolver.go:32-40. -/
inductive Origin
  | wellKnown | relativePath | localGoModule | goModuleCache | synthetic
deriving DecidableEq, Repr

/-- A file descriptor; `id` stands for everything but the name. -/
structure Desc where
  name : Path
  id : Nat
deriving DecidableEq, Repr

/-- `protoregistry.GlobalFiles` and `format.PrintAndFormatFileDescriptor`. -/
structure Program where
  registry : Path → Option Desc
  print : Desc → Option Text

/-- A Go package: the directory, and whether its module is the one of the workspace. -/
structure Package where
  dir : File
  isLocal : Bool
deriving DecidableEq, Repr

/-- The surroundings at one point in time. -/
structure World where
  /-- The documents open in the editor. -/
  overlay : File → Option Text
  /-- The regular files. -/
  disk : File → Option Text
  /-- Directory and name of the Go module; `none` if `HasGoModule` is false, golang.go:73-78. -/
  module? : Option (File × Path)
  /-- `module.CheckImportPath`. -/
  validImport : Path → Bool
  /-- `moduleResolver.FindPackage`. -/
  findPackage : Path → Option Package
  /-- `diff.Apply`; the difference of two paths is kept as the pair of them. -/
  applyEdits : Path × Path → Path → Option Path
  /-- The descriptor in the code generated from a file with that name in that directory, golang.go:238-376. -/
  generated : Str → File → Option Desc
  /-- The Go imports of the code generated from a document, `FindGeneratedFiles` (C58); `none` is an error. -/
  goImports : Uri → Option (List Path)
  /-- `FindSuffixMatchedPath` (C11). -/
  suffixMatch : Path → File → Option File

/-- The maps of the resolver, resolver.go:42-53, and `knownAlternativePackages`, golang.go:34. -/
structure State where
  pathOf : Uri → Option Path
  uriOf : Path → Option Uri
  originOf : Uri → Option Origin
  synthetic : Uri → Option Text
  alts : List (Path × Path)

def State.empty : State := ⟨fun _ => none, fun _ => none, fun _ => none, fun _ => none, []⟩

/-- Assignment to, or deletion from, a map. -/
def upd {α β : Type} [DecidableEq α] (m : α → Option β) (k : α) (v : Option β) : α → Option β :=
  fun x => if x = k then v else m x

/-- `r.filePathsByURI[u] = p; r.fileURIsByPath[p] = u`. -/
def State.assign (st : State) (u : Uri) (p : Path) : State :=
  { st with pathOf := upd st.pathOf u (some p), uriOf := upd st.uriOf p (some u) }

/-- The errors that are told apart: `os.ErrNotExist` (and what wraps it), `ErrNoModule`, `protoregistry.NotFound`, others. -/
inductive Err
  | notExist | noModule | notRegistered | other
deriving DecidableEq, Repr

/-- What the compiler gets: text, or a descriptor. -/
inductive Source
  | text (t : Text)
  | desc (d : Desc)
deriving DecidableEq, Repr

/-- `protocompile.SearchResult`. -/
structure Found where
  resolved : Path
  source : Source
deriving DecidableEq, Repr

/-! ## Paths -/

/-- The loop of `filepath.Clean`; `acc` is the result so far, reversed. The clean form of an empty path (`.`) is the empty list. -/
def cleanAux (rooted : Bool) : List Str → List Str → List Str
  | acc, [] => acc.reverse
  | acc, part :: rest =>
    if part = [] ∨ part = ['.'] then cleanAux rooted acc rest
    else if part = ['.', '.'] then
      match acc with
      | [] => if rooted then cleanAux rooted [] rest else cleanAux rooted [part] rest
      | a :: acc' => if a = ['.', '.'] then cleanAux rooted (part :: acc) rest else cleanAux rooted acc' rest
    else cleanAux rooted (part :: acc) rest

/-- `filepath.Join` of a directory and a path. -/
def joinFile (dir : File) (p : Path) : File := cleanAux true [] (dir ++ p)

/-- `path.Join`, `filepath.Join` of relative paths. -/
def joinPath (dir : Path) (p : Path) : Path := cleanAux false [] (dir ++ p)

/-- `filepath.Rel` of absolute clean paths. -/
def rel : File → File → Path
  | b :: bs, t :: ts => if b = t then rel bs ts else ((b :: bs).map fun _ => ['.', '.']) ++ t :: ts
  | bs, ts => (bs.map fun _ => ['.', '.']) ++ ts

/-- `filepath.IsLocal`. -/
def isLocal (p : Path) : Bool :=
  match p with
  | [] => false
  | head :: _ => !head.isEmpty && (cleanAux false [] p).head? != some ['.', '.']

/-- The path as a string. -/
def Path.str (p : Path) : Str := ['/'].intercalate p

def kwGoogle : Str := ['g', 'o', 'o', 'g', 'l', 'e']
def kwProto : Str := ['.', 'p', 'r', 'o', 't', 'o']
def kwGithub : Str := ['g', 'i', 't', 'h', 'u', 'b', '.', 'c', 'o', 'm']
def kwGogo : Str := ['g', 'o', 'g', 'o']
def kwGoogleapis : Str := ['g', 'o', 'o', 'g', 'l', 'e', 'a', 'p', 'i', 's']
def kwProtobuf : Str := ['p', 'r', 'o', 't', 'o', 'b', 'u', 'f']
def kwGogoproto : Str := ['g', 'o', 'g', 'o', 'p', 'r', 'o', 't', 'o']
def kwGogoFile : Str := ['g', 'o', 'g', 'o', '.', 'p', 'r', 'o', 't', 'o']

/-- `IsWellKnownPath`: prefix `google/`, /repo/pkg/lsp/wellknown.go:68-70. -/
def wellKnown : Path → Bool
  | head :: _ :: _ => decide (head = kwGoogle)
  | _ => false

/-- Prefix `github.com/gogo/googleapis/`, resolver.go:407-411; the rest. -/
def gogoRest : Path → Option Path
  | a :: b :: c :: d :: rest => if a = kwGithub ∧ b = kwGogo ∧ c = kwGoogleapis then some (d :: rest) else none
  | _ => none

/-- `github.com/gogo/protobuf/gogoproto/gogo.proto`, resolver.go:364. -/
def gogoPath : Path := [kwGithub, kwGogo, kwProtobuf, kwGogoproto, kwGogoFile]

/-- `largeFileThreshold`, resolver.go:380. -/
def largeFile : Nat := 1048576

/-! ## Lookup -/

/-- `ReadFile` and `Content`: an open document, else the file. -/
def World.read (W : World) : Uri → Option Text
  | .file f => (W.overlay f).or (W.disk f)
  | .proto _ => none

/-- `checkGlobalCache`, resolver.go:506-539. -/
def checkGlobalCache (P : Program) (st : State) (path : Path) : State × Except Err Found :=
  match P.registry path with
  | none => (st, .error .notRegistered)
  | some d =>
    match st.synthetic (.proto path) with
    | some src => (st, .ok ⟨path, .text src⟩)
    | none =>
      let st := st.assign (.proto path) path
      match P.print d with
      | none => (st, .ok ⟨path, .desc d⟩)
      | some src => ({ st with synthetic := upd st.synthetic (.proto path) (some src) }, .ok ⟨path, .text src⟩)

/-- `checkWellKnownImportPath`, resolver.go:373-378. -/
def checkWellKnown (P : Program) (st : State) (path : Path) : State × Except Err Found :=
  if wellKnown path then checkGlobalCache P st path else (st, .error .notExist)

/-- `checkFS`, resolver.go:382-401. -/
def checkFS (W : World) (st : State) (path : Path) : Except Err Found :=
  match (st.uriOf path).bind W.read with
  | none => .error .notExist
  | some content => if largeFile < content.length then .error .other else .ok ⟨path, .text content⟩

/-- `GoModuleImportResults`, golang.go:165-171. -/
structure ModuleImport where
  package : Package
  source : Option File
  alt : Option Path
deriving DecidableEq, Repr

/-- `edit_success`, golang.go:204-225. -/
def moduleImport (W : World) (filename : Str) (package : Package) (alt : Option Path) : ModuleImport :=
  let f := package.dir ++ [filename]
  if (W.disk f).isSome then ⟨package, some f, none⟩ else ⟨package, none, alt⟩

/-- The loop over the known alternatives, golang.go:191-203. -/
def findAlternative (W : World) (importPath : Path) : List (Path × Path) → Option (Path × Package)
  | [] => none
  | edits :: rest =>
    match W.applyEdits edits importPath with
    | none => findAlternative W importPath rest
    | some edited =>
      match W.findPackage edited with
      | none => findAlternative W importPath rest
      | some package => some (edited, package)

/-- `ImportFromGoModule`, golang.go:173-226; `none` is an error that wraps `os.ErrNotExist`. -/
def importFromGoModule (W : World) (alts : List (Path × Path)) (name : Path) : Option ModuleImport :=
  match name.getLast? with
  | none => none
  | some filename =>
    let importPath := name.dropLast
    if importPath = [] then none
    else if !kwProto.isSuffixOf filename then none
    else if !W.validImport importPath then none
    else
      match W.findPackage importPath with
      | some package => some (moduleImport W filename package none)
      | none =>
        match findAlternative W importPath alts with
        | some (edited, package) => some (moduleImport W filename package (some (joinPath edited [filename])))
        | none => none

/-- `checkGoModule`, resolver.go:403-504. `SynthesizeFromGoSource` (golang.go:238-376) is `World.generated` and the new
alternative path. If it fails, the error of line 504 wraps the variable of the outer scope, which is nil. -/
def checkGoModule (P : Program) (W : World) (st : State) (path : Path) : State × Except Err Found :=
  match W.module? with
  | none => (st, .error .noModule)
  | some _ =>
    match gogoRest path with
    | some rest => checkWellKnown P st rest
    | none =>
      match importFromGoModule W st.alts path with
      | none => (st, .error .notExist)
      | some res =>
        match res.source with
        | some f =>
          match W.disk f with
          | none => (st, .error .notExist)
          | some content =>
            let origin := if res.package.isLocal then Origin.localGoModule else .goModuleCache
            ({ st.assign (.file f) path with originOf := upd st.originOf (.file f) (some origin) }, .ok ⟨path, .text content⟩)
        | none =>
          let resolved := res.alt.getD path
          match (st.uriOf resolved).bind st.synthetic with
          | some src => (st, .ok ⟨resolved, .text src⟩)
          | none =>
            match W.generated (path.getLast?.getD []) res.package.dir with
            | none => (st, .error .other)
            | some d =>
              ({ st.assign (.proto resolved) resolved with
                  originOf := upd st.originOf (.proto resolved) (some .synthetic)
                  alts := if d.name ≠ path then st.alts ++ [(d.name, path)] else st.alts },
                .ok ⟨resolved, .desc d⟩)

/-- `isSynthetic`, resolver.go:322-327. -/
def isSynthetic (st : State) (path : Path) : Bool :=
  match st.uriOf path with
  | some (.proto _) => true
  | _ => false

/-- The end of `findFileByPathLocked`, resolver.go:363-370. -/
def findGogo (P : Program) (W : World) (st : State) (path : Path) : State × Except Err Found :=
  if (path.filter fun part => !part.isEmpty).getLast? = some kwGogoFile then
    match checkGoModule P W st gogoPath with
    | (st, .ok r) => (st, .ok r)
    | (st, .error _) => (st, .error .notExist)
  else (st, .error .notExist)

/-- `findFileByPathLocked` from the check for a Go module on, resolver.go:346-370. -/
def findModule (P : Program) (W : World) (st : State) (path : Path) : State × Except Err Found :=
  match checkGoModule P W st path with
  | (st, .ok r) => (st, .ok r)
  | (st, .error .notExist) | (st, .error .noModule) =>
    if wellKnown path then
      match checkGlobalCache P st path with
      | (st, .ok r) => (st, .ok r)
      | (st, .error .notExist) => findGogo P W st path
      | (st, .error e) => (st, .error e)
    else findGogo P W st path
  | (st, .error e) => (st, .error e)

/-- `findFileByPathLocked`, resolver.go:320-371. -/
def findLocked (P : Program) (W : World) (st : State) (path : Path) : State × Except Err Found :=
  let synthetic := isSynthetic st path
  match checkWellKnown P st path with
  | (st, .ok r) => (st, .ok r)
  | (st, .error .notExist) =>
    if synthetic then findModule P W st path
    else
      match checkFS W st path with
      | .ok r => (st, .ok r)
      | .error .notExist => findModule P W st path
      | .error e => (st, .error e)
  | (st, .error e) => (st, .error e)

/-! ## Paths relative to the importing file -/

/-- `LookupGoModule`, resolver.go:554-570, with `ImplicitGoPackagePath`, golang.go:228-236, which does not fail for absolute file
names; the package of a file. -/
def goPackageOf (W : World) (f : File) : Option Path :=
  W.module?.map fun m => joinPath m.2 (rel m.1 f).dropLast

/-- The files that are tried, resolver.go:722-753. -/
def candidates (W : World) (path : Path) (filename : File) : List File :=
  let dir := filename.dropLast
  [joinFile dir path]
    ++ (if 2 ≤ path.length ∧ path.head? = dir.getLast? then [joinFile dir.dropLast path] else [])
    ++ (W.suffixMatch path filename).toList
    ++ [joinFile dir.dropLast path]

/-- The loop over the candidates, resolver.go:755-761. -/
def firstFile (W : World) : List File → Option File
  | [] => none
  | f :: rest => if (W.disk f).isSome then some f else firstFile W rest

/-- The name for the file that was found, by the origin of the importing file, resolver.go:770-810. -/
def canonical (W : World) (st : State) (importing : File) (f : File) : State × Option Path :=
  let set (name : Path) (origin : Origin) : State × Option Path :=
    ({ st.assign (.file f) name with originOf := upd st.originOf (.file f) (some origin) }, some name)
  match st.originOf (.file importing) with
  | some .localGoModule =>
    match goPackageOf W f with
    | none => (st, none)
    | some package => set (joinPath package (f.getLast?.toList)) .localGoModule
  | some .goModuleCache =>
    let original := (st.pathOf (.file importing)).getD []
    set (joinPath original.dropLast (rel importing.dropLast f.dropLast ++ f.getLast?.toList)) .goModuleCache
  | some .relativePath => (st, some (rel importing.dropLast f))
  | _ => (st, none)

/-- `translatePathLocked`, resolver.go:704-811; `importing` is the path of the importing file, `none` is an error. -/
def translate (W : World) (st : State) (path importing : Path) : State × Option Path :=
  if (st.uriOf path).isSome then (st, some path)
  else
    match st.uriOf importing with
    | some (.file filename) =>
      if isLocal path then
        match firstFile W (candidates W path filename) with
        | some f => canonical W st filename f
        | none => (st, none)
      else (st, none)
    | _ => (st, none)

/-- `tryResolvePathToGeneratedImport`, /repo/pkg/lsp/generated.go:163-193: the only import that ends with the directory of the path.
`path.Dir` of a file name without directory is `.`. -/
def generatedImport (imports : List Path) (path : Path) : Option Path :=
  let dir := cleanAux false [] path.dropLast
  let suffix := if dir = [] then ['.'] else Path.str dir
  match (imports.filter fun p => suffix.isSuffixOf (Path.str p)).eraseDups with
  | [p] => some (joinPath p path.getLast?.toList)
  | _ => none

/-- `tryReverseLookupLocked`, resolver.go:676-701. -/
def reverseLookup (W : World) (st : State) (path importing : Path) : Option Path :=
  match W.module? with
  | none => none
  | some _ => (st.uriOf importing).bind fun uri => (W.goImports uri).bind fun imports => generatedImport imports path

/-- `FindFileByPath`, resolver.go:277-318; `whence` is the path of the importing file. The error of the last attempt is lost in Go,
too. -/
def find (P : Program) (W : World) (st : State) (path : Path) (whence : Option Path) : State × Except Err Found :=
  match findLocked P W st path with
  | (st, .ok r) => (st, .ok r)
  | (st, .error e) =>
    match whence with
    | none => (st, .error e)
    | some importing =>
      match translate W st path importing with
      | (st, some translated) =>
        match findLocked P W st translated with
        | (st, .ok r) => (st, .ok { r with resolved := translated })
        | (st, .error _) => (st, .error e)
      | (st, none) =>
        match reverseLookup W st path importing with
        | none => (st, .error e)
        | some rev =>
          match findLocked P W st rev with
          | (st, .ok r) => (st, .ok { r with resolved := rev })
          | (st, .error _) => (st, .error e)

/-! ## Synthetic files -/

/-- `CheckIncompleteDescriptors`, resolver.go:210-267: `order` is the order in which the map is walked, `linked` the printed form of
the result of the compiler for a path, `none` if there is none or an error. The paths are those to be compiled again. -/
def checkIncomplete (linked : Path → Option Text) : List Uri → State → State × List Path
  | [], st => (st, [])
  | uri :: rest, st =>
    match uri, st.pathOf uri, st.synthetic uri with
    | .proto _, some path, none =>
      match linked path with
      | none => checkIncomplete linked rest st
      | some src =>
        let r := checkIncomplete linked rest { st with synthetic := upd st.synthetic uri (some src) }
        (r.1, path :: r.2)
    | _, _, _ => checkIncomplete linked rest st

/-! ## Histories -/

/-- What happens to a resolver: lookups, the check after a compilation, and the changes of the maps that follow the documents of the
workspace (`UpdateURIPathMappings`, resolver.go:110-204, see C10): a path for a new file, a new path, and deletion. -/
inductive Op
  | find (path : Path) (whence : Option Path)
  | incomplete (order : List Uri) (linked : Path → Option Text)
  | create (f : File) (p : Path) (origin : Origin)
  | move (f : File) (p : Path)
  | delete (f : File)

/-- The state after an operation. -/
def step (P : Program) (W : World) (st : State) : Op → State
  | .find path whence => (find P W st path whence).1
  | .incomplete order linked => (checkIncomplete linked order st).1
  | .create f p origin => { st.assign (.file f) p with originOf := upd st.originOf (.file f) (some origin) }
  | .move f p =>
    let st' := st.assign (.file f) p
    match st.pathOf (.file f) with
    | none => st'
    | some old => if p = old then st else { st' with uriOf := upd st'.uriOf old none }
  | .delete f =>
    { st with
      pathOf := upd st.pathOf (.file f) none
      originOf := upd st.originOf (.file f) none
      uriOf := upd st.uriOf ((st.pathOf (.file f)).getD []) none }

/-- A history; the surroundings change. -/
def run (P : Program) (st : State) : List (World × Op) → State
  | [] => st
  | (W, op) :: rest => run P (step P W st op) rest

end Verif.FindFile
