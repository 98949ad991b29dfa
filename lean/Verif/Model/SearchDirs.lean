import Verif.Util.Str
/-!
# Model of `SearchDirs`

/repo/pkg/sources/search.go:9-40, together with `filepath.WalkDir` of the Go standard library: it visits
the entries of a directory in lexical order, here the order of the list; when the function returns
`SkipDir` for a directory, that directory is not read, when it returns it for a file, the remaining
entries of the containing directory are skipped. A path is the list of its names, starting with the
root of the tree. The starting directories exist (otherwise the function crashes on the nil entry).
-/
namespace Verif.SearchDirs

/-- A file (or any other entry that is not a directory) or a directory with its entries. -/
inductive Node where
  | file (name : Str)
  | dir (name : Str) (entries : List Node)

def Node.name : Node → Str
  | .file n => n
  | .dir n _ => n

def nodeModules : Str := "node_modules".toList
def vendor : Str := "vendor".toList
def bazelPrefix : Str := "_bazel_".toList
def protoSuffix : Str := ".proto".toList
def marker : Str := "DO_NOT_BUILD_HERE".toList

/-- search.go:21-28. -/
def skipped (name : Str) : Bool :=
  decide (name = nodeModules) || decide (name = vendor) || bazelPrefix.isPrefixOf name

/-- search.go:31. -/
def isProto (name : Str) : Bool := protoSuffix.isSuffixOf name

mutual
/-- The visit of an entry: the files found, and whether the remaining entries of the directory are
skipped. -/
def walk (path : List Str) : Node → List (List Str) × Bool
  | .file name =>
    if isProto name then ([path ++ [name]], false)
    else if name = marker then ([], true)
    else ([], false)
  | .dir name entries =>
    if skipped name then ([], false) else (walkAll (path ++ [name]) entries, false)
/-- The visit of the entries of a directory. -/
def walkAll (path : List Str) : List Node → List (List Str)
  | [] => []
  | n :: ns => if (walk path n).2 then (walk path n).1 else (walk path n).1 ++ walkAll path ns
end

/-- `SearchDirs`: each directory is given by its path and its tree. -/
def searchDirs (dirs : List (List Str × Node)) : List (List Str) :=
  dirs.flatMap fun d => (walk d.1 d.2).1

end Verif.SearchDirs
