import Verif.Model.GenerateWorkspace
/-!
# Printing many files

`PrintProtoFiles` and `PrintProtosToFileSystem` of `/repo/pkg/format/protoprint/print.go:250-279`.
-/
namespace Verif.PrintFiles

open GenerateWorkspace (Disk locate put)

/-- A file descriptor: `Path()` and `Package()`. -/
structure Fd where
  path : Str
  pkg : Str
deriving DecidableEq, Repr

/-- Dependency `protoreflect.FileDescriptor.Name()`: the full name of a file is its package, and the name is what stands behind the last dot.
(As documented in protoreflect; other implementations of the interface may return the empty name.) -/
def Fd.name (fd : Fd) : Str := (fd.pkg.reverse.takeWhile (· ≠ '.')).reverse

/-- What is seen of the writers, which are numbered by the calls of `open`. -/
inductive Ev
  | refused (k : Nat) (name : Str)
  | opened (k : Nat) (name : Str)
  | wrote (k : Nat) (name : Str) (text : Str)
  | closed (k : Nat) (ok : Bool)
deriving DecidableEq, Repr

/-- The surroundings: whether the call number `k` of `open` succeeds, what `PrintProtoFile` (Model/Printer) writes and whether it returns no
error, and whether `Close` succeeds. -/
structure Env where
  opens : Nat → Str → Bool
  prints : Nat → Fd → Str × Bool
  closes : Nat → Bool

/-- `PrintProtoFiles`, print.go:250-265; the second component is false if an error is returned. -/
def printFiles (E : Env) : Nat → List Fd → List Ev × Bool
  | _, [] => ([], true)
  | k, fd :: fds =>
    if !E.opens k fd.name then ([.refused k fd.name], false)
    else
      let r := E.prints k fd
      let evs := [.opened k fd.name, .wrote k fd.name r.1, .closed k (E.closes k)]
      if !r.2 then (evs, false)
      else
        let rest := printFiles E (k + 1) fds
        (evs ++ rest.1, rest.2)

/-- Where `PrintProtosToFileSystem` puts a name, print.go:272; `GoPath.join` is `filepath.Join`. -/
def placeOf (wd rootDir name : Str) : List Str := locate wd (GoPath.join rootDir name)

/-- What an event does to the disk, print.go:277: files are created or truncated when they are opened. Directories are not modelled. -/
def effect (wd rootDir : Str) (disk : Disk) : Ev → Disk
  | .refused .. => disk
  | .opened _ name => put disk (placeOf wd rootDir name) (some [])
  | .wrote _ name text => put disk (placeOf wd rootDir name) (some text)
  | .closed .. => disk

/-- `PrintProtosToFileSystem`, print.go:270-279. -/
def printToFileSystem (wd rootDir : Str) (E : Env) (fds : List Fd) (disk : Disk) : Disk × Bool :=
  let r := printFiles E 0 fds
  (r.1.foldl (effect wd rootDir) disk, r.2)

end Verif.PrintFiles
