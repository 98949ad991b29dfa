/-!
# Model of the `fmt` command

`/repo/pkg/protols/commands/fmt.go:10-28`: one goroutine for each argument, each running `FileInPlace`
(`/repo/pkg/format/format.go:39-53`), which ends in `OverwriteFile` (`/repo/pkg/util/gofmt_helpers.go:29-141`). The goroutines
are a state machine: a step is one system call of one of them (one byte for a write), in any order.

An argument is the number of the file it denotes, so two arguments may denote the same file. Simplifications: the parser and
the formatter are a function `fmt` from the content; system calls do not fail except that a file may not exist (C31 has the
failures of one call of `OverwriteFile`); a read and the writing of a backup are one step; permissions are left out; backups
are named by the goroutine (their names are new because of `O_EXCL`); other programs do not touch the files.
-/
namespace Verif.FmtCmd

/-- What `Format` does with a content, `/repo/pkg/format/format.go:16-28`; a panic ends the program. -/
inductive Result (α E : Type) where
  | ok (new : List α)
  | error (e : E)
  | panic
deriving DecidableEq, Repr

/-- An error of `FileInPlace`. -/
inductive Err (E : Type) where
  | missing
  | format (e : E)
deriving DecidableEq, Repr

/-- Where a goroutine is. -/
inductive Phase (α E : Type) where
  /-- before `os.Stat` -/
  | start
  /-- before `os.ReadFile` -/
  | stated (size : Nat)
  /-- before `Format` -/
  | read (size : Nat) (orig : List α)
  /-- `fdSem <- true` in `backupFile` -/
  | waitBackup (size : Nat) (orig new : List α)
  /-- before the backup is written -/
  | backup (size : Nat) (orig new : List α)
  /-- `fdSem <- true` in `OverwriteFile` -/
  | waitWrite (size : Nat) (orig new : List α)
  /-- before `os.OpenFile` -/
  | opening (size : Nat) (orig new : List α)
  /-- `k` bytes are written -/
  | writing (size : Nat) (orig new : List α) (k : Nat)
  /-- before `os.Remove` of the backup -/
  | removing (orig new : List α)
  | done (err : Option (Err E))
deriving DecidableEq, Repr

/-- The state of the program and the files. -/
structure St (α E : Type) where
  files : Nat → Option (List α)
  /-- the backup that a goroutine has written -/
  backups : Nat → Option (List α)
  /-- who is in `fdSem` -/
  sem : List Nat
  tasks : Nat → Phase α E
  /-- the error of the group -/
  err : Option (Err E)
  stdout : List α
  /-- a goroutine has panicked -/
  dead : Bool

/-- The capacity of `fdSem`, gofmt_helpers.go:29. -/
def capacity : Nat := 200

/-- `f` with another value at `k`. -/
def put {β : Type} (f : Nat → β) (k : Nat) (v : β) : Nat → β := fun j => if j = k then v else f j

variable {α E : Type}

/-- The state at the start of the command. The flag `write` is not used, fmt.go:12 and 26. -/
def init (_write : Bool) (files : Nat → Option (List α)) : St α E :=
  { files, backups := fun _ => none, sem := [], tasks := fun _ => .start, err := none, stdout := [], dead := false }

/-- One byte is written at `k`; before it, a shorter file gets zeros. -/
def setByte (zero : α) (c : List α) (k : Nat) (b : α) : List α := c.take k ++ (List.replicate (k - c.length) zero ++ b :: c.drop (k + 1))

/-- `Truncate(n)` -/
def truncate (zero : α) (c : List α) (n : Nat) : List α := c.take n ++ List.replicate (n - c.length) zero

/-- The goroutine returns; the group keeps the first error. -/
def finish (k : Nat) (r : Option (Err E)) (s : St α E) : St α E :=
  { s with tasks := put s.tasks k (.done r), err := s.err.or r }

/-- `fdSem <- true` -/
def acquire (k : Nat) (p : Phase α E) (s : St α E) : Option (St α E) :=
  if s.sem.length < capacity then some { s with sem := k :: s.sem, tasks := put s.tasks k p } else none

/-- `<-fdSem` -/
def release (k : Nat) (s : St α E) : St α E := { s with sem := s.sem.erase k }

/-- One step of goroutine `k` on the file `i`; `none` if it has to wait or is done. -/
def stepTask (zero : α) (fmt : List α → Result α E) (k i : Nat) (s : St α E) : Option (St α E) :=
  match s.tasks k with
  -- info, err := os.Stat(filename)
  | .start =>
    some (match s.files i with
      | none => finish k (some .missing) s
      | some c => { s with tasks := put s.tasks k (.stated c.length) })
  -- original, err := os.ReadFile(filename)
  | .stated size =>
    some (match s.files i with
      | none => finish k (some .missing) s
      | some c => { s with tasks := put s.tasks k (.read size c) })
  -- Format(bytes.NewReader(original), &formatted)
  | .read size orig =>
    some (match fmt orig with
      | .ok new => { s with tasks := put s.tasks k (.waitBackup size orig new) }
      | .error e => finish k (some (.format e)) s
      | .panic => { s with dead := true })
  | .waitBackup size orig new => acquire k (.backup size orig new) s
  | .backup size orig new =>
    some (release k { s with backups := put s.backups k (some orig), tasks := put s.tasks k (.waitWrite size orig new) })
  | .waitWrite size orig new => acquire k (.opening size orig new) s
  -- os.OpenFile(filename, os.O_WRONLY, perm)
  | .opening size orig new =>
    some (match s.files i with
      | none => release k (finish k (some .missing) { s with backups := put s.backups k none })
      | some _ => { s with tasks := put s.tasks k (.writing size orig new 0) })
  | .writing size orig new n =>
    some (match new[n]? with
      -- fout.Write(formatted)
      | some b => { s with files := put s.files i ((s.files i).map fun c => setByte zero c n b),
                           tasks := put s.tasks k (.writing size orig new (n + 1)) }
      -- fout.Truncate(int64(n)), fout.Close()
      | none => { s with files := if new.length < size then put s.files i ((s.files i).map fun c => truncate zero c new.length) else s.files,
                         tasks := put s.tasks k (.removing orig new) })
  -- os.Remove(bakname)
  | .removing _ _ => some (release k (finish k none { s with backups := put s.backups k none }))
  | .done _ => none

/-- One step of goroutine `k`. -/
def step (zero : α) (fmt : List α → Result α E) (args : List Nat) (k : Nat) (s : St α E) : Option (St α E) :=
  if s.dead then none
  else match args[k]? with
    | none => none
    | some i => stepTask zero fmt k i s

/-- The states that the program can reach. -/
inductive Reach (zero : α) (fmt : List α → Result α E) (args : List Nat) (s0 : St α E) : St α E → Prop
  | refl : Reach zero fmt args s0 s0
  | step {s s'} (k : Nat) : Reach zero fmt args s0 s → step zero fmt args k s = some s' → Reach zero fmt args s0 s'

/-- `eg.Wait()` returns. -/
def Final (args : List Nat) (s : St α E) : Prop := ∀ k, k < args.length → ∃ r, s.tasks k = .done r

end Verif.FmtCmd
