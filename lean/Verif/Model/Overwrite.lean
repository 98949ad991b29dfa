/-!
# Model of rewriting a file in place

`/repo/pkg/util/gofmt_helpers.go:31-141`. The content of a file is a list of bytes (any type). Each
system call may fail; the bytes of a write reach the file one after the other, so the process may
die after each of them. Not modelled: the semaphore `fdSem`, the random suffix of the backup name
(`O_EXCL` makes it a new file) and the retry when the name exists, loss of written data by a crash of
the operating system.
-/
namespace Verif.Overwrite

/-- The file and its backup (`none`: it does not exist). -/
structure FS (α : Type) where
  file : List α
  backup : Option (List α)
deriving DecidableEq, Repr

/-- What the operating system does in one call of `OverwriteFile`. A write has the number of bytes
that reach the file and whether it fails. -/
structure Os where
  bakOpenFails : Bool := false
  bakWritten : Nat := 0
  bakWriteFails : Bool := false
  bakCloseFails : Bool := false
  openFails : Bool := false
  written : Nat := 0
  writeFails : Bool := false
  truncFails : Bool := false
  restored : Nat := 0
  restoreFails : Bool := false
  restoreTruncFails : Bool := false
  restoreCloseFails : Bool := false
  closeFails : Bool := false
  removeFails : Bool := false
deriving DecidableEq, Repr

/-- The number of bytes `n` returned by `File.Write(data)`: all of them unless it fails. -/
def count {α : Type} (data : List α) (fails : Bool) (n : Nat) : Nat :=
  if fails then min n data.length else data.length

/-- Writing the first `n` bytes of `data` over the start of `c`. -/
def writeOver {α : Type} (c data : List α) (n : Nat) : List α := data.take n ++ c.drop (min n data.length)

/-- The contents of the file after 0, 1, ..., `n` bytes have been written. -/
def writing {α : Type} (c data : List α) (n : Nat) : List (List α) :=
  (List.range (n + 1)).map (writeOver c data)

/-- `os.Remove(bakname)`, error ignored. -/
def remove {α : Type} (os : Os) (s : FS α) : FS α := if os.removeFails then s else { s with backup := none }

/-- The states a program goes through and whether it reports success. -/
abbrev Trace (α : Type) := List (FS α) × Bool

/-- Prefixing states. -/
def Trace.after {α : Type} (t : Trace α) (pre : List (FS α)) : Trace α := (pre ++ t.1, t.2)

/-- The restore part, lines 68-93: `n` bytes were written. -/
def restore {α : Type} (os : Os) (orig : List α) (n : Nat) (c : List α) : Trace α :=
  let no := count orig os.restoreFails os.restored
  let ws := (writing c orig no).map (fun x => (⟨x, some orig⟩ : FS α))
  let c1 := writeOver c orig no
  if os.restoreFails then (ws, false)
  else if no < n then
    if os.restoreTruncFails then (ws, false)
    else
      let s : FS α := ⟨c1.take no, some orig⟩
      if os.restoreCloseFails then (ws ++ [s], false) else (ws ++ [s, remove os s], false)
  else
    let s : FS α := ⟨c1, some orig⟩
    if os.restoreCloseFails then (ws, false) else (ws ++ [remove os s], false)

/-- Lines 39-104, after a successful backup. `size` is the last argument of `OverwriteFile`. -/
def rewrite {α : Type} (os : Os) (orig new : List α) (size : Nat) (s : FS α) : Trace α :=
  if os.openFails then ([remove os s], false)
  else
    let n := count new os.writeFails os.written
    let ws := (writing s.file new n).map (fun x => ({ s with file := x } : FS α))
    let c := writeOver s.file new n
    if os.writeFails then
      if n = 0 then (ws ++ [remove os s], false) else (restore os orig n c).after ws
    else if n < size then
      if os.truncFails then
        if n = 0 then (ws ++ [remove os s], false) else (restore os orig n c).after ws
      else
        let s1 : FS α := { s with file := c.take n }
        if os.closeFails then (ws ++ [s1], false) else (ws ++ [s1, remove os s1], true)
    else
      let s1 : FS α := { s with file := c }
      if os.closeFails then (ws, false) else (ws ++ [remove os s1], true)

/-- `OverwriteFile`, lines 32-104, with `backupFile`, lines 109-141, on a file with content `file`.
The states are those after each effect; the first one is the initial state. -/
def overwrite {α : Type} (os : Os) (orig new : List α) (size : Nat) (file : List α) : Trace α :=
  if os.bakOpenFails then ([⟨file, none⟩], false)
  else
    let nb := count orig os.bakWriteFails os.bakWritten
    let pre := ⟨file, none⟩ :: (List.range (nb + 1)).map (fun k => (⟨file, some (orig.take k)⟩ : FS α))
    if os.bakWriteFails || os.bakCloseFails then (pre, false)
    else (rewrite os orig new size ⟨file, some orig⟩).after pre

end Verif.Overwrite
