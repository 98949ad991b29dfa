import Verif.Model.ExtPlugin
/-!
# What a plugin answers, and when it is safe to write the whole request first
-/
namespace Verif.ExtPlugin

variable {σ α : Type}

/-- The program, given some input and then the end of the input, writes an output and exits. -/
inductive Runs (prog : Prog σ α) : σ → List α → List α → Bool → Prop
  | read {s k a t out ok} (h : prog s = .read k) (hr : Runs prog (k (some a)) t out ok) : Runs prog s (a :: t) out ok
  | eof {s k out ok} (h : prog s = .read k) (hr : Runs prog (k none) [] out ok) : Runs prog s [] out ok
  | write {s n a inp out ok} (h : prog s = .write a n) (hr : Runs prog n inp out ok) : Runs prog s inp (a :: out) ok
  | exit {s inp ok} (h : prog s = .exit ok) : Runs prog s inp [] ok

/-- The program, given some input, exits after at most `n` actions. -/
inductive Halts (prog : Prog σ α) : σ → List α → Nat → Prop
  | read {s k a t n} (h : prog s = .read k) (hr : Halts prog (k (some a)) t n) : Halts prog s (a :: t) (n + 1)
  | eof {s k n} (h : prog s = .read k) (hr : Halts prog (k none) [] n) : Halts prog s [] (n + 1)
  | write {s m a inp n} (h : prog s = .write a m) (hr : Halts prog m inp n) : Halts prog s inp (n + 1)
  | exit {s inp ok n} (h : prog s = .exit ok) : Halts prog s inp (n + 1)

/-- As long as its input has not ended, the program does not exit, and writes at most `n` bytes: `Q s n` describes its
states before the end of the input. -/
structure Patient (prog : Prog σ α) (Q : σ → Nat → Prop) : Prop where
  read : ∀ s n k a, Q s n → prog s = .read k → Q (k (some a)) n
  write : ∀ s n a m, Q s n → prog s = .write a m → 0 < n ∧ Q m (n - 1)
  exit : ∀ s n ok, Q s n → prog s ≠ .exit ok

/-- One more file of a response, as the protocol of plugins (plugin.proto) defines it: a file without name continues the one
before; a file with an insertion point is not a new file (what is inserted into the files of other plugins is not described
here). -/
def accept (out : List (Str × Str)) (f : RespFile) : List (Str × Str) :=
  if f.insertion.isSome then out
  else if f.name = [] then
    match out.getLast? with
    | none => out
    | some (n, c) => out.dropLast ++ [(n, c ++ f.content)]
  else out ++ [(f.name, f.content)]

/-- The files of a response. -/
def assemble (files : List RespFile) : List (Str × Str) := files.foldl accept []

end Verif.ExtPlugin
