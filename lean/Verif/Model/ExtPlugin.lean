import Verif.Util.Str
/-!
# Model of running an external generator

/repo/sdk/codegen/generators/external/generator.go:51-111 (`Generate`). The server and the plugin are two processes that are
connected by two pipes with a capacity; writing to a full pipe and reading from an empty one blocks. The request is written
completely before anything is read. A plugin is any program that reads and writes bytes one at a time and exits (its end of the
pipes is closed when it exits, not before); standard error is not modelled. Marshalling of the request, and the hooks, are
left out: the request is the list of bytes that is written. `cmd.Start` succeeds.
-/
namespace Verif.ExtPlugin

variable {σ α : Type}

/-- What a program does next: read a byte (`none`: the end of the input), write one, or exit. -/
inductive Act (σ α : Type)
  | read (next : Option α → σ)
  | write (a : α) (next : σ)
  | exit (ok : Bool)

/-- A program: what it does in each of its states. -/
abbrev Prog (σ α : Type) := σ → Act σ α

/-- What the call has come to: lines 70-72 (writing), 78-80 (reading), 83 (waiting), or it has returned: with an error of a
system call or of the plugin, or with the bytes of the response. -/
inductive Phase (α : Type)
  | writing
  | reading
  | waiting
  | failed
  | answered (bytes : List α)
deriving DecidableEq, Repr

/-- The plugin is in a state, or has exited. -/
inductive Child (σ : Type)
  | running (s : σ)
  | exited (ok : Bool)
deriving DecidableEq, Repr

/-- Both processes and the pipes. `rest` is what is still to be written, `open_` whether the writing end of the first pipe is
open, `got` what was read. -/
structure State (σ α : Type) where
  phase : Phase α
  rest : List α
  inBuf : List α
  open_ : Bool
  child : Child σ
  outBuf : List α
  got : List α

def State.init (s : σ) (request : List α) : State σ α := ⟨.writing, request, [], true, .running s, [], []⟩

/-- The steps; `cap` is the capacity of the pipes. -/
inductive Step (prog : Prog σ α) (cap : Nat) : State σ α → State σ α → Prop
  | write {st : State σ α} {a t s} (hp : st.phase = .writing) (hr : st.rest = a :: t) (hc : st.child = .running s)
      (hb : st.inBuf.length < cap) : Step prog cap st { st with rest := t, inBuf := st.inBuf ++ [a] }
  | broken {st : State σ α} {a t ok} (hp : st.phase = .writing) (hr : st.rest = a :: t) (hc : st.child = .exited ok) :
      Step prog cap st { st with phase := .failed }
  | close {st : State σ α} (hp : st.phase = .writing) (hr : st.rest = []) :
      Step prog cap st { st with phase := .reading, open_ := false }
  | read {st : State σ α} {a t} (hp : st.phase = .reading) (hb : st.outBuf = a :: t) :
      Step prog cap st { st with got := st.got ++ [a], outBuf := t }
  | eof {st : State σ α} {ok} (hp : st.phase = .reading) (hb : st.outBuf = []) (hc : st.child = .exited ok) :
      Step prog cap st { st with phase := .waiting }
  | wait {st : State σ α} {ok} (hp : st.phase = .waiting) (hc : st.child = .exited ok) :
      Step prog cap st { st with phase := if ok then .answered st.got else .failed }
  | childRead {st : State σ α} {s k a t} (hc : st.child = .running s) (ha : prog s = .read k) (hb : st.inBuf = a :: t) :
      Step prog cap st { st with child := .running (k (some a)), inBuf := t }
  | childEof {st : State σ α} {s k} (hc : st.child = .running s) (ha : prog s = .read k) (hb : st.inBuf = [])
      (ho : st.open_ = false) : Step prog cap st { st with child := .running (k none) }
  | childWrite {st : State σ α} {s a n} (hc : st.child = .running s) (ha : prog s = .write a n)
      (hb : st.outBuf.length < cap) : Step prog cap st { st with child := .running n, outBuf := st.outBuf ++ [a] }
  | childExit {st : State σ α} {s ok} (hc : st.child = .running s) (ha : prog s = .exit ok) :
      Step prog cap st { st with child := .exited ok }

/-- A run of `n` steps. -/
inductive Run (prog : Prog σ α) (cap : Nat) (st : State σ α) : Nat → State σ α → Prop
  | refl : Run prog cap st 0 st
  | step {n st' st''} (h : Run prog cap st n st') (hs : Step prog cap st' st'') : Run prog cap st (n + 1) st''

/-- The call has returned. -/
def State.done (st : State σ α) : Bool :=
  match st.phase with
  | .failed => true
  | .answered _ => true
  | _ => false

/-- A file of the response of a plugin: its name (empty if it has none), its insertion point, its content. -/
structure RespFile where
  name : Str
  insertion : Option Str
  content : Str
deriving DecidableEq, Repr

/-- The files that are added to those of the other generators, generator.go:103-108. -/
def addFiles (files : List RespFile) : List (Str × Str) := (files.filter fun f => !decide (f.name = [])).map fun f => (f.name, f.content)

end Verif.ExtPlugin
