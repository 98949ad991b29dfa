import Verif.Model.Decode

/-!
# Model of the decode command as a whole

`BuildDecodeCmd`, `decodeWithNoType`, `decodeWithType`, `chooseAndDecode`, `decodeWithDescriptor`,
`/repo/pkg/protols/commands/decode.go:26-179`, and `XGetAllMessages`,
`/repo/pkg/lsp/externalapi.go:85-97`. The choice of the type and the reading of the input are in
`Model/Decode.lean`.
-/
namespace Verif.DecodeCmd

open Verif.Decode

/-- A top-level message and all messages declared within it, at any depth. -/
structure TopMsg where
  msg : Msg
  nested : List Msg := []
deriving DecidableEq, Repr

/-- What the command works on. `files`: the compiled files of the directory; `lower`:
`strings.ToLower`; `ask`: what the user chooses among some names (line 145), `none`: an error, such as
that there is no terminal; `unmarshal`: `proto.Unmarshal` (line 174); `text`, `json`: lines 52-64;
`wire`: `UnmarshalAbductive` (line 83), a list of tokens; `show`: their text, `%+v` (line 87). -/
structure Env (V T : Type) where
  files : List (List TopMsg)
  lower : Str → Str
  ask : List Str → Option Str
  unmarshal : Msg → List Nat → Option V
  text : V → Str
  json : V → Str
  wire : List Nat → List T
  show_ : List T → Str

inductive Err where
  | noInput
  | notFound
  | noSelection
  | prompt
  | wrongType
deriving DecidableEq, Repr

variable {V T : Type}

/-- `XGetAllMessages`, externalapi.go:85-97. -/
def allMessages (files : List (List TopMsg)) : List Msg := files.flatMap (fun f => f.map TopMsg.msg)

/-- `decodeWithDescriptor`, decode.go:167-179. -/
def decodeWithDescriptor (env : Env V T) (input : List Nat) (m : Msg) : Except Err V :=
  match readInput input with
  | none => .error .noInput
  | some bytes =>
    match env.unmarshal m bytes with
    | some v => .ok v
    | none => .error .wrongType

/-- `chooseAndDecode`, decode.go:139-165. -/
def chooseAndDecode (env : Env V T) (input : List Nat) (choices : List Msg) : Except Err V :=
  match env.ask (choices.map Msg.fullName) with
  | none => .error .prompt
  | some selected =>
    match choices.find? (fun m => decide (m.fullName = selected)) with
    | some m => decodeWithDescriptor env input m
    | none => .error .noSelection

/-- `decodeWithType`, decode.go:91-137. -/
def decodeWithType (env : Env V T) (input : List Nat) (q : Str) : Except Err V :=
  match select env.lower q (allMessages env.files) with
  | .use m => decodeWithDescriptor env input m
  | .ask ms => chooseAndDecode env input ms
  | .fail => .error .notFound

/-- `strings.ReplaceAll(s, "\t", "  ")`, line 87. -/
def expandTabs : Str → Str
  | [] => []
  | c :: t => if c = '\t' then ' ' :: ' ' :: expandTabs t else c :: expandTabs t

/-- `decodeWithNoType`, decode.go:77-88. -/
def decodeWithNoType (env : Env V T) (input : List Nat) : Except Err Str :=
  match readInput input with
  | none => .error .noInput
  | some bytes =>
    match env.wire bytes with
    | [] => .error .noInput
    | ts => .ok (expandTabs (env.show_ ts ++ ['\n']))

/-- The command, decode.go:39-69: what is printed. -/
def run (env : Env V T) (msgType output : Str) (input : List Nat) : Except Err (List Str) :=
  if msgType = [] then
    match decodeWithNoType env input with
    | .ok t => .ok [t]
    | .error e => .error e
  else
    match decodeWithType env input msgType with
    | .error e => .error e
    | .ok v =>
      if output = "text".toList then .ok [env.text v]
      else if output = "json".toList then .ok [env.json v]
      else .ok []

end Verif.DecodeCmd
