import Verif.Model.FormatDoc
/-!
# What a formatting request is to do
-/
namespace Verif.FormatDoc

open Documents

variable {T : Type}

/-- The text after the client has applied edits, all of which refer to the text before. -/
def clientApply (text : Str) (edits : List Change) : Res Str :=
  match toEdits text edits with
  | none => .err
  | some es => apply text es

/-- The text that the client shows after notifications, if it shows the document. -/
def showing (before : Option Str) : List Event → Option Str
  | [] => before
  | .opened _ text :: es => showing (some text) es
  | .changed text :: es => showing (some text) es
  | .closed :: es => showing none es
  | .saved :: es => showing before es
  | .disk _ :: es => showing before es

/-- A text that can be formatted: no syntax error, and no extended syntax that cannot be formatted. -/
def Fine (parse : Parser T) (text : Str) : Prop :=
  Kind.parseError ∉ (parse text).2 ∧ Kind.extended false ∉ (parse text).2

/-- A parser that gives no tree reports a syntax error. -/
def Reports (parse : Parser T) : Prop := ∀ text, (parse text).1 = none → Kind.parseError ∈ (parse text).2

/-- The difference of two texts changes one into the other. -/
def Sound (tools : Tools T) : Prop := ∀ a b, apply a (tools.diff a b) = .ok b

/-- Documents are opened as `protobuf`. -/
def Protobuf (es : List Event) : Prop := ∀ text, Event.opened false text ∉ es

end Verif.FormatDoc
