import Verif.Model.Registry

/-!
# Which types a file may use
-/
namespace Verif.Registry

/-- The messages of a message or file at any depth. -/
inductive Inside (top : List Msg) : Msg → Prop
  | here {m} (h : m ∈ top) : Inside top m
  | deeper {n exts enums msgs m} (h : Inside top (.mk n exts enums msgs)) (hm : m ∈ msgs) : Inside top m

/-- The file declares the type, itself or in one of its messages. -/
inductive Declares : File → Ty → Prop
  | extension {exts enums msgs imports e} (h : e ∈ exts) : Declares (.mk exts enums msgs imports) (.extension e)
  | enum {exts enums msgs imports n} (h : n ∈ enums) : Declares (.mk exts enums msgs imports) (.enum n)
  | message {exts enums msgs imports m} (h : Inside msgs m) : Declares (.mk exts enums msgs imports) (.message m.name)
  | nestedExtension {exts enums msgs imports n xs es ms e} (h : Inside msgs (.mk n xs es ms)) (he : e ∈ xs) :
      Declares (.mk exts enums msgs imports) (.extension e)
  | nestedEnum {exts enums msgs imports n xs es ms e} (h : Inside msgs (.mk n xs es ms)) (he : e ∈ es) :
      Declares (.mk exts enums msgs imports) (.enum e)

/-- `f` imports `g`. -/
def Imports (isPublic : Bool) : File → File → Prop
  | .mk _ _ _ imports, g => (isPublic, g) ∈ imports

/-- The file itself, and what it gives to its importers: chains of public imports. -/
inductive Reexports : File → File → Prop
  | self (f) : Reexports f f
  | step {f g h} (hi : Imports true f g) (hr : Reexports g h) : Reexports f h

/-- The files whose types a file may use: itself, its imports, and what they import publicly. -/
inductive Sees : File → File → Prop
  | self (f) : Sees f f
  | import {f g h} (isPublic : Bool) (hi : Imports isPublic f g) (hr : Reexports g h) : Sees f h

/-- The type may be used in the file. -/
def Usable (f : File) (t : Ty) : Prop := ∃ g, Sees f g ∧ Declares g t

/-- The compiler has linked the file: no two types have one name, no two extensions of a message one number. -/
structure Linked (f : File) : Prop where
  names : ∀ t t', Usable f t → Usable f t' → t.name = t'.name → t = t'
  numbers : ∀ e e', Usable f (.extension e) → Usable f (.extension e') → e.extendee = e'.extendee → e.number = e'.number → e = e'

end Verif.Registry
