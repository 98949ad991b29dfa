import Verif.Lemmas.PrinterKept
import Verif.Props.Printer
/-!
# C80: printing a descriptor keeps the comments
-/
namespace Verif.Printer
open Verif.Lexer Verif.Decls Verif.Literal

/-- C80. If there is a location for a message, field, group, oneof, enum, value, service, method, or extension of a descriptor, the
printed text has the detached and leading comments of the location (all lines, in order) directly before the declaration of the element, and the
trailing comment directly after its `;` or `{`: there are only comments and white space between them.

Full statement: this for all elements. Missing: the comments of `reserved` and `extensions` statements
(`C80_reserved_violated`, `C80_extensions_violated`), extensions in a file with locations for them (`C77_extension_violated`), and what
C77 does not cover. -/
theorem C80_comments_partial (c : Cfg) (si : SI) (f : File) (en : Env c si) (hf : f.Ok) (hx : f.exts = [] ∨ si [7] = [])
    (q : Path) (main : List Str) (hq : FileEl f q main) (l : Loc) (hl : si.get q = some l) :
    ∃ out, print c si f = some out ∧ Commented c l main out :=
  print_commented en hf hx (shows_fileEl en hf hx hq hl)

/-- C80, syntax, package, and imports: likewise, unless the comments of tokens are omitted. -/
theorem C80_header_partial (c : Cfg) (si : SI) (f : File) (en : Env c si) (hf : f.Ok) (hx : f.exts = [] ∨ si [7] = [])
    (ho : c.omitTokens = false) (h2 : si [2, 0] = []) (q : Path) (M : List Str → Prop) (hq : HeaderEl f q M) (l : Loc)
    (hl : si.get q = some l) : ∃ main out, M main ∧ print c si f = some out ∧ Commented c l main out := by
  obtain ⟨main, hm, hs⟩ := shows_header en hf hx ho h2 hq hl
  obtain ⟨out, h1, h3⟩ := print_commented en hf hx hs
  exact ⟨main, out, hm, h1, h3⟩

/-- A field with comments. -/
example : ∃ out, print cfg si0 sample = some out ∧
    Commented cfg { path := [4, 0, 2, 0], leading := " lead\n".toList, trailing := " trail\n".toList } [['f'], ['='], dec 1] out :=
  C80_comments_partial cfg si0 sample env_sample ok_sample (.inr (by decide)) [4, 0, 2, 0] _
    (.nested _ _ 0 _ rfl (.field _ _ _ _ _ 0 _ rfl (.plain (by simp)))) _ rfl

/-- Comments at every location. -/
def siAll : SI := fun p =>
  if p = [7] ∨ p = [2, 0] then [] else [{ path := p, detached := [" d\n".toList], leading := " a\n b\n".toList, trailing := " t\n".toList }]

theorem env_all : Env cfg siAll where
  indent := by simp [IndentOk, cfg]
  noNul := by decide
  locs := by
    intro p l hl
    unfold siAll at hl
    split at hl
    · cases hl
    · rw [List.mem_singleton.1 hl]; constructor <;> simp [CommentOk]
  sorted := fun _ _ => List.Perm.refl _
  paths := by
    intro p l hl
    unfold siAll at hl
    split at hl
    · cases hl
    · rw [List.mem_singleton.1 hl]

/-- A field in a group. -/
example : ∃ out, print cfg siAll sample = some out ∧
    Commented cfg { path := [4, 0, 3, 0, 2, 0], detached := [" d\n".toList], leading := " a\n b\n".toList, trailing := " t\n".toList }
      [['h'], ['='], dec 1] out :=
  C80_comments_partial cfg siAll sample env_all ok_sample (.inr (by decide)) [4, 0, 3, 0, 2, 0] _
    (.nested _ _ 0 _ rfl (.nested _ _ _ _ _ 0 _ rfl (by simp) (.field _ _ _ _ _ 0 _ rfl (.plain (by simp))))) _ rfl

/-- A method. -/
example : ∃ out, print cfg siAll sample = some out ∧
    Commented cfg { path := [6, 0, 2, 1], detached := [" d\n".toList], leading := " a\n b\n".toList, trailing := " t\n".toList }
      ["rpc".toList, ['U']] out :=
  C80_comments_partial cfg siAll sample env_all ok_sample (.inr (by decide)) [6, 0, 2, 1] _ (.method 0 _ 1 _ rfl rfl) _ (by decide)

/-- The package. -/
example : ∃ main out, main = "package".toList :: segToks sample.package ∧ print cfg siAll sample = some out ∧
    Commented cfg { path := [2], detached := [" d\n".toList], leading := " a\n b\n".toList, trailing := " t\n".toList } main out :=
  C80_header_partial cfg siAll sample env_all ok_sample (.inr (by decide)) rfl (by decide) [2] _ (.package (by decide)) _ (by decide)

def tiny (h : MHead) : File := { syn := .proto2, msgs := [.mk h []] }

/-- What is printed for a field and an enum with comments. -/
example : print cfg (fun p => if p = [4, 0, 2, 0] ∨ p = [4, 0] then [{ path := p, leading := " lead\n".toList, trailing := " trail\n".toList }] else [])
    (tiny { name := ['M'], fields := [{ name := ['f'], number := 1, card := .optional, optionalKeyword := true, proto3 := false, type := .plain (.scalar .int32) }] }) =
    some "syntax = \"proto2\";\n\n// lead\nmessage M {\n  // trail\n\n  // lead\n  optional int32 f = 1; // trail\n}\n".toList := by
  decide +kernel

/-- C80, reserved ranges and names: the comments of a `reserved` statement, whose location has the path of the list of ranges or names,
are not printed: the text is that for a file without comments. -/
theorem C80_reserved_violated :
    let f := tiny { name := ['M'], resRanges := [⟨7, 8⟩], resNames := [[114]] }
    ∀ q ∈ [[4, 0, 9], [4, 0, 10]], ∃ out,
      print cfg (fun p => if p = q then [{ path := p, leading := " keep\n".toList }] else []) f = some out ∧
      print cfg (fun _ => []) f = some out := by
  intro f q hq
  refine ⟨"syntax = \"proto2\";\n\nmessage M {\n  reserved 7;\n\n  reserved \"r\";\n}\n".toList, ?_, by decide +kernel⟩
  rcases List.mem_cons.1 hq with rfl | hq
  · decide +kernel
  · rcases List.mem_singleton.1 hq with rfl
    decide +kernel

/-- C80, extension ranges: likewise for an `extensions` statement. -/
theorem C80_extensions_violated :
    let f := tiny { name := ['M'], extRanges := [(⟨7, 8⟩, [])] }
    ∃ out, print cfg (fun p => if p = [4, 0, 5] then [{ path := p, leading := " keep\n".toList }] else []) f = some out ∧
      print cfg (fun _ => []) f = some out :=
  ⟨"syntax = \"proto2\";\n\nmessage M {\n  extensions 7;\n}\n".toList, by decide +kernel, by decide +kernel⟩

end Verif.Printer
