import Verif.Lemmas.FormatKeepsDecls
import Verif.Props.Formatter
/-!
# C101: formatting keeps the comments

`said` are the comments of a text, read with the lexer of the language, each as the list of its words; `File.told` are those
of the tokens of a syntax tree.
-/
namespace Verif.Formatter
open Verif.Lexer Verif.Comment
open Verif.InlineComment (Comment)

/-- C101: if there are comments only at the places of `File.Plain`, the formatted text has exactly the comments of the source,
each once and in the order of the tokens, with the same words. Missing: the places that are not in `File.Plain`, where the
formatter loses comments or writes them twice (the theorems below). -/
theorem C101_comments_partial (cfg : Cfg) (x : File) (h : FileOk x) (hp : x.Plain) : said (format cfg x) = x.told := by
  have h0 : Good false ({} : F) [] .idle := ⟨rfl, .inl rfl, .inl rfl, rfl, rfl⟩
  have h1 := (keeps_file (cfg := cfg) h hp {} ⟨[], h0⟩).2
  rw [show said ({} : F).w.out = [] from rfl, List.nil_append] at h1
  exact h1

namespace Example

/-- A block comment of two lines before a token. -/
def block : Comment := ⟨"/* two\n     lines */".toList, "\n".toList, false⟩

def small : Comment := ⟨"/* small */".toList, " ".toList, false⟩

/-- `[(c) = /* small */ d]` -/
def list : Compact where
  op := p '['
  opts := [{ name := some [.ref { op := some (p '('), name := [id "c"], cl := some (p ')') }], eq := some (p '='),
             val := some (.term { id "d" with leading := [small] }), semi := none }]
  cl := p ']'

/-- The file of C70 with comments before the message, in the list of options, after the field and at the end. -/
def noted : File := { file with
  decls := [.block { id "message" with leading := [block] } [id "M"] true { p '{' with trailing := [note] }
      (.cons (.field { label := some (id "repeated"), type := [id "A"], name := some { id "b" with trailing := [small] },
                       eq := some (p '='), tag := some (id "1"),
                       opts := some list,
                       semi := some { p ';' with trailing := [note] } }) .nil)
      (p '}') none]
  eof := [note] }


def none' : File where
  «syntax» := none
  package := none
  imports := []
  options := []
  decls := []
  eof := []

/-- `A b = 1` with options. -/
def field (c : Compact) : FieldDecl where
  label := none
  type := [id "A"]
  name := some (id "b")
  eq := some (p '=')
  tag := some (id "1")
  opts := some c
  semi := some (p ';')

/-- An option of a list. -/
def set (n v : Tok) (semi : Option Tok) : Opt where
  name := some [.ref { name := [n] }]
  eq := some (p '=')
  val := some (.term v)
  semi := semi

/-- `option x = /* small */ "y";` -/
def optFile : File := { none' with
  options := [{ kw := some (id "option"), name := some [.ref { name := [id "x"] }], eq := some (p '='),
                val := some (.term { str "\"y\"" with leading := [small] }), semi := some (p ';') }] }

/-- `service S { rpc R(A) returns (B); // note` -/
def rpcFile : File := { none' with
  decls := [.block (id "service") [id "S"] false (p '{')
      (.cons (.rpc (id "rpc") (id "R") { op := p '(', type := [id "A"], cl := p ')' } (id "returns")
        { op := p '(', type := [id "B"], cl := p ')' } none .nil none (some { p ';' with trailing := [note] })) .nil)
      (p '}') none] }

/-- `message M {}; // note` -/
def semiFile : File := { none' with
  decls := [.block (id "message") [id "M"] true (p '{') .nil (p '}') (some { p ';' with trailing := [note] })] }

/-- `; // note` -/
def emptyFile : File := { none' with decls := [.empty { p ';' with trailing := [note] }] }

/-- `message M { A b = 1 [c /* small */ = d, // note` then `e = f]; }` -/
def listFile : File := { none' with
  decls := [.block (id "message") [id "M"] true (p '{')
      (.cons (.field (field { op := p '[', opts := [set { id "c" with trailing := [small] } (id "d") (some { p ',' with trailing := [note] }),
        set (id "e") (id "f") none], cl := p ']' })) .nil)
      (p '}') none] }

/-- `option (x)./* small */y = z;` -/
def dotsFile : File := { none' with
  options := [{ kw := some (id "option"), name := some [.ref { op := some (p '('), name := [id "x"], cl := some (p ')') }, .dot { p '.' with trailing := [small] }, .ref { name := [id "y"] }], eq := some (p '='),
                val := some (.term (id "z")), semi := some (p ';') }] }

/-- `message M { A b = 1 [/* small */]; }` -/
def bracketsFile : File := { none' with
  decls := [.block (id "message") [id "M"] true (p '{')
      (.cons (.field (field { op := { p '[' with trailing := [small] }, opts := [], cl := p ']' })) .nil)
      (p '}') none] }

theorem small_ok : CommentsOk [small] := by
  refine ⟨?_, .singleton _⟩
  intro c hc
  obtain rfl := List.mem_singleton.1 hc
  exact .inl ⟨" small */".toList, rfl, by decide⟩

theorem block_ok : CommentsOk [block] := by
  refine ⟨?_, .singleton _⟩
  intro c hc
  obtain rfl := List.mem_singleton.1 hc
  exact .inl ⟨" two\n     lines */".toList, rfl, by decide⟩

theorem one_ok : Is .num (id "1") := is_num (c := '1') (by decide) _ rfl commentsOk_nil commentsOk_nil

theorem eq_ok : Is? .hard (some (p '=')) := some_ok (p_ok (by decide))

theorem noteSemi_ok : SepOk { p ';' with trailing := [note] } :=
  ⟨⟨(by decide : punct ';' = true), commentsOk_nil, note_ok⟩, .inl rfl⟩

theorem semi?_ok {t : Tok} (h : SepOk t) : SemiOk (some t) := fun _ e => by obtain rfl := Option.some.inj e; exact h

theorem ref_ok {t : Tok} (h : Is .ident t) : RefOk { name := [t] } :=
  ⟨none_ok, none_ok, (by intro u hu; cases hu), fun _ => rfl, fun _ => ⟨h, rfl⟩, .inl h⟩

theorem parens_ok {t : Tok} (h : Is .ident t) : RefOk { op := some (p '('), name := [t], cl := some (p ')') } :=
  ⟨some_ok (p_ok (by decide)), some_ok (p_ok (by decide)), (by intro u hu; cases hu), fun _ => rfl, (by intro e; cases e), .inl h⟩

theorem only_options {os : List Opt} (h : ∀ o ∈ os, OptOk o ∧ o.semi.isSome = true) : FileOk { none' with options := os } :=
  ⟨(by intro s hs; cases hs), (by intro s hs; cases hs), (by simp [none']), h, (by simp [none']), commentsOk_nil⟩

theorem only_decls {ds : List Decl} (h : ∀ d ∈ ds, d.Ok false) : FileOk { none' with decls := ds } :=
  ⟨(by intro s hs; cases hs), (by intro s hs; cases hs), (by simp [none']), (by simp [none']), h, commentsOk_nil⟩

theorem message_ok {ds : Decls} (h : ds.Ok true) : Decl.Ok false (.block (id "message") [id "M"] true (p '{') ds (p '}') none) := by
  rw [Decl.Ok]
  exact ⟨id_ok _ ⟨_, _, rfl, by decide, by decide⟩, .inl (id_ok _ ⟨_, _, rfl, by decide, by decide⟩), p_ok (by decide), h,
    p_ok (by decide), semiOk_none⟩

theorem field_ok {c : Compact} (h : CompactOk c) : FieldOk (field c) :=
  ⟨none_ok, show NameOk [id "A"] from id_ok _ ⟨_, _, rfl, by decide, by decide⟩, some_ok (id_ok _ ⟨_, _, rfl, by decide, by decide⟩), eq_ok,
    some_ok one_ok, fun _ => ⟨rfl, rfl, rfl⟩, fun d e => by obtain rfl := Option.some.inj e; exact h, end_ok⟩

theorem term_ok {t : Tok} (h : Is .ident t) : Value.Ok (.term t) := by rw [Value.Ok]; exact .inr (.inl h)

theorem optFile_ok : FileOk optFile := by
  refine only_options ?_
  intro o ho
  obtain rfl := List.mem_singleton.1 ho
  refine ⟨⟨some_ok (id_ok _ ⟨_, _, rfl, by decide, by decide⟩), ⟨_, rfl, ref_ok (id_ok _ ⟨_, _, rfl, by decide, by decide⟩), rfl⟩, eq_ok,
    ⟨_, rfl, ?_⟩, semi?_ok semi_ok⟩, rfl⟩
  rw [Value.Ok]
  exact .inl ⟨⟨by decide, .inl (by decide)⟩, small_ok, commentsOk_nil⟩

theorem rpcFile_ok : FileOk rpcFile := by
  refine only_decls ?_
  intro d hd
  obtain rfl := List.mem_singleton.1 hd
  rw [Decl.Ok]
  refine ⟨id_ok _ ⟨_, _, rfl, by decide, by decide⟩, .inl (id_ok _ ⟨_, _, rfl, by decide, by decide⟩), p_ok (by decide), ?_,
    p_ok (by decide), semiOk_none⟩
  rw [Decls.Ok, Decls.Ok, Decl.Ok]
  have hA : DotNameOk [id "A"] := .inl (id_ok _ ⟨_, _, rfl, by decide, by decide⟩)
  have hB : DotNameOk [id "B"] := .inl (id_ok _ ⟨_, _, rfl, by decide, by decide⟩)
  refine ⟨⟨id_ok _ ⟨_, _, rfl, by decide, by decide⟩, id_ok _ ⟨_, _, rfl, by decide, by decide⟩,
    ⟨p_ok (by decide), none_ok, hA, p_ok (by decide)⟩, id_ok _ ⟨_, _, rfl, by decide, by decide⟩,
    ⟨p_ok (by decide), none_ok, hB, p_ok (by decide)⟩, none_ok, ?_, none_ok, semi?_ok noteSemi_ok, .inl ⟨rfl, rfl, rfl⟩⟩, trivial⟩
  rw [Decls.Ok]; trivial

theorem semiFile_ok : FileOk semiFile := by
  refine only_decls ?_
  intro d hd
  obtain rfl := List.mem_singleton.1 hd
  rw [Decl.Ok, Decls.Ok]
  exact ⟨id_ok _ ⟨_, _, rfl, by decide, by decide⟩, .inl (id_ok _ ⟨_, _, rfl, by decide, by decide⟩), p_ok (by decide), trivial,
    p_ok (by decide), semi?_ok noteSemi_ok⟩

theorem emptyFile_ok : FileOk emptyFile := by
  refine only_decls ?_
  intro d hd
  obtain rfl := List.mem_singleton.1 hd
  rw [Decl.Ok]
  exact noteSemi_ok

theorem listFile_ok : FileOk listFile := by
  refine only_decls ?_
  intro d hd
  obtain rfl := List.mem_singleton.1 hd
  refine message_ok ?_
  rw [Decls.Ok, Decls.Ok, Decl.Ok]
  refine ⟨field_ok ⟨p_ok (by decide), rfl, ?_, p_ok (by decide), rfl, semiOk_none⟩, trivial⟩
  refine ⟨⟨none_ok, ⟨_, rfl, ref_ok (is_id (s := "c".toList) ⟨_, _, rfl, by decide, by decide⟩ _ rfl commentsOk_nil small_ok), rfl⟩, eq_ok,
      ⟨_, rfl, term_ok (id_ok _ ⟨_, _, rfl, by decide, by decide⟩)⟩,
      semi?_ok ⟨⟨(by decide : punct ',' = true), commentsOk_nil, note_ok⟩, .inr rfl⟩⟩, rfl, fun _ => rfl,
      (by intro v hv hs; obtain rfl := Option.some.inj hv; cases hs),
    ⟨none_ok, ⟨_, rfl, ref_ok (id_ok _ ⟨_, _, rfl, by decide, by decide⟩), rfl⟩, eq_ok,
      ⟨_, rfl, term_ok (id_ok _ ⟨_, _, rfl, by decide, by decide⟩)⟩, semiOk_none⟩, rfl, (by intro e; exact absurd rfl e),
      (by intro v hv hs; obtain rfl := Option.some.inj hv; cases hs), trivial⟩

theorem dotsFile_ok : FileOk dotsFile := by
  refine only_options ?_
  intro o ho
  obtain rfl := List.mem_singleton.1 ho
  exact ⟨⟨some_ok (id_ok _ ⟨_, _, rfl, by decide, by decide⟩), ⟨_, rfl, parens_ok (id_ok _ ⟨_, _, rfl, by decide, by decide⟩), rfl,
    ⟨rfl, commentsOk_nil, small_ok⟩, ref_ok (id_ok _ ⟨_, _, rfl, by decide, by decide⟩), rfl⟩, eq_ok,
    ⟨_, rfl, term_ok (id_ok _ ⟨_, _, rfl, by decide, by decide⟩)⟩, semi?_ok semi_ok⟩, rfl⟩

theorem bracketsFile_ok : FileOk bracketsFile := by
  refine only_decls ?_
  intro d hd
  obtain rfl := List.mem_singleton.1 hd
  refine message_ok ?_
  rw [Decls.Ok, Decls.Ok, Decl.Ok]
  exact ⟨field_ok ⟨⟨(by decide : punct '[' = true), commentsOk_nil, small_ok⟩, rfl, trivial, p_ok (by decide), rfl, semiOk_none⟩, trivial⟩

/-- The text of the example. -/
example : format cfg noted = ("syntax = \"proto3\";\npackage a.b;\n\noption x = -1;\n\n/* two\n   lines */\nmessage M {// note\n" ++
    "  repeated A b /* small */ = 1 [(c) = /* small */d]; // note\n}\n// note\n").toList := by decide +kernel

theorem noted_ok : FileOk noted := by
  obtain ⟨h1, h2, h3, h4, _, _⟩ := file_ok
  refine ⟨h1, h2, h3, h4, ?_, note_ok⟩
  intro d hd
  obtain rfl := List.mem_singleton.1 hd
  rw [Decl.Ok, Decls.Ok, Decls.Ok, Decl.Ok]
  refine ⟨is_id (s := "message".toList) ⟨_, _, rfl, by decide, by decide⟩ _ rfl block_ok commentsOk_nil,
    .inl (id_ok _ ⟨_, _, rfl, by decide, by decide⟩), ⟨(by decide : punct '{' = true), commentsOk_nil, note_ok⟩, ⟨?_, trivial⟩, p_ok (by decide), semiOk_none⟩
  refine ⟨some_ok (id_ok _ ⟨_, _, rfl, by decide, by decide⟩), .inl (id_ok _ ⟨_, _, rfl, by decide, by decide⟩),
    some_ok (is_id (s := "b".toList) ⟨_, _, rfl, by decide, by decide⟩ _ rfl commentsOk_nil small_ok), eq_ok, some_ok one_ok,
    fun _ => ⟨rfl, rfl, rfl⟩, ?_, ⟨_, rfl, noteSemi_ok⟩⟩
  intro c hc
  obtain rfl := Option.some.inj hc
  refine ⟨p_ok (by decide), rfl, ?_, p_ok (by decide), rfl, semiOk_none⟩
  exact ⟨⟨none_ok, ⟨_, rfl, parens_ok (id_ok _ ⟨_, _, rfl, by decide, by decide⟩), rfl⟩, eq_ok,
    ⟨_, rfl, term_ok (is_id (s := "d".toList) ⟨_, _, rfl, by decide, by decide⟩ _ rfl small_ok commentsOk_nil)⟩, semiOk_none⟩, rfl, by simp,
    (by intro v hv hs; obtain rfl := Option.some.inj hv; cases hs), trivial⟩

theorem noted_plain : noted.Plain := by
  have hs : ∀ t ∈ noted.nodes, (∀ c ∈ t.leading, c.virtual = false) ∧ ∀ c ∈ t.trailing, c.virtual = false := by decide +kernel
  refine ⟨hs, ?_, by simp [noted, file], ?_, ?_⟩
  · intro s h
    obtain rfl := Option.some.inj h
    show Value.Plain (.term _)
    rw [Value.Plain] <;> simp
  · intro o ho
    obtain rfl := List.mem_singleton.1 ho
    refine ⟨?_, ?_, rfl, ?_⟩
    · intro n hn d hd
      obtain rfl := Option.some.inj hn
      simp at hd
    · intro v hv; obtain rfl := Option.some.inj hv; rw [Value.Plain] <;> simp
    · intro t ht; cases ht
  · intro d hd
    obtain rfl := List.mem_singleton.1 hd
    rw [Decl.Plain, Decls.Plain, Decls.Plain, Decl.Plain]
    refine ⟨⟨?_, trivial⟩, by intro s h; cases h⟩
    intro c hc
    obtain rfl := Option.some.inj hc
    have he : list.expanded = false := by decide +kernel
    refine ⟨?_, (by intro e; cases e), (by rw [he]; intro s h; cases h)⟩
    rw [he]
    refine ⟨⟨?_, ?_, ?_, ?_⟩, trivial⟩
    · intro n hn d hd
      obtain rfl := Option.some.inj hn
      simp at hd
    · intro v hv; obtain rfl := Option.some.inj hv; rw [Value.Plain] <;> simp
    · intro n hn
      obtain rfl := Option.some.inj hn
      refine ⟨?_, rfl⟩
      intro r ps e
      obtain ⟨e', _⟩ := List.cons.inj e
      obtain rfl := Part.ref.inj e'
      intro h; cases h
    · intro _ s h; cases h

example : said (format cfg noted) = noted.told := C101_comments_partial cfg noted noted_ok noted_plain

/-- Six comments. -/
example : noted.told = [["two".toList, "lines".toList], ["note".toList], ["small".toList], ["small".toList], ["note".toList],
    ["note".toList]] := by decide +kernel

end Example

open Example

/-- C101 is violated: a comment before the value of an option is lost. -/
theorem C101_option_violated : ∃ (cfg : Cfg) (x : File), FileOk x ∧ x.told = [["small".toList]] ∧ said (format cfg x) = [] :=
  ⟨cfg, optFile, optFile_ok, by decide +kernel, by decide +kernel⟩

/-- C101 is violated: a comment after the semicolon of a method without a body is lost. -/
theorem C101_rpc_violated : ∃ (cfg : Cfg) (x : File), FileOk x ∧ x.told = [["note".toList]] ∧ said (format cfg x) = [] :=
  ⟨cfg, rpcFile, rpcFile_ok, by decide +kernel, by decide +kernel⟩

/-- C101 is violated: a comment after a semicolon that follows the closing brace of a declaration is lost. -/
theorem C101_semicolon_violated : ∃ (cfg : Cfg) (x : File), FileOk x ∧ x.told = [["note".toList]] ∧ said (format cfg x) = [] :=
  ⟨cfg, semiFile, semiFile_ok, by decide +kernel, by decide +kernel⟩

/-- C101 is violated: a comment at an empty declaration is lost. -/
theorem C101_empty_violated : ∃ (cfg : Cfg) (x : File), FileOk x ∧ x.told = [["note".toList]] ∧ said (format cfg x) = [] :=
  ⟨cfg, emptyFile, emptyFile_ok, by decide +kernel, by decide +kernel⟩

/-- C101 is violated: a comment after the name of an option in a list on several lines is written twice. -/
theorem C101_twice_violated : ∃ (cfg : Cfg) (x : File), FileOk x ∧ x.told = [["small".toList], ["note".toList]] ∧
    said (format cfg x) = [["small".toList], ["small".toList], ["note".toList]] :=
  ⟨cfg, listFile, listFile_ok, by decide +kernel, by decide +kernel⟩

/-- C101 is violated: a comment after a dot in the name of an option is lost. -/
theorem C101_dot_violated : ∃ (cfg : Cfg) (x : File), FileOk x ∧ x.told = [["small".toList]] ∧ said (format cfg x) = [] :=
  ⟨cfg, dotsFile, dotsFile_ok, by decide +kernel, by decide +kernel⟩

/-- C101 is violated: a comment in an empty list of options is lost. -/
theorem C101_brackets_violated : ∃ (cfg : Cfg) (x : File), FileOk x ∧ x.told = [["small".toList]] ∧ said (format cfg x) = [] :=
  ⟨cfg, bracketsFile, bracketsFile_ok, by decide +kernel, by decide +kernel⟩

end Verif.Formatter
