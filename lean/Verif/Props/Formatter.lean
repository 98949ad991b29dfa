import Verif.Lemmas.FormatDecls
import Verif.Lemmas.FormatRewrites
/-!
# C70: formatting keeps the program

`format cfg x` is the text that the formatter writes for the syntax tree `x`. The theorems read this text with a lexer for
the language (`Spec/Lexer.lean`) and compare the tokens with those of the tree.
-/
namespace Verif.Formatter
open Verif.Lexer Verif.Comment
open Verif.InlineComment (Comment)

/-! ### The theorems -/

/-- C70: the formatter does not panic, and the tokens of the text are exactly those of `File.out`: no token is split,
joined with its neighbour, put in a comment, or lost, wherever there are comments and however the text is laid out. -/
theorem C70_tokens_partial (cfg : Cfg) (x : File) (h : FileOk x) :
    lex (format cfg x) = x.out ∧ (x.write cfg {}).stuck = false := by
  have h0 : Good false ({} : F) [] .idle := ⟨rfl, .inl rfl, .inl rfl, rfl, rfl⟩
  have h1 := emits_file (cfg := cfg) h {} [] h0
  exact ⟨h1.lexed, h1.ok⟩

/-- C70: the tokens of the text are those of the source, except for separators, colons and closing parentheses that are
missing, empty option lists and empty bodies of methods. -/
theorem C70_rewrites_partial (cfg : Cfg) (x : File) (h : FileOk x) : Rewrites x.src (lex (format cfg x)) := by
  rw [(C70_tokens_partial cfg x h).1]
  exact rw_file h

/-- The tokens that carry the meaning: all except separators, colons, closing parentheses, brackets and braces. -/
def sig (s : Str) : Bool := ![[';'], [','], [':'], [')'], ['['], [']'], ['{'], ['}']].contains s

theorem Rewrites.sig {ts : List Tok} {os : List Str} (h : Rewrites ts os) :
    os.filter Formatter.sig = (strs ts).filter Formatter.sig := by
  have hsep : ∀ t : Tok, isSep t → Formatter.sig t.str = false := by
    intro t ht
    rcases sep_str ht with e | e <;> rw [e] <;> decide
  have hrune : ∀ (t : Tok) (c : Char), t.term = .rune c → t.str = [c] := by
    intro t c e; unfold Tok.str; rw [e]
  induction h with
  | nil => rfl
  | keep t _ ih => simp only [strs, List.map_cons, List.filter_cons] at ih ⊢; rw [ih]
  | replace t c h1 h2 _ ih =>
    have : Formatter.sig [c] = false := by rcases h2 with rfl | rfl <;> decide
    simp only [strs, List.map_cons, List.filter_cons, hsep t h1, this] at ih ⊢; simpa using ih
  | remove t h1 _ ih => simp only [strs, List.map_cons, List.filter_cons, hsep t h1] at ih ⊢; simpa using ih
  | insert c h1 _ ih =>
    have : Formatter.sig [c] = false := by rcases h1 with rfl | rfl | rfl | rfl <;> decide
    simp only [List.filter_cons, this]; simpa using ih
  | brackets x y h1 h2 _ ih =>
    have e1 : Formatter.sig x.str = false := by rw [hrune x _ h1]; decide
    have e2 : Formatter.sig y.str = false := by rw [hrune y _ h2]; decide
    simp only [strs, List.map_cons, List.filter_cons, e1, e2] at ih ⊢; simpa using ih
  | braces x y h1 h2 _ ih =>
    have e1 : Formatter.sig x.str = false := by rw [hrune x _ h1]; decide
    have e2 : Formatter.sig y.str = false := by rw [hrune y _ h2]; decide
    have e3 : Formatter.sig [';'] = false := by decide
    simp only [strs, List.map_cons, List.filter_cons, e1, e2, e3] at ih ⊢; simpa using ih

/-- C70: the identifiers, numbers, string literals and signs of the text are those of the source, in the same order. -/
theorem C70_significant_partial (cfg : Cfg) (x : File) (h : FileOk x) :
    (lex (format cfg x)).filter sig = (strs x.src).filter sig := (C70_rewrites_partial cfg x h).sig

/-! ### An example -/

namespace Example

def id (s : String) : Tok := { term := .text s.toList }
def p (c : Char) : Tok := { term := .rune c }
def str (s : String) : Tok := { term := .string s.toList }

theorem is_id {s : Str} (h : (∃ c r, s = c :: r ∧ letter c = true ∧ r.all (fun d => letter d || digit d) = true)) (t : Tok)
    (ht : t.term = .text s) (h1 : CommentsOk t.leading) (h2 : CommentsOk t.trailing) : Is .ident t := by
  obtain ⟨c, r, rfl, h3, h4⟩ := h
  refine ⟨?_, h1, h2⟩
  rw [ht]
  refine ⟨h3, fun d hd => ?_⟩
  have := List.all_eq_true.1 h4 d hd
  simpa using this

theorem is_num {c : Char} (h : digit c = true) (t : Tok) (ht : t.term = .text [c]) (h1 : CommentsOk t.leading)
    (h2 : CommentsOk t.trailing) : Is .num t := by
  refine ⟨?_, h1, h2⟩
  rw [ht]
  exact .inl ⟨h, trivial⟩

/-- `// note` after a token. -/
def note : Comment := ⟨"// note".toList, " ".toList, false⟩

theorem note_ok : CommentsOk [note] := by
  refine ⟨?_, .singleton _⟩
  intro c hc
  obtain rfl := List.mem_singleton.1 hc
  exact .inr ⟨" note".toList, rfl, by decide, by decide⟩

/-- `option x = 'y'; message M { repeated .A b = 1 [c = d]; // note` and so on. -/
def file : File where
  «syntax» := some { kw := id "syntax", eq := p '=', val := .term (str "'proto3'"), semi := some (p ';') }
  package := some { kw := id "package", name := some [id "a", p '.', id "b"], semi := some (p ';') }
  imports := []
  options := [{ kw := some (id "option"), name := some [.ref { name := [id "x"] }], eq := some (p '='),
                val := some (.neg (p '-') (id "1")), semi := some (p ';') }]
  decls := [.block (id "message") [id "M"] true (p '{')
      (.cons (.field { label := some (id "repeated"), type := [p '.', id "A"], name := some (id "b"), eq := some (p '='),
                       tag := some (id "1"),
                       opts := some { op := p '[', opts := [{ name := some [.ref { op := some (p '('), name := [id "c"],
                                                                                    cl := some (p ')') }],
                                                              eq := some (p '='), val := some (.term (id "d")), semi := none }],
                                      cl := p ']' },
                       semi := some { p ';' with trailing := [note] } }) .nil)
      (p '}') none,
    .block (id "service") [id "S"] false (p '{')
      (.cons (.rpc (id "rpc") (id "R") { op := p '(', type := [id "A"], cl := p ')' } (id "returns")
        { op := p '(', stream := some (id "stream"), type := [id "B"], cl := p ')' } (some (p '{')) .nil (some (p '}')) none) .nil)
      (p '}') (some (p ';'))]
  eof := []

def cfg : Cfg := { pfx := fun _ => none, far := fun _ _ => false }

/-- The text of the example. -/
example : format cfg file = ("syntax = \"proto3\";\npackage a.b;\n\noption x = -1;\n\nmessage M {\n" ++
    "  repeated .A b = 1 [(c) = d]; // note\n}\n\nservice S {\n  rpc R(A) returns (stream B);\n}\n").toList := by decide +kernel

/-- The tokens of the example. -/
example : lex (format cfg file) = file.out := by decide +kernel

theorem none_ok {k : Cls} : Is? k none := fun _ h => by cases h

theorem some_ok {k : Cls} {t : Tok} (h : Is k t) : Is? k (some t) := fun _ e => by obtain rfl := Option.some.inj e; exact h

theorem p_ok {c : Char} (h : punct c = true) : Is .hard (p c) := ⟨h, commentsOk_nil, commentsOk_nil⟩

theorem semi_ok : SepOk (p ';') := ⟨p_ok (by decide), .inl rfl⟩

theorem end_ok : EndOk (some (p ';')) := ⟨_, rfl, semi_ok⟩

theorem id_ok (s : String) (h : (∃ c r, s.toList = c :: r ∧ letter c = true ∧ r.all (fun d => letter d || digit d) = true)) :
    Is .ident (id s) := is_id h _ rfl commentsOk_nil commentsOk_nil

/-- The example satisfies the hypothesis of C70. -/
theorem file_ok : FileOk file := by
  have one : Is .num (id "1") := is_num (c := '1') (by decide) _ rfl commentsOk_nil commentsOk_nil
  have dot : Is .dot (p '.') := ⟨rfl, commentsOk_nil, commentsOk_nil⟩
  have eqOk : Is? .hard (some (p '=')) := some_ok (p_ok (by decide))
  refine ⟨?_, ?_, by simp [file], ?_, ?_, commentsOk_nil⟩
  · intro s hs
    obtain rfl := Option.some.inj hs
    refine ⟨id_ok _ ⟨_, _, rfl, by decide, by decide⟩, p_ok (by decide), ?_, end_ok⟩
    rw [Value.Ok]
    exact .inl ⟨⟨by decide, .inr ⟨by decide, by decide⟩⟩, commentsOk_nil, commentsOk_nil⟩
  · intro q hq
    obtain rfl := Option.some.inj hq
    refine ⟨id_ok _ ⟨_, _, rfl, by decide, by decide⟩, ?_, end_ok⟩
    intro n hn
    obtain rfl := Option.some.inj hn
    exact ⟨id_ok _ ⟨_, _, rfl, by decide, by decide⟩, dot, id_ok _ ⟨_, _, rfl, by decide, by decide⟩⟩
  · intro o ho
    obtain rfl := List.mem_singleton.1 ho
    have hx : NameOk [id "x"] := id_ok _ ⟨_, _, rfl, by decide, by decide⟩
    refine ⟨⟨some_ok (id_ok _ ⟨_, _, rfl, by decide, by decide⟩), ⟨_, rfl, ?_, rfl⟩, eqOk, ⟨_, rfl, ?_⟩, ?_⟩, rfl⟩
    · exact ⟨none_ok, none_ok, (by intro u hu; cases hu), fun _ => rfl, fun _ => ⟨hx, rfl⟩, .inl hx⟩
    · rw [Value.Ok]
      exact ⟨⟨.inl rfl, commentsOk_nil, commentsOk_nil⟩, .inl one⟩
    · intro s hs; obtain rfl := Option.some.inj hs; exact semi_ok
  · intro d hd
    rcases List.mem_cons.1 hd with rfl | hd
    · rw [Decl.Ok]
      refine ⟨id_ok _ ⟨_, _, rfl, by decide, by decide⟩, .inl (id_ok _ ⟨_, _, rfl, by decide, by decide⟩), p_ok (by decide), ?_,
        p_ok (by decide), semiOk_none⟩
      rw [Decls.Ok, Decls.Ok, Decl.Ok]
      refine ⟨⟨some_ok (id_ok _ ⟨_, _, rfl, by decide, by decide⟩), ?_, some_ok (id_ok _ ⟨_, _, rfl, by decide, by decide⟩), eqOk,
        some_ok one, fun _ => ⟨rfl, rfl, rfl⟩, ?_, ?_⟩, trivial⟩
      · exact .inr ⟨dot, id_ok _ ⟨_, _, rfl, by decide, by decide⟩⟩
      · intro c hc
        obtain rfl := Option.some.inj hc
        have hcn : NameOk [id "c"] := id_ok _ ⟨_, _, rfl, by decide, by decide⟩
        refine ⟨p_ok (by decide), rfl, ?_, p_ok (by decide), rfl, semiOk_none⟩
        refine ⟨⟨none_ok, ⟨_, rfl, ?_, rfl⟩, eqOk, ⟨_, rfl, ?_⟩, semiOk_none⟩, rfl, by simp, ?_, trivial⟩
        · exact ⟨some_ok (p_ok (by decide)), some_ok (p_ok (by decide)), (by intro u hu; cases hu), fun _ => rfl,
            (by intro e; cases e), .inl hcn⟩
        · rw [Value.Ok]; exact .inr (.inl (id_ok _ ⟨_, _, rfl, by decide, by decide⟩))
        · intro v hv hs; obtain rfl := Option.some.inj hv; cases hs
      · exact ⟨_, rfl, ⟨⟨(by decide : punct ';' = true), commentsOk_nil, note_ok⟩, .inl rfl⟩⟩
    · obtain rfl := List.mem_singleton.1 hd
      rw [Decl.Ok]
      refine ⟨id_ok _ ⟨_, _, rfl, by decide, by decide⟩, .inl (id_ok _ ⟨_, _, rfl, by decide, by decide⟩), p_ok (by decide), ?_,
        p_ok (by decide), ?_⟩
      · rw [Decls.Ok, Decls.Ok, Decl.Ok]
        have hA : DotNameOk [id "A"] := .inl (id_ok _ ⟨_, _, rfl, by decide, by decide⟩)
        have hB : DotNameOk [id "B"] := .inl (id_ok _ ⟨_, _, rfl, by decide, by decide⟩)
        refine ⟨⟨id_ok _ ⟨_, _, rfl, by decide, by decide⟩, id_ok _ ⟨_, _, rfl, by decide, by decide⟩,
          ⟨p_ok (by decide), none_ok, hA, p_ok (by decide)⟩, id_ok _ ⟨_, _, rfl, by decide, by decide⟩,
          ⟨p_ok (by decide), some_ok (id_ok _ ⟨_, _, rfl, by decide, by decide⟩), hB, p_ok (by decide)⟩, some_ok (p_ok (by decide)), ?_,
          some_ok (p_ok (by decide)), semiOk_none, .inr ⟨_, _, rfl, rfl, rfl, rfl⟩⟩, trivial⟩
        rw [Decls.Ok]; trivial
      · intro s hs; obtain rfl := Option.some.inj hs; exact semi_ok

example : Rewrites file.src (lex (format cfg file)) := C70_rewrites_partial cfg file file_ok

/-- `message M { .A b = 1; }` -/
def dotFile : File where
  «syntax» := none
  package := none
  imports := []
  options := []
  decls := [.block (id "message") [id "M"] true (p '{')
      (.cons (.field { label := none, type := [p '.', id "A"], name := some (id "b"), eq := some (p '='), tag := some (id "1"),
                       opts := none, semi := some (p ';') }) .nil) (p '}') none]
  eof := []

/-- A message literal with a missing colon, a string literal of several parts with a line comment, a URL and an array. -/
def litFile : File where
  «syntax» := none
  package := none
  imports := []
  options := [{ kw := some (id "option"), name := some [.ref { op := some (p '('), name := [id "o"], cl := some (p ')') }],
                eq := some (p '='),
                val := some (.msg (p '{')
                  (.cons { name := [id "a"] } none
                    (.strings [{ str "'x'" with trailing := [note] }, str "'y'"]) (some (p ';'))
                  (.cons { op := some (p '['), url := some [id "u"], slash := some (p '/'), name := [id "v"], cl := some (p ']') }
                    (some (p ':')) (.array (p '[') (.cons (.neg (p '-') (id "1")) (some (p ',')) (.cons (.term (id "2")) none .nil))
                      (p ']') none) none .nil)) (p '}') none), semi := some (p ';') }]
  decls := []
  eof := []

example : format cfg litFile =
    "option (o) = {a:\n    \"x\"// note\n    \"y\"; [u/v]: [-1, 2]};\n".toList := by decide +kernel

end Example

/-- C70 is violated: before the type of a field without a label, a dot is written twice. -/
theorem C70_dot_violated : ∃ (cfg : Cfg) (x : File), ¬ Rewrites x.src (lex (format cfg x)) := by
  refine ⟨Example.cfg, Example.dotFile, fun h => ?_⟩
  exact absurd h.sig (by decide +kernel)

/-- C70 is violated for trees in which a token is missing: formatting a package statement without its semicolon panics, whatever the name and the
comments, so the condition `FileOk` of `C70_tokens_partial` is needed. -/
theorem C70_missing_violated (cfg : Cfg) (x : Package) (h : x.semi = none) (f : F) : (x.write cfg f).stuck = true := by
  unfold Package.write
  rw [h]
  rfl

example : (Package.write Example.cfg { kw := Example.id "package", name := none, semi := none } {}).stuck = true :=
  C70_missing_violated _ _ rfl _

theorem groupLoop_whole : ∀ (ws : List Writer) (f c : F) (fs : List ColumnFormat.Field), (∀ w ∈ ws, ∃ x, w = .whole x) → (groupLoop ws f c fs).1 = f
  | [], _, _, _, _ => rfl
  | w :: ws, f, c, fs, h => by
    obtain ⟨x, rfl⟩ := h w (by simp)
    exact groupLoop_whole ws f (x c) fs fun y hy => h y (by simp [hy])

/-- Errors that are reported while elements are written in columns are dropped: the copy of the formatter has them, the formatter has not. -/
theorem C70_errors_violated (cfg : Cfg) (ws : List Writer) (f : F) (h : ∀ w ∈ ws, ∃ x, w = .whole x) :
    (writeGroup cfg ws f).w.failed = f.w.failed := by
  have e : writeGroup cfg ws f = merge (groupLoop ws f (save f) []).1 (groupLoop ws f (save f) []).2.1
      ((groupLoop ws f (save f) []).2.1.w.out ++ (ColumnFormat.blocks cfg.far (groupLoop ws f (save f) []).2.2).flatMap ColumnFormat.writeBlock) := by
    unfold writeGroup
    split
    · rename_i w
      obtain ⟨x, hx⟩ := h (.node w) (by simp)
      cases hx
    · rfl
  rw [e]
  show (groupLoop ws f (save f) []).1.w.failed = _
  rw [groupLoop_whole ws _ _ _ h]

/-- The writers report an error, as `Out` does at level 0. -/
example : (writeGroup Example.cfg [.whole indentOut, .whole indentOut] {}).w.failed = false ∧ (indentOut {}).w.failed = true :=
  ⟨C70_errors_violated _ _ _ (by simp), rfl⟩

end Verif.Formatter
