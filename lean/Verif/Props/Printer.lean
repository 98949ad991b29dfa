import Verif.Lemmas.PrinterFile
/-!
# C77: a printed descriptor declares what the descriptor contains
-/
namespace Verif.Printer
open Verif.Lexer Verif.Decls Verif.Literal

/-- C77. The text that is printed for a file descriptor consists of the declarations of the descriptor: a lexer finds the tokens
of a list of declarations `ds`, and every element of the descriptor (package, imports, options, messages, fields, groups,
oneofs, enums, values, reserved and extension ranges and names, extensions, services, methods) is declared exactly once in its
scope, with its name, number, type, label, options, default value and JSON name, and nothing else is declared. This holds for
all settings of the printer, all comments, and every order of the elements.

Full statement: this for all descriptors. Missing: extensions in a file with locations for them (see
`C77_extension_violated`), infinite numbers (`C77_infinity_violated`), editions (`C77_editions_violated`), strings with `"` (C32),
ranges of enums with several numbers (C35), and comments that are two newlines (C34). -/
theorem C77_declarations_partial (c : Cfg) (si : SI) (f : File) (en : Env c si) (hf : f.Ok) (hx : f.exts = [] ∨ si [7] = []) :
    ∃ out ds, print c si f = some out ∧ lex out = Decl.toksAll ds ∧ FileMeans f ds :=
  print_ok en hf hx

def cfg : Cfg := { isPrint := fun x => decide (32 ≤ x), sort := fun _ ks => ks }
def sample : File :=
  { syn := .proto2
    package := [['a'], ['b']]
    imports := [{ path := [120, 47, 34], isPublic := true }, { path := [121] }]
    opts := [(1, [⟨.plain ['o'], some (.scalar (.str [104, 10]))⟩])]
    msgs := [.mk
      { name := ['M']
        opts := [(1000, [⟨.ext [['a'], ['b'], ['x']], some (.msg (.fields (.cons (.plain ['k']) (.scalar (.int (-3))) .nil)))⟩])]
        fields := [
          { name := ['f'], number := 1, card := .repeated, optionalKeyword := false, proto3 := false, type := .plain (.message [['a'], ['b'], ['M']]),
            default := none, jsonName := some [106] },
          { name := ['g'], number := 2, card := .optional, optionalKeyword := true, proto3 := false, type := .group 0 },
          { name := ['m'], number := 3, card := .repeated, optionalKeyword := false, proto3 := false, type := .map .string (.enum [['a'], ['b'], ['E']]) 1 },
          { name := ['p'], number := 4, card := .optional, optionalKeyword := false, proto3 := false, type := .plain (.scalar .bytes), oneof := some 0 },
          { name := ['q'], number := 5, card := .optional, optionalKeyword := false, proto3 := false, type := .plain (.scalar .double), oneof := some 0 }]
        oneofs := [{ name := ['w'], synthetic := false }]
        exts := [⟨{ name := ['y'], number := 100, card := .optional, optionalKeyword := true, proto3 := false, type := .plain (.scalar .int32) }, [['z'], ['Z']]⟩]
        extRanges := [(⟨100, 536870912⟩, [])]
        resRanges := [⟨7, 8⟩, ⟨9, 12⟩]
        resNames := [[114]] }
      [.mk { name := ['G'], fields := [{ name := ['h'], number := 1, card := .required, optionalKeyword := false, proto3 := false, type := .plain (.scalar .bool), default := some (.bool true) }] } [],
       .mk { name := ['N'] } []]]
    enums := [{ name := ['E'], values := [⟨['V'], -1, []⟩], resRanges := [⟨5, 5⟩], resNames := [[83]] }]
    services := [{ name := ['S'], methods := [⟨['T'], [['a'], ['b'], ['M']], [['g'], ['R']], true, false, []⟩,
      ⟨['U'], [['a'], ['b'], ['M']], [['g'], ['R']], false, true, [(1, [⟨.plain ['d'], some (.scalar (.bool true))⟩])]⟩] }]
    exts := [⟨{ name := ['e'], number := 100, card := .optional, optionalKeyword := true, proto3 := false, type := .plain (.scalar .int32) }, [['a'], ['b'], ['M']]⟩] }
def si0 : SI := fun p =>
  if p = [4, 0, 6] then [{ path := p, leading := " extend\n".toList }] else if p = [4, 0, 2, 0] then [{ path := p, leading := " lead\n".toList, trailing := " trail\n".toList }] else []

theorem env_sample : Env cfg si0 where
  indent := by simp [IndentOk, cfg]
  noNul := by decide
  locs := by
    intro p l hl
    unfold si0 at hl
    split at hl
    · rw [List.mem_singleton.1 hl]; constructor <;> simp [CommentOk]
    · split at hl
      · rw [List.mem_singleton.1 hl]; constructor <;> simp [CommentOk]
      · cases hl
  sorted := fun _ _ => List.Perm.refl _
  paths := by
    intro p l hl
    unfold si0 at hl
    split at hl
    · rw [List.mem_singleton.1 hl]
    · split at hl
      · rw [List.mem_singleton.1 hl]
      · cases hl

theorem ident_one {x : Char} (h : letter x = true) : Ident [x] := ⟨h, by simp⟩

theorem qok {q : List Char} (hq : q ≠ []) (h : ∀ x ∈ q, letter x = true) : QOk (q.map fun x => [x]) :=
  ⟨by simpa using hq, by
    intro s hs
    obtain ⟨x, hx, rfl⟩ := List.mem_map.1 hs
    exact ident_one (h x hx)⟩

theorem opts_nil : Opts.Ok [] := ⟨by simp, by simp⟩

theorem opts_one {t : Int} {o : Opt} (h : o.Ok) : Opts.Ok [(t, [o])] := ⟨by simpa using h, by simp⟩

theorem ok_sample : sample.Ok where
  syn := by decide
  package := (qok (q := ['a', 'b']) (by decide) (by decide)).idents
  imports := by simp [sample, PathOk]
  distinct := by decide
  opts := opts_one ⟨ident_one (by decide), _, rfl, by simp [StrOk, OVal.Ok, SVal.Ok]⟩
  msgs := by
    refine ⟨⟨?_, ⟨?_, trivial⟩, ⟨?_, trivial⟩, trivial⟩, trivial⟩
    · constructor
      case name => exact ident_one (by decide)
      case opts => exact opts_one ⟨qok (q := ['a', 'b', 'x']) (by decide) (by decide), _, rfl, ident_one (by decide), trivial, trivial⟩
      case fields =>
        simp only [List.forall_mem_cons]
        refine ⟨?_, ?_, ?_, ?_, ?_, by simp⟩
        · exact ⟨ident_one (by decide), qok (q := ['a', 'b', 'M']) (by decide) (by decide), by simp, by simp, by simp, by simp,
            by simp [StrOk], opts_nil, by simp⟩
        · exact ⟨ident_one (by decide), by simp [FType.Ok], by simp, by simp, by simp, by simp, by simp, opts_nil, by simp⟩
        · exact ⟨ident_one (by decide), qok (q := ['a', 'b', 'E']) (by decide) (by decide), by simp, by simp, by simp, by simp,
            by simp, opts_nil, by simp⟩
        · exact ⟨ident_one (by decide), trivial, by simp, by simp, by simp, by simp, by simp, opts_nil, by simp⟩
        · exact ⟨ident_one (by decide), trivial, by simp, by simp, by simp, by simp, by simp, opts_nil, by simp⟩
      case oneofs => simpa using ⟨ident_one (by decide), opts_nil⟩
      case oneof => simp
      case inhabited => simp
      case enums => simp
      case exts =>
        simp only [List.forall_mem_cons]
        exact ⟨⟨⟨ident_one (by decide), trivial, by simp, by simp, by simp, by simp, by simp, opts_nil, by simp⟩,
          qok (q := ['z', 'Z']) (by decide) (by decide)⟩, by simp⟩
      case extRanges => simpa using opts_nil
      case same => simp
      case resRanges => simp
      case resNames => simp [StrOk]
    · constructor
      case name => exact ident_one (by decide)
      case opts => exact opts_nil
      case fields =>
        simp only [List.forall_mem_cons]
        exact ⟨⟨ident_one (by decide), trivial, by simp, by simp, by simp, by simp [SVal.Ok], by simp, opts_nil, by simp⟩, by simp⟩
      all_goals simp
    · constructor
      case name => exact ident_one (by decide)
      case opts => exact opts_nil
      all_goals simp
  enums := by
    simp only [sample, List.forall_mem_cons]
    exact ⟨⟨ident_one (by decide), opts_nil, by simpa using ⟨ident_one (by decide), opts_nil⟩, by simp, by simp, by simp [StrOk], by simp⟩, by simp⟩
  services := by
    simp only [sample, List.forall_mem_cons]
    refine ⟨⟨ident_one (by decide), opts_nil, ?_⟩, by simp⟩
    simp only [List.forall_mem_cons]
    exact ⟨⟨ident_one (by decide), qok (q := ['a', 'b', 'M']) (by decide) (by decide), qok (q := ['g', 'R']) (by decide) (by decide), opts_nil⟩,
      ⟨ident_one (by decide), qok (q := ['a', 'b', 'M']) (by decide) (by decide), qok (q := ['g', 'R']) (by decide) (by decide),
        opts_one ⟨ident_one (by decide), _, rfl, trivial⟩⟩, by simp⟩
  exts := by
    simp only [sample, List.forall_mem_cons]
    exact ⟨⟨⟨ident_one (by decide), trivial, by simp, by simp, by simp, by simp, by simp, opts_nil, by simp⟩,
      qok (q := ['a', 'b', 'M']) (by decide) (by decide)⟩, by simp⟩

/-- The hypotheses hold for a file with all kinds of elements. -/
example : ∃ out ds, print cfg si0 sample = some out ∧ lex out = Decl.toksAll ds ∧ FileMeans sample ds :=
  C77_declarations_partial cfg si0 sample env_sample ok_sample (.inr (by decide))

example : print cfg si0 { sample with msgs := [], exts := [], services := [] } = some ("syntax = \"proto2\";\n\npackage a.b;\n\nimport public \"x/\\\"\";\n\n" ++
    "import \"y\";\n\noption o = \"h\\n\";\n\nenum E {\n  V = -1;\n\n  reserved 5;\n\n  reserved \"S\";\n}\n").toList := by
  decide +kernel

/-- C77, extensions: a file with an extension whose location and the location of whose `extend` block are known, as in every
compiled file with source information, is not printed: `isSpanWithin` gets paths instead of spans and indexes the path `[7]`
out of its bounds. -/
theorem C77_extension_violated (c : Cfg) (si : SI) (f : File) (hf : f.exts ≠ []) (h0 : si [7, 0] ≠ []) (l : Loc) (ls : List Loc)
    (h7 : si [7] = l :: ls) (hl : l.path = [7]) : print c si f = none := by
  obtain ⟨x, xs, hxs⟩ := List.exists_cons_of_ne_nil hf
  have h7' : fileSI si [7] = l :: ls := by simp [fileSI, h7]
  have h0' : fileSI si [7, 0] ≠ [] := by simpa [fileSI] using h0
  have hp : extsPanic (fileSI si) f.exts [7] = true := by
    unfold extsPanic
    rw [List.any_eq_true]
    refine ⟨0, by simp [hxs], ?_⟩
    have he : (fileSI si [7, 0]).isEmpty = false := by simpa using h0'
    simp [extClass, hxs, findExtSi, h7', findExtLoop, hl, isSpanWithin, he]
  unfold print printFile
  simp only [hp, if_true]
  simp [panic]

example : print cfg (fun p => if p = [7] ∨ p = [7, 0] then [{ path := p }] else []) sample = none :=
  C77_extension_violated _ _ _ (by simp [sample]) (by simp) { path := [7] } [] (by simp) rfl

/-- C77, infinite numbers: they are printed as Go does, `+Inf`, which is not a constant. -/
theorem C77_infinity_violated :
    let f : File := { syn := .proto2, opts := [(1, [⟨.plain ['o'], some (.scalar (.float (.inf false)))⟩])] }
    ∃ out, print cfg (fun _ => []) f = some out ∧ ∀ ds, FileMeans f ds → lex out ≠ Decl.toksAll ds := by
  intro f
  refine ⟨"syntax = \"proto2\";\n\noption o = +Inf;\n".toList, by decide +kernel, ?_⟩
  rintro ds ⟨t, body, rfl, ht, hb⟩ he
  have hmem : ['i', 'n', 'f'] ∈ Decl.toksAll (.syn t :: body) := by
    obtain ⟨l, hl, hm⟩ := hb.opts
    rw [List.perm_singleton.1 hl] at hm
    obtain ⟨s, hs, hmean⟩ : ∃ s ∈ body.flatMap asOption, Opt.Means ⟨[], [], false⟩ ⟨.plain ['o'], some (.scalar (.float (.inf false)))⟩ s := by
      generalize body.flatMap asOption = x at hm ⊢
      cases hm with
      | cons h _ => exact ⟨_, List.mem_cons_self, h⟩
    obtain ⟨d, hd, hds⟩ := List.mem_flatMap.1 hs
    have hval : ['i', 'n', 'f'] ∈ s.toks := by
      obtain ⟨_, v, e, hv⟩ := hmean
      cases e
      have : s.val = .word false ['i', 'n', 'f'] := hv
      simp [Setting.toks, this, Const.toks]
    have hdt : ['i', 'n', 'f'] ∈ d.toks := by
      cases d with
      | option o =>
        have : s = o := by simpa [asOption] using hds
        subst this
        simp [Decl.toks, hval]
      | _ => simp [asOption] at hds
    rw [Decl.toksAll]
    refine List.mem_append_right _ ?_
    clear hs hds hm hb ht he hl
    induction body with
    | nil => cases hd
    | cons x body ih =>
      rw [Decl.toksAll]
      rcases List.mem_cons.1 hd with rfl | hd
      · exact List.mem_append_left _ hdt
      · exact List.mem_append_right _ (ih hd)
  rw [← he] at hmem
  revert hmem
  decide +kernel

/-- C77, editions: the text declares a syntax `editions`, which does not exist, and no edition. -/
theorem C77_editions_violated :
    ∃ out, print cfg (fun _ => []) { syn := .editions } = some out ∧
      lex out = ["syntax".toList, "=".toList, "\"editions\"".toList, ";".toList] :=
  ⟨_, rfl, by decide +kernel⟩

end Verif.Printer
