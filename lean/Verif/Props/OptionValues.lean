import Verif.Lemmas.OptionValues
import Verif.Props.Printer
/-!
# C100: printed options give the options message back
-/
namespace Verif.OptionValues
open Verif.Printer (QName LName SVal Fl MLit Lit MLits LFields OVal OName Opt Opts)
open Verif.Decls Verif.Literal

variable {T : Type} (S : Schema T)

/-- C100. The options that are printed for an options message, read as settings of the language, give the message again: single values, one
setting for each element of a list and each entry of a map, messages within messages with their lists, maps, extensions and `Any`s; in whatever
order `Range` visits the fields and entries, and in whatever order the groups of settings are printed.

Full statement: this for all options messages. Missing: enum values that are not known (`C100_enum_violated`), numbers that are not multiples of
10⁻⁶ (`C100_float_violated`), unknown fields (`C100_unknown_violated`), uninterpreted options. -/
theorem C100_options_partial (a : Printer.At) (R : Ranging) (hR : R.Ok) (m : Flds T) (h : OptionsOk S a m) (ds : List Setting)
    (hd : Opts.Mean a (extractOptions R m) ds) : interpret S ds = some m :=
  interpret_ok S R a hR m h ds hd

/-- C100. The text that is printed for a file with an options message: it consists of the tokens of declarations whose option declarations give
the message. -/
theorem C100_file_partial (c : Printer.Cfg) (si : Printer.SI) (f : Printer.File) (en : Printer.Env c si) (hf : f.Ok) (hx : f.exts = [] ∨ si [7] = [])
    (R : Ranging) (hR : R.Ok) (m : Flds T) (h : OptionsOk S ⟨f.package, f.package, false⟩ m) (ho : f.opts = extractOptions R m) :
    ∃ out ds, Printer.print c si f = some out ∧ Lexer.lex out = Decl.toksAll ds ∧ interpret S (ds.flatMap Printer.asOption) = some m := by
  obtain ⟨out, ds, h1, h2, t, body, rfl, _, hb⟩ := Printer.C77_declarations_partial c si f en hf hx
  refine ⟨out, _, h1, h2, ?_⟩
  have := hb.opts
  rw [ho] at this
  exact C100_options_partial S _ R hR m h _ this

/-- C100. A finite number is read back as it is if and only if it is a multiple of 10⁻⁶; the sign is kept. -/
theorem C100_float (neg : Bool) (q : Rat) :
    (∀ c, (sval (.float : Ty T) (.float neg q)).Means c → leaf (.float : Ty T) c = some (.float neg q)) ↔ ∃ n : Nat, q = n / 1000000 := by
  constructor
  · intro h
    have := h (.num neg (fmtF q)) rfl
    simp only [leaf, decimal_fmtF, Option.map_some, Option.some.injEq, Leaf.float.injEq, true_and] at this
    exact ⟨micros q, this.symm⟩
  · rintro ⟨n, rfl⟩ c hc
    exact leaf_ok .float _ c ⟨n, rfl⟩ hc

/-- C100. Any finite number is read as a nearest multiple of 10⁻⁶, of two as the even one. -/
theorem C100_nearest (q : Rat) (hq : 0 ≤ q) : ∃ n : Nat, decimal (fmtF q) = some ((n : Rat) / 1000000) ∧ |(n : Rat) - q * 1000000| ≤ 1 / 2 ∧
    (|(n : Rat) - q * 1000000| = 1 / 2 → n % 2 = 0) :=
  ⟨micros q, decimal_fmtF q, micros_nearest q hq⟩

example : micros (1 / 8000000) = 0 ∧ micros (3 / 2000000) = 2 ∧ micros (7 / 8000000) = 1 := by decide +kernel

/-! ## Example -/

namespace Demo

/-- Message types: one with all kinds of fields. -/
abbrev N := Unit
def fInt : Fd N := ⟨1, .plain ['i'], .single, .int⟩
def fList : Fd N := ⟨2, .plain ['l'], .list, .enum [(['A'], 0), (['B'], 7)]⟩
def fMap : Fd N := ⟨3, .plain ['m'], .map .str false, .msg ()⟩
def fExt : Fd N := ⟨100, .ext [['p'], ['x']], .single, .float⟩

def pk : QName := [['p']]

/-- Names. -/
def schema : Schema N where
  field _ n :=
    match n with
    | .plain s => if s = ['i'] then some fInt else if s = ['l'] then some fList else if s = ['m'] then some fMap else none
    | .ext r => if r.segs = [['x']] ∨ r.segs = [['p'], ['x']] then some fExt else none
    | .any _ _ => none
  anyType _ _ := some ()
  option ps :=
    match ps with
    | [.plain s] => if s = ['i'] then some fInt else if s = ['l'] then some fList else if s = ['m'] then some fMap else none
    | [.ext r] => if r.segs = [['x']] ∨ r.segs = [['p'], ['x']] then some fExt else none
    | _ => none

def inner : Flds N := .cons fInt (.one (.leaf (.int (-5)))) (.cons fExt (.one (.leaf (.float true (3 / 2)))) .nil)

/-- `option i = 4; option l = B; option l = A; option m = {value: {}}; option m = {key: "k", value: {i: -5, [x]: -1.500000}};` -/
def message : Flds N :=
  .cons fInt (.one (.leaf (.int 4)))
    (.cons fList (.list (.cons (.leaf (.enum 7)) (.cons (.leaf (.enum 0)) .nil)))
      (.cons fMap (.map (.cons (.str []) (.msg .nil) (.cons (.str [107]) (.msg inner) .nil))) .nil))

/-- `Range` backwards. -/
def backwards : Ranging := ⟨List.reverse, List.reverse⟩

theorem backwards_ok : backwards.Ok := ⟨List.reverse_perm, List.reverse_perm⟩

theorem litRef (r : Ref) (h : Printer.LitRefMeans pk r [['p'], ['x']]) : r.segs = [['x']] ∨ r.segs = [['p'], ['x']] := by
  rcases h with ⟨_, h⟩ | ⟨_, _, h | h⟩
  · exact Or.inr h
  · exact Or.inr h.symm
  · simp only [pk, List.singleton_append, List.cons.injEq, true_and] at h
    exact Or.inl h.symm

theorem ext_name (n : CName) (h : (LName.ext [['p'], ['x']]).Means pk n) : schema.field () n = some fExt := by
  obtain ⟨r, rfl, hr⟩ := h
  simp only [schema]
  rw [if_pos (litRef r hr)]

theorem inner_ok : Flds.Ok schema pk () inner := by
  simp only [inner, Flds.Ok, FVal.Ok, Val.Ok, Flds.Above, and_true]
  refine ⟨?_, ⟨rfl, trivial⟩, by decide, ?_, rfl, 1500000, by norm_num⟩
  · rintro n rfl; rfl
  · exact ext_name

theorem message_ok : OptionsOk schema ⟨pk, pk, false⟩ message := by
  simp only [message, OptionsOk, FVal.Ok, Val.Ok, Vals.Ok, Ents.Ok, Flds.Above, Ents.Above, FVal.Known, Vals.toList, Ents.toList, and_true]
  refine ⟨?_, ⟨rfl, trivial⟩, trivial, ⟨by decide, by decide⟩, ?_, ⟨rfl, by simp, ?_, ?_⟩, ?_, by decide, ?_,
    ⟨.str, false, rfl, by simp, trivial, trivial, ⟨(), rfl, trivial⟩, by decide, trivial, (), rfl, inner_ok⟩, ?_⟩
  · rintro ps rfl; rfl
  · rintro ps rfl; rfl
  · show List.Nodup _; decide
  · show List.Nodup _; decide
  · intro v hv
    simp only [List.mem_cons, List.not_mem_nil, or_false] at hv
    rcases hv with rfl | rfl <;> exact ⟨_, rfl, by decide⟩
  · rintro ps rfl; rfl
  · intro v hv
    simp only [List.mem_cons, List.not_mem_nil, or_false] at hv
    rcases hv with rfl | rfl <;> trivial

/-- The options that are printed: groups, in which the entry with the empty key has only a value. -/
example : (extractOptions backwards message).map Prod.fst = [1, 2, 3] ∧ (extractOptions backwards message).map (fun g => g.2.length) = [1, 2, 2] := by
  constructor <;> decide +kernel

/-- Whatever settings they are read as, the message is `message`. -/
example (ds : List Setting) (h : Opts.Mean ⟨pk, pk, false⟩ (extractOptions backwards message) ds) : interpret schema ds = some message :=
  C100_options_partial schema _ backwards backwards_ok message message_ok ds h

/-! ### A file -/

def file : Printer.File := { syn := .proto3, package := pk, opts := extractOptions backwards message }

theorem printed : extractOptions backwards message =
    [(1, [⟨.plain ['i'], some (.scalar (.int 4))⟩]),
     (2, [⟨.plain ['l'], some (.scalar (.enum (some ['B']) 7))⟩, ⟨.plain ['l'], some (.scalar (.enum (some ['A']) 0))⟩]),
     (3, [⟨.plain ['m'], some (.msg (.fields (.cons (.plain valueName) (.msg (.fields .nil)) .nil)))⟩,
       ⟨.plain ['m'], some (.msg (.fields (.cons (.plain keyName) (.scalar (.str [107]))
         (.cons (.plain valueName) (.msg (.fields (.cons (.plain ['i']) (.scalar (.int (-5)))
           (.cons (.ext [['p'], ['x']]) (.scalar (.float (.finite true (fmtF (3 / 2))))) .nil)))) .nil))))⟩])] := rfl

theorem number : Printer.Number (fmtF (3 / 2)) := by
  have h : fmtF (3 / 2) = ['1', '.', '5', '0', '0', '0', '0', '0'] := by
    have e : (3 / 2 : Rat) = (1500000 : Nat) / 1000000 := by norm_num
    rw [fmtF, e, micros_eq]
    simp [pad6, dec, digitChar]
  rw [h]
  exact ⟨by decide, by decide⟩

theorem ident (s : Str) (h : match s with | [] => False | c :: s => Lexer.letter c = true ∧ ∀ d ∈ s, Lexer.letter d = true) : Printer.Ident s := by
  cases s with
  | nil => exact h
  | cons c s => exact ⟨h.1, fun d hd => Or.inl (h.2 d hd)⟩

theorem file_ok : file.Ok where
  syn := by decide
  package := by intro s hs; rw [List.mem_singleton.1 hs]; exact Printer.ident_one (by decide)
  imports := by simp [file]
  distinct := by simp [file]
  opts := by
    have hk := ident keyName ⟨by decide, by decide⟩
    have hv := ident valueName ⟨by decide, by decide⟩
    have hi : ∀ c : Char, Lexer.letter c = true → Printer.Ident [c] := fun c h => ident [c] ⟨h, by simp⟩
    show Printer.Opts.Ok (extractOptions backwards message)
    rw [printed]
    refine ⟨?_, by decide⟩
    intro g hg
    simp only [List.mem_cons, List.not_mem_nil, or_false] at hg
    rcases hg with rfl | rfl | rfl
    · refine ⟨by simp, ?_⟩
      intro o ho
      rw [List.mem_singleton.1 ho]
      exact ⟨hi _ (by decide), _, rfl, trivial⟩
    · refine ⟨by simp, ?_⟩
      intro o ho
      simp only [List.mem_cons, List.not_mem_nil, or_false] at ho
      rcases ho with rfl | rfl <;> exact ⟨hi _ (by decide), _, rfl, hi _ (by decide)⟩
    · refine ⟨by simp, ?_⟩
      intro o ho
      simp only [List.mem_cons, List.not_mem_nil, or_false] at ho
      rcases ho with rfl | rfl
      · refine ⟨hi _ (by decide), _, rfl, ?_⟩
        simp [OVal.Ok, MLit.Ok, Lit.Ok, LFields.Ok, LName.Ok, hv]
      · refine ⟨hi _ (by decide), _, rfl, ?_⟩
        simp only [OVal.Ok, MLit.Ok, Lit.Ok, LFields.Ok, LName.Ok, SVal.Ok, and_true]
        exact ⟨hk, ⟨by decide, by decide⟩, hv, hi _ (by decide), trivial, ⟨by simp, by
          intro s hs
          simp only [List.mem_cons, List.not_mem_nil, or_false] at hs
          rcases hs with rfl | rfl <;> exact hi _ (by decide)⟩, number⟩
  msgs := by simp [file, Printer.Msg.AllOk]
  enums := by simp [file]
  services := by simp [file]
  exts := by simp [file]

/-- The text of the file. -/
example : ∃ out ds, Printer.print Printer.cfg Printer.si0 file = some out ∧ Lexer.lex out = Decl.toksAll ds ∧
    interpret schema (ds.flatMap Printer.asOption) = some message :=
  C100_file_partial schema Printer.cfg Printer.si0 file Printer.env_sample file_ok (Or.inl rfl) backwards backwards_ok message message_ok rfl

end Demo

/-! ## Violations -/

/-- C100. An option whose enum value is not known, for example from a newer version of the enum, is not printed: the settings give an empty
message. The same holds for elements of lists and values of maps. -/
theorem C100_enum_violated (R : Ranging) :
    let fd : Fd Unit := ⟨1, .plain ['e'], .single, .enum [(['A'], 0)]⟩
    let fl : Fd Unit := ⟨2, .plain ['l'], .list, .enum [(['A'], 0)]⟩
    extractOptions R (.cons fd (.one (.leaf (.enum 1))) .nil) = [] ∧
      (∀ a ds, Opts.Mean a (extractOptions R (.cons fd (.one (.leaf (.enum 1))) .nil)) ds → interpret Demo.schema ds = some .nil) ∧
      extractOptions R (.cons fl (.list (.cons (.leaf (.enum 1)) (.cons (.leaf (.enum 0)) .nil))) .nil) =
        extractOptions R (.cons fl (.list (.cons (.leaf (.enum 0)) .nil)) .nil) := by
  refine ⟨rfl, ?_, rfl⟩
  rintro a ds ⟨l, hl, hds⟩
  obtain rfl := hl.eq_nil
  obtain rfl := List.forall₂_nil_left_iff.mp hds
  rfl

/-- C100. The number 10⁻⁷ is printed as `0.000000` and read as 0. -/
theorem C100_float_violated :
    (sval (.float : Ty Unit) (.float false (1 / 10000000))).Means (.num false "0.000000".toList) ∧
      leaf (.float : Ty Unit) (.num false "0.000000".toList) = some (.float false 0) := by
  have h : micros (1 / 10000000) = 0 := by decide +kernel
  have ht : fmtF (1 / 10000000) = "0.000000".toList := by
    rw [fmtF, h]; simp [pad6, dec, digitChar]
  refine ⟨by simp only [sval, SVal.Means, ht], ?_⟩
  rw [← ht, leaf, decimal_fmtF, h]
  simp

/-- C100. Options that are unknown fields of the options message, for example because the extension was not known when the descriptor was made,
are not printed, although they are parsed with the types of the file and its imports: the parsed message is a copy that is not used. -/
theorem C100_unknown_violated :
    let parse : Bytes → Option (Flds Unit) := fun b => if b = [8, 4] then some (.cons Demo.fInt (.one (.leaf (.int 4))) .nil) else none
    let merge : Flds Unit → Flds Unit → Flds Unit := fun _ other => other
    let m : Message Unit := ⟨.nil, [8, 4]⟩
    ∀ R, printedOptions R parse merge m = [] ∧
      extractOptions R (reparseUnknown parse merge m).known = [(1, [⟨.plain ['i'], some (.scalar (.int 4))⟩])] := by
  intro parse merge m R
  exact ⟨rfl, rfl⟩

end Verif.OptionValues
