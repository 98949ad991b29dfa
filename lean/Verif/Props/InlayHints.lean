import Verif.Lemmas.InlayHints
import Mathlib.Data.List.Forall2
/-!
# C99: inlay hints and document links show what imports and extensions stand for
-/
namespace Verif.InlayHints
open Verif.QuickFix (posAfter sourcePosAfter applyEdit Fits toPosition toPosition_sourcePosAfter)
open Verif.Documents (Pos)

variable {L M : Type}

/-- **C99** (imports): hints are given for exactly the complete imports that stand for a file with another path than the one written, in
the order of the text; each shows the path, and accepting it writes the path between the quotation marks and changes nothing else. -/
theorem C99_import (d content : Str) (sites : List Site) (imports : List Import) (paths deps : List Str)
    (hi : imports.filter (·.complete) = sites.map Site.import) (hs : ∀ s ∈ sites, s.content = content ∧ s.q ≠ '\n' ∧ s.q' ≠ '\n') (hf : Fits content)
    (hl : paths.length = sites.length) (hd : Deps d (sites.map (·.path)) paths deps) :
    ∃ hints : List (Hint L), computeImportHints d (some (imports, deps)) = .ok hints ∧
      List.Forall₂ (fun x h => HintFor content x.1 x.2 h ∧ h.location = none) ((sites.zip paths).filter fun x => decide (x.2 ≠ x.1.path)) hints := by
  unfold computeImportHints
  simp only [withPaths_eq sites hi hl hd]
  refine ⟨_, rfl, ?_⟩
  clear hi hd
  induction sites generalizing paths with
  | nil => simp
  | cons s t ih =>
    cases paths with
    | nil => simp at hl
    | cons p ps =>
      have h1 := hs s (by simp)
      have h2 := s.hintFor (L := L) h1.2.1 h1.2.2 (by rw [h1.1]; exact hf) p
      have h3 := ih ps (fun x hx => hs x (by simp [hx])) (by simpa using hl)
      simp only [List.map_cons, List.zip_cons_cons, List.filterMap_cons]
      by_cases he : p = s.path
      · rw [if_pos he] at h2
        rw [h2, List.filter_cons_of_neg (by simp [he])]
        exact h3
      · rw [if_neg he] at h2
        obtain ⟨h, h4, h5, h6⟩ := h2
        rw [h4, List.filter_cons_of_pos (by simp [he])]
        exact .cons ⟨h1.1 ▸ h5, h6⟩ h3

/-- **C99** (imports, what is seen): if the literal is written without escapes, the text shown with a hint inside the literal is the text with
the path of the file. -/
theorem C99_shown (s : Site) (hb : s.body = s.path) (p : Str) (h : Hint L) (hh : HintFor s.content s p h) (hp : s.path <:+ p) :
    applyEdit s.content ⟨h.pos, h.pos, h.label⟩ = some (s.with p) := by
  obtain ⟨h1, h2, _⟩ := hh.inside hp
  have e : s.content = (s.above ++ [s.q]) ++ (s.body ++ s.q' :: s.rest) := by simp [Site.content, Site.literal]
  rw [h1, e, QuickFix.applyEdit_insert, hb, ← h2]
  simp [Site.with]

/-- **C99** (imports, accepted): after accepting a hint, the import statement has the path as its string (Partial: the quotation marks must be
the same, and the path must not have them, a backslash or a line break in it, see `C99_parts_violated` and `C99_quote_violated`). -/
theorem C99_accepted_partial (s : Site) (hq : s.q' = s.q) (p : Str) (hp : s.q ∉ p ∧ '\\' ∉ p ∧ '\n' ∉ p) (h : Hint L) (hh : HintFor s.content s p h) :
    ∃ e t, h.edits = [e] ∧ applyEdit s.content e = some (s.above ++ s.q :: t) ∧ readPlain s.q t = some (p, s.rest) := by
  obtain ⟨e, h1, h2⟩ := hh.edit
  refine ⟨e, p ++ s.q :: s.rest, h1, ?_, readPlain_append _ _ _ hp⟩
  rw [h2]
  simp [Site.with, hq]

/-- **C99** (extensions): if the requested range begins and ends on tokens, hints are given for exactly the references in parentheses to
extension fields of a message type, not repeated, that touch the range; the hint is the name of the message, shown before the closing
parenthesis, with the place of its definition. (Partial: the range must begin and end on tokens, see `C99_blank_violated`.) -/
theorem C99_extension_partial (W : Messages M L) (doc : Linked M) (a b : Str) (x y : Str) (hc : doc.content = a ++ x) (hc' : doc.content = b ++ y)
    (ho : Ordered doc.toks) (ha : OnToken doc.toks a.length) (hb : OnToken doc.toks b.length)
    (hr : ∀ r ∈ doc.refs, ∃ i j : Nat, r.first = i ∧ r.last = j ∧ i < doc.toks.length ∧ j < doc.toks.length)
    (hp : ∀ r ∈ doc.refs, ∀ p, r.close = some p → ∃ u v, doc.content = u ++ ')' :: v ∧ p = sourcePosAfter u) (hf : Fits doc.content) :
    ∃ shown : List (Ref M), shown.Sublist doc.refs ∧ (∀ r, r ∈ shown ↔ r ∈ doc.refs ∧ Extension r ∧ Touches doc.toks a.length b.length r) ∧
      List.Forall₂ (fun r (h : Hint L) => h.label = W.name r.message ∧ h.location = W.definition r.message ∧ h.paddingLeft = true ∧ h.edits = [] ∧
          ∃ u v, doc.content = u ++ ')' :: v ∧ r.close = some (sourcePosAfter u) ∧ h.pos = posAfter u)
        shown (computeMessageLiteralHints W (some doc) (posAfter a, posAfter b)) := by
  have hro : rangeOffsets doc.content (posAfter a, posAfter b) = (a.length, b.length) := by
    unfold rangeOffsets
    have h1 : ImportComplete.mapperOffset doc.content (posAfter a) = some a.length := by rw [hc]; exact ImportComplete.mapperOffset_posAfter a x
    have h2 : ImportComplete.mapperOffset doc.content (posAfter b) = some b.length := by rw [hc']; exact ImportComplete.mapperOffset_posAfter b y
    simp only [h1, h2]
  unfold computeMessageLiteralHints
  simp only [hro]
  have key : ∀ r ∈ doc.refs, (¬ (Extension r ∧ Touches doc.toks a.length b.length r) ∧
        extensionHint W (tokenAt doc.toks a.length) (tokenAt doc.toks b.length) r = none) ∨
      ((Extension r ∧ Touches doc.toks a.length b.length r) ∧ ∃ h, extensionHint W (tokenAt doc.toks a.length) (tokenAt doc.toks b.length) r = some h ∧
        h.label = W.name r.message ∧ h.location = W.definition r.message ∧ h.paddingLeft = true ∧ h.edits = [] ∧
          ∃ u v, doc.content = u ++ ')' :: v ∧ r.close = some (sourcePosAfter u) ∧ h.pos = posAfter u) := by
    intro r hm
    have ht := touches_iff ho ha hb r (hr r hm)
    unfold extensionHint
    by_cases h1 : r.reference = true
    · rw [if_pos h1]
      by_cases h2 : r.first > tokenAt doc.toks b.length ∨ r.last < tokenAt doc.toks a.length
      · rw [if_pos h2]
        exact .inl ⟨fun h => ht.1 h.2 h2, rfl⟩
      · rw [if_neg h2]
        by_cases h3 : r.anyType = true
        · rw [if_pos h3]
          exact .inl ⟨fun h => by simp [Extension, h3] at h, rfl⟩
        · rw [if_neg h3]
          cases h4 : r.close with
          | none => exact .inl ⟨fun h => by simp [Extension, h4] at h, rfl⟩
          | some p =>
            simp only
            by_cases h5 : (r.isMessage && !r.isMap && !r.isList) = true
            · rw [if_pos h5]
              simp at h5
              refine .inr ⟨⟨⟨h1, by simpa using h3, by simp [h4], h5.1.1, h5.1.2, h5.2⟩, ht.2 h2⟩, _, rfl, rfl, rfl, rfl, rfl, ?_⟩
              obtain ⟨u, v, hu, rfl⟩ := hp r hm p h4
              refine ⟨u, v, hu, rfl, ?_⟩
              exact toPosition_sourcePosAfter u (by rw [hu] at hf; exact hf.left)
            · rw [if_neg h5]
              refine .inl ⟨fun h => h5 ?_, rfl⟩
              obtain ⟨_, _, _, e1, e2, e3⟩ := h.1
              simp [e1, e2, e3]
    · rw [if_neg h1]
      exact .inl ⟨fun h => h1 h.1.1, rfl⟩
  clear hr hp ho ha hb hro
  generalize doc.refs = refs at key
  induction refs with
  | nil => exact ⟨[], .slnil, by simp, by simp⟩
  | cons r t ih =>
    obtain ⟨sh, g1, g2, g3⟩ := ih (fun r hr => key r (by simp [hr]))
    rcases key r (by simp) with ⟨k1, k2⟩ | ⟨k1, h, k2, k3⟩
    · refine ⟨sh, g1.cons r, ?_, ?_⟩
      · intro r'
        rw [g2]
        constructor
        · rintro ⟨e1, e2⟩
          exact ⟨by simp [e1], e2⟩
        · rintro ⟨e1, e2⟩
          rcases List.mem_cons.1 e1 with rfl | e1
          · exact absurd e2 k1
          · exact ⟨e1, e2⟩
      · rw [List.filterMap_cons, k2]
        exact g3
    · refine ⟨r :: sh, g1.cons_cons r, ?_, ?_⟩
      · intro r'
        rw [List.mem_cons, g2, List.mem_cons]
        constructor
        · rintro (rfl | ⟨e1, e2⟩)
          · exact ⟨.inl rfl, k1⟩
          · exact ⟨.inr e1, e2⟩
        · rintro ⟨rfl | e1, e2⟩
          · exact .inl rfl
          · exact .inr ⟨e1, e2⟩
      · rw [List.filterMap_cons, k2]
        exact .cons k3 g3

/-- **C99** (settings): a document that is well formed gets the hints for extensions unless they are switched off, followed by those for
imports unless they are switched off. -/
theorem C99_settings (W : Messages M L) (d : Str) (s : Settings) (linked : Option (Linked M)) (parsed : Option (List Import × List Str)) (rng : Pos × Pos)
    (hints : List (Hint L)) :
    computeInlayHints W d (some true) s linked parsed rng = .ok hints ↔
      ∃ e i, hints = e ++ i ∧ (if s.extensionTypes = some false then e = [] else e = computeMessageLiteralHints W linked rng) ∧
        (if s.imports = some false then i = [] else computeImportHints d parsed = .ok i) := by
  obtain ⟨a, b⟩ := s
  have ha : (Settings.mk a b).getExtensionTypes = !decide (a = some false) := by rcases a with _ | _ | _ <;> rfl
  have hb : (Settings.mk a b).getImports = !decide (b = some false) := by rcases b with _ | _ | _ <;> rfl
  unfold computeInlayHints
  rw [if_pos rfl, ha, hb]
  simp only
  by_cases h1 : a = some false <;> by_cases h2 : b = some false <;> simp only [h1, h2, decide_true, decide_false, Bool.not_true, Bool.not_false,
    if_true, if_false, Bool.false_eq_true]
  · constructor
    · intro h; cases h; exact ⟨[], [], rfl, rfl, rfl⟩
    · rintro ⟨e, i, rfl, rfl, rfl⟩; rfl
  · cases hc : computeImportHints (L := L) d parsed with
    | ok l =>
      constructor
      · intro h; cases h; exact ⟨[], l, rfl, rfl, rfl⟩
      · rintro ⟨e, i, rfl, rfl, h⟩; cases h; rfl
    | error => simp
    | panic => simp
  · constructor
    · intro h; cases h; exact ⟨_, [], by simp, rfl, rfl⟩
    · rintro ⟨e, i, rfl, rfl, rfl⟩; simp
  · cases hc : computeImportHints (L := L) d parsed with
    | ok l =>
      constructor
      · intro h; cases h; exact ⟨_, l, rfl, rfl, rfl⟩
      · rintro ⟨e, i, rfl, rfl, h⟩; cases h; rfl
    | error => simp
    | panic => simp

/-- **C99** (errors): for documents that are not well formed, or not known, there is an error and no hints. -/
theorem C99_error (W : Messages M L) (d : Str) (w : Option Bool) (hw : w ≠ some true) (s : Settings) (linked : Option (Linked M))
    (parsed : Option (List Import × List Str)) (rng : Pos × Pos) : computeInlayHints W d w s linked parsed rng = .error := if_neg hw

/-- **C99** (links): the links of a document are those of the complete imports whose file is found and has a URI, in the order of the text;
each covers the literal of its statement and leads to that URI. -/
theorem C99_links (d content : Str) (find uri : Str → Option Str) (sites : List Site) (imports : List Import) (paths deps : List Str)
    (hi : imports.filter (·.complete) = sites.map Site.import) (hs : ∀ s ∈ sites, s.content = content) (hf : Fits content)
    (hl : paths.length = sites.length) (hd : Deps d (sites.map (·.path)) paths deps) :
    ∃ links, computeDocumentLinks d find uri (some (imports, deps)) = .ok links ∧
      List.Forall₂ (fun x (l : Link) => l.start = posAfter x.1.above ∧ l.stop = posAfter (x.1.above ++ x.1.literal) ∧
          ∃ resolved, find x.2 = some resolved ∧ uri resolved = some l.target)
        ((sites.zip paths).filter fun x => ((find x.2).bind uri).isSome) links := by
  unfold computeDocumentLinks
  simp only [withPaths_eq sites hi hl hd]
  refine ⟨_, rfl, ?_⟩
  clear hi hd
  induction sites generalizing paths with
  | nil => simp
  | cons s t ih =>
    cases paths with
    | nil => simp at hl
    | cons p ps =>
      have h1 := hs s (by simp)
      have h3 := ih ps (fun x hx => hs x (by simp [hx])) (by simpa using hl)
      simp only [List.map_cons, List.zip_cons_cons, List.filterMap_cons]
      have hfs : Fits (s.above ++ s.literal ++ s.rest) := by
        show Fits s.content
        rw [h1]; exact hf
      unfold link
      cases g1 : find p with
      | none => rw [List.filter_cons_of_neg (by simp [g1])]; exact h3
      | some r =>
        cases g2 : uri r with
        | none => simp only [g2]; rw [List.filter_cons_of_neg (by simp [g1, g2])]; exact h3
        | some u =>
          simp only [g2]
          rw [List.filter_cons_of_pos (by simp [g1, g2])]
          exact .cons ⟨toPosition_sourcePosAfter _ hfs.left.left, toPosition_sourcePosAfter _ hfs.left, r, g1, g2⟩ h3

/-- **C99** (links, errors): a document that is not known has an error instead of links, and one whose statements cannot be read has no
import hints. -/
theorem C99_unknown (d : Str) (find uri : Str → Option Str) :
    computeDocumentLinks d find uri none = .error ∧ computeImportHints (L := L) d none = .ok [] := ⟨rfl, rfl⟩

/-! ## Violations -/

/-- If the requested range ends on white space, there are no hints for extensions at all: the token there is `TokenError`, which is less
than every token. (The extraction of fields handles this case, `/repo/pkg/lsp/refactor.go:451-466`.) -/
theorem C99_blank_violated (W : Messages M L) (doc : Linked M) (rng : Pos × Pos)
    (hb : ¬ OnToken doc.toks (rangeOffsets doc.content rng).2) (hr : ∀ r ∈ doc.refs, 0 ≤ r.first) :
    computeMessageLiteralHints W (some doc) rng = [] := by
  unfold computeMessageLiteralHints
  simp only [tokenAt_off hb]
  rw [List.filterMap_eq_nil_iff]
  intro r h
  have := hr r h
  unfold extensionHint
  split
  · rw [if_pos (by omega)]
  · rfl

/-- A range that is not in the text (such as one that ends behind the last line) is taken for the beginning of the text: only what touches
the first token gets hints. -/
theorem C99_outside_violated (W : Messages M L) (doc : Linked M) (rng : Pos × Pos)
    (h : ImportComplete.mapperOffset doc.content rng.1 = none ∨ ImportComplete.mapperOffset doc.content rng.2 = none) :
    computeMessageLiteralHints W (some doc) rng = computeMessageLiteralHints W (some doc) (⟨0, 0⟩, ⟨0, 0⟩) := by
  have h0 : ImportComplete.mapperOffset doc.content ⟨0, 0⟩ = some 0 := ImportComplete.mapperOffset_posAfter [] doc.content
  have h1 : rangeOffsets doc.content rng = (0, 0) := by
    unfold rangeOffsets
    rcases h with h | h
    · rw [h]
    · rw [h]; cases ImportComplete.mapperOffset doc.content rng.1 <;> rfl
  have h2 : rangeOffsets doc.content (⟨0, 0⟩, ⟨0, 0⟩) = (0, 0) := by
    unfold rangeOffsets
    simp only [h0]
  unfold computeMessageLiteralHints
  simp only [h1, h2]

/-- The path is written into the literal as it is: a quotation mark in the path ends the literal. -/
theorem C99_quote_violated : ∃ (s : Site) (p : Str) (e : QuickFix.Edit) (t : Str),
    s.q = '"' ∧ s.q' = '"' ∧ s.path <:+ p ∧ (importHint (L := Unit) s.import p).map (·.edits) = some [e] ∧
      applyEdit s.content e = some (s.above ++ s.q :: t) ∧ readPlain s.q t = some (['a'], ['b', '.', 'p', '"', ';']) :=
  ⟨⟨[], '"', ['.', 'p'], '"', [';'], ['.', 'p']⟩, ['a', '"', 'b', '.', 'p'], _, ['a', '"', 'b', '.', 'p', '"', ';'], rfl, rfl, by decide, rfl, by decide, by decide⟩

/-- A string may be written in parts with different quotation marks: `import "a." 'p';`. Accepting the hint leaves the first mark in front and
the last one behind, and the literal does not end. -/
theorem C99_parts_violated : ∃ (s : Site) (p : Str) (e : QuickFix.Edit) (t : Str),
    s.content = "\"a.\" 'p';".toList ∧ s.path = "a.p".toList ∧ s.path <:+ p ∧ (importHint (L := Unit) s.import p).map (·.edits) = some [e] ∧
      applyEdit s.content e = some ('"' :: t) ∧ t = "d/a.p';".toList ∧ readPlain '"' t = none :=
  ⟨⟨[], '"', ['a', '.', '"', ' ', '\'', 'p'], '\'', [';'], ['a', '.', 'p']⟩, ['d', '/', 'a', '.', 'p'], _, ['d', '/', 'a', '.', 'p', '\'', ';'],
    by decide, by decide, by decide, rfl, by decide, by decide, by decide⟩

/-- For a string that is written in parts on several lines, a hint that is to be shown behind the statement is shown in the first line, at
the column of the last. -/
theorem C99_line_violated : ∃ (s : Site) (p : Str) (h : Hint Unit), s.content = "\"abcdefgh\"\n\"i\";".toList ∧ ¬ s.path <:+ p ∧
    importHint s.import p = some h ∧ h.pos = ⟨0, 6⟩ ∧ (posAfter (s.above ++ s.literal)).line = 1 :=
  ⟨⟨[], '"', "abcdefgh\"\n\"i".toList, '"', [';'], "abcdefghi".toList⟩, ['z'], _, by decide, by decide, rfl, by decide, by decide⟩

/-- The requested range is not taken into account for imports: here it is the first line, and the hint is for line 8. -/
theorem C99_range_violated : ∃ (i : Import) (h : Hint Unit), i.start.line = 8 ∧
    computeInlayHints (M := Unit) ⟨fun _ => [], fun _ => none⟩ ['d'] (some true) ⟨none, none⟩ none (some ([i], [['b']])) (⟨0, 0⟩, ⟨0, 9⟩) = .ok [h] ∧ h.pos.line = 7 :=
  ⟨⟨['a'], ⟨8, 8⟩, ⟨8, 11⟩, true⟩, _, rfl, rfl, by decide⟩

/-- If an import is written in another way but stands for descriptor.proto, the dependency is taken for one that the compiler has added:
the list of dependencies is too short, and the request panics. -/
theorem C99_descriptor_violated (d : Str) (i : Import) (hc : i.complete = true) (hn : i.path ≠ d) :
    computeImportHints (L := L) d (some ([i], [d])) = .panic ∧ ∀ find uri, computeDocumentLinks d find uri (some ([i], [d])) = .panic := by
  have : withPaths d [i] [d] = none := by
    unfold withPaths
    rw [List.filter_cons_of_pos (by simpa using hc)]
    simp [Links.request, Links.dependencyPaths, hn.symm, Links.findIndex, Links.removeAt, Links.pathsFor]
  exact ⟨by unfold computeImportHints; simp only [this], fun _ _ => by unfold computeDocumentLinks; simp only [this]⟩

/-! ## Examples -/

namespace Demo

/-- `import "a.p";` and `import 'b';` in the next line. -/
def text : Str := "import \"a.p\";\nimport 'b';".toList
def site1 : Site := ⟨"import ".toList, '"', "a.p".toList, '"', ";\nimport 'b';".toList, "a.p".toList⟩
def site2 : Site := ⟨"import \"a.p\";\nimport ".toList, '\'', "b".toList, '\'', ";".toList, "b".toList⟩

def hints : List (Hint Unit) :=
  [⟨⟨0, 8⟩, "d/".toList, false, some "Import resolves to d/a.p".toList, [⟨⟨0, 8⟩, ⟨0, 11⟩, "d/a.p".toList⟩], none⟩,
   ⟨⟨1, 13⟩, "c".toList, true, some "Import resolves to c".toList, [⟨⟨1, 8⟩, ⟨1, 9⟩, "c".toList⟩], none⟩]

/-- The compiler has added the dependency `D`. -/
example : computeImportHints (L := Unit) "D".toList (some ([site1.import, ⟨[], ⟨9, 9⟩, ⟨9, 9⟩, false⟩, site2.import],
    ["d/a.p".toList, "D".toList, "c".toList])) = .ok hints := by decide +kernel

example : site1.content = text ∧ site2.content = text := by decide +kernel

example : computeDocumentLinks "D".toList (fun p => if p = "c".toList then none else some p) (fun p => some ("file:///".toList ++ p))
    (some ([site1.import, site2.import], ["d/a.p".toList, "D".toList, "c".toList])) =
      .ok [⟨⟨0, 7⟩, ⟨0, 12⟩, "file:///d/a.p".toList⟩] := by decide +kernel

/-- The hypotheses of `C99_import`. -/
example : Deps "D".toList ([site1, site2].map (·.path)) ["d/a.p".toList, "c".toList] ["d/a.p".toList, "D".toList, "c".toList] :=
  .added ["d/a.p".toList] ["c".toList] (by decide +kernel) rfl (by decide +kernel)

/-- The options `(x).y` and `(z)`. -/
def doc : Linked Nat := ⟨"(x).y (z)".toList, [(0, 1), (1, 2), (2, 3), (3, 4), (4, 5), (6, 7), (7, 8), (8, 9)],
  [⟨true, 0, 2, false, some ⟨1, 3⟩, true, false, false, 7⟩, ⟨true, 4, 4, false, none, true, false, false, 8⟩,
   ⟨true, 5, 7, false, some ⟨1, 9⟩, true, false, false, 9⟩]⟩

def world : Messages Nat Str := ⟨fun n => if n = 7 then ['X'] else ['Z'], fun n => if n = 7 then some ['f'] else none⟩

example : computeMessageLiteralHints world (some doc) (⟨0, 1⟩, ⟨0, 8⟩) =
    [⟨⟨0, 2⟩, ['X'], true, none, [], some ['f']⟩, ⟨⟨0, 8⟩, ['Z'], true, none, [], none⟩] := by decide +kernel
example : computeMessageLiteralHints world (some doc) (⟨0, 1⟩, ⟨0, 3⟩) = [⟨⟨0, 2⟩, ['X'], true, none, [], some ['f']⟩] := by decide +kernel
/-- A range that ends at the space. -/
example : computeMessageLiteralHints world (some doc) (⟨0, 1⟩, ⟨0, 5⟩) = [] := by decide +kernel
example : ¬ OnToken doc.toks 5 := by unfold OnToken; decide +kernel
/-- A range that ends in a line that does not exist. -/
example : ImportComplete.mapperOffset doc.content ⟨7, 1⟩ = none ∧
    computeMessageLiteralHints world (some doc) (⟨0, 7⟩, ⟨7, 1⟩) = [⟨⟨0, 2⟩, ['X'], true, none, [], some ['f']⟩] := by decide +kernel
/-- The hypotheses of `C99_extension_partial`. -/
example : Ordered doc.toks ∧ OnToken doc.toks "(".toList.length ∧ OnToken doc.toks "(x).y (z".toList.length := by
  unfold Ordered OnToken; decide +kernel
example : Extension doc.refs[0] ∧ ¬ Extension doc.refs[1] := by decide +kernel

end Demo
end Verif.InlayHints
