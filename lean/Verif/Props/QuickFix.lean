import Verif.Lemmas.QuickFix
import Verif.Props.FindTypes

/-!
# C84: quick fixes for unused imports and undeclared names
-/
namespace Verif.QuickFix
open Verif.Documents (Pos offset)
open Verif.TokenCells (u32)
open Verif.FindTypes (Decl Cache State Steps LibOk Query lib)

/-! ## Unused imports -/

/-- "Remove unused import" removes exactly the lines on which the import stands: the text is
`before`, ending with a line break or empty, then the `lines` with the import, then `after`.
Missing: that nothing else is removed that stands on these lines. -/
theorem C84_remove_import_partial (before lines after : Str) (imp file : Str)
    (start stop : SourcePos) (hb : before = [] ∨ ∃ b, before = b ++ ['\n'])
    (hs : start.line = before.count '\n' + 1)
    (he : stop.line = (before ++ lines).count '\n' + 1)
    (hf : Fits (before ++ (lines ++ ['\n']))) :
    ∃ act e, codeActionsForError (.unusedImport imp) file start stop = [act] ∧
      act.kind = .organizeImports ∧ act.path = file ∧ act.preferred = true ∧ act.edits = [e] ∧
      applyEdit (before ++ (lines ++ ['\n']) ++ after) e = some (before ++ after) := by
  refine ⟨_, _, rfl, rfl, rfl, rfl, rfl, ?_⟩
  have h1 : (⟨u32 ((start.line : Int) - 1), 0⟩ : Pos) = posAfter before := by
    have hc : ((start.line : Int) - 1) = ((before.count '\n' : Nat) : Int) := by omega
    have := posAfter_le before
    unfold Fits at hf
    simp at hf
    rw [hc, u32_small _ (by have : before.count '\n' ≤ before.length := List.count_le_length; omega)]
    rcases hb with rfl | ⟨b, rfl⟩
    · rfl
    · rw [posAfter_append_nl]; simp
  have h2 : (⟨u32 (stop.line : Int), 0⟩ : Pos) = posAfter (before ++ (lines ++ ['\n'])) := by
    rw [← List.append_assoc, posAfter_append_nl, he]
    unfold Fits at hf
    have : (before ++ lines).count '\n' ≤ (before ++ lines).length := List.count_le_length
    simp only [List.length_append, List.length_cons, List.length_nil] at hf this
    rw [u32_small _ (by omega)]
  rw [h1, h2]
  exact applyEdit_delete before (lines ++ ['\n']) after

/-- `import "a";import "b";` on one line: removing the first import removes the second, too. -/
theorem C84_remove_import_violated :
    ∃ (text stmt other : Str) (start stop : SourcePos) (e : Edit),
      text = stmt ++ other ++ ['\n'] ∧ start = sourcePosAfter [] ∧ stop = sourcePosAfter stmt ∧
      other = ['i', 'm', 'p', 'o', 'r', 't', ' ', '"', 'b', '"', ';'] ∧
      (codeActionsForError (.unusedImport ['a']) [] start stop).map (·.edits) = [[e]] ∧
      applyEdit text e = some [] :=
  ⟨['i', 'm', 'p', 'o', 'r', 't', ' ', '"', 'a', '"', ';', 'i', 'm', 'p', 'o', 'r', 't', ' ', '"',
      'b', '"', ';', '\n'],
    ['i', 'm', 'p', 'o', 'r', 't', ' ', '"', 'a', '"', ';'], _, ⟨1, 1⟩, ⟨1, 12⟩,
    ⟨⟨0, 0⟩, ⟨1, 0⟩, []⟩, by decide, by decide, by decide, rfl, by decide, by decide⟩

/-- An unused import is a warning, tagged as unnecessary, and its metadata names the import. No
other error is made a warning or tagged. -/
theorem C84_unused_import (e : Err) (s : Severity) :
    (∀ imp, e = .unusedImport imp → severityForError s e = .warning ∧ unnecessary e = true ∧
      metadataForError e = some (.unusedImport imp)) ∧
    ((∀ imp, e ≠ .unusedImport imp) → severityForError s e = s ∧ unnecessary e = false ∧
      ∀ imp, metadataForError e ≠ some (.unusedImport imp)) := by
  constructor
  · rintro imp rfl; exact ⟨rfl, rfl, rfl⟩
  · intro h
    cases e with
    | unusedImport imp => exact absurd rfl (h imp)
    | undeclared n hint p l => exact ⟨rfl, rfl, fun imp h => by cases h⟩
    | other => exact ⟨rfl, rfl, fun imp h => by cases h⟩

/-- The metadata of an error name exactly the undeclared name and the hint for it; errors of other kinds have no such metadata. -/
theorem C84_metadata (e : Err) (name hint : Str) :
    metadataForError e = some (.undeclaredName name hint) ↔ ∃ path lastEnd, e = .undeclared name hint path lastEnd := by
  cases e with
  | unusedImport imp => exact ⟨fun h => (by cases h), fun ⟨_, _, h⟩ => (by cases h)⟩
  | undeclared n h p l =>
    constructor
    · intro h'
      cases h'
      exact ⟨p, l, rfl⟩
    · rintro ⟨_, _, h'⟩
      cases h'
      rfl
  | other => exact ⟨fun h => (by cases h), fun ⟨_, _, h⟩ => (by cases h)⟩

example : metadataForError (.undeclared ['A'] ['b', '.', 'A'] ['f'] ⟨1, 1⟩) = some (.undeclaredName ['A'] ['b', '.', 'A']) :=
  (C84_metadata _ _ _).2 ⟨_, _, rfl⟩

/-! ## Undeclared names -/

/-- For an undeclared name without dot, one action is offered: it inserts a message of that name
behind the last token of the file, changes nothing else, and the ranges of its command are, in
the new text, the new message and the place between its braces. -/
theorem C84_new_message (name hint path file a b : Str) (start stop : SourcePos)
    (hn : '.' ∉ name) (hl : '\n' ∉ name) (hf : Fits a) :
    ∃ act e, codeActionsForError (.undeclared name hint path (sourcePosAfter a)) file start stop
        = [act] ∧ act.kind = .quickFix ∧ act.path = path ∧ act.preferred = false ∧
      act.edits = [e] ∧
      let header := ['m', 'e', 's', 's', 'a', 'g', 'e', ' '] ++ name ++ [' ', '{', '\n', ' ', ' ']
      let text := a ++ ['\n', '\n'] ++ header ++ ['\n', '}'] ++ b
      applyEdit (a ++ b) e = some text ∧
      (∃ r, act.reveal = some r ∧
        offset text r.1.line r.1.char = some (a ++ ['\n', '\n']).length ∧
        offset text r.2.line r.2.char = some (a ++ ['\n', '\n'] ++ header ++ ['\n', '}']).length) ∧
      (∃ r, act.select = some r ∧ r.1 = r.2 ∧
        offset text r.1.line r.1.char = some (a ++ ['\n', '\n'] ++ header).length) := by
  have hc : name.contains '.' = false := by simpa using hn
  have hpos := toPosition_sourcePosAfter a hf
  have hle := posAfter_le a
  have hcount : (posAfter a).line = a.count '\n' := rfl
  unfold Fits at hf
  have ha : codeActionsForError (.undeclared name hint path (sourcePosAfter a)) file start stop =
      [{ kind := .quickFix
         path := path
         preferred := false
         edits := [⟨posAfter a, posAfter a, newMessage name⟩]
         reveal := some (⟨a.count '\n' + 2, 0⟩, ⟨a.count '\n' + 4, 1⟩)
         select := some (⟨a.count '\n' + 3, 2⟩, ⟨a.count '\n' + 3, 2⟩) }] := by
    simp only [codeActionsForError, hc, Bool.false_eq_true, if_false]
    have e1 : (⟨u32 (((sourcePosAfter a).line : Int) - 1), u32 (((sourcePosAfter a).col : Int) - 1)⟩ : Pos)
        = posAfter a := hpos
    rw [e1]
    have e2 : ∀ k : Nat, k ≤ 3 → u32 (((sourcePosAfter a).line : Int) + (k : Int)) = a.count '\n' + (k + 1) := by
      intro k hk
      have : ((sourcePosAfter a).line : Int) + (k : Int) = ((a.count '\n' + (k + 1) : Nat) : Int) := by
        simp only [sourcePosAfter, hcount]; omega
      rw [this, u32_small _ (by omega)]
    have e3 : u32 (((sourcePosAfter a).line : Int) + 1) = a.count '\n' + 2 := e2 1 (by omega)
    have e4 : u32 (((sourcePosAfter a).line : Int) + 2) = a.count '\n' + 3 := e2 2 (by omega)
    have e5 : u32 (((sourcePosAfter a).line : Int) + 3) = a.count '\n' + 4 := e2 3 (by omega)
    rw [e3, e4, e5]
  refine ⟨_, _, ha, rfl, rfl, rfl, rfl, ?_, ⟨_, rfl, ?_, ?_⟩, ⟨_, rfl, rfl, ?_⟩⟩
  · rw [applyEdit_insert]
    simp [newMessage]
  · have h := offset_posAfter (a ++ ['\n', '\n'])
      (['m', 'e', 's', 's', 'a', 'g', 'e', ' '] ++ name ++ [' ', '{', '\n', ' ', ' '] ++ ['\n', '}'] ++ b)
    have hp : posAfter (a ++ ['\n', '\n']) = ⟨a.count '\n' + 2, 0⟩ := by
      rw [posAfter_append_break]; rfl
    rw [hp] at h
    simpa using h
  · have h := offset_posAfter (a ++ ['\n', '\n'] ++ (['m', 'e', 's', 's', 'a', 'g', 'e', ' '] ++ name ++
      [' ', '{', '\n', ' ', ' ']) ++ ['\n', '}']) b
    have hp : posAfter (a ++ ['\n', '\n'] ++ (['m', 'e', 's', 's', 'a', 'g', 'e', ' '] ++ name ++
      [' ', '{', '\n', ' ', ' ']) ++ ['\n', '}']) = ⟨a.count '\n' + 4, 1⟩ := by
      rw [posAfter_append_break]
      have h0 : name.count '\n' = 0 := List.count_eq_zero.mpr hl
      simp [List.count_append, h0, posAfter]
    rw [hp] at h
    exact h
  · have h := offset_posAfter (a ++ ['\n', '\n'] ++ (['m', 'e', 's', 's', 'a', 'g', 'e', ' '] ++ name ++
      [' ', '{', '\n', ' ', ' '])) (['\n', '}'] ++ b)
    have hp : posAfter (a ++ ['\n', '\n'] ++ (['m', 'e', 's', 's', 'a', 'g', 'e', ' '] ++ name ++
      [' ', '{', '\n', ' ', ' '])) = ⟨a.count '\n' + 3, 2⟩ := by
      have e : a ++ ['\n', '\n'] ++ (['m', 'e', 's', 's', 'a', 'g', 'e', ' '] ++ name ++
        [' ', '{', '\n', ' ', ' ']) = (a ++ ['\n', '\n'] ++ (['m', 'e', 's', 's', 'a', 'g', 'e', ' '] ++ name ++
        [' ', '{'])) ++ '\n' :: [' ', ' '] := by simp
      rw [e, posAfter_append_break]
      have h0 : name.count '\n' = 0 := List.count_eq_zero.mpr hl
      simp [List.count_append, h0, posAfter]
    rw [hp] at h
    simpa using h

/-- For a name with a dot, and for errors of other kinds, no action of this sort is offered. -/
theorem C84_no_new_message (name hint path file : Str) (lastEnd start stop : SourcePos)
    (hn : '.' ∈ name) :
    codeActionsForError (.undeclared name hint path lastEnd) file start stop = [] ∧
      codeActionsForError .other file start stop = [] := by
  have hc : name.contains '.' = true := by simpa using hn
  simp only [codeActionsForError, hc, if_true, and_self]

/-- The edit of an import inserts one line at the insertion point and changes nothing else. -/
theorem C84_add_import (a b path : Str) (hf : Fits a) :
    applyEdit (a ++ b) (editAddImport (sourcePosAfter a) path) =
      some (a ++ (['\n', 'i', 'm', 'p', 'o', 'r', 't', ' ', '"'] ++ path ++ ['"', ';']) ++ b) := by
  unfold editAddImport
  rw [toPosition_sourcePosAfter a hf]
  exact applyEdit_insert _ _ _

section
variable {c : Cache} {cur pkg : Str} {limit n : Nat} {t : State} {point : SourcePos}
  {search : Bool → FindTypes.File → Str → List Decl → Bool → Prop}

/-- The imports offered for a name without dot, in a file `cur` of package `pkg`: one for each
type or field in another file with a package whose full name begins with the name in the
package `pkg`, and whose last component is the name. -/
theorem C84_imports {name : Str} (hl : LibOk (importable cur) search) (hn : '.' ∉ name)
    (hne : name ≠ []) (hp : pkg.head? ≠ some '.')
    (h : Steps c (importQuery pkg name) limit search n (State.init c) t)
    (hr : t.returned = true) (hc : t.cancelled = false) (d : Decl) (e : Edit) :
    ⟨d, e⟩ ∈ imports point name t.found.all ↔
      e = editAddImport point d.path ∧ Importable d ∧ d.path ≠ cur ∧ LastComponent name d.fullName ∧
      (pkg = [] → name <+: d.fullName) ∧ (pkg ≠ [] → pkg ++ '.' :: name <+: d.fullName) ∧
      ∃ f ∈ c.files, d ∈ f.decls ∧ f.pkg ≠ [] := by
  have hq : importQuery pkg name = .qualified (Completion.append pkg name) := by
    unfold importQuery; rw [if_neg (by simpa using hn)]
  have hh : (Completion.append pkg name).head? ≠ some '.' := by
    unfold Completion.append
    split
    · cases name with
      | nil => exact absurd rfl hne
      | cons x t => simp; rintro rfl; simp at hn
    · rename_i hpk
      cases pkg with
      | nil => exact absurd rfl hpk
      | cons x t => simpa using hp
  rw [hq] at h
  unfold imports
  rw [FindTypes.C83_qualified hl hh h hr hc]
  have happ : Completion.append pkg name <+: d.fullName ↔
      ((pkg = [] → name <+: d.fullName) ∧ (pkg ≠ [] → pkg ++ '.' :: name <+: d.fullName)) := by
    unfold Completion.append
    by_cases hpk : pkg = [] <;> simp [hpk]
  simp only [List.mem_map, List.mem_filter, List.mem_flatMap, Bool.and_eq_true, decide_eq_true_eq,
    Import.mk.injEq, isMatch_undotted hn, importable_iff]
  constructor
  · rintro ⟨d', ⟨⟨f, h1, h2, ⟨h3, h4⟩, h5⟩, h6⟩, rfl, rfl⟩
    exact ⟨rfl, h4.1, h4.2, h6, (happ.mp h5).1, (happ.mp h5).2, f, h1, h2, h3⟩
  · rintro ⟨rfl, h1, h2, h3, h4, h5, f, h6, h7, h8⟩
    exact ⟨d, ⟨⟨f, h6, h7, ⟨h8, h1, h2⟩, happ.mpr ⟨h4, h5⟩⟩, h3⟩, rfl, rfl⟩

/-- The imports offered for a name `p.n` with a dot, but not at its beginning. -/
theorem C84_imports_qualified {p name : Str} (hl : LibOk (importable cur) search)
    (hn : '.' ∉ name) (hp : p ≠ []) (hd : p.head? ≠ some '.')
    (h : Steps c (importQuery pkg (p ++ '.' :: name)) limit search n (State.init c) t)
    (hr : t.returned = true) (hc : t.cancelled = false) (d : Decl) (e : Edit) :
    ⟨d, e⟩ ∈ imports point (p ++ '.' :: name) t.found.all ↔
      e = editAddImport point d.path ∧ Importable d ∧ d.path ≠ cur ∧ p ++ '.' :: name <+: d.fullName ∧
      (∃ a, d.fullName = a ++ '.' :: name ∧ p <:+ a) ∧
      ∃ f ∈ c.files, d ∈ f.decls ∧ f.pkg ≠ [] := by
  have hq : importQuery pkg (p ++ '.' :: name) = .qualified (p ++ '.' :: name) := by
    unfold importQuery; rw [if_pos (by simp)]
  have hh : (p ++ '.' :: name).head? ≠ some '.' := by
    cases p with
    | nil => exact absurd rfl hp
    | cons x t => simpa using hd
  rw [hq] at h
  unfold imports
  rw [FindTypes.C83_qualified hl hh h hr hc]
  have hlast : LastComponent name d.fullName ∧ p <:+ Completion.parent d.fullName ↔
      ∃ a, d.fullName = a ++ '.' :: name ∧ p <:+ a := by
    constructor
    · rintro ⟨⟨_, h1 | ⟨a, h1⟩⟩, h2⟩
      · exfalso
        rw [h1] at h2
        have : Completion.parent name = [] := by
          unfold Completion.parent; rw [lastIndexChar_none _ _ hn]
        rw [this] at h2
        exact hp (List.suffix_nil.mp h2)
      · rw [h1, parent_append hn] at h2
        exact ⟨a, h1, h2⟩
    · rintro ⟨a, h1, h2⟩
      rw [h1, parent_append hn]
      exact ⟨⟨hn, .inr ⟨a, rfl⟩⟩, h2⟩
  simp only [List.mem_map, List.mem_filter, List.mem_flatMap, Bool.and_eq_true, decide_eq_true_eq,
    Import.mk.injEq, isMatch_dotted hn, importable_iff]
  constructor
  · rintro ⟨d', ⟨⟨f, h1, h2, ⟨h3, h4⟩, h5⟩, h6⟩, rfl, rfl⟩
    exact ⟨rfl, h4.1, h4.2, h5, hlast.mp h6, f, h1, h2, h3⟩
  · rintro ⟨rfl, h1, h2, h5, h6, f, h7, h8, h9⟩
    exact ⟨d, ⟨⟨f, h7, h8, ⟨h9, h1, h2⟩, h5⟩, hlast.mpr h6⟩, rfl, rfl⟩

/-- A type with the missing name in the package of the file, declared in another file, is
offered, and with the import the name denotes it: `scope` are the components of the scope in which
the name is used, and nothing of that name is declared in a scope between it and the package.
Missing: an import is also offered for declarations that the name does not denote. -/
theorem C84_fixes_partial {name : Str} (hl : LibOk (importable cur) search) (hn : '.' ∉ name)
    (hne : name ≠ []) {comps scope : List Str} (hw : Wf comps) (hpk : comps ≠ [])
    (h : Steps c (importQuery (dotted comps) name) limit search n (State.init c) t)
    (hr : t.returned = true) (hc : t.cancelled = false) (d : Decl) (f : FindTypes.File)
    (hf : f ∈ c.files) (hfd : d ∈ f.decls) (hfp : f.pkg ≠ []) (hk : Importable d) (hd : d.path ≠ cur)
    (hfull : d.fullName = dotted (comps ++ [name])) (defs : List Str → Prop)
    (hdefs : ∀ d' ∈ f.decls, ∀ ps, d'.fullName = dotted ps → Wf ps → defs ps)
    (hs : comps <+: scope)
    (hno : ∀ s, s <+: scope → comps.length < s.length → ¬ defs (s ++ [name])) :
    ⟨d, editAddImport point d.path⟩ ∈ imports point name t.found.all ∧
      Denotes defs scope [name] (comps ++ [name]) := by
  have hjoin : dotted (comps ++ [name]) = dotted comps ++ '.' :: name := by
    unfold dotted; exact join_snoc comps name hpk
  have hpne : dotted comps ≠ [] := by
    cases comps with
    | nil => exact absurd rfl hpk
    | cons x t =>
      have hx := (hw x (by simp)).1
      cases t with
      | nil => simpa [dotted, joinWith] using hx
      | cons y t => simp [dotted, joinWith_cons]
  have hdot : (dotted comps).head? ≠ some '.' := by
    cases comps with
    | nil => exact absurd rfl hpk
    | cons x t =>
      obtain ⟨hx, hx'⟩ := hw x (by simp)
      cases x with
      | nil => exact absurd rfl hx
      | cons a x =>
        have ha : a ≠ '.' := by rintro rfl; simp at hx'
        cases t with
        | nil => simpa [dotted, joinWith] using ha
        | cons y t => simpa [dotted, joinWith_cons] using ha
  constructor
  · rw [C84_imports hl hn hne hdot h hr hc]
    refine ⟨rfl, hk, hd, ⟨hn, .inr ⟨dotted comps, by rw [hfull, hjoin]⟩⟩, fun e => absurd e hpne,
      fun _ => by rw [hfull, hjoin]; exact List.prefix_refl _, f, hf, hfd, hfp⟩
  · have hw' : Wf (comps ++ [name]) := by
      intro p hp
      rcases List.mem_append.mp hp with hp | hp
      · exact hw p hp
      · rw [List.mem_singleton.mp hp]; exact ⟨hne, hn⟩
    have := hdefs d hfd _ hfull hw'
    exact ⟨comps, hs, by simpa using this, by simpa using hno, rfl, this⟩

end

/-! ## Examples and witnesses -/

/-- Package `p`: `message Tx { int32 T = 1; }`. -/
def fileTx : FindTypes.File :=
  ⟨['x'], false, ['p'], [⟨['p', '.', 'T', 'x'], .message false false, ['x']⟩,
    ⟨['p', '.', 'T', 'x', '.', 'T'], .field, ['x']⟩]⟩

/-- Package `p`: `message T {}`. -/
def fileT : FindTypes.File := ⟨['t'], false, ['p'], [⟨['p', '.', 'T'], .message false false, ['t']⟩]⟩

/-- The workspace with one of these files. -/
def wsOf (f : FindTypes.File) : Cache := ⟨[f], fun _ => none⟩

/-- A run of the search in a file that is searched for `pre`. -/
theorem runOne (f : FindTypes.File) (q : Query) (keep : Decl → Bool) (pre : Str)
    (hf : f.placeholder = false) (hq : q.target f = some pre) :
    ∃ t, Steps (wsOf f) q 1 (lib keep) 3 (State.init (wsOf f)) t ∧ t.returned = true ∧
      t.cancelled = false ∧ t.found.all = f.withPrefix keep pre := by
  have he : (wsOf f).effective f = some f := by unfold Cache.effective; rw [hf]; rfl
  have r1 := Steps.step (.refl (State.init (wsOf f))) (FindTypes.Step.start (c := wsOf f)
    (q := q) (limit := 1) (search := lib keep) _ f f pre rfl he hq Nat.zero_lt_one)
  have r2 := Steps.step r1 (.finish _ 0 f f pre (f.withPrefix keep pre) false rfl rfl he hq
    ⟨rfl, rfl⟩)
  exact ⟨_, .step r2 (.wait _ rfl rfl rfl), rfl, rfl, rfl⟩

/-- `T` is used in a file `m` of package `p`; the import of the file with `p.T` is offered. -/
example : ∃ t, Steps (wsOf fileT) (importQuery ['p'] ['T']) 1 (lib (importable ['m'])) 3
      (State.init (wsOf fileT)) t ∧ t.returned = true ∧ t.cancelled = false ∧
    imports ⟨1, 1⟩ ['T'] t.found.all =
      [⟨⟨['p', '.', 'T'], .message false false, ['t']⟩, editAddImport ⟨1, 1⟩ ['t']⟩] := by
  obtain ⟨t, h1, h2, h3, h4⟩ := runOne fileT (importQuery ['p'] ['T']) (importable ['m'])
    ['p', '.', 'T'] rfl (by decide)
  exact ⟨t, h1, h2, h3, by rw [h4]; decide⟩

example : Denotes (fun ps => ps = [['p']] ∨ ps = [['p'], ['T']]) [['p'], ['M']] [['T']]
    [['p'], ['T']] :=
  ⟨[['p']], ⟨[['M']], rfl⟩, .inr rfl, by
    rintro s hs hl
    have : s = [['p'], ['M']] := hs.eq_of_length (by
      have := hs.length_le; simp at this hl ⊢; omega)
    rw [this]; decide, rfl, .inr rfl⟩

/-- An import is offered for a field of another message that has the missing name; the name does
not denote it. -/
theorem C84_nested_violated :
    ∃ (c : Cache) (n : Nat) (t : State) (i : Import),
      Steps c (importQuery ['p'] ['T']) 1 (lib (importable ['m'])) n (State.init c) t ∧
      t.returned = true ∧ t.cancelled = false ∧ i ∈ imports ⟨1, 1⟩ ['T'] t.found.all ∧
      i.decl.kind = .field ∧
      ∀ target, ¬ Denotes (fun ps => ps = [['p']] ∨ ∃ f ∈ c.files, ∃ d ∈ f.decls,
        d.fullName = dotted ps ∧ Wf ps) [['p']] [['T']] target := by
  obtain ⟨t, h1, h2, h3, h4⟩ := runOne fileTx (importQuery ['p'] ['T']) (importable ['m'])
    ['p', '.', 'T'] rfl (by decide)
  refine ⟨wsOf fileTx, 3, t, ⟨⟨['p', '.', 'T', 'x', '.', 'T'], .field, ['x']⟩,
    editAddImport ⟨1, 1⟩ ['x']⟩, h1, h2, h3, by rw [h4]; decide, rfl, ?_⟩
  rintro target ⟨scope, hs, hd, _⟩
  have hsc : scope = [] ∨ scope = [['p']] := by
    cases scope with
    | nil => exact .inl rfl
    | cons x s =>
      obtain ⟨r, hr⟩ := hs
      simp at hr
      exact .inr (by simp [hr])
  have hfiles : ∀ f ∈ (wsOf fileTx).files, f = fileTx := by decide
  rcases hd with hd | ⟨f, hf, d, hd, hfull, _⟩
  · rcases hsc with rfl | rfl <;> simp at hd
  · have hd' : d ∈ fileTx.decls := by rw [← hfiles f hf]; exact hd
    have hall : ∀ d ∈ fileTx.decls,
        d.fullName = ['p', '.', 'T', 'x'] ∨ d.fullName = ['p', '.', 'T', 'x', '.', 'T'] := by decide
    have hname := hall d hd'
    rcases hsc with rfl | rfl <;> rcases hname with hn | hn <;> rw [hn] at hfull <;>
      revert hfull <;> decide

/-- For a name that begins with a dot no import is offered, although the type exists in another
file: `.p.T`. -/
theorem C84_leading_dot_violated :
    ∃ (c : Cache) (n : Nat) (t : State) (f : FindTypes.File) (d : Decl),
      Steps c (importQuery ['p'] ['.', 'p', '.', 'T']) 1 (lib (importable ['m'])) n (State.init c) t ∧
      t.returned = true ∧ t.cancelled = false ∧ f ∈ c.files ∧ d ∈ f.decls ∧
      d.kind = .message false false ∧ d.path ≠ ['m'] ∧ d.fullName = ['p', '.', 'T'] ∧
      imports ⟨1, 1⟩ ['.', 'p', '.', 'T'] t.found.all = [] := by
  have s1 := FindTypes.Step.skipFile (c := wsOf fileT) (q := importQuery ['p'] ['.', 'p', '.', 'T'])
    (limit := 1) (search := lib (importable ['m'])) (State.init (wsOf fileT)) fileT fileT rfl rfl
    (by decide)
  exact ⟨wsOf fileT, 2, _, fileT, ⟨['p', '.', 'T'], .message false false, ['t']⟩,
    .step (.step (.refl _) s1) (.wait _ rfl (by decide) rfl), rfl, rfl, by decide, by decide, rfl,
    by decide, rfl, by decide⟩

/-- `A {}` at the end of a file: the new message follows behind it. -/
example : Fits ['A', ' ', '{', '}'] ∧ '.' ∉ ['B'] ∧ '\n' ∉ ['B'] ∧
    (codeActionsForError (.undeclared ['B'] [] [] (sourcePosAfter ['A', ' ', '{', '}'])) [] ⟨1, 1⟩
      ⟨1, 2⟩).map (·.select) = [some (⟨3, 2⟩, ⟨3, 2⟩)] := by
  unfold Fits; decide

/-- Two lines with an import between others. -/
example : (codeActionsForError (.unusedImport ['a']) ['f'] ⟨2, 1⟩ ⟨3, 4⟩).map (·.edits) =
    [[⟨⟨1, 0⟩, ⟨3, 0⟩, []⟩]] ∧
    applyEdit ['x', '\n', 'i', '\n', 'j', ';', '\n', 'y'] ⟨⟨1, 0⟩, ⟨3, 0⟩, []⟩ =
      some ['x', '\n', 'y'] := by decide

end Verif.QuickFix
