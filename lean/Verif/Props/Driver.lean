import Verif.Lemmas.Driver
import Verif.Props.Transform
/-!
# C88: what compiling from the command line reports

`C88_error`: an error is reported exactly if some diagnostic is an error; then there are no descriptors.
`C88_messages_partial`: every diagnostic in one line gives one message, in order, with its line, if it is not in the last line
of its file. `C88_descriptors_partial`: without errors all linked files are delivered in the order of their imports.
`C88_local_partial`: and those of the workspace are found.
`C88_multiline_violated`, `C88_last_line_violated`, `C88_eof_violated`, `C88_beyond_violated`, `C88_editions_violated`,
`C88_cwd_violated`: what these theorems exclude goes wrong.
-/
namespace Verif.Driver

open Documents (Res)
open Transform (Distinct Closed Acyclic Ordered)

theorem compile_ok {env : Env} {ws : List Str} {pathOf : Nat → Option (List Str)} {sources : List Source} {linked : List Linked}
    {r : Results} (h : compile env ws pathOf sources linked = .ok r) :
    allMessages sources = .ok r.messages ∧
    ((r.error = true ∧ (sources.any fun f => f.diags.any fun d => d.severity == 1) = true ∧ r.all = [] ∧ r.local_ = []) ∨
     (r.error = false ∧ (sources.any fun f => f.diags.any fun d => d.severity == 1) = false ∧
      Transform.topologicalSort (linkerResults linked) = .ok r.all ∧
      r.local_ = Transform.localFiles (fun p => isLocal env ws (pathOf p)) r.all)) := by
  unfold compile at h
  cases hm : allMessages sources with
  | err => rw [hm] at h; simp at h
  | panic => rw [hm] at h; simp at h
  | ok ms =>
    rw [hm] at h
    simp only [] at h
    split at h
    · rename_i hc
      cases h
      exact ⟨rfl, .inl ⟨rfl, hc, rfl, rfl⟩⟩
    · rename_i hc
      cases ht : Transform.topologicalSort (linkerResults linked) with
      | error e => rw [ht] at h; simp at h
      | ok sorted =>
        rw [ht] at h
        cases h
        exact ⟨rfl, .inr ⟨rfl, by simpa using hc, rfl, rfl⟩⟩

/-- **C88** (errors): the result is an error exactly if a diagnostic of a file is an error, and then it has no descriptors. -/
theorem C88_error (env : Env) (ws : List Str) (pathOf : Nat → Option (List Str)) (sources : List Source) (linked : List Linked)
    (r : Results) (h : compile env ws pathOf sources linked = .ok r) :
    (r.error = true ↔ ∃ f ∈ sources, ∃ d ∈ f.diags, d.severity = 1) ∧ (r.error = true → r.all = [] ∧ r.local_ = []) := by
  obtain ⟨-, ⟨h1, h2, h3, h4⟩ | ⟨h1, h2, -, -⟩⟩ := compile_ok h
  · refine ⟨⟨fun _ => ?_, fun _ => h1⟩, fun _ => ⟨h3, h4⟩⟩
    simpa using h2
  · refine ⟨⟨fun h => absurd (h1.symm.trans h) (by simp), ?_⟩, fun h => absurd (h1.symm.trans h) (by simp)⟩
    rintro ⟨f, hf, d, hd, h3⟩
    have : (sources.any fun f => f.diags.any fun d => d.severity == 1) = true :=
      List.any_eq_true.2 ⟨f, hf, List.any_eq_true.2 ⟨d, hd, by simpa using h3⟩⟩
    rw [h2] at this; cases this

/-- **C88** (messages): if the texts of all files are known and no diagnostic in one line is in the last line of its file, then
the messages correspond one to one, in order, to the diagnostics in one line: each names its file and line and shows the line
with the range marked; and the call returns, unless there is no error and the linked files cannot be sorted. (Partial: see
`C88_multiline_violated`, `C88_last_line_violated`, `C88_eof_violated` and `C88_beyond_violated`.) -/
theorem C88_messages_partial (env : Env) (ws : List Str) (pathOf : Nat → Option (List Str)) (sources : List Source)
    (linked : List Linked) (hc : ∀ f ∈ sources, f.content ≠ none)
    (hi : ∀ f ∈ sources, ∀ d ∈ f.diags, d.startLine = d.endLine → Inside f d) :
    (∀ r, compile env ws pathOf sources linked = .ok r →
      Each (fun p m => ∃ content line, p.1.content = some content ∧ (linesOf content)[p.2.startLine]? = some line ∧
        Reports p.1.file line p.2 m) ((pairs sources).filter fun p => decide (p.2.startLine = p.2.endLine)) r.messages) ∧
    ((∃ r, compile env ws pathOf sources linked = .ok r) ∨
      ((∀ f ∈ sources, ∀ d ∈ f.diags, d.severity ≠ 1) ∧ compile env ws pathOf sources linked = .panic ∧
        ∃ e, Transform.topologicalSort (linkerResults linked) = .error e)) := by
  obtain ⟨ms, h1, h2⟩ := allMessages_inside hc hi
  constructor
  · intro r hr
    have := (compile_ok hr).1
    rw [h1] at this
    cases this
    exact h2
  · unfold compile
    rw [h1]
    simp only []
    split
    · exact .inl ⟨_, rfl⟩
    · rename_i hc
      cases ht : Transform.topologicalSort (linkerResults linked) with
      | ok sorted => exact .inl ⟨_, rfl⟩
      | error e =>
        refine .inr ⟨fun f hf d hd hs => hc ?_, rfl, e, rfl⟩
        exact List.any_eq_true.2 ⟨f, hf, List.any_eq_true.2 ⟨d, hd, by simpa using hs⟩⟩

/-- **C88** (descriptors): if there is no error diagnostic, no file uses editions and every file that is imported was linked, the
call returns all linked files but the placeholders, each once, each after the files that it imports. (Partial: see
`C88_editions_violated`.) -/
theorem C88_descriptors_partial (env : Env) (ws : List Str) (pathOf : Nat → Option (List Str)) (sources : List Source)
    (linked : List Linked) (hc : ∀ f ∈ sources, f.content ≠ none)
    (hi : ∀ f ∈ sources, ∀ d ∈ f.diags, d.startLine = d.endLine → Inside f d)
    (hne : ∀ f ∈ sources, ∀ d ∈ f.diags, d.severity ≠ 1) (hed : ∀ l ∈ linked, l.editions = false)
    (hd : (linked.map fun l => l.res.path).Nodup)
    (hcl : ∀ l ∈ linked, l.placeholder = false → ∀ q ∈ l.res.imports, ∃ l' ∈ linked, l'.placeholder = false ∧ l'.res.path = q) :
    ∃ r, compile env ws pathOf sources linked = .ok r ∧ r.error = false ∧ r.all.Nodup ∧
      (∀ x, x ∈ r.all ↔ ∃ l ∈ linked, l.placeholder = false ∧ l.res = x) ∧
      (Acyclic (linkerResults linked) → Ordered r.all) := by
  have hmem : ∀ x, x ∈ linkerResults linked ↔ ∃ l ∈ linked, l.placeholder = false ∧ l.res = x := by
    intro x
    unfold linkerResults
    simp only [List.mem_map, List.mem_filter, Bool.and_eq_true, Bool.not_eq_true']
    constructor
    · rintro ⟨l, ⟨h1, h2, -⟩, h3⟩; exact ⟨l, h1, h2, h3⟩
    · rintro ⟨l, h1, h2, h3⟩; exact ⟨l, ⟨h1, h2, hed l h1⟩, h3⟩
  have hdist : Distinct (linkerResults linked) := by
    unfold Distinct linkerResults
    rw [List.map_map]
    exact hd.sublist (List.Sublist.map _ List.filter_sublist)
  have hclosed : Closed (linkerResults linked) := by
    intro x hx q hq
    obtain ⟨l, h1, h2, rfl⟩ := (hmem x).1 hx
    obtain ⟨l', h3, h4, h5⟩ := hcl l h1 h2 q hq
    exact ⟨l'.res, (hmem _).2 ⟨l', h3, h4, rfl⟩, h5⟩
  obtain ⟨sorted, hs⟩ := (Transform.C50_total _ hdist).1 hclosed
  obtain ⟨-, ⟨r, hr⟩ | ⟨-, -, e, he⟩⟩ := C88_messages_partial env ws pathOf sources linked hc hi
  · obtain ⟨-, ⟨-, h2, -⟩ | ⟨h1, -, h3, -⟩⟩ := compile_ok hr
    · rw [List.any_eq_true] at h2
      obtain ⟨f, hf, h3⟩ := h2
      rw [List.any_eq_true] at h3
      obtain ⟨d, hd', h4⟩ := h3
      exact absurd (by simpa using h4) (hne f hf d hd')
    · obtain ⟨h4, h5⟩ := Transform.C50_once _ hdist _ h3
      exact ⟨r, hr, h1, h4, fun x => (h5 x).trans (hmem x), fun ha => Transform.C50_order _ ha _ h3⟩
  · rw [hs] at he; cases he

/-- **C88** (workspace): when the process runs in the directory of the workspace, the files of the workspace are those
delivered files that lie in it and exist. (Partial: see `C88_cwd_violated`.) -/
theorem C88_local_partial (env : Env) (ws : List Str) (pathOf : Nat → Option (List Str)) (sources : List Source)
    (linked : List Linked) (r : Results) (h : compile env ws pathOf sources linked = .ok r) (hcwd : env.cwd = ws) :
    ∀ x, x ∈ r.local_ ↔ x ∈ r.all ∧ InWorkspace env ws (pathOf x.path) := by
  have key : ∀ p, isLocal env ws p = true ↔ InWorkspace env ws p := by
    intro p
    unfold isLocal InWorkspace
    cases p with
    | none => simp
    | some p =>
      simp only []
      cases hr : rel ws p with
      | none =>
        simp only [Bool.false_eq_true, false_iff]
        rintro ⟨q, h1, -⟩
        rw [rel_some.2 (Option.some.inj h1)] at hr; cases hr
      | some q =>
        simp only []
        have := rel_some.1 hr
        rw [hcwd]
        constructor
        · exact fun h => ⟨q, by rw [this], h⟩
        · rintro ⟨q', h1, h2⟩
          rw [this] at h1
          have := List.append_cancel_left (Option.some.inj h1)
          rw [this]; exact h2
  intro x
  obtain ⟨-, ⟨-, -, h3, h4⟩ | ⟨-, -, -, h4⟩⟩ := compile_ok h
  · rw [h3, h4]; simp
  · rw [h4, Transform.localFiles, List.mem_filter, key]

/-! ## Violations -/

def env0 : Env := ⟨fun p => decide (p = [['w'], ['a']]), [['w']]⟩

def err (sl sc el ec : Nat) : Diag := ⟨1, sl, sc, el, ec, ['m'], false⟩

/-- driver.go:118: a diagnostic over more than one line gives no message; compiling fails without any explanation. -/
theorem C88_multiline_violated :
    compile env0 [['w']] (fun _ => none) [⟨['f'], some ['a', '\n', 'b', '\n'], [err 0 0 1 1]⟩] [] = .ok ⟨true, [], [], []⟩ := by
  decide

/-- driver.go:166: in a last line without line feed the last character is cut off. -/
theorem C88_last_line_violated :
    compile env0 [['w']] (fun _ => none) [⟨['f'], some ['a', 'b', 'c'], [err 0 0 0 2]⟩] [] =
      .ok ⟨true, [⟨1, ['f'], 1, ['m'], some ([], ['a', 'b'], [])⟩], [], []⟩ ∧
    (linesOf ['a', 'b', 'c'])[0]? = some ['a', 'b', 'c'] := by
  decide

/-- driver.go:166: an error at the end of a text that ends with a line feed (such as a missing closing brace) makes the program
panic. -/
theorem C88_eof_violated :
    compile env0 [['w']] (fun _ => none) [⟨['f'], some ['a', '\n'], [err 1 0 1 0]⟩] [] = .panic := by
  decide

/-- driver.go:127-133: one diagnostic behind the end of its text hides all others; the call returns an error of the mapper. -/
theorem C88_beyond_violated (d : Diag) (ds : List Diag) (sources : List Source) (content : Str) (linked : List Linked)
    (hd : d.startLine = d.endLine) (hl : (linesOf content).length ≤ d.startLine) (env : Env) (ws : List Str)
    (pathOf : Nat → Option (List Str)) :
    compile env ws pathOf (⟨['f'], some content, d :: ds⟩ :: sources) linked = .err := by
  have key : ∀ (content : Str) (l : Nat), (linesOf content).length ≤ l → lineOff content (l + 1) = none := by
    intro content
    induction content with
    | nil =>
      intro l h
      cases l with
      | zero => simp [linesOf, splitOn] at h
      | succ l => rfl
    | cons c t ih =>
      intro l h
      rw [linesOf_cons] at h
      by_cases hc : c = '\n'
      · rw [if_pos hc] at h
        cases l with
        | zero => simp at h
        | succ l =>
          simp only [List.length_cons] at h
          simp [lineOff, hc, ih l (by omega)]
      · rw [if_neg hc] at h
        simp only [lineOff, if_neg hc]
        rw [ih l ?_]; rfl
        cases hl : linesOf t with
        | nil => exact absurd hl (linesOf_ne t)
        | cons w ws => rw [hl] at h; simpa using h
  have hm : message ['f'] content d = .err := by
    unfold message
    rw [if_neg (by simpa using hd), ← hd, key _ _ hl]
    cases lineOff content d.startLine <;> rfl
  simp [compile, allMessages, messages, hm]

/-- externalapi.go:37-39: files that use editions are left out without a message; if another file imports one of them, sorting
the files panics. -/
theorem C88_editions_violated :
    compile env0 [['w']] (fun _ => none) [] [⟨⟨1, []⟩, false, true⟩] = .ok ⟨false, [], [], []⟩ ∧
    compile env0 [['w']] (fun _ => none) [] [⟨⟨1, []⟩, false, true⟩, ⟨⟨2, [1]⟩, false, false⟩] = .panic := by
  constructor <;> simp [compile, allMessages, linkerResults, Transform.topologicalSort, Transform.topo, Transform.lookups,
    Transform.index, Transform.localFiles]

/-- driver.go:233: `os.Stat` is given a path relative to the workspace: if the process runs in another directory, the files of
the workspace are not found. -/
theorem C88_cwd_violated :
    InWorkspace { env0 with cwd := [['x']] } [['w']] (some [['w'], ['a']]) ∧
    compile { env0 with cwd := [['x']] } [['w']] (fun _ => some [['w'], ['a']]) [] [⟨⟨1, []⟩, false, false⟩] =
      .ok ⟨false, [], [⟨1, []⟩], []⟩ ∧
    compile env0 [['w']] (fun _ => some [['w'], ['a']]) [] [⟨⟨1, []⟩, false, false⟩] = .ok ⟨false, [], [⟨1, []⟩], [⟨1, []⟩]⟩ := by
  refine ⟨⟨[['a']], rfl, by decide⟩, ?_, ?_⟩ <;>
    simp [compile, allMessages, linkerResults, Transform.topologicalSort, Transform.topo, Transform.lookups,
      Transform.localFiles, isLocal, rel, env0]

/-! ## Examples -/

/-- `C88_messages_partial`: a warning in the second of three lines. -/
example : ∃ r, compile env0 [['w']] (fun _ => none) [⟨['f'], some ['a', '\n', 'b', 'c', 'd', '\n'], [⟨2, 1, 1, 1, 2, ['m'], false⟩]⟩]
      [⟨⟨1, []⟩, false, false⟩] = .ok r ∧ r.messages = [⟨2, ['f'], 2, ['m'], some (['b'], ['c'], ['d'])⟩] ∧ r.all = [⟨1, []⟩] := by
  obtain ⟨r, h1, -, -, -, -⟩ := C88_descriptors_partial env0 [['w']] (fun _ => none)
    [⟨['f'], some ['a', '\n', 'b', 'c', 'd', '\n'], [⟨2, 1, 1, 1, 2, ['m'], false⟩]⟩] [⟨⟨1, []⟩, false, false⟩] (by simp)
    (by
      intro f hf d hd _
      simp only [List.mem_singleton] at hf
      subst hf
      simp only [List.mem_singleton] at hd
      subst hd
      exact ⟨_, rfl, by decide⟩)
    (by simp) (by simp) (by simp) (by simp)
  refine ⟨r, h1, ?_⟩
  have : compile env0 [['w']] (fun _ => none) [⟨['f'], some ['a', '\n', 'b', 'c', 'd', '\n'], [⟨2, 1, 1, 1, 2, ['m'], false⟩]⟩]
      [⟨⟨1, []⟩, false, false⟩] = .ok ⟨false, [⟨2, ['f'], 2, ['m'], some (['b'], ['c'], ['d'])⟩], [⟨1, []⟩], []⟩ := by
    simp [compile, allMessages, messages, message, lineOff, context, linkerResults, Transform.topologicalSort, Transform.topo,
      Transform.lookups, Transform.localFiles, isLocal]
  rw [this] at h1
  cases h1
  exact ⟨rfl, rfl⟩

end Verif.Driver
