import Verif.Model.GenFiles
/-!
# Properties of the lookup of generated Go files: C58
-/
namespace Verif.GenFiles

/-! ### Specification -/

def space (c : Char) : Prop := c = ' ' ∨ c = '\t' ∨ c = '\n' ∨ c = '\r' ∨ c = '\x0c'

/-- Specification: a version entry of a header, `^// [\s-]+([^\s]+)\s+([^\s]+)$`. -/
def IsEntry (t name version : Str) : Prop :=
  ∃ lead sep, t = ['/', '/', ' '] ++ lead ++ name ++ sep ++ version ∧ lead ≠ [] ∧ (∀ c ∈ lead, space c ∨ c = '-') ∧
    name ≠ [] ∧ (∀ c ∈ name, ¬ space c) ∧ sep ≠ [] ∧ (∀ c ∈ sep, space c) ∧ version ≠ [] ∧ ∀ c ∈ version, ¬ space c

/-- Specification: the regular expression for version entries finds the entries and nothing else. -/
def Finds (entry : Str → Option (Str × Str)) : Prop :=
  (∀ t n v, entry t = some (n, v) → IsEntry t n v) ∧ ∀ t n v, IsEntry t n v → entry t ≠ none

/-- Specification: a file was generated from a source: its header, the first group of comments before the package
clause with the mark of a generator, names the source, and no other. -/
def GeneratedFrom (gen : Str → Option Str) (f : GoFile) (source : Str) : Prop :=
  ∃ pre g post, f.comments = pre ++ g :: post ∧ (∀ h ∈ pre, ∀ c ∈ h, gen c.text = none) ∧
    (∃ a c b, g = a ++ c :: b ∧ (∀ x ∈ a, x.before = true ∧ gen x.text = none) ∧ c.before = true ∧ gen c.text ≠ none) ∧
    ∃ s d u, g.drop 1 = s ++ d :: u ∧ (∃ w w', (∀ c ∈ w, isSpace c = true) ∧ (∀ c ∈ w', isSpace c = true) ∧
        d.text = ['/', '/', ' ', 's', 'o', 'u', 'r', 'c', 'e', ':'] ++ w ++ source ++ w' ∧ Trimmed source) ∧
      ∀ x ∈ u, ¬ ['/', '/', ' ', 's', 'o', 'u', 'r', 'c', 'e', ':'] <+: x.text

/-! ### Lemmas -/

theorem not_entry {t n v : Str} (h : versionsMark <+: t) : ¬ IsEntry t n v := by
  rintro ⟨lead, sep, rfl, h1, h2, _⟩
  obtain ⟨r, hr⟩ := h
  obtain ⟨c, lead', rfl⟩ := List.exists_cons_of_ne_nil h1
  have : c = 'v' := by
    simp only [versionsMark, List.cons_append, List.nil_append, List.cons.injEq] at hr
    exact hr.2.2.2.1.symm
  subst this
  rcases h2 'v' (by simp) with h | h
  · rcases h with h | h | h | h | h <;> exact absurd h (by decide)
  · exact absurd h (by decide)

theorem scan_versions {entry : Str → Option (Str × Str)} (he : Finds entry) (group : List Comment) : ∀ (cs : List Comment) (i : Nat) (info : Info),
    group.drop (i + 1) = cs → info.versions = [] → (scan entry group i info cs).versions = [] := by
  intro cs
  induction cs with
  | nil => intro i info _ h; exact h
  | cons c cs ih =>
    intro i info hg hv
    have hd : group.drop (i + 1 + 1) = cs := by rw [← List.drop_drop, hg]; rfl
    unfold scan
    split
    · rename_i hm
      refine ih (i + 1) _ hd ?_
      show versionLoop entry info.versions (group.drop (i + 1)) = []
      rw [hg, versionLoop]
      have : entry c.text = none := by
        cases h : entry c.text with
        | none => rfl
        | some e => exact absurd (he.1 _ e.1 e.2 h) (not_entry (List.isPrefixOf_iff_prefix.1 hm))
      rw [this]
      exact hv
    · split
      · exact ih (i + 1) _ hd hv
      · exact ih (i + 1) _ hd hv

theorem scan_source {entry : Str → Option (Str × Str)} (group : List Comment) : ∀ (cs : List Comment) (i : Nat) (info : Info),
    (∀ x ∈ cs, ¬ sourceMark <+: x.text) → (scan entry group i info cs).source = info.source := by
  intro cs
  induction cs with
  | nil => intro i info _; rfl
  | cons c cs ih =>
    intro i info h
    have h' : ∀ x ∈ cs, ¬ sourceMark <+: x.text := fun x hx => h x (List.mem_cons_of_mem _ hx)
    unfold scan
    split
    · rw [ih _ _ h']
    · rw [if_neg (fun hp => h c (by simp) (List.isPrefixOf_iff_prefix.1 hp)), ih _ _ h']

theorem scan_append {entry : Str → Option (Str × Str)} (group : List Comment) : ∀ (a b : List Comment) (i : Nat) (info : Info),
    ∃ info', scan entry group i info (a ++ b) = scan entry group (i + a.length) info' b := by
  intro a
  induction a with
  | nil => intro b i info; exact ⟨info, rfl⟩
  | cons c a ih =>
    intro b i info
    rw [List.cons_append, scan, show i + (c :: a).length = i + 1 + a.length by simp; omega]
    split
    · exact ih _ _ _
    · split
      · exact ih _ _ _
      · exact ih _ _ _

theorem matchGroup_none {gen : Str → Option Str} {g : List Comment} (h : ∀ c ∈ g, gen c.text = none) : matchGroup gen g = none := by
  induction g with
  | nil => rfl
  | cons c g ih =>
    unfold matchGroup
    split
    · rfl
    · rw [h c (by simp)]; exact ih fun x hx => h x (List.mem_cons_of_mem _ hx)

theorem matchGroup_some {gen : Str → Option Str} {a b : List Comment} {c : Comment} (ha : ∀ x ∈ a, x.before = true ∧ gen x.text = none)
    (hb : c.before = true) (hc : gen c.text ≠ none) : ∃ t, matchGroup gen (a ++ c :: b) = some t := by
  induction a with
  | nil =>
    obtain ⟨t, ht⟩ := Option.ne_none_iff_exists'.1 hc
    refine ⟨t, ?_⟩
    rw [List.nil_append]
    unfold matchGroup
    rw [if_neg (by rw [hb]; simp), ht]
  | cons x a ih =>
    rw [List.cons_append]
    unfold matchGroup
    obtain ⟨h1, h2⟩ := ha x (by simp)
    rw [if_neg (by rw [h1]; simp), h2]
    exact ih fun y hy => ha y (List.mem_cons_of_mem _ hy)

theorem parse_of_generated {gen : Str → Option Str} {entry : Str → Option (Str × Str)} {f : GoFile} {source : Str} (h : GeneratedFrom gen f source) :
    ∃ info, parsePreamble gen entry f.comments = some info ∧ info.source = source := by
  obtain ⟨pre, g, post, hf, hpre, ⟨a, c, b, rfl, ha, hb, hc⟩, s, d, u, hg, ⟨w, w', hw, hw', hd, ht⟩, hu⟩ := h
  obtain ⟨t, htm⟩ := matchGroup_some (b := b) ha hb hc
  have hfind : findGroup gen f.comments = some (t, a ++ c :: b) := by
    rw [hf]
    clear hf
    induction pre with
    | nil => rw [List.nil_append, findGroup, htm]
    | cons p pre ih =>
      rw [List.cons_append, findGroup, matchGroup_none (hpre p (by simp))]
      exact ih fun h hh => hpre h (List.mem_cons_of_mem _ hh)
  unfold parsePreamble
  rw [hfind]
  refine ⟨_, rfl, ?_⟩
  rw [hg]
  obtain ⟨info', hi⟩ := scan_append (entry := entry) (a ++ c :: b) s (d :: u) 0 ⟨t, [], []⟩
  rw [hi, scan]
  replace hd : d.text = sourceMark ++ w ++ source ++ w' := hd
  have hp : sourceMark <+: d.text := ⟨w ++ source ++ w', by rw [hd]; simp⟩
  have hnv : ¬ (versionsMark.isPrefixOf d.text = true) := by
    intro hv
    obtain ⟨r, hr⟩ := List.isPrefixOf_iff_prefix.1 hv
    obtain ⟨r', hr'⟩ := hp
    rw [← hr'] at hr
    simp only [versionsMark, sourceMark, List.cons_append, List.nil_append, List.cons.injEq] at hr
    exact absurd hr.2.2.2.1 (by decide)
  rw [if_neg hnv, if_pos (List.isPrefixOf_iff_prefix.2 hp), scan_source _ _ _ _ hu]
  show trimSpace (d.text.drop sourceMark.length) = source
  rw [hd, List.append_assoc, List.append_assoc, List.drop_left]
  rw [← List.append_assoc]
  exact trimSpace_unique hw hw' ht

/-! ### C58 -/

/-- C58: the source of a header is reported. -/
theorem C58_source (gen : Str → Option Str) (entry : Str → Option (Str × Str)) (f : GoFile) (source : Str) (h : GeneratedFrom gen f source) :
    ∃ info, parsePreamble gen entry f.comments = some info ∧ info.source = source := parse_of_generated h

/-- C58: every file of the package that is generated from the source is returned. -/
theorem C58_complete (gen : Str → Option Str) (entry : Str → Option (Str × Str)) (base : Str → Str) (alias source uriPath : Str)
    (files : List GoFile) (f : GoFile) (hf : f ∈ files) (ha : alias = [] ∨ f.pkg = alias) (h : GeneratedFrom gen f source) :
    f ∈ findGenerated gen entry base alias source uriPath files := by
  obtain ⟨info, hi, _⟩ := parse_of_generated (entry := entry) h
  unfold findGenerated
  rw [List.mem_filter, List.mem_filter]
  refine ⟨⟨hf, by simpa using ha⟩, ?_⟩
  unfold keep
  rw [hi]

/-- Specification: a file that no generator made: no comment has the mark of a generator. -/
def Handwritten (gen : Str → Option Str) (f : GoFile) : Prop := ∀ g ∈ f.comments, ∀ c ∈ g, gen c.text = none

theorem parse_handwritten {gen : Str → Option Str} {entry : Str → Option (Str × Str)} {f : GoFile} (h : Handwritten gen f) :
    parsePreamble gen entry f.comments = none := by
  have : findGroup gen f.comments = none := by
    unfold Handwritten at h
    generalize f.comments = cs at h
    induction cs with
    | nil => rfl
    | cons g gs ih =>
      rw [findGroup, matchGroup_none (h g (by simp))]
      exact ih fun x hx => h x (List.mem_cons_of_mem _ hx)
  unfold parsePreamble
  rw [this]

/-- C58 (partial): in a package in which every file is either generated from the given source or written by hand,
the files returned are those generated from the source. Missing: packages with files generated from several sources,
see `C58_violated`. -/
theorem C58_partial (gen : Str → Option Str) (entry : Str → Option (Str × Str)) (base : Str → Str) (alias source uriPath : Str)
    (hs : source ≠ []) (files : List GoFile) (hf : ∀ f ∈ files, GeneratedFrom gen f source ∨ Handwritten gen f) (f : GoFile) :
    f ∈ findGenerated gen entry base alias source uriPath files ↔
      f ∈ files ∧ (alias = [] ∨ f.pkg = alias) ∧ GeneratedFrom gen f source := by
  constructor
  · intro h
    unfold findGenerated at h
    rw [List.mem_filter, List.mem_filter] at h
    obtain ⟨⟨h1, h2⟩, h3⟩ := h
    refine ⟨h1, by simpa using h2, ?_⟩
    rcases hf f h1 with h | h
    · exact h
    · unfold keep at h3
      rw [parse_handwritten h] at h3
      simp [hs] at h3
  · rintro ⟨h1, h2, h3⟩
    exact C58_complete gen entry base alias source uriPath files f h1 h2 h3

/-- C58 fails: every file with a header is returned, whatever its source. -/
theorem C58_violated (gen : Str → Option Str) (entry : Str → Option (Str × Str)) (base : Str → Str) (source other uriPath : Str) (f : GoFile)
    (h : GeneratedFrom gen f other) : f ∈ findGenerated gen entry base [] source uriPath [f] := by
  obtain ⟨info, hi, _⟩ := parse_of_generated (entry := entry) h
  unfold findGenerated
  rw [List.mem_filter, List.mem_filter]
  refine ⟨⟨by simp, by simp⟩, ?_⟩
  unfold keep
  rw [hi]

/-- C58 fails: the versions of a header are never reported. -/
theorem C58_versions_violated (gen : Str → Option Str) (entry : Str → Option (Str × Str)) (he : Finds entry) (comments : List (List Comment))
    (info : Info) (h : parsePreamble gen entry comments = some info) : info.versions = [] := by
  unfold parsePreamble at h
  cases hf : findGroup gen comments with
  | none => rw [hf] at h; cases h
  | some gg =>
    obtain ⟨g, group⟩ := gg
    rw [hf] at h
    cases h
    exact scan_versions he group _ 0 _ rfl rfl

open Classical in
/-- There is such an expression. -/
example : ∃ entry, Finds entry := by
  refine ⟨fun t => if h : ∃ e : Str × Str, IsEntry t e.1 e.2 then some h.choose else none, ?_, ?_⟩
  · intro t n v h
    simp only at h
    split at h
    · rename_i hx
      have := hx.choose_spec
      rw [Option.some.inj h] at this
      exact this
    · cases h
  · intro t n v h
    have hx : ∃ e : Str × Str, IsEntry t e.1 e.2 := ⟨(n, v), h⟩
    simp only
    rw [dif_pos hx]
    simp

/-! A header: `// Code`, `// versions:`, `// - a v1`, `// source: x`; in this example the mark of a generator is the
text `// Code`, and the expression for entries knows one entry. -/
private def mark : Str := ['/', '/', ' ', 'C', 'o', 'd', 'e']
private def exGen (t : Str) : Option Str := if t = mark then some ['g'] else none
private def exEntryText : Str := ['/', '/', ' ', '-', ' ', 'a', ' ', 'v', '1']
private def exEntry (t : Str) : Option (Str × Str) := if t = exEntryText then some (['a'], ['v', '1']) else none
private def exHeader : List (List Comment) :=
  [[⟨true, mark⟩, ⟨true, versionsMark⟩, ⟨true, exEntryText⟩, ⟨true, ['/', '/', ' ', 's', 'o', 'u', 'r', 'c', 'e', ':'] ++ [' ', 'x']⟩]]
example : IsEntry exEntryText ['a'] ['v', '1'] :=
  ⟨['-', ' '], [' '], rfl, by simp, by simp [space], by simp, by simp [space], by simp, by simp [space], by simp, by simp [space]⟩
example : parsePreamble exGen exEntry exHeader = some ⟨['g'], [], ['x']⟩ := by decide
example : GeneratedFrom exGen ⟨['p'], ['f'], exHeader⟩ ['x'] := by
  refine ⟨[], _, [], rfl, by simp, ⟨[], ⟨true, mark⟩, _, rfl, by simp, rfl, by decide⟩, ?_⟩
  refine ⟨[⟨true, versionsMark⟩, ⟨true, exEntryText⟩], ⟨true, ['/', '/', ' ', 's', 'o', 'u', 'r', 'c', 'e', ':'] ++ [' ', 'x']⟩, [], rfl, ?_, by simp⟩
  exact ⟨[' '], [], by decide, by decide, by decide, ⟨by simp [isSpace], by simp [isSpace]⟩⟩

end Verif.GenFiles
