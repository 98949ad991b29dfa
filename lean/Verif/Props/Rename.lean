import Verif.Spec.Rename
import Mathlib.Tactic.Tauto
/-!
# C74: rename
-/
namespace Verif.Rename

/-! ## Helper lemmas -/

theorem canRename_iff (c : Cache) (d : Desc) : canRename c d = true ↔ Renamable c d := by
  unfold canRename Renamable
  split
  · simp [*]
  · simp [*]
  · rename_i h1 h2
    cases hd : c.definition d with
    | none => simp
    | some r =>
      simp only
      cases hu : c.uri r.path with
      | none => simp [hu]
      | some u =>
        simp only
        constructor
        · intro h
          split at h
          · exact ⟨h1, h2, r, u, rfl, hu, by assumption, h⟩
          · exact absurd h (by simp)
        · rintro ⟨_, _, r', u', h0, h3, h4, h5⟩
          obtain rfl := Option.some.inj h0
          rw [hu] at h3
          obtain rfl := Option.some.inj h3
          simp [h4, h5]

theorem lastComponent_simple {cs : List (Option Span)} (h : cs ≠ []) :
    lastComponent cs = match cs.getLast?.join with | some s => .span s | none => .skip := by
  unfold lastComponent
  cases hl : cs.getLast? with
  | none => exact absurd (List.getLast?_eq_none_iff.1 hl) h
  | some o => cases o <;> rfl

/-- For simple nodes, the loop takes the range of the short name. -/
theorem target_simple {n : Node} (h : Simple n) (ho : n ≠ .other) :
    target n = match n.short with | some s => .span s | none => .skip := by
  cases n with
  | name w =>
    cases w with
    | ident s => rfl
    | compound s cs => exact lastComponent_simple h
  | fieldRef w =>
    cases w with
    | none => rfl
    | some w =>
      cases w with
      | ident s => rfl
      | compound s cs => exact lastComponent_simple h
  | decl s => rfl
  | rpcType w =>
    cases w with
    | ident s => rfl
    | compound s cs => exact h.elim
  | other => exact absurd rfl ho

theorem wanted_cons (c : Cache) (new u : Str) (r : Ref) (rs : List Ref) :
    wanted c new u (r :: rs) = wanted c new u [r] ++ wanted c new u rs := by
  simp only [wanted, List.filterMap_cons, List.filterMap_nil]
  split <;> simp_all

theorem loop_ok (c : Cache) (new : Str) (rs : List Ref) (hs : ∀ r ∈ rs, Simple r.node) : ∀ (m m' : List (Str × List Edit)),
    loop c new m rs = .ok m' → (Assoc.keys m).Nodup → (∀ e ∈ m, e.2 ≠ [] ∧ c.isLocal e.1 = true) →
      (∀ u, (Assoc.get m' u).getD [] = (Assoc.get m u).getD [] ++ wanted c new u rs) ∧ (Assoc.keys m').Nodup ∧
      (∀ e ∈ m', e.2 ≠ [] ∧ c.isLocal e.1 = true) := by
  induction rs with
  | nil =>
    intro m m' h h1 h2
    simp only [loop, Result.ok.injEq] at h
    subst h
    exact ⟨fun u => by simp [wanted], h1, h2⟩
  | cons r rs ih =>
    intro m m' h h1 h2
    have ih := ih (fun x hx => hs x (List.mem_cons_of_mem _ hx))
    by_cases ho : r.node = .other
    · simp [loop, ho, target] at h
    · simp only [loop, target_simple (hs r List.mem_cons_self) ho] at h
      cases hn : r.node.short with
      | none =>
        simp only [hn] at h
        obtain ⟨k1, k2⟩ := ih m m' h h1 h2
        refine ⟨fun u => ?_, k2⟩
        rw [k1, wanted_cons]
        simp [wanted, hn]
      | some s =>
        simp only [hn] at h
        split at h
        · exact absurd h (by simp)
        · rename_i u hu
          split at h
          · rename_i hl
            obtain ⟨k1, k2⟩ := ih _ m' h (Assoc.nodup_set h1 _ _) (by
              intro e he
              rcases Assoc.mem_set.1 he with rfl | ⟨he, _⟩
              · exact ⟨by simp, hl⟩
              · exact h2 e he)
            refine ⟨fun v => ?_, k2⟩
            rw [k1, wanted_cons, ← List.append_assoc]
            congr 1
            by_cases hv : v = u
            · subst hv
              rw [Assoc.get_set_self]
              simp [wanted, hn, hu]
            · rw [Assoc.get_set_ne _ _ hv]
              have : ¬ u = v := fun h => hv h.symm
              simp [wanted, hu, this]
          · exact absurd h (by simp)

theorem loop_total (c : Cache) (new : Str) (rs : List Ref) (hs : ∀ r ∈ rs, Simple r.node) : ∀ (m : List (Str × List Edit)),
    ((∀ r ∈ rs, Editable c r) → ∃ m', loop c new m rs = .ok m') ∧
    ((¬ ∀ r ∈ rs, Editable c r) → loop c new m rs = .error) := by
  induction rs with
  | nil => intro m; simp [loop]
  | cons r rs ih =>
    intro m
    have ih := ih (fun x hx => hs x (List.mem_cons_of_mem _ hx))
    by_cases ho : r.node = .other
    · simp [loop, ho, target, Editable]
    · have e : ∀ m, loop c new m (r :: rs) = match r.node.short with
          | none => loop c new m rs
          | some s =>
            match c.uri r.path with
            | none => .error
            | some u => if c.isLocal u then loop c new (Assoc.set m u ((Assoc.get m u).getD [] ++ [⟨s, new⟩])) rs else .error := by
        intro m
        simp only [loop, target_simple (hs r List.mem_cons_self) ho]
        cases r.node.short <;> rfl
      rw [e]
      cases hn : r.node.short with
      | none =>
        have : Editable c r := ⟨ho, fun h => absurd hn h⟩
        simpa [this] using ih m
      | some s =>
        simp only
        cases hu : c.uri r.path with
        | none => simp [Editable, hn, hu]
        | some u =>
          simp only
          by_cases hl : c.isLocal u = true
          · have : Editable c r := ⟨ho, fun _ => ⟨u, hu, hl⟩⟩
            simpa [this, hl] using ih _
          · simp [Editable, hn, hu, hl]

theorem isLetter_iff (ch : Char) : isLetter ch = true ↔ ch.isAlpha ∨ ch = '_' := by
  simp only [isLetter, Bool.or_eq_true, beq_iff_eq, Bool.and_eq_true, decide_eq_true_eq, Char.isAlpha, Char.isUpper, Char.isLower,
    Char.le_def]
  tauto

theorem isLetterDigit_iff (ch : Char) : isLetterDigit ch = true ↔ ch.isAlphanum ∨ ch = '_' := by
  simp only [isLetterDigit, Bool.or_eq_true, isLetter_iff, Bool.and_eq_true, decide_eq_true_eq, Char.isAlphanum, Char.isDigit, Char.le_def]
  tauto

theorem validLoop_split (s : Str) : ∃ w ws, splitOn '.' s = w :: ws ∧
    (validLoop true s = true ↔ Identifier w ∧ ∀ x ∈ ws, Identifier x) ∧
    (validLoop false s = true ↔ (∀ x ∈ w, x.isAlphanum ∨ x = '_') ∧ ∀ x ∈ ws, Identifier x) := by
  induction s with
  | nil => exact ⟨[], [], rfl, by simp [validLoop, Identifier], by simp [validLoop]⟩
  | cons ch s ih =>
    obtain ⟨w, ws, h1, h2, h3⟩ := ih
    by_cases hc : ch = '.'
    · subst hc
      refine ⟨[], w :: ws, by simp [splitOn, h1], by simp [validLoop, Identifier, isLetter], ?_⟩
      simpa [validLoop, isLetterDigit, isLetter] using h2
    · refine ⟨ch :: w, ws, by simp [splitOn, h1, hc], ?_, ?_⟩
      · simp only [validLoop, if_true, Bool.and_eq_true, isLetter_iff, h3, Identifier]
        constructor
        · rintro ⟨k1, k2, k3⟩
          exact ⟨⟨ch, w, rfl, k1, k2⟩, k3⟩
        · rintro ⟨⟨_, _, k0, k1, k2⟩, k3⟩
          injection k0 with k4 k5
          subst k4 k5
          exact ⟨k1, k2, k3⟩
      · simp only [validLoop, Bool.false_eq_true, if_false]
        split
        · rename_i k
          rw [isLetterDigit_iff] at k
          simp [h3, k]
        · rename_i k
          rw [isLetterDigit_iff] at k
          simp [hc, k]

/-- A full name is valid if all its parts are identifiers. -/
theorem isValid_iff (n : Str) : isValid n = true ↔ ∀ w ∈ splitOn '.' n, Identifier w := by
  obtain ⟨w, ws, h1, h2, _⟩ := validLoop_split n
  rw [isValid, h2, h1]
  simp

/-! ## C74 -/

/-- **C74** (part): a rename succeeds exactly if the descriptor may be renamed, the new full name is valid and not used, and
all references are in files of the workspace; otherwise the whole rename is refused.

Partial: for simple references (`C74_qualified_violated`). -/
theorem C74_succeeds_partial (c : Cache) (new : Str) (d : Desc) (rng : Span) (r : Ref) (hf : c.found = some (some (d, rng)))
    (hd : c.definition d = some r) (hs : ∀ x ∈ c.references d ++ [r], Simple x.node) :
    ((∃ m, rename c new = .ok m) ↔ Renamable c d ∧
        (∀ w ∈ splitOn '.' (Completion.append (Completion.parent d.fullName) new), Identifier w) ∧
        c.taken (Completion.append (Completion.parent d.fullName) new) = false ∧ ∀ x ∈ c.references d ++ [r], Editable c x) ∧
    ((¬ ∃ m, rename c new = .ok m) → rename c new = .error) := by
  obtain ⟨h1, h2⟩ := loop_total c new _ hs []
  unfold rename
  simp only [hf, hd]
  rw [← canRename_iff, ← isValid_iff]
  by_cases k1 : canRename c d = true
  · simp only [k1, if_true, true_and]
    by_cases k2 : isValid (Completion.append (Completion.parent d.fullName) new) = true
    · simp only [k2, if_true, true_and]
      by_cases k3 : c.taken (Completion.append (Completion.parent d.fullName) new) = true
      · simp [k3]
      · simp only [k3, Bool.false_eq_true, if_false]
        simp only [Bool.not_eq_true] at k3
        by_cases k4 : ∀ x ∈ c.references d ++ [r], Editable c x
        · obtain ⟨m, hm⟩ := h1 k4
          rw [hm]
          exact ⟨⟨fun _ => ⟨trivial, k4⟩, fun _ => ⟨m, rfl⟩⟩, fun h => absurd ⟨m, rfl⟩ h⟩
        · rw [h2 k4]
          simp only [reduceCtorEq, exists_false, false_iff, not_and, not_false_eq_true, imp_self, and_true]
          exact fun _ => k4
    · simp [k2]
  · simp [k1]

/-- **C74** (part): if nothing is found at the position, or there is no definition, the rename is refused. -/
theorem C74_nothing (c : Cache) (new : Str) (h : ∀ d rng r, c.found = some (some (d, rng)) → c.definition d ≠ some r) :
    rename c new = .error ∧ prepare c = none := by
  unfold rename prepare
  split
  · exact ⟨rfl, rfl⟩
  · exact ⟨rfl, rfl⟩
  · rename_i d rng hf
    have : canRename c d = false := by
      rw [Bool.eq_false_iff]
      intro hc
      obtain ⟨_, _, r, _, hr, _⟩ := (canRename_iff _ _).1 hc
      exact h d rng r hf hr
    simp [this]

/-- **C74** (part): the edits for a document replace exactly the short name in each reference in it and in the definition, by
the new name; documents without references have no edits, and all documents are files of the workspace.

Partial: for simple references (`C74_qualified_violated`). -/
theorem C74_edits_partial (c : Cache) (new : Str) (d : Desc) (rng : Span) (r : Ref) (m : List (Str × List Edit))
    (hf : c.found = some (some (d, rng))) (hd : c.definition d = some r) (hs : ∀ x ∈ c.references d ++ [r], Simple x.node)
    (hm : rename c new = .ok m) :
    (∀ u, (Assoc.get m u).getD [] = wanted c new u (c.references d ++ [r])) ∧ (Assoc.keys m).Nodup ∧
      ∀ e ∈ m, e.2 ≠ [] ∧ c.isLocal e.1 = true := by
  unfold rename at hm
  simp only [hf, hd] at hm
  split at hm
  · split at hm
    · split at hm
      · exact absurd hm (by simp)
      · have := loop_ok c new _ hs [] m hm (by simp [Assoc.keys]) (by simp)
        simpa [Assoc.get] using this
    · exact absurd hm (by simp)
  · exact absurd hm (by simp)

/-- **C74** (part): preparing a rename succeeds exactly if the descriptor at the position may be renamed, and offers its short
name; it does so whenever the rename succeeds. -/
theorem C74_prepare (c : Cache) (rng : Span) (n : Str) :
    (prepare c = some (rng, n) ↔ ∃ d, c.found = some (some (d, rng)) ∧ Renamable c d ∧ Completion.name d.fullName = n) ∧
    (∀ new m, rename c new = .ok m → ∃ p, prepare c = some p) := by
  constructor
  · unfold prepare
    split
    · simp [*]
    · simp [*]
    · rename_i d rng' hf
      rw [hf]
      by_cases h : canRename c d = true
      · have h' := (canRename_iff c d).1 h
        simp only [h, if_true, Option.some.injEq, Prod.mk.injEq]
        constructor
        · rintro ⟨rfl, rfl⟩
          exact ⟨d, ⟨rfl, rfl⟩, h', rfl⟩
        · rintro ⟨_, ⟨rfl, rfl⟩, _, rfl⟩
          exact ⟨rfl, rfl⟩
      · simp only [h, Bool.false_eq_true, if_false, reduceCtorEq, Option.some.injEq, Prod.mk.injEq, false_iff, not_exists, not_and]
        rintro _ ⟨rfl, rfl⟩ h'
        exact absurd ((canRename_iff c d).2 h') h
  · intro new m h
    unfold rename at h
    unfold prepare
    split at h
    · exact absurd h (by simp)
    · exact absurd h (by simp)
    · split at h
      · rename_i hc
        simp [hc]
      · exact absurd h (by simp)

theorem validLoop_append (s : Str) : ∀ (p : Str) (b : Bool), validLoop b (p ++ '.' :: s) = true → validLoop true s = true := by
  intro p
  induction p with
  | nil =>
    intro b h
    cases b with
    | true => simp [validLoop, isLetter] at h
    | false => simpa [validLoop, isLetterDigit, isLetter] using h
  | cons ch p ih =>
    intro b h
    simp only [List.cons_append, validLoop] at h
    split at h
    · simp only [Bool.and_eq_true] at h
      exact ih _ h.2
    · split at h
      · exact ih _ h
      · simp only [Bool.and_eq_true] at h
        exact ih _ h.2

theorem validLoop_false (s : Str) (hd : '.' ∉ s) (h : validLoop false s = true) : ∀ x ∈ s, x.isAlphanum ∨ x = '_' := by
  induction s with
  | nil => simp
  | cons ch s ih =>
    simp only [List.mem_cons, not_or] at hd
    simp only [validLoop, Bool.false_eq_true, if_false] at h
    split at h
    · intro x hx
      rcases List.mem_cons.1 hx with rfl | hx
      · exact (isLetterDigit_iff _).1 (by assumption)
      · exact ih hd.2 h x hx
    · simp only [Bool.and_eq_true, beq_iff_eq] at h
      exact absurd h.1.symm hd.1

/-- **C74** (part): after a successful rename the new name is an identifier, and no descriptor has the new full name.

Partial: if the new name has no dot (`C74_dotted_violated`). -/
theorem C74_identifier_partial (c : Cache) (new : Str) (m : List (Str × List Edit)) (h : rename c new = .ok m) (hd : '.' ∉ new) :
    Identifier new ∧ ∃ d rng, c.found = some (some (d, rng)) ∧
      c.taken (Completion.append (Completion.parent d.fullName) new) = false := by
  unfold rename at h
  split at h
  · exact absurd h (by simp)
  · exact absurd h (by simp)
  · rename_i d rng hf
    split at h
    · simp only at h
      split at h
      · rename_i hv
        split at h
        · exact absurd h (by simp)
        · rename_i ht
          refine ⟨?_, d, rng, hf, by simpa using ht⟩
          have hv : validLoop true new = true := by
            unfold isValid Completion.append at hv
            split at hv
            · exact hv
            · exact validLoop_append _ _ _ hv
          cases new with
          | nil => simp [validLoop] at hv
          | cons ch s =>
            simp only [validLoop, if_true, Bool.and_eq_true] at hv
            exact ⟨ch, s, rfl, (isLetter_iff _).1 hv.1, validLoop_false s (fun h => hd (List.mem_cons_of_mem _ h)) hv.2⟩
      · exact absurd h (by simp)
    · exact absurd h (by simp)

/-! ## Examples and counterexamples -/

/-- The message `p.M` in `a`, with a reference `p.M` in `b` and a reference in an option name. -/
def sample (refs : List Ref) : Cache where
  found := some (some (⟨.message, ['p', '.', 'M']⟩, (4, 7)))
  definition _ := some ⟨['a'], .name (.ident (18, 19))⟩
  references _ := refs
  uri p := if p = ['x'] then none else some ('/' :: p)
  isLocal u := decide (u ≠ ['/', 'w'])
  wellFormed _ := true
  taken n := decide (n = ['p', '.', 'N'])

def sampleRefs : List Ref :=
  [⟨['b'], .name (.compound (4, 7) [some (4, 5), some (6, 7)])⟩, ⟨['a'], .fieldRef (some (.ident (30, 31)))⟩]

example : rename (sample sampleRefs) ['Q'] =
    .ok [(['/', 'a'], [⟨(30, 31), ['Q']⟩, ⟨(18, 19), ['Q']⟩]), (['/', 'b'], [⟨(6, 7), ['Q']⟩])] := by decide +kernel

example : (∀ x ∈ sampleRefs ++ [⟨['a'], .name (.ident (18, 19))⟩], Simple x.node) ∧
    (∀ x ∈ sampleRefs ++ [⟨['a'], .name (.ident (18, 19))⟩], Editable (sample sampleRefs) x) ∧
    prepare (sample sampleRefs) = some ((4, 7), ['M']) := by
  refine ⟨by simp [sampleRefs, Simple], ?_, by decide +kernel⟩
  simp [sampleRefs, Editable, sample]

/-- The name is used; a reference outside of the workspace. -/
example : rename (sample sampleRefs) ['N'] = .error ∧ rename (sample [⟨['w'], .decl (1, 2)⟩]) ['Q'] = .error ∧
    rename (sample sampleRefs) ['1'] = .error := by decide +kernel

/-- The code violates C74: a qualified type of a method is replaced as a whole, so that the package is lost. -/
theorem C74_qualified_violated : ∃ (c : Cache) (d : Desc) (rng : Span) (r x : Ref) (u new : Str) (whole short : Span) (m : List (Str × List Edit)),
    c.found = some (some (d, rng)) ∧ c.definition d = some r ∧ x ∈ c.references d ∧ c.uri x.path = some u ∧
    x.node.short = some short ∧ whole ≠ short ∧ rename c new = .ok m ∧ (Assoc.get m u).getD [] = [⟨whole, new⟩] :=
  ⟨sample [⟨['b'], .rpcType (.compound (4, 7) [some (4, 5), some (6, 7)])⟩], _, _, _, ⟨['b'], _⟩, ['/', 'b'], ['Q'], (4, 7), (6, 7),
    [(['/', 'a'], [⟨(18, 19), ['Q']⟩]), (['/', 'b'], [⟨(4, 7), ['Q']⟩])], rfl, rfl, List.mem_cons_self, rfl, rfl, by decide,
    by decide +kernel, by decide +kernel⟩

/-- The code violates C74: a new name with a dot is accepted. -/
theorem C74_dotted_violated : ∃ (c : Cache) (new : Str) (m : List (Str × List Edit)), rename c new = .ok m ∧ ¬ Identifier new := by
  refine ⟨sample sampleRefs, ['Q', '.', 'R'],
    [(['/', 'a'], [⟨(30, 31), ['Q', '.', 'R']⟩, ⟨(18, 19), ['Q', '.', 'R']⟩]), (['/', 'b'], [⟨(6, 7), ['Q', '.', 'R']⟩])],
    by decide +kernel, ?_⟩
  rintro ⟨ch, t, h, _, h2⟩
  injection h with _ h
  have := h2 '.' (by rw [← h]; simp)
  exact absurd this (by decide)

end Verif.Rename
