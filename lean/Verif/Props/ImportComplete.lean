import Verif.Lemmas.ImportComplete
/-!
# C92: completing an import inserts the path of a known file
-/
namespace Verif.ImportComplete

/-- **C92** (import paths): with the cursor in the string of an import statement, one item is offered for each file that the server
knows, whose path begins as typed and that no other statement imports; accepting it makes the string that path and changes nothing
else; the items are sorted by label. (Partial: the statement at the cursor must be resolved, see `C92_again_violated`; the file itself
is offered, too, see `C92_self_violated`; the string must be the first of its line and in double quotes, see `C92_line_violated` and
`C92_single_violated`.) -/
theorem C92_import_partial (l : Literal) (h : l.Ok) (known : List (Str × Str)) (uriOf : Str → Option Str) (imports : List Str) (pub : Bool)
    (cur : Str) (hc : cur ∈ imports) (out : Option (List Item)) (hr : ImportRequest known uriOf imports ⟨pub, some cur⟩ l.content l.pos out) :
    ∃ items, out = some items ∧ items.Pairwise (fun a b => a.label ≤ b.label) ∧
      (items.map (accept l.content)).Perm ((known.filter fun x => decide (Wanted uriOf imports cur l.p x)).map fun x => some (l.with x.2)) := by
  unfold ImportRequest at hr
  obtain ⟨r, hafter⟩ := l.after h
  rw [l.before h, hafter] at hr
  obtain ⟨items, rfl, hi⟩ := hr
  refine ⟨items, rfl, ?_⟩
  unfold ImportItems at hi
  rw [indexChar_quote _ _ h.kw.1] at hi
  simp only [ne_eq, reduceCtorEq, not_false_eq_true, true_or, if_true, false_and, if_false, List.nil_append] at hi
  obtain ⟨its, hi, rfl⟩ := hi
  have e1 : (l.kw ++ '"' :: l.p).drop (l.kw.length + 1) = l.p := by
    rw [show l.kw ++ '"' :: l.p = (l.kw ++ ['"']) ++ l.p by simp]
    exact List.drop_left' (by simp)
  rw [e1, trimSpace_of_trimmed h.p.2.2, untilQuote_eq _ _ h.s.1 h.s.2.2] at hi
  unfold CompleteImports at hi
  rw [offered_eq _ _ _ _ _ _ hc] at hi
  constructor
  · exact hi.sorted.imp fun {a b} hab => (itemLess_false a b).1 hab
  · refine (hi.perm.map _).trans (List.Perm.of_eq ?_)
    exact accept_items h _ fun x hx => by
      have := (List.mem_filter.1 hx).2
      simp only [decide_eq_true_eq] at this
      obtain ⟨t, ht⟩ := this.1
      exact ⟨t, ht.symm⟩

/-- **C92** (new import): behind the keyword of an import without string, one item is offered for each file that the server knows;
accepting it inserts the path in quotation marks. In addition, the keyword `public` is offered unless it is already there. (Partial:
only if the line has no quotation mark, and files that are already imported are offered, too.) -/
theorem C92_new_partial (l : Bare) (h : l.Ok) (known : List (Str × Str)) (hk : ∀ x ∈ known, '"' ∉ x.2 ∧ '\\' ∉ x.2)
    (uriOf : Str → Option Str) (imports : List Str) (pub : Bool) (out : Option (List Item))
    (hr : ImportRequest known uriOf imports ⟨pub, none⟩ l.content l.pos out) :
    ∃ items, out = some ((if pub then [] else [⟨['p', 'u', 'b', 'l', 'i', 'c'], none⟩]) ++ items) ∧
      items.Pairwise (fun a b => a.label ≤ b.label) ∧ (items.map (accept l.content)).Perm (known.map fun x => some (l.with x.2)) := by
  unfold ImportRequest at hr
  obtain ⟨f, hafter, hf⟩ := l.after h
  rw [l.before h, hafter] at hr
  obtain ⟨items, rfl, hi⟩ := hr
  unfold ImportItems at hi
  rw [indexChar_none h.kw.1] at hi
  simp only [or_true, if_true, true_and] at hi
  obtain ⟨its, hi, rfl⟩ := hi
  refine ⟨its, ?_, ?_⟩
  · cases pub <;> rfl
  unfold CompleteImports at hi
  have e1 : pathsByPrefix known [] = known := by simp [pathsByPrefix]
  have e2 : existingPaths imports ⟨pub, none⟩ = [] := rfl
  rw [e1, e2, untilQuote_none _ hf] at hi
  have e3 : (known.filter fun x => !(existingURIs uriOf []).contains x.1) = known := by simp [existingURIs]
  rw [e3] at hi
  constructor
  · exact hi.sorted.imp fun {a b} hab => (itemLess_false a b).1 hab
  · refine (hi.perm.map _).trans (List.Perm.of_eq ?_)
    rw [List.map_map]
    apply List.map_congr_left
    intro x hx
    exact l.accept_item h x.2 (hk x hx)

/-- **C92** (labels): the label of a file is its path without the directory that has been typed. -/
theorem C92_label (typed path : Str) (h : GoPath.Names path) (hp : typed <+: path) (sfx : Str) (pos : Documents.Pos) (q : Bool) :
    (∀ d b, typed = d ++ '/' :: b → '/' ∉ b → path = d ++ '/' :: (importItem typed sfx pos q path).label) ∧
    ('/' ∉ typed → path = (importItem typed sfx pos q path).label) := by
  refine ⟨?_, fun hn => (label_plain hn h).symm⟩
  rintro d b rfl hb
  obtain ⟨t, rfl⟩ := hp
  have e : d ++ '/' :: b ++ t = d ++ '/' :: (b ++ t) := by simp
  rw [e] at h ⊢
  show _ = d ++ '/' :: label (d ++ '/' :: b) (d ++ '/' :: (b ++ t))
  rw [label_dir hb h]

/-- **C92** (syntax): with the cursor in the string of the syntax statement, those of `proto2` and `proto3` are offered that begin as
typed, and accepting one makes the string that version. (Partial: only if the string is the first of its line and in double quotes.) -/
theorem C92_syntax_partial (l : Literal) (h : l.Ok) :
    ∃ items, syntaxRequest l.content l.pos = some items ∧
      items.map (fun it => (it.label, accept l.content it)) =
        ([['p', 'r', 'o', 't', 'o', '2'], ['p', 'r', 'o', 't', 'o', '3']].filter fun v => decide (l.p <+: v)).map fun v => (v, some (l.with v)) := by
  obtain ⟨r, hafter⟩ := l.after h
  refine ⟨_, by unfold syntaxRequest; rw [l.before h, hafter], ?_⟩
  unfold syntaxItems
  rw [indexChar_quote _ _ h.kw.1]
  have e1 : (l.kw ++ '"' :: l.p).drop (l.kw.length + 1) = l.p := by
    rw [show l.kw ++ '"' :: l.p = (l.kw ++ ['"']) ++ l.p by simp]
    exact List.drop_left' (by simp)
  simp only [e1, trimSpace_of_trimmed h.p.2.2, untilQuote_eq _ _ h.s.1 h.s.2.2, completeSyntaxVersions, List.map_map]
  have e2 : (versions.filter fun v => l.p.isPrefixOf v) =
      [['p', 'r', 'o', 't', 'o', '2'], ['p', 'r', 'o', 't', 'o', '3']].filter fun v => decide (l.p <+: v) := by
    show versions.filter _ = versions.filter _
    apply List.filter_congr
    intro v _
    rw [Bool.eq_iff_iff, List.isPrefixOf_iff_prefix, decide_eq_true_eq]
  rw [e2]
  apply List.map_congr_left
  intro v hv
  have := (List.mem_filter.1 hv).2
  simp only [decide_eq_true_eq] at this
  obtain ⟨t, rfl⟩ := this
  simp only [Function.comp, accept, trimPrefix_append, Option.bind_some]
  rw [l.replace h t]

/-! ## Violations -/

/-- While an import is being written, the statement is not among the imports of the compiled file, and files that are already imported
are offered again (and the compiler rejects a second import). -/
theorem C92_again_violated (l : Literal) (h : l.Ok) (known : List (Str × Str)) (uriOf : Str → Option Str) (imports : List Str) (pub : Bool)
    (cur : Str) (hc : cur ∉ imports) (uri imported : Str) (hk : (uri, imported) ∈ known) (hu : uriOf imported = some uri)
    (_ : imported ∈ imports) (hp : l.p <+: imported) (out : Option (List Item))
    (hr : ImportRequest known uriOf imports ⟨pub, some cur⟩ l.content l.pos out) :
    ∃ items, out = some items ∧ ∃ it ∈ items, accept l.content it = some (l.with imported) := by
  unfold ImportRequest at hr
  obtain ⟨r, hafter⟩ := l.after h
  rw [l.before h, hafter] at hr
  obtain ⟨items, rfl, hi⟩ := hr
  refine ⟨items, rfl, ?_⟩
  unfold ImportItems at hi
  rw [indexChar_quote _ _ h.kw.1] at hi
  simp only [ne_eq, reduceCtorEq, not_false_eq_true, true_or, if_true, false_and, if_false, List.nil_append] at hi
  obtain ⟨its, hi, rfl⟩ := hi
  have e1 : (l.kw ++ '"' :: l.p).drop (l.kw.length + 1) = l.p := by
    rw [show l.kw ++ '"' :: l.p = (l.kw ++ ['"']) ++ l.p by simp]
    exact List.drop_left' (by simp)
  have e2 : existingPaths imports ⟨pub, some cur⟩ = [] := by
    have : importAt imports ⟨pub, some cur⟩ = none := by
      simp only [importAt, Option.bind_some, List.find?_eq_none, decide_eq_true_eq]
      rintro x hx rfl
      exact hc hx
    unfold existingPaths
    rw [this]
  rw [e1, trimSpace_of_trimmed h.p.2.2, untilQuote_eq _ _ h.s.1 h.s.2.2, e2] at hi
  refine ⟨importItem l.p l.s l.pos false imported, hi.perm.mem_iff.2 ?_, ?_⟩
  · rw [List.mem_map]
    refine ⟨(uri, imported), ?_, rfl⟩
    rw [List.mem_filter]
    refine ⟨?_, by simp [existingURIs]⟩
    unfold pathsByPrefix
    rw [List.mem_filter, List.isPrefixOf_iff_prefix]
    exact ⟨hk, hp⟩
  · obtain ⟨t, rfl⟩ := hp
    exact l.accept_item h t

/-- The file in which the import is written is offered, too, although a file cannot import itself. -/
theorem C92_self_violated (l : Literal) (h : l.Ok) (known : List (Str × Str)) (uriOf : Str → Option Str) (imports : List Str) (pub : Bool)
    (cur : Str) (hc : cur ∈ imports) (uri self : Str) (hk : (uri, self) ∈ known) (hs : ∀ i ∈ imports, uriOf i ≠ some uri) (hp : l.p <+: self)
    (out : Option (List Item)) (hr : ImportRequest known uriOf imports ⟨pub, some cur⟩ l.content l.pos out) :
    ∃ items, out = some items ∧ ∃ it ∈ items, accept l.content it = some (l.with self) := by
  obtain ⟨items, h1, _, h3⟩ := C92_import_partial l h known uriOf imports pub cur hc out hr
  refine ⟨items, h1, ?_⟩
  have : some (l.with self) ∈ items.map (accept l.content) := by
    rw [h3.mem_iff, List.mem_map]
    refine ⟨(uri, self), ?_, rfl⟩
    rw [List.mem_filter]
    exact ⟨hk, by simp only [decide_eq_true_eq]; exact ⟨hp, fun i hi _ => hs i hi⟩⟩
  rw [List.mem_map] at this
  obtain ⟨it, h4, h5⟩ := this
  exact ⟨it, h4, h5⟩

/-- `import 'a`: in single quotes, no paths are offered, but the keyword `public` in the middle of the string. -/
theorem C92_single_violated (known : List (Str × Str)) (uriOf : Str → Option Str) (imports : List Str) (cur before following : Str)
    (pos : Documents.Pos) (hb : '"' ∉ before) (out : List Item) :
    ImportItems known uriOf imports ⟨false, some cur⟩ before following pos out ↔ out = [⟨['p', 'u', 'b', 'l', 'i', 'c'], none⟩] := by
  unfold ImportItems
  rw [indexChar_none hb]
  simp [kwPublic]

/-- `import "a"; import "b`: what is taken as the beginning of the path starts in the first string, and nothing is offered. -/
theorem C92_line_violated (known : List (Str × Str)) (hk : ∀ x ∈ known, '"' ∉ x.2) (uriOf : Str → Option Str) (imports : List Str) (node : Node)
    (kw a b following : Str) (pos : Documents.Pos) (hkw : '"' ∉ kw) (hb : Trimmed (a ++ '"' :: b)) (out : List Item)
    (h : ImportItems known uriOf imports node (kw ++ '"' :: (a ++ '"' :: b)) following pos out) : out = [] := by
  unfold ImportItems at h
  rw [indexChar_quote _ _ hkw] at h
  simp only [ne_eq, reduceCtorEq, not_false_eq_true, true_or, if_true, false_and, if_false, List.nil_append] at h
  obtain ⟨its, hi, rfl⟩ := h
  have e1 : (kw ++ '"' :: (a ++ '"' :: b)).drop (kw.length + 1) = a ++ '"' :: b := by
    rw [show kw ++ '"' :: (a ++ '"' :: b) = (kw ++ ['"']) ++ (a ++ '"' :: b) by simp]
    exact List.drop_left' (by simp)
  rw [e1, trimSpace_of_trimmed hb] at hi
  have e2 : pathsByPrefix known (a ++ '"' :: b) = [] := by
    unfold pathsByPrefix
    rw [List.filter_eq_nil_iff]
    intro x hx hp
    rw [List.isPrefixOf_iff_prefix] at hp
    obtain ⟨t, ht⟩ := hp
    exact hk x hx (by rw [← ht]; simp)
  unfold CompleteImports at hi
  rw [e2] at hi
  exact hi.perm.eq_nil

/-- If the syntax tree has no string yet but the text has (`import ;` and then `"` is typed), the path is inserted in quotation marks
inside of quotation marks. -/
theorem C92_quotes_violated (l : Literal) (h : l.Ok) (t : Str) (ht : '"' ∉ t ∧ '\\' ∉ t) :
    accept l.content (importItem l.p l.s l.pos true (l.p ++ t)) = some (l.with (l.p ++ '"' :: (t ++ ['"']))) := by
  unfold accept importItem
  simp only [trimPrefix_append, Option.bind_some, if_true, quoted_plain ht]
  exact l.replace h _

/-! ## Examples -/

/-- `import "a/b.proto";` in the second line, cursor behind `a`. -/
def exampleLiteral : Literal :=
  ⟨['\n'], ['i', 'm', 'p', 'o', 'r', 't', ' '], ['a'], ['/', 'b'], [';']⟩

theorem exampleLiteral_ok : exampleLiteral.Ok where
  above := .inr ⟨[], rfl⟩
  kw := ⟨by decide, by decide⟩
  p := ⟨by decide, by decide, ⟨by intro c hc; cases hc; decide, by intro c hc; cases hc; decide⟩⟩
  s := ⟨by decide, by decide, ⟨by intro c hc; cases hc; decide, by intro c hc; cases hc; decide⟩⟩
  fits := by unfold QuickFix.Fits; decide

def exampleKnown : List (Str × Str) := [(['u'], ['a', '/', 'b']), (['v'], ['a', '/', 'c']), (['w'], ['x']), (['t'], ['a', '/', 'd'])]

def exampleUri (s : Str) : Option Str := if s = ['a', '/', 'b'] then some ['u'] else if s = ['a', '/', 'd'] then some ['t'] else none

example : ((exampleKnown.filter fun x => decide (Wanted exampleUri [['a', '/', 'b'], ['a', '/', 'd']] ['a', '/', 'b'] exampleLiteral.p x)).map
    fun x => x.1) = [['u'], ['v']] := by decide +kernel

example (out : Option (List Item)) (hr : ImportRequest exampleKnown exampleUri [['a', '/', 'b'], ['a', '/', 'd']]
    ⟨false, some ['a', '/', 'b']⟩ exampleLiteral.content exampleLiteral.pos out) : ∃ items, out = some items ∧ items.length = 2 := by
  obtain ⟨items, h1, _, h3⟩ := C92_import_partial exampleLiteral exampleLiteral_ok _ _ _ _ _ (by decide) out hr
  refine ⟨items, h1, ?_⟩
  have := h3.length_eq
  rw [List.length_map] at this
  rw [this]
  decide +kernel

example : ∃ out, ImportRequest exampleKnown exampleUri [['a', '/', 'b'], ['a', '/', 'd']] ⟨false, some ['a', '/', 'b']⟩
    exampleLiteral.content exampleLiteral.pos out := by
  have h1 : lineBefore exampleLiteral.content exampleLiteral.pos = some ['i', 'm', 'p', 'o', 'r', 't', ' ', '"', 'a'] := by decide +kernel
  have h2 : lineAfter exampleLiteral.content exampleLiteral.pos = some ['/', 'b', '"', ';'] := by decide +kernel
  refine ⟨some [importItem ['a'] ['/', 'b'] exampleLiteral.pos false ['a', '/', 'b'], importItem ['a'] ['/', 'b'] exampleLiteral.pos false ['a', '/', 'c']], ?_⟩
  unfold ImportRequest
  rw [h1, h2]
  exact ⟨_, rfl, _, ⟨.refl _, by decide +kernel⟩, rfl⟩

example : (importItem ['a', '/', 'b'] [] ⟨0, 0⟩ false ['a', '/', 'b', 'c', '/', 'd']).label = ['b', 'c', '/', 'd'] := by decide +kernel

example : (C92_syntax_partial ⟨[], ['s', '='], ['p', 'r', 'o', 't', 'o'], [], [';']⟩
    ⟨.inl rfl, ⟨by decide, by decide⟩, ⟨by decide, by decide, ⟨by intro c hc; cases hc; decide, by intro c hc; cases hc; decide⟩⟩, ⟨by decide, by decide, trimmed_nil⟩,
      by unfold QuickFix.Fits; decide⟩).choose.length = 2 := by
  have h := (C92_syntax_partial ⟨[], ['s', '='], ['p', 'r', 'o', 't', 'o'], [], [';']⟩
    ⟨.inl rfl, ⟨by decide, by decide⟩, ⟨by decide, by decide, ⟨by intro c hc; cases hc; decide, by intro c hc; cases hc; decide⟩⟩, ⟨by decide, by decide, trimmed_nil⟩,
      by unfold QuickFix.Fits; decide⟩).choose_spec.2
  have := congrArg List.length h
  rw [List.length_map] at this
  rw [this]
  decide +kernel

def exampleBare : Bare := ⟨[], ['i', 'm', 'p', 'o', 'r', 't', ' '], [], []⟩

theorem exampleBare_ok : exampleBare.Ok :=
  ⟨.inl rfl, ⟨by decide, by decide⟩, ⟨by decide, by decide⟩, .inl rfl, by unfold QuickFix.Fits; decide⟩

example : accept exampleBare.content (importItem [] [] exampleBare.pos true ['a']) =
    some ['i', 'm', 'p', 'o', 'r', 't', ' ', '"', 'a', '"'] := exampleBare.accept_item exampleBare_ok ['a'] (by decide)

end Verif.ImportComplete
