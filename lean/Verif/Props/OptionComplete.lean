import Verif.Lemmas.OptionComplete
/-!
# C93: completing the name of an option inserts that name
-/
namespace Verif.OptionComplete
open Verif.QuickFix (posAfter Fits applyEdit)
open Verif.ImportComplete (adjustColumn adjust_eq)

/-- **C93** (new option): behind the keyword `option`, the items are the fields of the options message that are repeated or not set yet,
in order, and then the extensions of that message; accepting one inserts the name of the field, or the name of the extension in
parentheses together with the import it needs. -/
theorem C93_new (p : Place) (h : p.Ok) (hl : p.l = []) (hr : p.r = []) (exts : Str → List Ext) (sc : Scope) (hm : sc.options.mapEntry = false)
    (hn : ∀ f ∈ sc.options.fields, f.name ≠ []) :
    (caseOption exts sc p.cursor).map (row p.content) =
      ((sc.options.fields.filter fun f => decide (f.repeated = true ∨ f.fullName ∉ sc.set)).map fun f => (f.name, some (p.with f.name), false, [])) ++
      (((exts sc.options.fullName).filter fun x => decide (¬ ['g', 'o', 'g', 'o', 'p', 'r', 'o', 't', 'o', '.'] <+: x.fullName)).map
        fun x => (inParens x.rel, some (p.with (inParens x.rel)), false, x.imp.toList)) := by
  have h1 := field_rows p h sc.set sc.options.fields
  have h2 := ext_rows p.content p.l p.r none p.cursor.pos (exts sc.options.fullName) _ (accept_new p h)
  rw [hl, hr] at h1 h2
  simp only [caseOption, completeName, partialNames, deepComplete, hm, Option.map_none, if_true, Bool.false_eq_true, if_false, List.map_append,
    show ¬ ((0 : Int) = -1) by omega]
  rw [h1, h2]
  congr 1
  · have e : (sc.options.fields.filter fun f => decide (Open [] ([] ++ []) sc.set f)) =
        sc.options.fields.filter fun f => decide (f.repeated = true ∨ f.fullName ∉ sc.set) := by
      apply List.filter_congr
      intro f hf
      rw [decide_eq_decide]
      unfold Open
      simp [hn f hf]
    rw [e]
    apply List.map_congr_left
    intro f hf
    simp [hn f (List.mem_filter.1 hf).1]
  · have e : ((exts sc.options.fullName).filter fun x => decide (Shown [] x)) =
        (exts sc.options.fullName).filter fun x => decide (¬ ['g', 'o', 'g', 'o', 'p', 'r', 'o', 't', 'o', '.'] <+: x.fullName) := by
      apply List.filter_congr
      intro x _
      rw [decide_eq_decide]
      unfold Shown
      simp
    rw [e]

/-- **C93** (name in parentheses): with the cursor anywhere in or beside a name in parentheses, the items are the extensions of the options
message, and accepting one replaces the name and its parentheses by the name of the extension in parentheses. (Partial: nothing may stand
between the parentheses and the name, see `C93_spaces_violated`, and both must be there, see `C93_unclosed_violated`.) -/
theorem C93_ext_partial (p : Place) (h : p.Ok) (n : Str) (hn : p.l ++ p.r = inParens n) (exts : Str → List Ext) (sc : Scope)
    (hm : sc.options.mapEntry = false) (before : Option Prev) :
    (caseRef exts sc before (parenNode p.above n) 0 p.cursor).map (row p.content) =
      ((exts sc.options.fullName).filter fun x => decide (Shown ((p.l.drop 1).take n.length) x)).map
        fun x => (inParens x.rel, some (p.with (inParens x.rel)), false, x.imp.toList) := by
  have h2 := fun x => accept_paren p h n '(' ')' hn x
  have h3 := ext_rows p.content _ _ (some (parenNode p.above n).ref) p.cursor.pos (exts sc.options.fullName) _ (fun x => (h2 x).2)
  have h4 := (h2 ⟨[], [], none⟩).1
  rw [← h4, ← h3]
  simp only [caseRef, completeName, deepComplete, hm, Option.map_some, if_true, Bool.false_eq_true, if_false,
    show ((0 : Nat) : Int) = 0 from rfl, show ¬ ((0 : Int) = -1) by omega]
  rfl

/-- **C93** (name without parentheses): the first items are the fields of the options message that begin as typed, in order; accepting one
replaces the word at the cursor, and the field that is the word is selected; then come the extensions. (Partial: accepting an extension
inserts it without parentheses, see `C93_bare_violated`, and options that are set are offered, see `C93_set_violated`.) -/
theorem C93_field_partial (p : Place) (h : p.Ok) (exts : Str → List Ext) (sc : Scope) (hm : sc.options.mapEntry = false) (before : Option Prev) :
    (caseRef exts sc before (plainNode p.above (p.l ++ p.r)) 0 p.cursor).map (row p.content) =
      ((sc.options.fields.filter fun f => decide (p.l <+: f.name)).map fun f => (f.name, some (p.with f.name), decide (f.name = p.l ++ p.r), [])) ++
      (((exts sc.options.fullName).filter fun x => decide (Shown p.l x)).map fun x => (inParens x.rel, some (p.with x.rel), false, x.imp.toList)) := by
  have h1 := field_rows p h [] sc.options.fields
  have h2 := ext_rows p.content p.l p.r (some ⟨false, none, none⟩) p.cursor.pos (exts sc.options.fullName) _ (fun x => accept_plain p h x false)
  have h3 := findPartialNames_word p.above p.l p.r p.rest
  have e : (sc.options.fields.filter fun f => decide (p.l <+: f.name)) = sc.options.fields.filter fun f => decide (Open p.l (p.l ++ p.r) [] f) := by
    apply List.filter_congr
    intro f _
    rw [decide_eq_decide]
    simp [Open]
  rw [e, ← h1, ← h2, ← List.map_append]
  congr 1
  have h4 : partialNames p.cursor.content p.cursor.offset true (some (plainNode p.above (p.l ++ p.r))) = (p.l, p.r) := h3
  simp only [caseRef, completeName, h4, deepComplete, hm, Option.map_some, if_true, Bool.false_eq_true, if_false,
    show ((0 : Nat) : Int) = 0 from rfl, show ¬ ((0 : Int) = -1) by omega]
  rfl

/-- **C93** (later parts): behind a dot, the items are the fields of the message of the part before that begin as typed; accepting one
replaces the word at the cursor. Extensions only follow if the message can be extended. (Partial: as above.) -/
theorem C93_sub_partial (p : Place) (h : p.Ok) (exts : Str → List Ext) (sc : Scope) (m : Msg) (hm : m.mapEntry = false) (idx : Nat) (hi : 2 ≤ idx) :
    (caseRef exts sc (some (.field (some m))) (plainNode p.above (p.l ++ p.r)) idx p.cursor).map (row p.content) =
      ((m.fields.filter fun f => decide (p.l <+: f.name)).map fun f => (f.name, some (p.with f.name), decide (f.name = p.l ++ p.r), [])) ++
      (if m.hasRanges then
        ((exts m.fullName).filter fun x => decide (Shown p.l x)).map fun x => (inParens x.rel, some (p.with x.rel), false, x.imp.toList)
      else []) := by
  have h1 := field_rows p h [] m.fields
  have h2 := ext_rows p.content p.l p.r (some ⟨false, none, none⟩) p.cursor.pos (exts m.fullName) _ (fun x => accept_plain p h x false)
  have h3 := findPartialNames_word p.above p.l p.r p.rest
  have e : (m.fields.filter fun f => decide (p.l <+: f.name)) = m.fields.filter fun f => decide (Open p.l (p.l ++ p.r) [] f) := by
    apply List.filter_congr
    intro f _
    rw [decide_eq_decide]
    simp [Open]
  have h4 : partialNames p.cursor.content p.cursor.offset false (some (plainNode p.above (p.l ++ p.r))) = (p.l, p.r) := h3
  rw [e, ← h1, ← h2]
  unfold caseRef completeName
  rw [if_neg (by omega), if_neg (by omega), if_neg (by omega)]
  simp only [h4, deepComplete, hm, Option.map_some, Bool.false_eq_true, if_false, show (plainNode p.above (p.l ++ p.r)).ref = ⟨false, none, none⟩ from rfl,
    Bool.and_false, List.map_append]
  cases m.hasRanges <;> rfl

/-- **C93** (later parts in parentheses): if the message of the part before can be extended, the items are its extensions, and accepting
one replaces the name and its parentheses. (Partial: as above.) -/
theorem C93_sub_ext_partial (p : Place) (h : p.Ok) (n : Str) (hn : p.l ++ p.r = inParens n) (exts : Str → List Ext) (sc : Scope) (m : Msg)
    (hm : m.mapEntry = false) (hg : m.hasRanges = true) (idx : Nat) (hi : 2 ≤ idx) :
    (caseRef exts sc (some (.field (some m))) (parenNode p.above n) idx p.cursor).map (row p.content) =
      ((exts m.fullName).filter fun x => decide (Shown ((p.l.drop 1).take n.length) x)).map
        fun x => (inParens x.rel, some (p.with (inParens x.rel)), false, x.imp.toList) := by
  have h2 := fun x => accept_paren p h n '(' ')' hn x
  have h3 := ext_rows p.content _ _ (some (parenNode p.above n).ref) p.cursor.pos (exts m.fullName) _ (fun x => (h2 x).2)
  have h4 := (h2 ⟨[], [], none⟩).1
  rw [← h4, ← h3]
  unfold caseRef completeName
  rw [if_neg (by omega), if_neg (by omega), if_neg (by omega)]
  simp only [deepComplete, hm, hg, Option.map_some, Bool.false_eq_true, if_false]
  rfl

/-- **C93** (no fields): behind a part that is not a message, is a map entry, or is unknown, nothing is offered. -/
theorem C93_nothing (exts : Str → List Ext) (sc : Scope) (node : Node) (idx : Nat) (hi : 0 < idx) (c : Cursor) (before : Option Prev)
    (h : ∀ p, before = some p → (∀ m, p = .message m ∨ p = .field (some m) → m.mapEntry = true)) :
    caseRef exts sc before node idx c = [] := by
  unfold caseRef completeName
  rw [if_neg (by omega), if_neg (by omega)]
  simp only []
  split
  · rfl
  · cases before with
    | none => rfl
    | some p =>
      cases p with
      | message m => simp [deepComplete, h _ rfl m (.inl rfl)]
      | other => rfl
      | field m =>
        cases m with
        | none => rfl
        | some m => simp [deepComplete, h _ rfl m (.inr rfl)]

theorem append_inj (s a b : Str) (h : Completion.append s a = Completion.append s b) : a = b := by
  unfold Completion.append at h
  split at h
  · exact h
  · simpa using h

/-- **C93** (message literals): the first items are the fields of the message that begin as typed and that are repeated, not in the
literal yet, or the one at the cursor. (Partial: extensions, see `C93_brackets_violated`.) -/
theorem C93_literal_partial (p : Place) (h : p.Ok) (exts : Str → List Ext) (m : Msg) (hm : m.mapEntry = false)
    (hf : ∀ f ∈ m.fields, f.fullName = Completion.append m.fullName f.name) (elems : List Str) :
    ∃ fs es, caseLiteral exts m elems (plainNode p.above (p.l ++ p.r)) p.cursor = fs ++ es ∧
      fs.map (row p.content) = (m.fields.filter fun f => decide (p.l <+: f.name ∧ (f.name = p.l ++ p.r ∨ f.repeated = true ∨ f.name ∉ elems))).map
        (fun f => (f.name, some (p.with f.name), decide (f.name = p.l ++ p.r), [])) ∧
      es.map (·.label) = ((exts m.fullName).filter fun x => decide (Shown p.l x)).map fun x => inParens x.rel := by
  have h1 := field_rows p h (elems.map fun e => Completion.append m.fullName e) m.fields
  have h2 := ext_rows p.content p.l p.r (some ⟨false, none, none⟩) p.cursor.pos (exts m.fullName) _ (fun x => accept_plain p h x false)
  have h3 := findPartialNames_word p.above p.l p.r p.rest
  have h4 : partialNames p.cursor.content p.cursor.offset true (some (plainNode p.above (p.l ++ p.r))) = (p.l, p.r) := h3
  refine ⟨(m.fields.filter (offered p.l p.r (elems.map fun e => Completion.append m.fullName e))).map (fieldItem p.l p.r p.cursor.pos),
    ((exts m.fullName).filter fun x => !(gogoproto.isPrefixOf x.fullName && !gogo.isPrefixOf p.l)).map
      (extItem p.l p.r (some ⟨false, none, none⟩) p.cursor.pos), ?_, ?_, ?_⟩
  rotate_left
  · rw [h1]
    congr 1
    apply List.filter_congr
    intro f hm
    rw [decide_eq_decide]
    unfold Open
    have : f.fullName ∈ (elems.map fun e => Completion.append m.fullName e) ↔ f.name ∈ elems := by
      rw [List.mem_map, hf f hm]
      exact ⟨fun ⟨a, ha, he⟩ => append_inj _ _ _ he ▸ ha, fun ha => ⟨_, ha, rfl⟩⟩
    rw [this]
  · have := congrArg (List.map Prod.fst) h2
    rw [List.map_map, List.map_map, List.map_map] at this
    rw [List.map_map]
    exact this
  · unfold caseLiteral completeName
    rw [if_neg (by omega), if_pos rfl]
    simp only [h4, deepComplete, hm, Option.map_some, if_true, Bool.false_eq_true, if_false]
    rfl

/-- **C93** (whose options): if the innermost declaration around the cursor is a file, message, field, enum or service and the compiler
knows it, its options are completed. (Partial: see `C93_scope_violated` for the other declarations.) -/
theorem C93_scope_partial {δ : Type} (file d : δ) (path : List (NodeKind × Option δ)) (k : NodeKind) (hb : Belongs path k (some d))
    (hk : k = .file ∧ d = file ∨ k = .message ∨ k = .field ∨ k = .enum ∨ k = .service) (hl : ∀ x ∈ path, x.1 ≠ .messageField) :
    findScope file path = some d := by
  generalize ho : some d = o at hb
  induction hb with
  | here k d' rest _ =>
    subst ho
    rcases hk with ⟨rfl, rfl⟩ | rfl | rfl | rfl | rfl <;> rfl
  | there k' d' rest k d'' hn _ ih =>
    have := ih hk (fun x hx => hl x (List.mem_cons_of_mem _ hx)) ho
    have h1 := hl (k', d') (by simp)
    cases k' <;> first | exact this | exact absurd trivial hn | exact absurd rfl h1

/-! ## Violations -/

/-- `option my_<cursor>`: an extension is inserted without its parentheses. -/
theorem C93_bare_violated (p : Place) (h : p.Ok) (exts : Str → List Ext) (sc : Scope) (hm : sc.options.mapEntry = false) (x : Ext)
    (hx : x ∈ exts sc.options.fullName) (hs : Shown p.l x) :
    ∃ it ∈ caseRef exts sc none (plainNode p.above (p.l ++ p.r)) 0 p.cursor,
      it.label = inParens x.rel ∧ accept p.content it = some (p.with x.rel) ∧ p.with x.rel ≠ p.with (inParens x.rel) := by
  have h1 := C93_field_partial p h exts sc hm none
  have h2 : (inParens x.rel, some (p.with x.rel), false, x.imp.toList) ∈
      (caseRef exts sc none (plainNode p.above (p.l ++ p.r)) 0 p.cursor).map (row p.content) := by
    rw [h1, List.mem_append]
    refine .inr (List.mem_map.2 ⟨x, List.mem_filter.2 ⟨hx, by simpa using hs⟩, rfl⟩)
  obtain ⟨it, h3, h4⟩ := List.mem_map.1 h2
  simp only [row, Prod.mk.injEq] at h4
  refine ⟨it, h3, h4.1, h4.2.1, fun he => ?_⟩
  have := congrArg List.length he
  simp [Place.with, inParens] at this
  omega

/-- While the name of an option is being written, options that are already set are offered, although they must not be set twice. -/
theorem C93_set_violated (p : Place) (h : p.Ok) (exts : Str → List Ext) (sc : Scope) (hm : sc.options.mapEntry = false) (f : Field)
    (hf : f ∈ sc.options.fields) (hp : p.l <+: f.name) (_ : f.fullName ∈ sc.set) (_ : f.repeated = false) (_ : f.name ≠ p.l ++ p.r) :
    ∃ it ∈ caseRef exts sc none (plainNode p.above (p.l ++ p.r)) 0 p.cursor, accept p.content it = some (p.with f.name) := by
  have h1 := C93_field_partial p h exts sc hm none
  have h2 : (f.name, some (p.with f.name), decide (f.name = p.l ++ p.r), []) ∈
      (caseRef exts sc none (plainNode p.above (p.l ++ p.r)) 0 p.cursor).map (row p.content) := by
    rw [h1, List.mem_append]
    exact .inl (List.mem_map.2 ⟨f, List.mem_filter.2 ⟨hf, by simpa using hp⟩, rfl⟩)
  obtain ⟨it, h3, h4⟩ := List.mem_map.1 h2
  simp only [row, Prod.mk.injEq] at h4
  exact ⟨it, h3, h4.2.1⟩

/-- In the brackets of compact options, not the options of the declaration are offered, but the fields of its type, if it has one. -/
theorem C93_compact_violated (p : Place) (h : p.Ok) (hl : p.l = []) (hr : p.r = []) (exts : Str → List Ext) (sc : Scope) :
    (sc.self = .field none ∨ sc.self = .other → caseCompact exts sc p.cursor = []) ∧
    ∀ m, sc.self = .field (some m) → m.mapEntry = false → m.hasRanges = false →
      (caseCompact exts sc p.cursor).map (row p.content) =
        (m.fields.filter fun f => decide (Open [] [] sc.set f)).map fun f => (f.name, some (p.with f.name), decide (f.name = []), []) := by
  constructor
  · rintro (hs | hs) <;> simp [caseCompact, completeName, hs, deepComplete]
  · intro m hs hm hg
    have h1 := field_rows p h sc.set m.fields
    rw [hl, hr] at h1
    simp only [List.nil_append] at h1
    rw [← h1]
    simp [caseCompact, completeName, partialNames, hs, deepComplete, hm, hg]

/-- `option (na<cursor>me`: the closing parenthesis is not inserted. -/
theorem C93_unclosed_violated (p : Place) (h : p.Ok) (l : Str) (hl : p.l = '(' :: l) (exts : Str → List Ext) (sc : Scope)
    (hm : sc.options.mapEntry = false) :
    (caseRef exts sc none ⟨⟨true, some (posAfter p.above).char, none⟩, some (p.above.length + 1, p.above.length + 1 + (l ++ p.r).length), true⟩ 0
      p.cursor).map (row p.content) =
      ((exts sc.options.fullName).filter fun x => decide (Shown l x)).map fun x => (inParens x.rel, some (p.with ('(' :: x.rel)), false, x.imp.toList) := by
  obtain ⟨above, l', r, rest⟩ := p
  simp only at hl
  subst hl
  have hl1 := h.l
  have hr1 := h.r
  have hf1 := h.fits
  simp only [Place.content] at hl1 hr1 hf1 ⊢
  have hl' : '\n' ∉ l := by simp at hl1; exact hl1
  have e := findPartialNames_word (above ++ ['(']) l r rest
  have e' : partialNames (Place.cursor ⟨above, '(' :: l, r, rest⟩).content (Place.cursor ⟨above, '(' :: l, r, rest⟩).offset true
      (some ⟨⟨true, some (posAfter above).char, none⟩, some (above.length + 1, above.length + 1 + (l ++ r).length), true⟩) = (l, r) := by
    rw [← e]
    simp only [partialNames, Bool.not_true, Bool.or_true, if_true, Place.cursor, Place.content]
    simp
    congr 1
    omega
  have hacc : ∀ x, accept (above ++ '(' :: l ++ (r ++ rest)) (extItem l r (some ⟨true, some (posAfter above).char, none⟩)
      (Place.cursor ⟨above, '(' :: l, r, rest⟩).pos x) = some (Place.with ⟨above, '(' :: l, r, rest⟩ ('(' :: x.rel)) := by
    intro x
    have key := replace_range above ('(' :: l) r rest hl1 hr1 hf1 ('(' :: x.rel)
    unfold accept Place.with
    rw [← key]
    have hposc : (posAfter (above ++ '(' :: l)).char = (posAfter above).char + ('(' :: l).length := by
      rw [QuickFix.posAfter_append_line _ _ hl1]
    have h1 : (posAfter above).char < (posAfter (above ++ '(' :: l)).char := by rw [hposc]; simp
    have w : (extItem l r (some ⟨true, some (posAfter above).char, none⟩) (Place.cursor ⟨above, '(' :: l, r, rest⟩).pos x).edit =
        ⟨adjustColumn (adjustColumn (posAfter (above ++ '(' :: l)) (-(l.length : Int))) (-1), adjustColumn (posAfter (above ++ '(' :: l)) r.length,
          '(' :: x.rel⟩ := by
      simp [extItem, Place.cursor, widen, h1]
    rw [w]
    congr 2
    have := adjust_adjust above ['('] l (by simp) hl' (by have := hf1.left; simpa using this)
    simpa using this
  rw [← ext_rows _ _ _ _ _ _ _ hacc]
  simp only [caseRef, completeName, e', deepComplete, hm, Option.map_some, if_true, Bool.false_eq_true, if_false,
    show ((0 : Nat) : Int) = 0 from rfl, show ¬ ((0 : Int) = -1) by omega]
  rfl

/-- `[na<cursor>me]` in a message literal: the brackets are replaced by parentheses, which are an error there. -/
theorem C93_brackets_violated (p : Place) (h : p.Ok) (n : Str) (hn : p.l ++ p.r = '[' :: (n ++ [']'])) (exts : Str → List Ext) (m : Msg)
    (hm : m.mapEntry = false) (elems : List Str) :
    (caseLiteral exts m elems (parenNode p.above n) p.cursor).map (row p.content) =
      ((exts m.fullName).filter fun x => decide (Shown ((p.l.drop 1).take n.length) x)).map
        fun x => (inParens x.rel, some (p.with (inParens x.rel)), false, x.imp.toList) := by
  have h2 := fun x => accept_paren p h n '[' ']' hn x
  have h3 := ext_rows p.content _ _ (some (parenNode p.above n).ref) p.cursor.pos (exts m.fullName) _ (fun x => (h2 x).2)
  have h4 := (h2 ⟨[], [], none⟩).1
  rw [← h4, ← h3]
  simp only [caseLiteral, completeName, deepComplete, hm, Option.map_some, if_true, Bool.false_eq_true, if_false,
    show ¬ ((0 : Int) = -1) by omega]
  rfl

/-- `option ( a );`, cursor behind `a`. -/
def spaces : Place := ⟨['o', 'p', 't', 'i', 'o', 'n', ' '], ['(', ' ', 'a'], [' ', ')'], [';']⟩

/-- With white space inside of the parentheses, they are doubled. -/
theorem C93_spaces_violated :
    (caseRef (fun _ => [⟨['a', 'b'], ['a', 'b'], none⟩]) ⟨.other, ⟨[], [], false, true⟩, []⟩ none ⟨⟨true, some 7, some 11⟩, some (9, 10), true⟩ 0
      spaces.cursor).map (accept spaces.content) = [some (spaces.with ['(', '(', 'a', 'b', ')', ')'])] := by
  decide +kernel

/-- The options of a method are taken for those of the file, the options of a oneof or of an enum value for those of what is around it. -/
theorem C93_scope_violated {δ : Type} (file d outer : δ) (path : List (NodeKind × Option δ)) :
    findScope file ((.rpc, some d) :: path) = some file ∧
    findScope file ((.oneof, some d) :: (.message, some outer) :: path) = some outer ∧
    findScope file ((.enumValue, some d) :: (.enum, some outer) :: path) = some outer ∧
    findScope file ((.field, none) :: (.message, some outer) :: path) = some outer := ⟨rfl, rfl, rfl, rfl⟩

/-! ## Examples -/

def exampleMsg : Msg :=
  ⟨['O'], [⟨['a'], ['O', '.', 'a'], false⟩, ⟨['a', 'b'], ['O', '.', 'a', 'b'], false⟩, ⟨['r'], ['O', '.', 'r'], true⟩], false, true⟩

def exampleExts (s : Str) : List Ext :=
  if s = ['O'] then [⟨['p', '.', 'x'], ['x'], none⟩, ⟨['g', 'o', 'g', 'o', 'p', 'r', 'o', 't', 'o', '.', 'y'], ['y'], none⟩] else []

def exampleScope : Scope := ⟨.field none, exampleMsg, [['O', '.', 'a'], ['O', '.', 'r']]⟩

theorem ok_of (p : Place) (h : '\n' ∉ p.l ∧ '\n' ∉ p.r ∧ p.content.length < 100) : p.Ok :=
  ⟨h.1, h.2.1, by unfold Fits; omega⟩

/-- `option ` in the second line. -/
def exampleNew : Place := ⟨['\n', 'o', 'p', ' '], [], [], [';']⟩

example : (caseOption exampleExts exampleScope exampleNew.cursor).map (fun it => (it.label, accept exampleNew.content it)) =
    [(['a', 'b'], some ['\n', 'o', 'p', ' ', 'a', 'b', ';']), (['r'], some ['\n', 'o', 'p', ' ', 'r', ';']),
      (['(', 'x', ')'], some ['\n', 'o', 'p', ' ', '(', 'x', ')', ';'])] := by
  have h := C93_new exampleNew (ok_of _ (by decide)) rfl rfl exampleExts exampleScope rfl (by decide)
  have := congrArg (List.map fun t => (t.1, t.2.1)) h
  rw [List.map_map] at this
  exact this.trans (by decide +kernel)

/-- `option (fo|o);` -/
def exampleParen : Place := ⟨['\n', 'o', 'p', ' '], ['(', 'f', 'o'], ['o', ')'], [';']⟩

example : (caseRef exampleExts exampleScope none (parenNode exampleParen.above ['f', 'o', 'o']) 0 exampleParen.cursor).map (accept exampleParen.content) =
    [some ['\n', 'o', 'p', ' ', '(', 'x', ')', ';']] := by
  have h := C93_ext_partial exampleParen (ok_of _ (by decide)) ['f', 'o', 'o'] rfl exampleExts exampleScope rfl none
  have := congrArg (List.map fun t => t.2.1) h
  rw [List.map_map] at this
  exact this.trans (by decide +kernel)

/-- `option a|b;` -/
def exampleWord : Place := ⟨['\n', 'o', 'p', ' '], ['a'], ['b'], [';']⟩

example : (caseRef exampleExts exampleScope none (plainNode exampleWord.above ['a', 'b']) 0 exampleWord.cursor).map (fun it => (it.label, it.preselect)) =
    [(['a'], false), (['a', 'b'], true), (['(', 'x', ')'], false)] := by
  have h := C93_field_partial exampleWord (ok_of _ (by decide)) exampleExts exampleScope rfl none
  have := congrArg (List.map fun t => (t.1, t.2.2.1)) h
  rw [List.map_map] at this
  exact this.trans (by decide +kernel)

example : (caseRef exampleExts exampleScope (some (.field (some exampleMsg))) (plainNode exampleWord.above ['a', 'b']) 2 exampleWord.cursor).length = 3 := by
  have h := C93_sub_partial exampleWord (ok_of _ (by decide)) exampleExts exampleScope exampleMsg rfl 2 (by omega)
  have := congrArg List.length h
  rw [List.length_map] at this
  exact this.trans (by decide +kernel)

example : (caseRef exampleExts exampleScope (some (.field (some exampleMsg))) (parenNode exampleParen.above ['f', 'o', 'o']) 2 exampleParen.cursor).map
    (accept exampleParen.content) = [some ['\n', 'o', 'p', ' ', '(', 'x', ')', ';']] := by
  have h := C93_sub_ext_partial exampleParen (ok_of _ (by decide)) ['f', 'o', 'o'] rfl exampleExts exampleScope exampleMsg rfl rfl 2 (by omega)
  have := congrArg (List.map fun t => t.2.1) h
  rw [List.map_map] at this
  exact this.trans (by decide +kernel)

example : caseRef exampleExts exampleScope (some (.field none)) (plainNode exampleWord.above ['a', 'b']) 2 exampleWord.cursor = [] :=
  C93_nothing _ _ _ _ (by omega) _ _ (by rintro p ⟨⟩ m (h | h) <;> cases h)

example : ∃ fs es, caseLiteral exampleExts exampleMsg [['a'], ['a', 'b']] (plainNode exampleWord.above ['a', 'b']) exampleWord.cursor = fs ++ es ∧
    fs.length = 1 := by
  obtain ⟨fs, es, h1, h2, _⟩ := C93_literal_partial exampleWord (ok_of _ (by decide)) exampleExts exampleMsg rfl (by decide) [['a'], ['a', 'b']]
  refine ⟨fs, es, h1, ?_⟩
  have := congrArg List.length h2
  rw [List.length_map] at this
  exact this.trans (by decide +kernel)

example : findScope 0 [(.other, none), (.field, some 2), (.message, some 1), (.file, some 0)] = some 2 :=
  C93_scope_partial 0 2 _ .field (.there _ _ _ _ _ id (.here _ _ _ trivial)) (by simp) (by simp)

example : ∃ it ∈ caseRef exampleExts exampleScope none (plainNode exampleWord.above ['a', 'b']) 0 exampleWord.cursor,
    accept exampleWord.content it = some ['\n', 'o', 'p', ' ', 'x', ';'] := by
  obtain ⟨it, h1, _, h2, _⟩ := C93_bare_violated exampleWord (ok_of _ (by decide)) exampleExts exampleScope rfl ⟨['p', '.', 'x'], ['x'], none⟩
    (by decide) (by decide)
  exact ⟨it, h1, h2⟩

example : ∃ it ∈ caseRef exampleExts exampleScope none (plainNode exampleWord.above ['a', 'b']) 0 exampleWord.cursor,
    accept exampleWord.content it = some ['\n', 'o', 'p', ' ', 'a', ';'] :=
  C93_set_violated exampleWord (ok_of _ (by decide)) exampleExts exampleScope rfl ⟨['a'], ['O', '.', 'a'], false⟩ (by decide) ⟨[], rfl⟩ (by decide) rfl (by decide)

example : caseCompact exampleExts exampleScope exampleNew.cursor = [] :=
  (C93_compact_violated exampleNew (ok_of _ (by decide)) rfl rfl exampleExts exampleScope).1 (.inl rfl)

/-- `option (f|` -/
def exampleUnclosed : Place := ⟨['\n', 'o', 'p', ' '], ['(', 'f'], [], []⟩

example : (caseRef exampleExts exampleScope none ⟨⟨true, some 3, none⟩, some (5, 6), true⟩ 0 exampleUnclosed.cursor).map (accept exampleUnclosed.content) =
    [some ['\n', 'o', 'p', ' ', '(', 'x']] := by
  have h := C93_unclosed_violated exampleUnclosed (ok_of _ (by decide)) ['f'] rfl exampleExts exampleScope rfl
  have := congrArg (List.map fun t => t.2.1) h
  rw [List.map_map] at this
  exact this.trans (by decide +kernel)

/-- `{ [f|] }` -/
def exampleBrackets : Place := ⟨['{', ' '], ['[', 'f'], [']'], [' ', '}']⟩

example : (caseLiteral exampleExts exampleMsg [] (parenNode exampleBrackets.above ['f']) exampleBrackets.cursor).map (accept exampleBrackets.content) =
    [some ['{', ' ', '(', 'x', ')', ' ', '}']] := by
  have h := C93_brackets_violated exampleBrackets (ok_of _ (by decide)) ['f'] rfl exampleExts exampleMsg rfl []
  have := congrArg (List.map fun t => t.2.1) h
  rw [List.map_map] at this
  exact this.trans (by decide +kernel)

end Verif.OptionComplete
