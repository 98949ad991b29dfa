import Verif.Lemmas.ValueComplete
import Verif.Props.PathSearch
/-!
# C97: completing fields, values and keywords offers what may stand at the cursor
-/
namespace Verif.ValueComplete
open Verif.QuickFix (posAfter)
open Verif.OptionComplete (Place)
open Verif.PathSearch (Schema Typed Lit)

variable {D : Type}

theorem field_row (p : Place) (hp : p.l = [] ∧ p.r = []) (f : Field) (hd : '$' ∉ f.name) (hg : f.kind = .group → f.repeated = true)
    (hm : f.mapEntry = true → f.repeated = true) :
    row p.content (fieldItem .literal p.cursor.pos f) = (f.name, some (p.above ++ (assignment f).1, (assignment f).2 ++ p.rest)) := by
  have hsn : ∀ (it : Item) (a b : Str), it.edit = some ⟨p.cursor.pos, p.cursor.pos, f.name ++ a ++ ['$', '{', '0', '}'] ++ b⟩ → it.snippet = true →
      '$' ∉ a → accept p.content it = some (p.above ++ (f.name ++ a), b ++ p.rest) := by
    intro it a b he hs ha
    rw [accept_insert p hp it _ he, hs]
    have : '$' ∉ f.name ++ a := by simp [hd, ha]
    simp only [parts, if_true, hole_append _ _ this, Option.getD_some]
  unfold row
  cases hr : f.repeated with
  | true =>
    refine Prod.ext (by simp [fieldItem, hr]) ?_
    simp only [assignment, hr, if_true]
    exact hsn _ [':', ' ', '['] [']'] (by simp [fieldItem, hr, Style.operator]) (by simp [fieldItem, hr]) (by decide)
  | false =>
    have hk : f.kind ≠ .group := fun e => by simp [hg e] at hr
    have hme : f.mapEntry = false := by
      cases h : f.mapEntry with
      | false => rfl
      | true => simp [hm h] at hr
    by_cases hmsg : f.kind = .message
    · refine Prod.ext (by simp [fieldItem, hr, hmsg, hme]) ?_
      simp only [assignment, hr, hmsg, true_or, if_true, Bool.false_eq_true, if_false]
      exact hsn _ [':', ' ', '{', '\n', ' ', ' '] ['\n', '}'] (by simp [fieldItem, hr, hmsg, hme, Style.operator])
        (by simp [fieldItem, hr, hmsg, hme]) (by decide)
    · have e : fieldItem .literal p.cursor.pos f =
          ⟨f.name, typeDetail f, some f.comments, f.deprecated, some ⟨p.cursor.pos, p.cursor.pos, f.name ++ [':', ' ']⟩, none, false, false⟩ := by
        unfold fieldItem
        simp only [hr, Bool.false_eq_true, if_false, Style.operator]
        rfl
      rw [e]
      refine Prod.ext rfl ?_
      simp only [assignment, hr, hmsg, hk, or_self, Bool.false_eq_true, if_false]
      rw [accept_insert p hp _ _ rfl]
      simp [parts]

/-- The fields that the literal has already, as the code finds them. -/
theorem existing_iff (fields : List Field) (hn : ∀ f ∈ fields, ∀ g ∈ fields, f.name = g.name → f = g) (elems : List Str) (f : Field) (hf : f ∈ fields) :
    (existing fields elems).contains f.name = true ↔ f.name ∈ elems ∧ f.repeated = false := by
  rw [List.contains_iff_mem, existing, List.mem_filter]
  have : fields.find? (fun g => g.name == f.name) = some f := by
    obtain ⟨g, hg⟩ : ∃ g, fields.find? (fun g => g.name == f.name) = some g := by
      cases h : fields.find? (fun g => g.name == f.name) with
      | some g => exact ⟨g, rfl⟩
      | none =>
        rw [List.find?_eq_none] at h
        exact absurd (by simp) (h f hf)
    have h1 := List.find?_some hg
    have h2 := List.mem_of_find?_eq_some hg
    rw [hg, hn g h2 f hf (by simpa using h1)]
  rw [this]
  simp

/-- **C97** (fields): at an empty place of a message literal at any depth, the items are the fields of its message that may be added, in
their order; accepting one inserts its name and a colon at the cursor, with brackets for a list and braces for a message around the cursor,
and changes nothing else. (Partial: without the groups, the oneofs and the extensions of the `violated` theorems, and if the linker does not
return wrappers for extensions in literals.) -/
theorem C97_fields_partial (S : Schema D) (hT : Typed S) (hX : ∀ n d, S.literalExtension n = some d → S.sort d = .field) (file : PathSearch.Node)
    (hfile : file.shape = .file) (path : List PathSearch.Node) (m : D) (hlit : Lit S path m) (fieldsOf : D → List Field) (p : Place)
    (hp : p.l = [] ∧ p.r = []) (elems : List Element) (hn : ∀ f ∈ fieldsOf m, ∀ g ∈ fieldsOf m, f.name = g.name → f = g)
    (hd : ∀ f ∈ fieldsOf m, '$' ∉ f.name) (hme : ∀ f ∈ fieldsOf m, f.mapEntry = true → f.repeated = true)
    (hg : ∀ f ∈ fieldsOf m, f.kind = .group → f.repeated = true)
    (ho : ∀ f ∈ fieldsOf m, ∀ g ∈ fieldsOf m, (∃ e ∈ elems, e.isExt = false ∧ e.name = g.name) → f.oneof.isSome = true → g.oneof = f.oneof → g = f)
    (he : ∀ e ∈ elems, e.isExt = true → ∀ f ∈ fieldsOf m, f.name ≠ e.name) :
    (caseBody S fieldsOf file path.reverse (elems.map (·.name)) p.cursor.pos).map (fun is => is.map (row p.content)) =
      some (((fieldsOf m).filter fun f => decide (MayAdd (fieldsOf m) elems f)).map
        fun f => (f.name, some (p.above ++ (assignment f).1, (assignment f).2 ++ p.rest))) := by
  obtain ⟨l, ps, rfl⟩ : ∃ l ps, path = l :: ps := by cases hlit <;> exact ⟨_, _, rfl⟩
  have hr := PathSearch.reach_lit hT (fun {n d} => hX n d) (file := file) hlit []
  have hs := PathSearch.search_of_reached hfile hr.1
  unfold caseBody
  rw [hs]
  simp only [hr.2, Option.map_some, bodyItems, List.map_map]
  have hfil : ((fieldsOf m).filter fun f => !(existing (fieldsOf m) (elems.map (·.name))).contains f.name) =
      (fieldsOf m).filter fun f => decide (MayAdd (fieldsOf m) elems f) := by
    apply List.filter_congr
    intro f hf
    rw [Bool.eq_iff_iff, Bool.not_eq_true', ← Bool.not_eq_true, existing_iff _ hn _ f hf, decide_eq_true_iff]
    unfold MayAdd
    constructor
    · intro h
      cases hr : f.repeated with
      | true => exact .inl rfl
      | false =>
        right
        have hno : ∀ e ∈ elems, e.isExt = false → e.name ≠ f.name := by
          intro e hee hx hne
          exact h ⟨by rw [← hne]; exact List.mem_map_of_mem hee, hr⟩
        refine ⟨hno, fun g hgm hset hone hsame => ?_⟩
        have := ho f hf g hgm hset hone hsame
        subst this
        obtain ⟨e, hee, hx, hne⟩ := hset
        exact hno e hee hx hne
    · rintro (h | ⟨h, _⟩) ⟨h1, h2⟩
      · simp [h] at h2
      · obtain ⟨e, hee, hne⟩ := List.mem_map.1 h1
        cases hx : e.isExt with
        | false => exact h e hee hx hne
        | true => exact he e hee hx f hf hne.symm
  rw [hfil]
  congr 1
  apply List.map_congr_left
  intro f hf
  have hf := (List.mem_filter.1 hf).1
  exact field_row p hp f (hd f hf) (hg f hf) (hme f hf)

/-- **C97** (colon): in a message literal, no item is ever offered with `=`, the operator of options: the part of the code that makes such
items is not reached. -/
theorem C97_colon (S : Schema D) (hT : Typed S) (fieldsOf : D → List Field) (file l : PathSearch.Node) (ps : List PathSearch.Node)
    (hl : l.shape = .messageLiteral) (elems : List Str) (pos : Documents.Pos) (is : List Item)
    (h : caseBody S fieldsOf file (l :: ps).reverse elems pos = some is) (it : Item) (hi : it ∈ is) (e : QuickFix.Edit) (he : it.edit = some e) :
    e.start = pos ∧ e.stop = pos ∧ ∃ t, e.text = it.label ++ ':' :: ' ' :: t := by
  unfold caseBody at h
  split at h
  · cases h
  · rename_i d n hs
    have := search_literal S hT file l ps hl d n hs
    rw [this] at h
    simp only [Option.some.injEq, bodyItems] at h
    rw [← h] at hi
    obtain ⟨f, _, rfl⟩ := List.mem_map.1 hi
    unfold fieldItem at he ⊢
    simp only [Style.operator] at he ⊢
    split at he
    · rename_i hr
      simp only [Option.map_some, Option.some.injEq] at he
      subst he
      simp [hr]
    · rename_i hr
      split at he
      · rename_i hk
        split at he
        · rename_i hm
          simp only [Option.map_some, Option.some.injEq] at he
          subst he
          simp [hr, hm]
        · cases he
      · rename_i hk
        simp only [Option.map_some, Option.some.injEq] at he
        subst he
        refine ⟨rfl, rfl, [], ?_⟩
        split
        · rename_i h; exact absurd h hr
        · simp
  · simp only [Option.some.injEq] at h
    rw [← h] at hi
    cases hi

/-- **C97** (docs): the documentation of an item is the comment of the field, and the item is marked as deprecated exactly if the field is. -/
theorem C97_docs (style : Style) (pos : Documents.Pos) (f : Field) :
    (fieldItem style pos f).docs = some f.comments ∧ (fieldItem style pos f).deprecated = f.deprecated := by
  unfold fieldItem
  simp only []
  split
  · exact ⟨rfl, rfl⟩
  · split
    · split <;> exact ⟨rfl, rfl⟩
    · exact ⟨rfl, rfl⟩

/-- **C97** (detail): the detail of an item is the type of the field as declared, with `repeated`. (Partial: not for enums, maps and
extensions, see `C97_detail_violated`.) -/
theorem C97_detail_partial (style : Style) (pos : Documents.Pos) (f : Field) (hk : f.kind ≠ .enum) (hm : f.mapEntry = false) (hx : f.isExtension = false) :
    (fieldItem style pos f).detail = (if f.repeated then "repeated ".toList else []) ++ declaredType f := by
  have h : typeDetail f = declaredType f := by
    unfold typeDetail declaredType
    simp only [hx, hm, Bool.false_eq_true, if_false]
    cases h : f.kind <;> first | rfl | exact absurd h hk
  unfold fieldItem
  simp only [hm]
  cases hr : f.repeated
  · simp only [Bool.false_eq_true, if_false, List.nil_append, ← h]
    split <;> rfl
  · simp only [if_true, ← h]
    rfl

/-- **C97** (detail of extensions): the detail of an extension is its scope, its name in parentheses and the kind of its type. -/
theorem C97_detail_extension (style : Style) (pos : Documents.Pos) (f : Field) (hx : f.isExtension = true) (scope n : Str)
    (hf : f.fullName = scope ++ '.' :: n) (hs : scope ≠ []) (hn : '.' ∉ n) :
    (fieldItem style pos f).detail = (if f.repeated then "repeated ".toList else []) ++ scope ++ ".(".toList ++ n ++ "): ".toList ++
      (match f.kind with
        | .message => "message".toList
        | .group => "group".toList
        | .enum => "enum".toList
        | .bool => "bool".toList
        | .other k => k) := by
  have hk : (match f.kind with
        | .message => "message".toList
        | .group => "group".toList
        | .enum => "enum".toList
        | .bool => "bool".toList
        | .other k => k) = f.kind.name := by cases f.kind <;> rfl
  have h : typeDetail f = scope ++ ".(".toList ++ n ++ "): ".toList ++ f.kind.name := by
    unfold typeDetail Completion.append Completion.parent Completion.name
    rw [if_pos hx, hf, lastIndexChar_append _ _ _ hn]
    simp [hs]
  rw [hk]
  unfold fieldItem
  simp only []
  cases hr : f.repeated
  · simp only [Bool.false_eq_true, if_false, List.nil_append, ← h]
    split
    · split <;> rfl
    · rfl
  · simp only [if_true]
    show repeatedText ++ typeDetail f = _
    rw [h]
    simp [repeatedText]

/-! ## Values -/

/-- The value at the cursor, or none if nothing is there. -/
def valueAt (p : Place) : Option (Nat × Nat) := if p.l ++ p.r = [] then none else some (p.above.length, p.above.length + (p.l ++ p.r).length)

theorem values_rows (p : Place) (h : p.Ok) (f : Field) (hk : f.kind = .enum ∨ f.kind = .bool) (val : Option (Nat × Nat))
    (hv : val = valueAt p) :
    (values f val p.content p.cursor.offset p.cursor.pos).map (row p.content) = ((words f).filter fun w => decide (p.l <+: w)).map (replaced p) := by
  have hnames : namesAt p.content p.cursor.offset val = (p.l, p.r) := by
    rw [hv]
    unfold valueAt
    split
    · rename_i hx
      rw [List.append_eq_nil_iff] at hx
      rw [hx.1, hx.2]
      rfl
    · exact names_of_place p
  unfold values
  simp only [hnames]
  rcases hk with hk | hk
  · simp only [hk, words, enumItems]
    exact word_rows p h _
  · simp only [hk, words, keywords]
    exact word_rows p h _

/-- **C97** (values): with the cursor in the value of a field of a message literal or of an option, or where such a value is to stand, the
items are the values of the enum (or `true` and `false`) that begin as typed, in their order; accepting one replaces the word at the
cursor and nothing else. -/
theorem C97_values (p : Place) (h : p.Ok) (f : Field) (hk : f.kind = .enum ∨ f.kind = .bool) :
    -- a field without value, the cursor at its end
    (p.l ++ p.r = [] → ∀ tok : Int,
      (caseField (some f) true tok none tok p.content p.cursor.offset p.cursor.pos).map (row p.content) =
        ((words f).filter fun w => decide (p.l <+: w)).map (replaced p)) ∧
    -- a field with the value
    (p.l ++ p.r ≠ [] → ∀ first last tok tokEnd : Int, first ≤ tok → tok ≤ last →
      (caseField (some f) false tokEnd (some ⟨first, last, p.above.length, p.above.length + (p.l ++ p.r).length⟩) tok p.content p.cursor.offset
        p.cursor.pos).map (row p.content) = ((words f).filter fun w => decide (p.l <+: w)).map (replaced p)) ∧
    -- an option
    (∀ eq tok : Int, eq < tok →
      (caseOption (some f) false (some eq) (valueAt p) tok p.content p.cursor.offset p.cursor.pos).map (fun is => is.map (row p.content)) =
        some (((words f).filter fun w => decide (p.l <+: w)).map (replaced p))) := by
  refine ⟨fun he tok => ?_, fun he first last tok tokEnd h1 h2 => ?_, fun eq tok hlt => ?_⟩
  · have := values_rows p h f hk none (by simp [valueAt, he])
    rw [← this]
    simp [caseField]
  · have := values_rows p h f hk (some (p.above.length, p.above.length + (p.l ++ p.r).length)) (by rw [valueAt, if_neg he])
    rw [← this]
    simp [caseField, h1, h2]
  · have := values_rows p h f hk _ rfl
    rw [← this]
    simp [caseOption, hlt]

/-- **C97** (messages): where the value of a message field is to stand, the only item inserts braces with the cursor in between; once a value
is there, nothing is offered. -/
theorem C97_message (p : Place) (hp : p.l = [] ∧ p.r = []) (f : Field) (hk : f.kind = .message) (hm : f.mapEntry = false) :
    (∀ tok : Int, (caseField (some f) true tok none tok p.content p.cursor.offset p.cursor.pos).map (row p.content) =
      [("{...}".toList, some (p.above ++ "{\n  ".toList, "\n}".toList ++ p.rest))]) ∧
    (∀ eq tok : Int, eq < tok → (caseOption (some f) false (some eq) none tok p.content p.cursor.offset p.cursor.pos).map (fun is => is.map (row p.content)) =
      some [("{...}".toList, some (p.above ++ "{\n  ".toList, "\n}".toList ++ p.rest))]) ∧
    (∀ (v : Nat × Nat) content offset pos, values f (some v) content offset pos = []) := by
  have hv : (values f none p.content p.cursor.offset p.cursor.pos).map (row p.content) =
      [("{...}".toList, some (p.above ++ "{\n  ".toList, "\n}".toList ++ p.rest))] := by
    simp only [values, hk, hm, Bool.not_false, if_true, Option.isNone_none, List.map_cons, List.map_nil, row]
    rw [accept_insert p hp _ _ rfl]
    have : hole ['{', '\n', ' ', ' ', '$', '{', '0', '}', '\n', '}'] = some (['{', '\n', ' ', ' '], ['\n', '}']) := by decide
    simp only [parts, if_true, this, Option.getD_some]
    rfl
  refine ⟨fun tok => ?_, fun eq tok hlt => ?_, fun v content offset pos => ?_⟩
  · rw [← hv]; simp [caseField]
  · rw [← hv]; simp [caseOption, hlt]
  · simp [values, hk, hm]

/-- **C97** (nothing else): no value is offered for fields of other types, for unknown fields, with the cursor in front of the value or
behind it, or in the name of an option. -/
theorem C97_no_value (f : Field) (content : Str) (offset : Nat) (pos : Documents.Pos) :
    (f.kind ≠ .enum → f.kind ≠ .bool → f.kind ≠ .message → ∀ val, values f val content offset pos = []) ∧
    (∀ inc last val tok, caseField none inc last val tok content offset pos = []) ∧
    (∀ eq tok val, eq < tok → caseOption none false (some eq) val tok content offset pos = some []) ∧
    (∀ eq tok val inc, inc = true ∨ tok ≤ eq → caseOption (some f) inc (some eq) val tok content offset pos = none) ∧
    (∀ last (v : Val) tok, tok < v.first ∨ v.last < tok → caseField (some f) false last (some v) tok content offset pos = []) ∧
    (∀ last val tok, tok ≠ last → caseField (some f) true last val tok content offset pos = []) := by
  refine ⟨fun h1 h2 h3 val => ?_, fun _ _ _ _ => rfl, fun eq tok val h => ?_, fun eq tok val inc h => ?_, fun last v tok h => ?_,
    fun last val tok h => ?_⟩
  · unfold values
    simp only []
  · simp [caseOption, h]
  · rcases h with h | h
    · simp [caseOption, h]
    · have : ¬ eq < tok := by omega
      simp [caseOption, this]
  · have : ¬ (v.first ≤ tok ∧ tok ≤ v.last) := by omega
    simp only [caseField, Bool.false_and, Bool.false_eq_true, if_false, Bool.not_false, Bool.true_and, List.nil_append]
    simpa using fun a b => absurd ⟨a, b⟩ this
  · simp only [caseField, h, decide_false, Bool.and_false, Bool.false_eq_true, if_false, List.nil_append]
    cases val <;> simp

/-- **C97** (marks): no value is marked as deprecated, and none is selected in advance. -/
theorem C97_values_marks (f : Field) (val : Option (Nat × Nat)) (content : Str) (offset : Nat) (pos : Documents.Pos) (it : Item)
    (h : it ∈ values f val content offset pos) : it.deprecated = false ∧ it.preselect = false := by
  unfold values at h
  simp only [] at h
  split at h
  · split at h
    · split at h
      · rw [List.mem_singleton] at h
        subst h
        exact ⟨rfl, rfl⟩
      · cases h
    · cases h
  · obtain ⟨w, _, rfl⟩ := List.mem_map.1 h
    exact ⟨rfl, rfl⟩
  · obtain ⟨w, _, rfl⟩ := List.mem_map.1 h
    exact ⟨rfl, rfl⟩
  · cases h

/-! ## Keywords -/

/-- **C97** (marks): of the items at the top level, none is marked as deprecated, and only `syntax: proto3` is selected in advance; the
inserted text of the items without an edit is the syntax statement of the label. -/
theorem C97_top_marks (f : File) (l r : Str) (pos : Documents.Pos) (it : Item) (h : it ∈ fileKeywords f l r pos ∨ it ∈ caseNothing f pos) :
    it.deprecated = false ∧ (it.preselect = true ↔ it.label = "syntax: proto3".toList ∧ it.edit = none) ∧
    (it.edit = none → ∃ v, (v = "proto2".toList ∨ v = "proto3".toList) ∧ it.label = "syntax: ".toList ++ v ∧ it.snippet = true ∧
      it.insert = some ("syntax = \"".toList ++ v ++ "\";\n".toList)) := by
  have hs : ∀ x ∈ syntaxSnippets, x.deprecated = false ∧ (x.preselect = true ↔ x.label = "syntax: proto3".toList ∧ x.edit = none) ∧
    (x.edit = none → ∃ v, (v = "proto2".toList ∨ v = "proto3".toList) ∧ x.label = "syntax: ".toList ++ v ∧ x.snippet = true ∧
      x.insert = some ("syntax = \"".toList ++ v ++ "\";\n".toList)) := by
    intro x hx
    rcases List.mem_cons.1 hx with e | hx
    · subst e
      exact ⟨rfl, ⟨fun _ => ⟨rfl, rfl⟩, fun _ => rfl⟩, fun _ => ⟨_, .inr rfl, rfl, rfl, rfl⟩⟩
    · rw [List.mem_singleton] at hx
      subst hx
      refine ⟨rfl, ⟨fun h => (by cases h), fun h => absurd h.1 (by decide)⟩, fun _ => ⟨_, .inl rfl, rfl, rfl, rfl⟩⟩
  have hk : ∀ ws l r, ∀ x ∈ keywords ws l r pos, x.deprecated = false ∧ (x.preselect = true ↔ x.label = "syntax: proto3".toList ∧ x.edit = none) ∧
    (x.edit = none → ∃ v, (v = "proto2".toList ∨ v = "proto3".toList) ∧ x.label = "syntax: ".toList ++ v ∧ x.snippet = true ∧
      x.insert = some ("syntax = \"".toList ++ v ++ "\";\n".toList)) := by
    intro ws l r x hx
    obtain ⟨w, _, rfl⟩ := List.mem_map.1 hx
    exact ⟨rfl, ⟨fun h => (by cases h), fun h => (by cases h.2)⟩, fun h => (by cases h)⟩
  have hf : ∀ l r, ∀ x ∈ fileKeywords f l r pos, x.deprecated = false ∧ (x.preselect = true ↔ x.label = "syntax: proto3".toList ∧ x.edit = none) ∧
    (x.edit = none → ∃ v, (v = "proto2".toList ∨ v = "proto3".toList) ∧ x.label = "syntax: ".toList ++ v ∧ x.snippet = true ∧
      x.insert = some ("syntax = \"".toList ++ v ++ "\";\n".toList)) := by
    intro l r x hx
    rcases List.mem_append.1 hx with hx | hx
    · split at hx
      · exact hs x hx
      · cases hx
    · exact hk _ _ _ x hx
  rcases h with h | h
  · exact hf _ _ _ h
  · unfold caseNothing at h
    split at h
    · exact hs _ h
    · exact hf _ _ _ h

/-- **C97** (top level): with the cursor in a word at the top level, or at an empty place, the items are the keywords that can stand
there and begin as typed; accepting one replaces the word. If the file has no syntax statement and the word begins `syntax`, two
items without an edit come first. (Partial: `edition` is not offered, and files with an edition are treated as if they had neither, see
`C97_edition_violated`.) -/
theorem C97_top_partial (p : Place) (h : p.Ok) (f : File) (he : f.edition = false) :
    let rows := (if f.syn = none ∧ p.l <+: "syntax".toList then [("syntax: proto3".toList, none), ("syntax: proto2".toList, none)] else []) ++
      ((topKeywords f).filter fun w => decide (w ≠ "edition".toList ∧ p.l <+: w)).map (replaced p)
    (p.l ++ p.r ≠ [] → (caseError f (valueAt p) p.content p.cursor.offset p.cursor.pos).map (row p.content) = rows) ∧
    (p.l ++ p.r = [] → f.empty = false → (caseNothing f p.cursor.pos).map (row p.content) = rows) := by
  intro rows
  have key : (fileKeywords f p.l p.r p.cursor.pos).map (row p.content) = rows := by
    unfold fileKeywords rows
    rw [List.map_append]
    congr 1
    · cases hs : f.syn with
      | some v =>
        have hc : ¬ (some v = none ∧ p.l <+: "syntax".toList) := fun x => by cases x.1
        rw [if_neg hc]
        rfl
      | none =>
        by_cases hl : p.l <+: kwSyntax
        · have hl' : p.l <+: "syntax".toList := hl
          have hc : (none : Option Str) = none ∧ p.l <+: "syntax".toList := ⟨rfl, hl'⟩
          rw [List.isPrefixOf_iff_prefix.2 hl, if_pos hc]
          rfl
        · have hl' : ¬ p.l <+: "syntax".toList := hl
          have : p.l.isPrefixOf kwSyntax = false := by
            cases hx : p.l.isPrefixOf kwSyntax with
            | false => rfl
            | true => exact absurd (List.isPrefixOf_iff_prefix.1 hx) hl
          have hc : ¬ ((none : Option Str) = none ∧ p.l <+: "syntax".toList) := fun x => hl' x.2
          rw [this, if_neg hc]
          rfl
    · unfold keywords
      rw [word_rows p h]
      congr 1
      have hf : ∀ ws : List Str, (ws.filter fun w => decide (w ≠ "edition".toList ∧ p.l <+: w)) =
          (ws.filter fun w => decide (w ≠ "edition".toList)).filter fun w => decide (p.l <+: w) := by
        intro ws
        generalize "edition".toList = ed
        rw [List.filter_filter]
        apply List.filter_congr
        intro w _
        rw [Bool.eq_iff_iff]
        simp [and_comm]
      rw [hf]
      congr 1
      unfold topKeywords
      rw [he]
      cases f.syn with
      | none => cases f.package <;> decide
      | some v =>
        simp only [Option.isNone_some, reduceCtorEq, false_and, Bool.false_eq_true, if_false]
        cases f.package <;> decide
  refine ⟨fun hne => ?_, fun hnil hem => ?_⟩
  · rw [← key]
    unfold caseError valueAt
    rw [if_neg hne]
    simp only [namesAt, names_of_place p]
  · rw [← key]
    rw [List.append_eq_nil_iff] at hnil
    unfold caseNothing
    rw [hem, hnil.1, hnil.2]
    rfl

/-- **C97** (empty file): in an empty file, the items insert a syntax statement; `proto3` is selected. -/
theorem C97_empty (f : File) (he : f.empty = true) (pos : Documents.Pos) :
    (caseNothing f pos).map (fun it => (it.label, it.insert, it.preselect)) =
      [("syntax: proto3".toList, some "syntax = \"proto3\";\n".toList, true), ("syntax: proto2".toList, some "syntax = \"proto2\";\n".toList, false)] := by
  unfold caseNothing
  rw [if_pos he]
  decide

/-- The keywords offered in a message. -/
def offeredBody (f : File) : List Str :=
  ["option".toList, "optional".toList, "repeated".toList, "enum".toList, "message".toList, "reserved".toList] ++
  (if f.syn = none ∨ f.syn = some "proto2".toList then ["required".toList, "extend".toList, "group".toList] else [])

theorem body_rows (p : Place) (h : p.Ok) (f : File) :
    (messageKeywords f p.l p.r p.cursor.pos).map (row p.content) = ((offeredBody f).filter fun w => decide (p.l <+: w)).map (replaced p) := by
  unfold messageKeywords keywords
  rw [word_rows p h]
  congr 2
  unfold offeredBody isProto2
  cases f.syn with
  | none => decide
  | some v =>
    by_cases hv : v = proto2
    · subst hv; decide
    · have hv' : ¬ (some v = none ∨ some v = some "proto2".toList) := by
        intro hx
        rcases hx with hx | hx
        · cases hx
        · exact hv (Option.some.inj hx)
      have hv2 : (v == proto2) = false := by simpa using hv
      simp only [hv2, Bool.false_eq_true, if_false, hv']
      decide

/-- **C97** (messages): in a message, the keywords offered can all stand there, and accepting one replaces the word at the cursor. In `proto3`
types are offered for the same word. (Partial: not all keywords are offered and files with an edition are taken for `proto2`, see
`C97_body_violated`; the message must be known to the linker, see `C97_unlinked_violated`.) -/
theorem C97_body_partial (p : Place) (h : p.Ok) (f : File) (hv : f.syn = none ∨ f.syn = some "proto2".toList ∨ f.syn = some "proto3".toList) :
    (f.edition = false → ∀ w ∈ offeredBody f, w ∈ bodyKeywords f) ∧
    -- the cursor in the name of the message
    (∀ first last tok : Int, first ≤ tok → tok ≤ last → ∃ o,
      caseMessage f (some ⟨first, last, p.above.length, p.above.length + (p.l ++ p.r).length⟩) true tok p.content p.cursor.offset p.cursor.pos = some o ∧
      o.types = (if f.syn = some "proto3".toList then some (p.l, p.r) else none) ∧
      o.keywords.map (row p.content) = ((offeredBody f).filter fun w => decide (p.l <+: w)).map (replaced p)) ∧
    -- the cursor elsewhere
    (p.l = [] ∧ p.r = [] → ∀ (name : Option Val) (tok : Int), (∀ v, name = some v → tok < v.first ∨ v.last < tok) → ∃ o,
      caseMessage f name true tok p.content p.cursor.offset p.cursor.pos = some o ∧
      o.types = (if f.syn = some "proto3".toList then some ([], []) else none) ∧
      o.keywords.map (row p.content) = (offeredBody f).map (replaced p)) := by
  have h2 : isProto2 f = !decide (f.syn = some "proto3".toList) := by
    unfold isProto2
    rcases hv with hv | hv | hv <;> rw [hv] <;> decide
  refine ⟨fun he => ?_, fun first last tok h1 h3 => ?_, fun hnil name tok hn => ?_⟩
  · unfold offeredBody bodyKeywords
    rw [he]
    rcases hv with hv | hv | hv <;> rw [hv] <;> decide
  · have hb := body_rows p h f
    simp only [caseMessage, namesIn, h1, h3, and_self, if_true, names_of_place p, h2, Bool.not_not]
    split
    · rename_i hd
      exact ⟨_, rfl, by simp only [decide_eq_true_iff] at hd; rw [if_pos hd], hb⟩
    · rename_i hd
      exact ⟨_, rfl, by simp only [decide_eq_true_iff] at hd; rw [if_neg hd], hb⟩
  · have hb := body_rows p h f
    rw [hnil.1, hnil.2] at hb
    have hall : ((offeredBody f).filter fun w => decide (([] : Str) <+: w)) = offeredBody f := by
      rw [List.filter_eq_self]
      simp
    rw [hall] at hb
    have hnames : namesIn tok p.content p.cursor.offset name = ([], []) := by
      cases name with
      | none => rfl
      | some v =>
        have := hn v rfl
        simp only [namesIn]
        rw [if_neg (by omega)]
    simp only [caseMessage, hnames, h2, Bool.not_not, if_true]
    split
    · rename_i hd
      exact ⟨_, rfl, by simp only [decide_eq_true_iff] at hd; rw [if_pos hd], hb⟩
    · rename_i hd
      exact ⟨_, rfl, by simp only [decide_eq_true_iff] at hd; rw [if_neg hd], hb⟩

/-- **C97** (field declarations): with the cursor in the type of a field, types and keywords are offered for the parts of the word before and
behind the cursor; in its name, nothing; behind a label whose type stands in a later line, types for an empty word and no keywords; for a
declaration without type the same. -/
theorem C97_decl (p : Place) (h : p.Ok) (f : File) (n : FieldNode) (tok first last : Int) (line : Nat)
    (ht : n.type = some (first, last, p.l ++ p.r, p.above.length, line)) :
    -- in the type
    ((∀ a b, n.name = some (a, b) → tok < a ∨ b < tok) → first ≤ tok → tok ≤ last → (∀ l, n.label = some l → l.1 ≠ first) →
      ∃ o, caseFieldDecl f n tok p.cursor.offset p.cursor.pos = some o ∧ o.types = some (p.l, p.r) ∧
        o.keywords.map (row p.content) = ((offeredBody f).filter fun w => decide (p.l <+: w)).map (replaced p)) ∧
    -- in the name
    (∀ a b, n.name = some (a, b) → a ≤ tok → tok ≤ b → caseFieldDecl f n tok p.cursor.offset p.cursor.pos = some ⟨none, []⟩) ∧
    -- behind the label
    (∀ lf e, n.name = none ∨ (∃ a b, n.name = some (a, b) ∧ 0 ≤ a) → 0 ≤ first → n.label = some (lf, e) → n.incomplete = false →
      caseFieldDecl f n (-1) p.cursor.offset p.cursor.pos =
        some ⟨if e.line = p.cursor.pos.line ∧ e.char < p.cursor.pos.char ∧ p.cursor.pos.line < line then some ([], []) else none, []⟩) := by
  refine ⟨fun hn h1 h2 hl => ?_, fun a b hn h1 h2 => ?_, fun lf e hn hf hl hi => ?_⟩
  · have hname : inName tok n.name = false := by
      cases hnm : n.name with
      | none => rfl
      | some ab =>
        have := hn ab.1 ab.2 (by rw [hnm])
        simp only [inName, Bool.and_eq_false_imp, decide_eq_true_eq, decide_eq_false_iff_not]
        omega
    have hlab : noType first n.label = false := by
      cases hlb : n.label with
      | none => rfl
      | some l =>
        have := hl l hlb
        simpa [noType] using this
    have hidx : ((p.cursor.offset : Nat) : Int) - (p.above.length : Nat) = (p.l.length : Nat) := by
      simp only [Place.cursor]
      omega
    have hle : (p.l.length : Int) ≤ ((p.l ++ p.r).length : Nat) := by
      rw [List.length_append]
      omega
    have hnn : ¬ ((p.l.length : Nat) : Int) < 0 := by omega
    refine ⟨⟨some (p.l, p.r), messageKeywords f p.l p.r p.cursor.pos⟩, ?_, rfl, body_rows p h f⟩
    unfold caseFieldDecl
    simp only [ht, hname, Bool.false_eq_true, if_false, h1, h2, and_self, if_true, hidx, hlab, hle, hnn, Int.toNat_natCast, List.take_left', List.drop_left']
  · unfold caseFieldDecl
    simp [ht, hn, h1, h2, inName]
  · have hname : inName (-1) n.name = false := by
      rcases hn with hn | ⟨a, b, hn, h0⟩
      · rw [hn]
        rfl
      · rw [hn]
        simp only [inName, Bool.and_eq_false_imp, decide_eq_true_eq, decide_eq_false_iff_not]
        omega
    unfold caseFieldDecl
    have hneg : ¬ (first ≤ -1 ∧ -1 ≤ last) := by omega
    simp only [ht, hname, Bool.false_eq_true, if_false, hneg, hl, tokenError, hi, true_and, gt_iff_lt]
    split <;> rfl

/-- **C97** (rpc types): types are offered for the word at the cursor, and the keyword `stream` if it is not there and begins as typed; on the
keyword itself nothing is offered. (Partial: see `C97_stream_violated` for the effect of accepting `stream`.) -/
theorem C97_rpc_partial (p : Place) (h : p.Ok) (n : RpcType) (tok : Int) :
    (n.stream = some tok → caseRpc n tok p.content p.cursor.offset p.cursor.pos = ⟨none, []⟩) ∧
    (∀ first last : Int, n.incomplete = false → n.type = some ⟨first, last, p.above.length, p.above.length + (p.l ++ p.r).length⟩ → n.stream ≠ some tok →
      (first ≤ tok ∧ tok ≤ last ∨ tok = n.close.1 ∧ n.close.2 = p.cursor.offset) →
      (caseRpc n tok p.content p.cursor.offset p.cursor.pos).types = some (p.l, p.r) ∧
      (caseRpc n tok p.content p.cursor.offset p.cursor.pos).keywords.map (row p.content) =
        if n.stream = none ∧ p.l <+: "stream".toList then [replaced p "stream".toList] else []) ∧
    (p.l = [] ∧ p.r = [] → n.incomplete = true → n.stream ≠ some tok →
      (caseRpc n tok p.content p.cursor.offset p.cursor.pos).types = some ([], []) ∧
      (caseRpc n tok p.content p.cursor.offset p.cursor.pos).keywords.map (row p.content) =
        if n.stream = none then [replaced p "stream".toList] else []) := by
  have hkw : (keywords [kwStream] p.l p.r p.cursor.pos).map (row p.content) = if p.l <+: "stream".toList then [replaced p "stream".toList] else [] := by
    unfold keywords
    rw [word_rows p h]
    show ([kwStream].filter _).map _ = _
    by_cases hl : p.l <+: kwStream
    · have hl' : p.l <+: "stream".toList := hl
      rw [if_pos hl']
      simp only [List.filter_cons, hl, decide_true, if_true, List.filter_nil, List.map_cons, List.map_nil]
      rfl
    · have hl' : ¬ p.l <+: "stream".toList := hl
      rw [if_neg hl']
      simp [hl]
  refine ⟨fun hs => by simp [caseRpc, hs], fun first last hi ht hs hw => ?_, fun hnil hi hs => ?_⟩
  · have hwithin : ((decide (first ≤ tok) && decide (tok ≤ last)) || (decide (tok = n.close.1) && decide (n.close.2 = p.cursor.offset))) = true := by
      rcases hw with hw | hw <;> simp [hw]
    unfold caseRpc
    rw [if_neg hs]
    simp only [ht, hi, hwithin, Bool.not_false, Bool.and_self, if_true, names_of_place p, true_and]
    cases hst : n.stream with
    | none =>
      simp only [Option.isNone_none, if_true, true_and]
      exact hkw
    | some s => simp
  · unfold caseRpc
    rw [if_neg hs]
    simp only [hi, Bool.not_true, Bool.false_and, Bool.false_eq_true, if_false, true_and]
    cases hst : n.stream with
    | none =>
      rw [hnil.1, hnil.2] at hkw
      simp only [Option.isNone_none, if_true]
      rw [hkw]
      simp
    | some s => simp

/-! ## Where the code differs -/

/-- A field of some kind, with the given name. -/
def sample (name : Str) (kind : Kind) : Field :=
  ⟨name, 'p' :: '.' :: 'M' :: '.' :: name, kind, false, false, [], false, [], [], [], [], [], none, [], false⟩

/-- **C97** fails for groups: no braces are inserted. -/
theorem C97_group_violated : ∃ (p : Place) (f : Field), p.l = [] ∧ p.r = [] ∧ p.Ok ∧ f.kind = .group ∧
    (bodyItems [f] [] p.cursor.pos).map (row p.content) ≠ [(f.name, some (p.above ++ (assignment f).1, (assignment f).2 ++ p.rest))] ∧
    (bodyItems [f] [] p.cursor.pos).map (row p.content) = [(f.name, some (p.above ++ f.name ++ [':', ' '], p.rest))] :=
  ⟨⟨['{'], [], [], ['}']⟩, sample ['g'] .group, rfl, rfl, ⟨by decide, by decide, by unfold QuickFix.Fits; decide⟩, rfl, by decide +kernel, by decide +kernel⟩

/-- **C97** fails for oneofs: a field is offered although another one of its oneof is set, so that the literal becomes invalid. -/
theorem C97_oneof_violated : ∃ (fields : List Field) (elems : List Element) (f : Field) (pos : Documents.Pos), f ∈ fields ∧ ¬ MayAdd fields elems f ∧
    f.name ∈ (bodyItems fields (elems.map (·.name)) pos).map (·.label) :=
  ⟨[{ sample ['a'] .bool with oneof := some ['o'] }, { sample ['b'] .bool with oneof := some ['o'] }], [⟨false, ['a']⟩],
    { sample ['b'] .bool with oneof := some ['o'] }, ⟨0, 8⟩, by decide, by decide, by decide⟩

/-- **C97** fails for extensions: a field is not offered because an extension with the same name is set. -/
theorem C97_extension_violated : ∃ (fields : List Field) (elems : List Element) (f : Field) (pos : Documents.Pos), f ∈ fields ∧ MayAdd fields elems f ∧
    f.name ∉ (bodyItems fields (elems.map (·.name)) pos).map (·.label) :=
  ⟨[sample ['a'] .bool], [⟨true, ['a']⟩], sample ['a'] .bool, ⟨0, 10⟩, by decide, by decide, by decide⟩

/-- **C97** fails in the literal of an extension if the linker has a wrapper for it: no field is offered. -/
theorem C97_extension_literal_violated : ∃ (S : Schema Nat) (file : PathSearch.Node) (path : List PathSearch.Node) (m : Nat), Typed S ∧
    file.shape = .file ∧ Lit S path m ∧ ∀ (fieldsOf : Nat → List Field) (elems : List Str) (pos : Documents.Pos),
      caseBody S fieldsOf file path.reverse elems pos = some [] := by
  refine ⟨{ PathSearch.demo with literalExtension := fun _ => some 24, message := fun f => if f = 24 then some 1 else PathSearch.demo.message f },
    PathSearch.Demo.file, [⟨96, 92, 94, .messageLiteral⟩, ⟨95, 91, 95, .messageField .extension ['x'] .other⟩, PathSearch.Demo.lit1, PathSearch.Demo.opt], 1,
    ⟨PathSearch.demo_typed.root, PathSearch.demo_typed.messages, PathSearch.demo_typed.enums, PathSearch.demo_typed.extensions,
      PathSearch.demo_typed.services, PathSearch.demo_typed.fields, PathSearch.demo_typed.notExtension, PathSearch.demo_typed.oneofs,
      PathSearch.demo_typed.values, PathSearch.demo_typed.methods, ?_, PathSearch.demo_typed.enum,
      PathSearch.demo_typed.mapValue, PathSearch.demo_typed.input, PathSearch.demo_typed.output, PathSearch.demo_typed.optionPart,
      PathSearch.demo_typed.anyType, PathSearch.demo_typed.findExtendee⟩, rfl,
    .field (.option rfl rfl rfl rfl rfl) (.extension rfl rfl) rfl rfl, ?_⟩
  · intro f d h
    simp only at h
    split at h
    · simp only [Option.some.injEq] at h
      subst h
      rfl
    · exact PathSearch.demo_typed.message h
  · intro fieldsOf elems pos
    rfl

/-- **C97** fails for the details of enums and maps: for a map, the names of the fields of the map entry are shown instead of the types; for an
enum, the word `enum` instead of its name. -/
theorem C97_detail_violated : ∃ f g : Field, f.mapEntry = true ∧ f.repeated = true ∧ f.isExtension = false ∧ g.kind = .enum ∧ g.isExtension = false ∧
    (fieldItem .literal ⟨0, 0⟩ f).detail = "repeated map<p.M.FEntry.key, p.M.FEntry.value>".toList ∧
    declaredType f = "map<string, bool>".toList ∧
    (fieldItem .literal ⟨0, 0⟩ g).detail = "enum".toList ∧ declaredType g = "p.E".toList :=
  ⟨⟨['f'], "p.M.f".toList, .message, true, false, [], true, "p.M.FEntry.key".toList, "p.M.FEntry.value".toList, "string".toList, "bool".toList, [], none,
      [], false⟩,
    { sample ['g'] .enum with type := "p.E".toList }, rfl, rfl, rfl, rfl, rfl, by decide +kernel, by decide +kernel, by decide +kernel, by decide +kernel⟩

/-- The detail of an extension. -/
example : typeDetail { sample ['x'] .bool with isExtension := true, fullName := "p.q.x".toList } = "p.q.(x): bool".toList := by decide +kernel

/-- **C97** fails in lists: with the cursor at an element of a list of enum values, nothing is offered. -/
theorem C97_list_violated : ∃ (f : Field) (content : Str) (a b offset : Nat) (pos : Documents.Pos), f.kind = .enum ∧ f.repeated = true ∧
    content = "e: [A, B]".toList ∧ (content.drop a).take (b - a) = "[A, B]".toList ∧ content.take offset = "e: [A, ".toList ∧
    f.values = [['A'], ['B']] ∧ values f (some (a, b)) content offset pos = [] :=
  ⟨{ sample ['e'] .enum with repeated := true, values := [['A'], ['B']] }, "e: [A, B]".toList, 3, 9, 7, ⟨0, 7⟩, rfl, rfl, rfl, by decide +kernel,
    by decide +kernel, rfl, by decide +kernel⟩

/-- **C97** fails for editions: `edition` is not offered in a file that has no such statement; and in a file with an edition, `syntax` is
offered, which must not stand there. -/
theorem C97_edition_violated : (∃ f : File, "edition".toList ∈ topKeywords f ∧ ∀ l r pos, "edition".toList ∉ (fileKeywords f l r pos).map (·.label)) ∧
    ∃ f : File, f.edition = true ∧ "syntax".toList ∉ topKeywords f ∧ ∀ pos, "syntax".toList ∈ (fileKeywords f [] [] pos).map (·.label) := by
  refine ⟨⟨⟨none, false, false, false⟩, by decide, fun l r pos h => ?_⟩, ⟨⟨none, true, false, false⟩, rfl, by decide, fun pos => ?_⟩⟩
  · unfold fileKeywords keywords at h
    rw [List.map_append, List.mem_append, List.map_map] at h
    rcases h with h | h
    · split at h
      · revert h; decide
      · cases h
    · obtain ⟨w, hw, he⟩ := List.mem_map.1 h
      have hw := (List.mem_filter.1 hw).1
      have he : w = "edition".toList := he
      subst he
      revert hw
      decide
  · simp [fileKeywords, keywords, wordItem, kwSyntax]

/-- **C97** fails in messages: `oneof` is not offered; and with an edition `required` is, which must not stand there. -/
theorem C97_body_violated : (∃ f : File, f.edition = false ∧ "oneof".toList ∈ bodyKeywords f ∧ ∀ l r pos, "oneof".toList ∉ (messageKeywords f l r pos).map (·.label)) ∧
    ∃ f : File, f.edition = true ∧ "required".toList ∉ bodyKeywords f ∧ ∀ pos, "required".toList ∈ (messageKeywords f [] [] pos).map (·.label) := by
  refine ⟨⟨⟨none, false, false, false⟩, rfl, by decide, fun l r pos h => ?_⟩, ⟨⟨none, true, false, false⟩, rfl, by decide, fun pos => ?_⟩⟩
  · unfold messageKeywords keywords at h
    rw [List.map_map] at h
    obtain ⟨w, hw, he⟩ := List.mem_map.1 h
    have hw := (List.mem_filter.1 hw).1
    have he : w = "oneof".toList := he
    subst he
    revert hw
    decide
  · simp [messageKeywords, keywords, wordItem, isProto2, kwRequired]

/-- **C97** fails for a message that the linker does not know (it was added since the last link): in a `proto3` file the request panics. -/
theorem C97_unlinked_violated : ∃ f : File, f.syn = some "proto3".toList ∧ ∀ name tok content offset pos,
    caseMessage f name false tok content offset pos = none :=
  ⟨⟨some proto3, false, true, false⟩, rfl, fun _ _ _ _ _ => rfl⟩

/-- **C97** fails for `stream`: accepted in front of the type, it replaces the type. -/
theorem C97_stream_violated : ∃ (p : Place) (n : RpcType) (tok : Int), p.Ok ∧ p.l ++ p.r = "Foo".toList ∧
    (caseRpc n tok p.content p.cursor.offset p.cursor.pos).keywords.map (row p.content) = [("stream".toList, some ("(stream".toList, ")".toList))] :=
  ⟨⟨['('], [], "Foo".toList, [')']⟩, ⟨none, false, some ⟨1, 1, 1, 4⟩, 2, 4⟩, 1, ⟨by decide, by decide, by unfold QuickFix.Fits; decide⟩, rfl,
    by decide +kernel⟩

/-! ## Examples -/

/-- `option (o) = { … {<cursor>} }` for the literal of a message with three fields, one of which is set. -/
example : Lit PathSearch.demo [PathSearch.Demo.lit3, PathSearch.Demo.setM, PathSearch.Demo.lit2, PathSearch.Demo.setN, PathSearch.Demo.lit1, PathSearch.Demo.opt] 1 := PathSearch.Demo.lit

example : let fields := [sample ['a'] .bool, sample ['m'] .message, { sample ['r'] .enum with repeated := true }]
    let p : Place := ⟨"{a: true ".toList, [], [], "}".toList⟩
    (caseBody PathSearch.demo (fun _ => fields) PathSearch.Demo.file [PathSearch.Demo.opt, PathSearch.Demo.lit1, PathSearch.Demo.setN, PathSearch.Demo.lit2, PathSearch.Demo.setM, PathSearch.Demo.lit3]
      ["a".toList] p.cursor.pos).map (fun is => is.map (row p.content)) =
    some [("m".toList, some ("{a: true m: {\n  ".toList, "\n}}".toList)), ("r".toList, some ("{a: true r: [".toList, "]}".toList))] := by
  decide +kernel

/-- Values of an enum that begin as typed. -/
example : let p : Place := ⟨"e: ".toList, "A".toList, "B".toList, " }".toList⟩
    (caseField (some { sample ['e'] .enum with values := [['A', 'X'], ['B'], ['A', 'Y']] }) false 9 (some ⟨3, 3, 3, 5⟩) 3 p.content p.cursor.offset
      p.cursor.pos).map (row p.content) =
    [(['A', 'X'], some ("e: AX".toList, " }".toList)), (['A', 'Y'], some ("e: AY".toList, " }".toList))] := by
  decide +kernel

/-- The word `se` at the top level of a file with a syntax statement. -/
example : let p : Place := ⟨"syntax = \"proto3\";\n".toList, "se".toList, [], "\n".toList⟩
    (caseError ⟨some proto3, false, false, false⟩ (some (19, 21)) p.content p.cursor.offset p.cursor.pos).map (row p.content) =
    [("service".toList, some ("syntax = \"proto3\";\nservice".toList, "\n".toList))] := by
  decide +kernel

/-- `re` in a `proto3` message. -/
example : let p : Place := ⟨"message M { ".toList, "re".toList, [], " }".toList⟩
    (caseFieldDecl ⟨some proto3, false, false, false⟩ ⟨none, some (3, 3, ['r', 'e'], 12, 0), none, true⟩ 3 p.cursor.offset p.cursor.pos).map
      (fun o => (o.types, o.keywords.map (·.label))) =
    some (some (['r', 'e'], []), ["repeated".toList, "reserved".toList]) := by
  decide +kernel

/-- Behind `repeated`, with the next field in the next line. -/
example : caseFieldDecl ⟨some proto3, false, false, false⟩ ⟨some (3, ⟨1, 10⟩), some (4, 4, ['F', 'o', 'o'], 30, 2), some (5, 5), false⟩ (-1) 20 ⟨1, 11⟩ =
    some ⟨some ([], []), []⟩ := by decide

end Verif.ValueComplete
