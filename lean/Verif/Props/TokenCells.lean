import Verif.Spec.TokenCells
import Verif.Lemmas.TokenCells

/-!
# C82: semantic tokens of names and comments cover exactly their text
-/
namespace Verif.TokenCells

/-- A leading comment that is no pragma of the `syntax` or `edition` keyword is covered by comment tokens, character by
character, in any number of lines. -/
theorem C82_leading {c : Comment} {p : Cell} (h : c.Placed p) (kw : Option Str)
    (hno : (kw ≠ some ['s', 'y', 'n', 't', 'a', 'x'] ∧ kw ≠ some ['e', 'd', 'i', 't', 'i', 'o', 'n']) ∨
      ¬ ['/', '/', 'p', 'r', 'o', 't', 'o', 'l', 's', ':'] <+: c.text) :
    (leadingComment kw c).flatMap Item.cells = cells p c.text ∧ ∀ it ∈ leadingComment kw c, it.typ = .comment ∧ it.mods = 0 := by
  unfold leadingComment
  split
  · rename_i hm
    refine ⟨multilineComment_cells h hm, ?_⟩
    intro it hit
    simp only [multilineComment, List.mem_append, List.mem_singleton, List.mem_map] at hit
    rcases hit with (hit | ⟨x, -, hit⟩) | hit
    · rw [hit]; exact ⟨rfl, rfl⟩
    · rw [← hit]; exact ⟨rfl, rfl⟩
    · rw [hit]; exact ⟨rfl, rfl⟩
  · rename_i hm
    have hl := lineComment_cells h (h.line hm)
    have ht : ∀ it ∈ lineComment c, it.typ = .comment ∧ it.mods = 0 := by
      intro it hit
      simp only [lineComment, List.mem_singleton] at hit
      rw [hit]; exact ⟨rfl, rfl⟩
    cases hc : cutPragma c.text with
    | none => exact ⟨hl, ht⟩
    | some text =>
      simp only []
      have hp : ['/', '/', 'p', 'r', 'o', 't', 'o', 'l', 's', ':'] <+: c.text := by
        unfold cutPragma at hc
        split at hc
        · rename_i hp; exact List.isPrefixOf_iff_prefix.mp hp
        · simp at hc
      rcases hno with ⟨h1, h2⟩ | hno
      · rw [if_neg (fun hh => hh.2.elim h1 h2)]
        exact ⟨hl, ht⟩
      · exact absurd hp hno

/-- The same for trailing comments, without the copies that stand in for a comment elsewhere. -/
theorem C82_trailing {c : Comment} {p : Cell} (h : c.Placed p) :
    (trailingComment c).flatMap Item.cells = (if c.virtual then [] else cells p c.text) ∧
      ∀ it ∈ trailingComment c, it.typ = .comment ∧ it.mods = 0 := by
  unfold trailingComment
  cases hv : c.virtual
  · simp only [Bool.false_eq_true, if_false]
    split
    · rename_i hm
      refine ⟨multilineComment_cells h hm, ?_⟩
      intro it hit
      simp only [multilineComment, List.mem_append, List.mem_singleton, List.mem_map] at hit
      rcases hit with (hit | ⟨x, -, hit⟩) | hit
      · rw [hit]; exact ⟨rfl, rfl⟩
      · rw [← hit]; exact ⟨rfl, rfl⟩
      · rw [hit]; exact ⟨rfl, rfl⟩
    · rename_i hm
      refine ⟨lineComment_cells h (h.line hm), ?_⟩
      intro it hit
      simp only [lineComment, List.mem_singleton] at hit
      rw [hit]; exact ⟨rfl, rfl⟩
  · simp

/-- `/* ab` in one line and ` c */` in the next. -/
def exampleComment : Comment :=
  ⟨['/', '*', ' ', 'a', 'b', '\n', ' ', 'c', ' ', '*', '/'], ⟨3, 5⟩, ⟨4, 5⟩, false⟩

theorem exampleComment_placed : exampleComment.Placed (2, 4) :=
  ⟨⟨by decide, by decide⟩, by decide, by decide, rfl, rfl⟩

example : (leadingComment none exampleComment).flatMap Item.cells = cells (2, 4) exampleComment.text :=
  (C82_leading exampleComment_placed none (.inl (by decide))).1
example : leadingComment none exampleComment = [⟨2, 4, 5, .comment, 0⟩, ⟨3, 0, 5, .comment, 0⟩] := by decide
example : (trailingComment exampleComment).flatMap Item.cells = cells (2, 4) exampleComment.text :=
  (C82_trailing exampleComment_placed).1

/-- No character is covered twice: the places of a text, hence the tokens of a comment, are in strict order. -/
theorem C82_order (p : Cell) (text : Str) :
    (cells p text).Pairwise (fun a b => a.1 < b.1 ∨ (a.1 = b.1 ∧ a.2 < b.2)) := cells_sorted p text

/-- Every character of the text but a line feed has its place: `q` is covered iff it is the place of such a character. -/
theorem C82_places (p q : Cell) (text : Str) :
    q ∈ cells p text ↔ ∃ a c b, text = a ++ c :: b ∧ c ≠ '\n' ∧ q = a.foldl advance p := by
  refine ⟨mem_cells, ?_⟩
  rintro ⟨a, c, b, rfl, hc, rfl⟩
  rw [cells_append, List.mem_append]
  right
  simp [cells, hc]

example : cells (2, 4) exampleComment.text = [(2,4),(2,5),(2,6),(2,7),(2,8),(3,0),(3,1),(3,2),(3,3),(3,4)] := by decide

/-- A pragma, `//protols:key value`, at the `syntax` or `edition` keyword: `//` is a comment, `protols:key` a macro, and the
rest a comment again. Full claim: for every value. Here: for no value, or one with more than 10 characters. -/
theorem C82_pragma_partial {c : Comment} {p : Cell} (h : c.Placed p) {key value : Str} (hp : IsPragma c key value)
    (hn : '\n' ∉ c.text) (kw : Str) (hk : kw = ['s', 'y', 'n', 't', 'a', 'x'] ∨ kw = ['e', 'd', 'i', 't', 'i', 'o', 'n'])
    (hv : value = [] ∨ 10 < value.length) :
    (leadingComment (some kw) c).flatMap Item.cells = cells p c.text ∧
    ((leadingComment (some kw) c).filter (·.typ = .macro)).flatMap Item.cells =
      cells (p.1, p.2 + 2) (['p', 'r', 'o', 't', 'o', 'l', 's', ':'] ++ key) ∧
    ∀ it ∈ leadingComment (some kw) c, (it.typ = .comment ∨ it.typ = .macro) ∧ it.mods = 0 := by
  obtain ⟨ht, hk0, hks, hv'⟩ := hp
  obtain ⟨h1, h2⟩ := h.stop_line hn
  have htake := takeWhile_key hks hv'
  have hlead : leadingComment (some kw) c = pragma c (key ++ value) key := by
    unfold leadingComment
    rw [if_neg (by rw [h1, h.start]; simp [Pos.of])]
    have hcut : cutPragma c.text = some (key ++ value) := by
      rw [ht, List.append_assoc]; exact cutPragma_some _
    simp only [hcut, htake]
    rw [if_pos ⟨List.length_pos_iff.mpr hk0, hk.imp (congrArg some) (congrArg some)⟩]
  have hcells := pragma_cells h ht hn
  have hlen : c.text.length = 10 + key.length + value.length := by rw [ht]; simp; omega
  obtain ⟨f1, f2⟩ := h.fits
  have hkn : '\n' ∉ key := by intro hk; apply hn; rw [ht]; simp [hk]
  rw [hlead]
  refine ⟨?_, ?_, ?_⟩
  · rw [hcells, cells_line _ _ hn, hlen, row_add _ _ (10 + key.length) value.length]
    rcases hv with rfl | hv
    · simp [row]
    · rw [if_pos hv]
  · have e1 : u32 ((c.start.line : Int) - 1) = p.1 := u32_eq (by rw [h.start]; simp [Pos.of]) (by omega)
    have e3 : u32 ((c.start.col : Int) - 1 + 2) = p.2 + 2 := u32_eq (by rw [h.start]; simp only [Pos.of]; omega) (by omega)
    have e4 : u32 ((8 + key.length : Nat) : Int) = 8 + key.length := u32_eq rfl (by omega)
    rw [cells_line _ _ (by simpa using hkn)]
    simp only [pragma]
    have hl : (['p', 'r', 'o', 't', 'o', 'l', 's', ':'] ++ key).length = 8 + key.length := by simp; omega
    rw [hl]
    split
    · simp only [List.filter, List.cons_append, List.nil_append, e1, e3, e4]
      simp
      rfl
    · simp only [List.filter, List.cons_append, List.nil_append, e1, e3, e4]
      simp
      rfl
  · intro it hit
    simp only [pragma, List.mem_append, List.mem_cons, List.not_mem_nil, or_false] at hit
    rcases hit with (hit | hit) | hit
    · rw [hit]; exact ⟨.inl rfl, rfl⟩
    · rw [hit]; exact ⟨.inr rfl, rfl⟩
    · split at hit
      · simp only [List.mem_singleton] at hit; rw [hit]; exact ⟨.inl rfl, rfl⟩
      · simp at hit

/-- `//protols:k` and a value. -/
def examplePragma (value : Str) : Comment :=
  ⟨['/', '/', 'p', 'r', 'o', 't', 'o', 'l', 's', ':', 'k'] ++ value, ⟨1, 1⟩, ⟨1, 11 + value.length⟩, false⟩

example : (leadingComment (some ['s', 'y', 'n', 't', 'a', 'x']) (examplePragma (' ' :: List.replicate 10 'x'))).flatMap Item.cells =
    cells (0, 0) (examplePragma (' ' :: List.replicate 10 'x')).text :=
  (C82_pragma_partial (p := (0, 0)) (key := ['k']) (value := ' ' :: List.replicate 10 'x')
    ⟨⟨by decide, by decide⟩, by decide, by decide, rfl, rfl⟩ ⟨rfl, by decide, by decide, .inr rfl⟩ (by decide)
    ['s', 'y', 'n', 't', 'a', 'x'] (.inl rfl) (.inr (by decide))).1

/-- The value of a pragma that has at most 10 characters (with the space) is covered by no token, whatever the key: the
comparison in line 371 is with the text behind the prefix. -/
theorem C82_pragma_violated {c : Comment} {p : Cell} (h : c.Placed p) {key value : Str} (hp : IsPragma c key value)
    (hn : '\n' ∉ c.text) (kw : Str) (hk : kw = ['s', 'y', 'n', 't', 'a', 'x'] ∨ kw = ['e', 'd', 'i', 't', 'i', 'o', 'n'])
    (hv : value ≠ []) (hshort : value.length ≤ 10) :
    (leadingComment (some kw) c).flatMap Item.cells ++ cells (p.1, p.2 + (10 + key.length)) value = cells p c.text ∧
    cells (p.1, p.2 + (10 + key.length)) value ≠ [] := by
  obtain ⟨ht, hk0, hks, hv'⟩ := hp
  obtain ⟨h1, h2⟩ := h.stop_line hn
  have htake := takeWhile_key hks hv'
  have hlead : leadingComment (some kw) c = pragma c (key ++ value) key := by
    unfold leadingComment
    rw [if_neg (by rw [h1, h.start]; simp [Pos.of])]
    have hcut : cutPragma c.text = some (key ++ value) := by
      rw [ht, List.append_assoc]; exact cutPragma_some _
    simp only [hcut, htake]
    rw [if_pos ⟨List.length_pos_iff.mpr hk0, hk.imp (congrArg some) (congrArg some)⟩]
  have hcells := pragma_cells h ht hn
  have hlen : c.text.length = 10 + key.length + value.length := by rw [ht]; simp; omega
  have hvn : '\n' ∉ value := by intro hk; apply hn; rw [ht]; simp [hk]
  rw [hlead, hcells, if_neg (by omega), cells_line _ _ hn, hlen, row_add _ _ (10 + key.length) value.length, List.append_nil, cells_line _ _ hvn]
  refine ⟨rfl, ?_⟩
  cases value with
  | nil => exact absurd rfl hv
  | cons a b => simp [row_succ]

example : ((0, 12) : Cell) ∈ cells (0, 0) (examplePragma [' ', 'v']).text ∧
    (0, 12) ∉ (leadingComment (some ['s', 'y', 'n', 't', 'a', 'x']) (examplePragma [' ', 'v'])).flatMap Item.cells := by decide

/-- A pragma without a key is an ordinary comment. -/
theorem C82_no_key {c : Comment} {p : Cell} (h : c.Placed p) (kw : Option Str) {value : Str}
    (ht : c.text = ['/', '/', 'p', 'r', 'o', 't', 'o', 'l', 's', ':'] ++ value) (hv : value = [] ∨ value.head? = some ' ')
    (hn : '\n' ∉ c.text) :
    (leadingComment kw c).flatMap Item.cells = cells p c.text ∧ ∀ it ∈ leadingComment kw c, it.typ = .comment ∧ it.mods = 0 := by
  obtain ⟨h1, h2⟩ := h.stop_line hn
  have hlead : leadingComment kw c = lineComment c := by
    unfold leadingComment
    rw [if_neg (by rw [h1, h.start]; simp [Pos.of])]
    have hcut : cutPragma c.text = some value := by rw [ht]; exact cutPragma_some _
    have htake := takeWhile_key (key := []) (value := value) (by simp) hv
    simp only [List.nil_append] at htake
    simp only [hcut, htake]
    rw [if_neg (by simp)]
  rw [hlead]
  refine ⟨lineComment_cells h hn, ?_⟩
  intro it hit
  simp only [lineComment, List.mem_singleton] at hit
  rw [hit]; exact ⟨rfl, rfl⟩

/-- The name of a node in one line, and its comments: first the token of the name, then the comments before it, then those
behind it; nothing else. -/
theorem C82_node {n : Node} {p : Cell} {text : Str} (h : n.Placed p text) (hn : '\n' ∉ text) (tt mods : Nat) :
    ∃ it rest, (∀ skip, mktokens skip (some n) tt mods = it :: if skip then [] else rest) ∧
      it.cells = cells p text ∧ it.typ = .other tt ∧ it.mods = mods ∧
      rest = n.leading.flatMap (leadingComment n.keyword) ++ n.trailing.flatMap trailingComment := by
  obtain ⟨f1, f2⟩ := h.fits
  have hs := h.stop
  rw [foldl_line _ _ hn] at hs
  have e1 : u32 ((n.start.line : Int) - 1) = p.1 := u32_eq (by rw [h.start]; simp [Pos.of]) (by omega)
  have e2 : u32 ((n.start.col : Int) - 1) = p.2 := u32_eq (by rw [h.start]; simp [Pos.of]) (by omega)
  have e3 : u32 ((n.stop.col - 1 : Int) - (n.start.col - 1)) = text.length :=
    u32_eq (by rw [h.start, hs]; simp only [Pos.of]; omega) (by omega)
  refine ⟨⟨p.1, p.2, text.length, .other tt, mods⟩, _, ?_, ?_, rfl, rfl, rfl⟩
  · intro skip
    unfold mktokens
    simp only [h.valid, e1, e2, e3]
    cases skip <;> rfl
  · rw [cells_line _ _ hn]; rfl

/-- A missing node or one without tokens has no tokens. -/
theorem C82_none (skip : Bool) (tt mods : Nat) (n : Node) (h : n.valid = false) :
    mktokens skip none tt mods = [] ∧ mktokens skip (some n) tt mods = [] := by
  unfold mktokens
  simp [h]

/-- The tokens of a whole node: where the comments stand is covered by comment tokens, where the name stands by one token
of its type. Full claim: with pragmas and names in several lines. Here: without. -/
theorem C82_all_partial {n : Node} {p : Cell} {text : Str} (h : n.Placed p text) (hn : '\n' ∉ text) (tt mods : Nat)
    (lead trail : Comment → Cell) (hl : ∀ c ∈ n.leading, c.Placed (lead c)) (ht : ∀ c ∈ n.trailing, c.Placed (trail c))
    (hno : ∀ c ∈ n.leading, ¬ ['/', '/', 'p', 'r', 'o', 't', 'o', 'l', 's', ':'] <+: c.text) (q : Cell) :
    q ∈ (mktokens false (some n) tt mods).flatMap Item.cells ↔
      q ∈ cells p text ∨ (∃ c ∈ n.leading, q ∈ cells (lead c) c.text) ∨
        ∃ c ∈ n.trailing, c.virtual = false ∧ q ∈ cells (trail c) c.text := by
  obtain ⟨it, rest, h1, h2, -, -, h3⟩ := C82_node h hn tt mods
  rw [h1]
  simp only [Bool.false_eq_true, if_false, List.flatMap_cons, List.mem_append, h2, h3, List.flatMap_append]
  refine or_congr Iff.rfl (or_congr ?_ ?_)
  · rw [List.flatMap_assoc, List.mem_flatMap]
    refine exists_congr fun c => and_congr_right fun hc => ?_
    rw [(C82_leading (hl c hc) n.keyword (.inr (hno c hc))).1]
  · rw [List.flatMap_assoc, List.mem_flatMap]
    refine exists_congr fun c => and_congr_right fun hc => ?_
    rw [(C82_trailing (ht c hc)).1]
    cases c.virtual <;> simp

/-- `a.b`, with the comment of the example before it. -/
def exampleNode : Node := ⟨true, ⟨4, 7⟩, ⟨4, 10⟩, none, [exampleComment], []⟩

theorem exampleNode_placed : exampleNode.Placed (3, 6) ['a', '.', 'b'] := ⟨⟨by decide, by decide⟩, rfl, rfl, rfl⟩

example : ((3, 8) : Cell) ∈ (mktokens false (some exampleNode) 7 0).flatMap Item.cells :=
  (C82_all_partial exampleNode_placed (by decide) 7 0 (fun _ => (2, 4)) (fun _ => (2, 4))
    (by intro c hc; simp only [exampleNode, List.mem_singleton] at hc; rw [hc]; exact exampleComment_placed)
    (by simp [exampleNode])
    (by intro c hc; simp only [exampleNode, List.mem_singleton] at hc; rw [hc]; decide) (3, 8)).mpr (.inl (by decide))
example : mktokens true (some exampleNode) 7 0 = [⟨3, 6, 3, .other 7, 0⟩] := by decide
example : mktokens false none 7 0 = [] := (C82_none false 7 0 { exampleNode with valid := false } rfl).1

/-- A name in two lines gets one token that is longer than any line: `foo.` in column 4 and `ba` in the next line. -/
theorem C82_multiline_violated : ∃ (n : Node) (p : Cell) (text : Str), n.Placed p text ∧
    mktokens true (some n) 1 0 = [⟨p.1, p.2, 4294967294, .other 1, 0⟩] :=
  ⟨⟨true, ⟨1, 5⟩, ⟨2, 3⟩, none, [], []⟩, (0, 4), ['f', 'o', 'o', '.', '\n', 'b', 'a'], ⟨⟨by decide, by decide⟩, rfl, rfl, rfl⟩, by decide⟩

/-- A type whose text is its name is one token, also when it is a name with dots. -/
theorem C82_compound_whole {c : Compound} {p : Cell} (h : c.node.Placed p c.raw) (hr : c.raw = c.name) (hn : '\n' ∉ c.name) :
    ∃ it, inspectCompoundIdent true c = [it] ∧ it.cells = cells p c.name ∧ it.typ = .other 1 := by
  obtain ⟨it, rest, h1, h2, h3, -, -⟩ := C82_node h (by rw [hr]; exact hn) 1 (libraryModifier c.name)
  refine ⟨it, ?_, by rw [h2, hr], h3⟩
  unfold inspectCompoundIdent
  rw [if_pos hr, h1]
  rfl

/-- A type that is broken up by spaces, line feeds or comments has one token for each part: exactly the characters of the
parts are covered, in any number of lines. -/
theorem C82_compound_parts {c : Compound} (hr : c.raw ≠ c.name) (place : Node → Cell) (text : Node → Str)
    (h : ∀ n ∈ c.components, n.Placed (place n) (text n) ∧ '\n' ∉ text n) :
    (inspectCompoundIdent true c).flatMap Item.cells = c.components.flatMap (fun n => cells (place n) (text n)) ∧
    (inspectCompoundIdent true c).length = c.components.length ∧
    ∀ it ∈ inspectCompoundIdent true c, it.typ = .other 1 := by
  unfold inspectCompoundIdent
  rw [if_neg hr]
  have hone : ∀ n ∈ c.components, ∃ it, mktokens true (some n) 1 (libraryModifier c.name) = [it] ∧
      it.cells = cells (place n) (text n) ∧ it.typ = .other 1 := by
    intro n hn
    obtain ⟨it, rest, h1, h2, h3, -, -⟩ := C82_node (h n hn).1 (h n hn).2 1 (libraryModifier c.name)
    exact ⟨it, by rw [h1]; rfl, h2, h3⟩
  generalize c.components = ns at hone
  induction ns with
  | nil => simp
  | cons n ns ih =>
    obtain ⟨i1, i2, i3⟩ := ih (fun m hm => hone m (List.mem_cons_of_mem _ hm))
    obtain ⟨it, g1, g2, g3⟩ := hone n List.mem_cons_self
    rw [List.flatMap_cons, g1]
    refine ⟨?_, ?_, ?_⟩
    · rw [List.flatMap_append, i1, List.flatMap_cons, List.flatMap_cons, List.flatMap_nil, g2, List.append_nil]
    · rw [List.length_append, i2]; simp; omega
    · intro x hx
      rw [List.singleton_append, List.mem_cons] at hx
      rcases hx with rfl | hx
      · exact g3
      · exact i3 x hx

/-- `foo`, `.` and `ba` in the next line. -/
def exampleParts : List Node :=
  [⟨true, ⟨1, 5⟩, ⟨1, 8⟩, none, [], []⟩, ⟨true, ⟨1, 8⟩, ⟨1, 9⟩, none, [], []⟩, ⟨true, ⟨2, 1⟩, ⟨2, 3⟩, none, [], []⟩]

example : inspectCompoundIdent true
    ⟨⟨true, ⟨1, 5⟩, ⟨2, 3⟩, none, [], []⟩, ['f', 'o', 'o', '.', '\n', 'b', 'a'], ['f', 'o', 'o', '.', 'b', 'a'], exampleParts⟩ =
    [⟨0, 4, 3, .other 1, 0⟩, ⟨0, 7, 1, .other 1, 0⟩, ⟨1, 0, 2, .other 1, 0⟩] := by decide

/-- Types of the package `google.protobuf` are marked as library types, with or without a leading dot. -/
theorem C82_library (rest : Str) (dot : Bool) :
    libraryModifier ((if dot then ['.'] else []) ++ ['g', 'o', 'o', 'g', 'l', 'e', '.', 'p', 'r', 'o', 't', 'o', 'b', 'u', 'f', '.'] ++ rest)
      = 512 := by
  have hs : ∀ r : Str, (indexSub kwGoogleProtobuf (kwGoogleProtobuf ++ r)).isSome = true := by
    intro r
    unfold kwGoogleProtobuf
    simp [indexSub, List.isPrefixOf]
  have h1 : ∀ name : Str, (if name.head? = some '.' then name.drop 1 else name) = kwGoogleProtobuf ++ rest →
      libraryModifier name = 512 := by
    intro name hn
    unfold libraryModifier
    simp only [hn]
    rw [if_pos (hs rest)]
  apply h1
  cases dot <;> rfl

/-- A name that does not contain `google.protobuf.` is not marked. -/
theorem C82_no_library (name : Str)
    (h : ¬ ['g', 'o', 'o', 'g', 'l', 'e', '.', 'p', 'r', 'o', 't', 'o', 'b', 'u', 'f', '.'] <:+: name) : libraryModifier name = 0 := by
  unfold libraryModifier
  simp only []
  rw [if_neg]
  intro hs
  obtain ⟨i, hi⟩ := Option.isSome_iff_exists.mp hs
  have hin : ∀ t : Str, indexSub kwGoogleProtobuf t = some i → kwGoogleProtobuf <:+: t := by
    intro t ht
    obtain ⟨b, hb, -⟩ := indexSub_infix _ _ _ ht
    exact ⟨t.take i, b, hb.symm⟩
  apply h
  have := hin _ hi
  split at this
  · exact this.trans (List.drop_suffix _ _).isInfix
  · exact this

example : libraryModifier ['m', 'y', '.', 'T'] = 0 := C82_no_library _ (by decide)
example : libraryModifier (['.'] ++ kwGoogleProtobuf ++ ['A', 'n', 'y']) = 512 := C82_library ['A', 'n', 'y'] true

end Verif.TokenCells
