import Verif.Lemmas.Inspect
/-!
# C90: every name, keyword, literal and comment is highlighted exactly once
-/
namespace Verif.Inspect

/-- **C90** (tokens): the walk over a syntax tree makes exactly one token for each leaf of a name, each keyword, number, string and
operator, of the right type, and none for punctuation; words that are values of options and fields get a token according to the
type of the option or field. (Partial: not for names `[url/name]` in message literals, see `C90_any_violated`; not for `inf` and `nan`
in a field of floating point, see `C90_inf_violated`; not for truth values in an array, see `C90_bool_array_violated`.) -/
theorem C90_tokens_partial (t : Tree) (h : Fine t) : (tokensOf (visit t)).Perm (expected .none t) := visit_perm t h

/-- **C90** (no overlap): no leaf has two tokens. -/
theorem C90_once_partial (t : Tree) (h : Fine t) (hd : (ids t).Nodup) : ((tokensOf (visit t)).map (·.1)).Nodup := by
  have h1 := ((visit_perm t h).map (·.1))
  rw [h1.nodup_iff, List.nodup_iff_count]
  intro i
  have h2 := count_tree i .none t
  have h3 := (List.nodup_iff_count.1 hd) i
  omega

/-- **C90** (comments): for trees whose names are single words, the comments before and behind each leaf that has a token or is
punctuation are highlighted exactly once. (Partial: comments at dots and brackets of names are highlighted twice, see
`C90_dot_violated` and `C90_extension_violated`; comments at the end of the file are not highlighted, see `C90_eof_violated`.) -/
theorem C90_comments_partial (t : Tree) (h : Fine t) (hw : Words t) :
    (leadsOf (visit t)).Perm ((expected .none t).map (·.1) ++ quiet t) ∧
    (trailsOf (visit t)).Perm ((expected .none t).map (·.1) ++ quiet t) := by
  have h1 := single_visit t hw
  have h2 := ((visit_perm t h).map (·.1)).append_right (quiet t)
  exact ⟨h1.1.trans h2, h1.2.trans h2⟩

/-- **C90** (comments, no overlap): no comment is highlighted twice. -/
theorem C90_comments_once_partial (t : Tree) (h : Fine t) (hw : Words t) (hd : (ids t).Nodup) :
    (leadsOf (visit t)).Nodup ∧ (trailsOf (visit t)).Nodup := by
  obtain ⟨h1, h2⟩ := C90_comments_partial t h hw
  rw [h1.nodup_iff, h2.nodup_iff, List.nodup_iff_count]
  have h3 : ∀ i, ((expected .none t).map (·.1) ++ quiet t).count i ≤ 1 := by
    intro i
    have h4 := count_tree i .none t
    have h5 := (List.nodup_iff_count.1 hd) i
    rw [List.count_append]
    omega
  exact ⟨h3, h3⟩

/-! ## Violations -/

/-- In `[url/name]: value` the slash gets two tokens, one as part of the type and one as an operator (lines 636 and 497). -/
theorem C90_any_violated (fd : Option Kind) (op cl : Leaf) (url name : Name) (slash : Nat) (sep post : List Tree) (val : Tree) :
    let t := Tree.field fd (.any op url ⟨slash, .rune '/' false⟩ name cl) sep val post
    (slash, .type, .library) ∈ tokensOf (visit t) ∧ (slash, .operator, .none) ∈ tokensOf (visit t) := by
  intro t
  have h1 : tokensOf (visitLeaf ⟨slash, .rune '/' false⟩) = [(slash, .operator, .none)] := rfl
  simp only [t, visit, tokensOf_append, tokensOf_ref, Ref.expected, visitRef, h1]
  constructor
  · simp
  · simp

/-- `inf` in a field of floating point gets two tokens (lines 808 and 483). -/
theorem C90_inf_violated (ref : Ref) (l : Leaf) (sep post : List Tree) :
    2 ≤ (tokensOf (visit (.field (some .float) ref sep (.special l) post))).count (l.id, .number, .none) := by
  simp only [visit, valueTokens, fieldLiteral, tokensOf_append, tokensOf_mktokens, List.map_cons, List.map_nil, List.count_append,
    List.count_singleton_self]
  omega

/-- A truth value in an array gets two tokens if the parser marks it as a keyword (lines 861 and 487), and none otherwise. -/
theorem C90_bool_array_violated (id name : Nat) (keyword : Bool) (h : id ≠ name) (text : Str) (ht : Truth text) :
    (tokensOf (visit (.field (some .bool) (.plain ⟨name, .ident ['a'] false⟩) [] (.array [.leaf ⟨id, .ident text keyword⟩]) []))).countP
      (fun x => x.1 = id) = if keyword then 2 else 0 := by
  have hn : name ≠ id := fun e => h e.symm
  have hb := (isBool_iff text).2 ht
  cases keyword with
  | true =>
    simp [visit, visits, visitRef, visitLeaf, valueTokens, elementTokens, refTokens, hb, tokensOf_append, tokensOf_mktokens,
      hn]
  | false =>
    simp [visit, visits, visitRef, visitLeaf, valueTokens, elementTokens, refTokens, tokensOf_mktokens,
      hn]

/-- A type with a leading dot: the comments before the field are highlighted twice (once for the name, once for the dot). -/
theorem C90_dot_violated (m : Mods) (dot : Nat) (rest : List Leaf) (whole google : Bool) (kids : List Tree) :
    2 ≤ (leadsOf (visit (.node (.named (.split m) (.compound ⟨dot, .rune '.' false⟩ rest whole google) :: kids)))).count dot := by
  have h1 : leadsOf (visitLeaf ⟨dot, .rune '.' false⟩) = [dot] := rfl
  have h2 : 1 ≤ (leadsOf (compoundIdent ⟨dot, .rune '.' false⟩ rest whole google)).count dot := by
    rw [List.one_le_count_iff]
    unfold compoundIdent
    cases whole <;> simp [leadsOf, mktokens, mkcomments]
  simp only [visit, visits, marks, Mark.tokens, visitName, List.flatMap_cons, leadsOf_append, List.count_append, h1,
    List.count_singleton_self]
  omega

/-- `[name]: value` in a message literal: the comments before the bracket are highlighted twice. -/
theorem C90_extension_violated (fd : Option Kind) (op : Nat) (cl : Leaf) (name : Name) (sep post : List Tree) (val : Tree) :
    2 ≤ (leadsOf (visit (.field fd (.ext ⟨op, .rune '[' false⟩ name cl) sep val post))).count op := by
  have h1 : leadsOf (visitLeaf ⟨op, .rune '[' false⟩) = [op] := rfl
  have h2 : leadsOf (mktokens ⟨op, .rune '[' false⟩ [] .operator .none) = [op] := rfl
  simp only [visit, refTokens, visitRef, leadsOf_append, List.count_append, h1, h2, List.count_singleton_self]
  omega

/-- The comments at the end of a file belong to the rune 0 and are not highlighted (lines 490-492). -/
theorem C90_eof_violated (eof : Nat) (virtual : Bool) : visit (.leaf ⟨eof, .rune (Char.ofNat 0) virtual⟩) = [] := by
  cases virtual <;> rfl

/-! ## Examples -/

/-- `message M { google.protobuf.Any a = 1 [(o) = { b: true, c: [X, 2] }]; }` -/
def exampleTree : Tree :=
  .node [.leaf ⟨0, .ident ['m'] true⟩, .named (.whole .type .definition) (.ident ⟨1, .ident ['M'] false⟩), .leaf ⟨2, .rune '{' false⟩,
    .node [.named (.split .none) (.compound ⟨3, .ident ['g'] false⟩ [⟨4, .rune '.' false⟩, ⟨5, .ident ['A'] false⟩] true true),
      .named (.whole .variable .definition) (.ident ⟨6, .ident ['a'] false⟩), .leaf ⟨7, .rune '=' false⟩, .leaf ⟨8, .number⟩,
      .option none [.optionName [.ext ⟨9, .rune '(' false⟩ (.ident ⟨10, .ident ['o'] false⟩) ⟨11, .rune ')' false⟩],
        .leaf ⟨12, .rune '=' false⟩]
        (.node [.leaf ⟨13, .rune '{' false⟩,
          .field (some .bool) (.plain ⟨14, .ident ['b'] false⟩) [.leaf ⟨15, .rune ':' false⟩] (.leaf ⟨16, .ident kwTrue false⟩) [],
          .field (some (.enum [['X']])) (.plain ⟨17, .ident ['c'] false⟩) [.leaf ⟨18, .rune ':' false⟩]
            (.array [.leaf ⟨19, .rune '[' false⟩, .leaf ⟨20, .ident ['X'] false⟩, .leaf ⟨21, .rune ',' false⟩, .leaf ⟨22, .number⟩,
              .leaf ⟨23, .rune ']' false⟩]) [],
          .leaf ⟨24, .rune '}' false⟩]) [],
      .leaf ⟨25, .rune ';' false⟩],
    .leaf ⟨26, .rune '}' false⟩]

theorem exampleTree_fine : Fine exampleTree := by
  simp [exampleTree, Fine, Fines, FineKids, Name.Plain, Leaf.Plain, Ref.Plain, ValueOk, ElementOk]

example : (tokensOf (visit exampleTree)).Perm (expected .none exampleTree) := C90_tokens_partial _ exampleTree_fine

example : (16, Typ.keyword, Mods.none) ∈ expected .none exampleTree ∧ (20, Typ.enumMember, Mods.none) ∈ expected .none exampleTree ∧
    (4, Typ.type, Mods.library) ∈ expected .none exampleTree := by decide +kernel

example : ((tokensOf (visit exampleTree)).map (·.1)).Nodup := C90_once_partial _ exampleTree_fine (by decide +kernel)

/-- `C90_comments_partial`: `enum E { A = 0; }` -/
def exampleEnum : Tree :=
  .node [.leaf ⟨0, .ident ['e'] true⟩, .named (.whole .class .none) (.ident ⟨1, .ident ['E'] false⟩), .leaf ⟨2, .rune '{' false⟩,
    .node [.named (.whole .enumMember .none) (.ident ⟨3, .ident ['A'] false⟩), .leaf ⟨4, .rune '=' false⟩, .leaf ⟨5, .number⟩,
      .leaf ⟨6, .rune ';' false⟩],
    .leaf ⟨7, .rune '}' false⟩]

example : (leadsOf (visit exampleEnum)).Nodup ∧ (trailsOf (visit exampleEnum)).Nodup :=
  C90_comments_once_partial _ (by simp [exampleEnum, Fine, FineKids, Name.Plain, Leaf.Plain])
    (by simp [exampleEnum, Words, Wordss, Name.Word, Leaf.Word]) (by decide +kernel)

example : Truth kwTrue := by decide

end Verif.Inspect
