import Verif.Spec.Inspect
import Mathlib.Tactic.Tauto
/-!
# Lemmas about the walk that collects semantic tokens
-/
namespace Verif.Inspect

theorem isBool_iff (text : Str) : isBool text = true ↔ Truth text := by
  unfold isBool Truth kwTrue kwFalse
  rw [Bool.or_eq_true, decide_eq_true_eq, decide_eq_true_eq]

theorem isFloat_iff (text : Str) : isFloat text = true ↔ Special text := by
  unfold isFloat Special kwInf kwNan
  rw [Bool.or_eq_true, decide_eq_true_eq, decide_eq_true_eq]
  simp only [List.mem_cons, List.not_mem_nil, or_false]

theorem sign_iff (c : Char) : Sign c ↔ c ∈ punctuation := by
  unfold Sign punctuation
  simp only [List.mem_cons, List.not_mem_nil, or_false]
  tauto

theorem tokensOf_append (a b : List Out) : tokensOf (a ++ b) = tokensOf a ++ tokensOf b := by
  simp [tokensOf, List.flatMap_append]

theorem tokensOf_nil : tokensOf [] = [] := rfl

theorem tokensOf_mktokens (f : Leaf) (r : List Leaf) (t : Typ) (m : Mods) :
    tokensOf (mktokens f r t m) = (f :: r).map fun l => (l.id, t, m) := by
  simp [tokensOf, mktokens, mkcomments]

theorem tokensOf_mkcomments (f l : Leaf) : tokensOf (mkcomments f l) = [] := rfl

theorem tokensOf_name (n : Name) (t : Typ) (m : Mods) : tokensOf (n.tokens t m) = nameTokens n t m := by
  cases n <;> simp [Name.tokens, tokensOf_mktokens, nameTokens, Name.ids]

theorem tokensOf_flat {α : Type} (f : α → List Out) (l : List α) : tokensOf (l.flatMap f) = l.flatMap fun x => tokensOf (f x) := by
  induction l with
  | nil => rfl
  | cons a l ih => simp only [List.flatMap_cons, tokensOf_append, ih]

theorem tokensOf_mark (k : Mark) (n : Name) : tokensOf (k.tokens n) = k.expected n := by
  cases k with
  | whole t m => exact tokensOf_name n t m
  | split m =>
    cases n with
    | ident l => simp [Mark.tokens, Mark.expected, tokensOf_mktokens, nameTokens, Name.ids]
    | compound f r w g =>
      simp only [Mark.tokens, Mark.expected, compoundIdent]
      cases w with
      | true => simp [tokensOf_mktokens, nameTokens, Name.ids]
      | false =>
        simp only [Bool.false_eq_true, if_false, tokensOf_flat, tokensOf_mktokens, nameTokens, Name.ids, List.map_cons, List.map_nil]
        generalize hx : (f :: r) = ls
        have : (f.id :: r.map (·.id)) = ls.map (·.id) := by rw [← hx]; rfl
        have h2 : ∀ ls : List Leaf, (ls.flatMap fun l => [(l.id, Typ.type, if g = true then Mods.library else Mods.none)])
            = ls.map fun l => (l.id, Typ.type, if g = true then Mods.library else Mods.none) := by
          intro ls
          induction ls with
          | nil => rfl
          | cons a ls ih => simp [ih]
        rw [h2, ← hx]
        simp

theorem plain_visit {l : Leaf} (h : l.Plain) : tokensOf (visitLeaf l) = [] := by
  unfold visitLeaf
  rcases h with ⟨text, h⟩ | h
  · rw [h]; rfl
  · rw [h]; rfl

theorem plain_visitName {n : Name} (h : n.Plain) : tokensOf (visitName n) = [] := by
  cases n with
  | ident l => exact plain_visit h
  | compound f r w g =>
    simp only [visitName, tokensOf_flat]
    rw [List.flatMap_eq_nil_iff]
    intro l hl
    exact plain_visit (h l hl)

theorem plain_visitRef {r : Ref} (h : r.Plain) : tokensOf (visitRef r) = [] := by
  cases r with
  | any => exact absurd h (by simp [Ref.Plain])
  | ext op name cl =>
    obtain ⟨h1, h2, h3⟩ := h
    simp only [visitRef, tokensOf_append, plain_visitName h2]
    unfold visitLeaf
    rw [h1, h3]; rfl
  | plain name => exact plain_visit h

theorem tokensOf_ref (r : Ref) : tokensOf (refTokens r) = r.expected := by
  cases r <;> simp [refTokens, Ref.expected, tokensOf_append, tokensOf_mktokens, tokensOf_name]

theorem tokensOf_part (p : Part) : tokensOf (partTokens p) = p.expected := by
  cases p <;> simp [partTokens, Part.expected, tokensOf_append, tokensOf_mktokens, tokensOf_name]

theorem tokensOf_leaf (l : Leaf) : tokensOf (visitLeaf l) = leafToken .none l := by
  unfold visitLeaf leafToken
  cases l.term with
  | ident text kw => cases kw <;> simp [tokensOf_mktokens, tokensOf_nil, word]
  | number => simp [tokensOf_mktokens]
  | str e => cases e <;> simp [tokensOf_mktokens, tokensOf_mkcomments]
  | rune c v =>
    cases v with
    | true => simp [tokensOf_nil]
    | false =>
      by_cases h0 : c.toNat = 0
      · simp [h0, tokensOf_nil]
      · by_cases hp : c ∈ punctuation
        · simp [h0, hp, sign_iff, tokensOf_mkcomments]
        · simp [h0, hp, sign_iff, tokensOf_mktokens]

/-- What is in front moves behind. -/
theorem perm4 {α : Type} {a m b v x y : List α} (h1 : (a ++ b).Perm x) (h2 : (m ++ v).Perm y) : ((a ++ m) ++ (b ++ v)).Perm (x ++ y) := by
  have h : ((a ++ m) ++ (b ++ v)).Perm ((a ++ b) ++ (m ++ v)) := by
    rw [List.append_assoc, List.append_assoc]
    apply List.Perm.append_left
    rw [← List.append_assoc, ← List.append_assoc]
    exact (List.perm_append_comm).append_right v
  exact h.trans (h1.append h2)

/-- Only words and arrays depend on where they stand. -/
theorem expected_ctx (c : Ctx) (t : Tree) (h : ∀ l, t ≠ .leaf l) (ha : ∀ kids, t ≠ .array kids) : expected c t = expected .none t := by
  cases t with
  | leaf l => exact absurd rfl (h l)
  | array kids => exact absurd rfl (ha kids)
  | _ => simp only [expected]

/-- A leaf as the value of an option. -/
theorem option_leaf (fd : Option Kind) (l : Leaf) :
    tokensOf (optionTokens fd (.leaf l)) ++ leafToken .none l = leafToken (.ofOption fd) l := by
  obtain ⟨id, term⟩ := l
  cases fd with
  | none => cases term <;> simp [optionTokens, tokensOf_nil, Ctx.ofOption]
  | some k =>
    cases term with
    | ident text kw =>
      cases kw with
      | true => cases k <;> simp [optionTokens, tokensOf_nil, leafToken]
      | false =>
        cases k with
        | bool => simp [optionTokens, tokensOf_mktokens, leafToken, word, Ctx.ofOption, isBool_iff]
        | «enum» vs => simp [optionTokens, tokensOf_mktokens, leafToken, word, Ctx.ofOption]
        | float => by_cases hf : Special text <;> simp [optionTokens, tokensOf_mktokens, tokensOf_nil, leafToken, word, Ctx.ofOption, hf, isFloat_iff]
        | other => simp [optionTokens, tokensOf_nil, leafToken, word, Ctx.ofOption]
    | number => cases k <;> simp [optionTokens, tokensOf_nil, leafToken]
    | str e => cases k <;> simp [optionTokens, tokensOf_nil, leafToken]
    | rune c v => cases k <;> simp [optionTokens, tokensOf_nil, leafToken]

theorem option_other (fd : Option Kind) (t : Tree) (h : ∀ l, t ≠ .leaf l) : optionTokens fd t = [] := by
  cases t with
  | leaf l => exact absurd rfl (h l)
  | _ => cases fd with
    | none => rfl
    | some k => cases k <;> rfl

theorem field_leaf (fd : Option Kind) (l : Leaf) (h : ValueOk fd (.leaf l)) :
    tokensOf (fieldLiteral fd (.leaf l)) ++ leafToken .none l = leafToken (.ofValue fd) l := by
  obtain ⟨id, term⟩ := l
  cases fd with
  | none => cases term <;> simp [fieldLiteral, tokensOf_nil, Ctx.ofValue]
  | some k =>
    cases term with
    | ident text kw =>
      cases kw with
      | true => exact absurd rfl (h text)
      | false =>
        cases k with
        | bool => by_cases hb : Truth text <;> simp [fieldLiteral, tokensOf_mktokens, tokensOf_nil, leafToken, word, Ctx.ofValue, hb, isBool_iff]
        | «enum» vs => by_cases hb : text ∈ vs <;> simp [fieldLiteral, tokensOf_mktokens, tokensOf_nil, leafToken, word, Ctx.ofValue, hb]
        | float => simp [fieldLiteral, tokensOf_nil, leafToken, word, Ctx.ofValue]
        | other => simp [fieldLiteral, tokensOf_nil, leafToken, word, Ctx.ofValue]
    | number => cases k <;> simp [fieldLiteral, tokensOf_nil, leafToken]
    | str e => cases k <;> simp [fieldLiteral, tokensOf_nil, leafToken]
    | rune c v => cases k <;> simp [fieldLiteral, tokensOf_nil, leafToken]

theorem field_other (fd : Option Kind) (t : Tree) (h : ∀ l, t ≠ .leaf l) (hv : ValueOk fd t) : fieldLiteral fd t = [] := by
  cases t with
  | leaf l => exact absurd rfl (h l)
  | special l =>
    cases fd with
    | none => rfl
    | some k => cases k with
      | float => exact absurd rfl hv
      | _ => rfl
  | _ => cases fd with
    | none => rfl
    | some k => cases k <;> rfl

/-- The place of an element of an array that is a value. -/
def Ctx.inside : Ctx → Ctx
  | .value k => .element k
  | _ => .none

theorem element_leaf (fd : Option Kind) (l : Leaf) (h : ElementOk fd (.leaf l)) :
    tokensOf (elementTokens fd (.leaf l)) ++ leafToken .none l = leafToken (Ctx.ofValue fd).inside l := by
  obtain ⟨id, term⟩ := l
  cases fd with
  | none => cases term <;> simp [elementTokens, tokensOf_nil, Ctx.ofValue, Ctx.inside]
  | some k =>
    cases term with
    | ident text kw =>
      cases kw with
      | true => exact absurd rfl (h.1 text)
      | false =>
        cases k with
        | bool =>
          have hb := h.2 _ text false rfl rfl rfl
          simp [elementTokens, tokensOf_nil, leafToken, word, Ctx.ofValue, Ctx.inside, hb]
        | «enum» vs => by_cases hb : text ∈ vs <;> simp [elementTokens, tokensOf_mktokens, tokensOf_nil, leafToken, word, Ctx.ofValue, Ctx.inside, hb]
        | float => simp [elementTokens, tokensOf_nil, leafToken, word, Ctx.ofValue, Ctx.inside]
        | other => simp [elementTokens, tokensOf_nil, leafToken, word, Ctx.ofValue, Ctx.inside]
    | number => cases k <;> simp [elementTokens, tokensOf_nil, leafToken]
    | str e => cases k <;> simp [elementTokens, tokensOf_nil, leafToken]
    | rune c v => cases k <;> simp [elementTokens, tokensOf_nil, leafToken]

theorem element_other (fd : Option Kind) (t : Tree) (h : ∀ l, t ≠ .leaf l) (hv : ValueOk fd t) : elementTokens fd t = [] := by
  cases t with
  | leaf l => exact absurd rfl (h l)
  | special l =>
    cases fd with
    | none => rfl
    | some k => cases k with
      | float => exact absurd rfl hv
      | _ => rfl
  | _ => cases fd with
    | none => rfl
    | some k => cases k <;> rfl

theorem expected_array (c : Ctx) (kids : List Tree) : expected c (.array kids) = expecteds c.inside kids := by
  rw [expected.eq_def]
  cases c <;> rfl

theorem inside_none (fd : Option Kind) (t : Tree) (h : ∀ l, t ≠ .leaf l) : expected (Ctx.ofValue fd).inside t = expected .none t := by
  cases t with
  | leaf l => exact absurd rfl (h l)
  | array kids =>
    rw [expected_array, expected_array]
    cases fd <;> rfl
  | _ => simp only [expected]

theorem option_array (fd : Option Kind) (kids : List Tree) : expected (Ctx.ofOption fd) (.array kids) = expected .none (.array kids) := by
  rw [expected_array, expected_array]
  cases fd <;> rfl

/-- Elements of an array, if the claim holds for each. -/
theorem elements_perm (fd : Option Kind) (kids : List Tree) (hk : ∀ k ∈ kids, ElementOk fd k)
    (ih : ∀ k ∈ kids, (tokensOf (visit k)).Perm (expected .none k)) :
    (tokensOf (kids.flatMap (elementTokens fd)) ++ tokensOf (visits kids)).Perm (expecteds (Ctx.ofValue fd).inside kids) := by
  induction kids with
  | nil => simp [tokensOf_nil, visits, expecteds]
  | cons k ks ih2 =>
    simp only [List.flatMap_cons, visits, expecteds, tokensOf_append]
    refine perm4 ?_ (ih2 (fun k' hk' => hk k' (by simp [hk'])) fun k' hk' => ih k' (by simp [hk']))
    have hek := hk k (by simp)
    have ihk := ih k (by simp)
    cases k with
    | leaf l =>
      simp only [visit, tokensOf_leaf, expected]
      rw [element_leaf fd l hek]
    | _ =>
      rw [element_other fd _ (by intro l; simp) hek.1, inside_none fd _ (by intro l; simp)]
      simpa [tokensOf_nil] using ihk

theorem fines_mem {kids : List Tree} (h : Fines kids) : ∀ k ∈ kids, Fine k := by
  induction kids with
  | nil => intro k hk; simp at hk
  | cons a ks ih =>
    intro k hk
    rcases List.mem_cons.1 hk with rfl | hk
    · exact h.1
    · exact ih h.2 k hk

theorem visits_perm {kids : List Tree} (ih : ∀ k ∈ kids, (tokensOf (visit k)).Perm (expected .none k)) :
    (tokensOf (visits kids)).Perm (expecteds .none kids) := by
  induction kids with
  | nil => simp [visits, expecteds, tokensOf_nil]
  | cons k ks ih2 =>
    simp only [visits, expecteds, tokensOf_append]
    exact (ih k (by simp)).append (ih2 fun k' hk' => ih k' (by simp [hk']))

theorem kids_perm {kids : List Tree} (h : FineKids kids) (ih : ∀ k ∈ kids, Fine k → (tokensOf (visit k)).Perm (expected .none k)) :
    (tokensOf (marks kids) ++ tokensOf (visits kids)).Perm (expecteds .none kids) := by
  induction kids with
  | nil => simp [marks, visits, expecteds, tokensOf_nil]
  | cons k ks ih2 =>
    have ihk := ih k (by simp)
    cases k with
    | named m n =>
      have h2 : n.Plain ∧ FineKids ks := h
      simp only [marks, visits, expecteds, tokensOf_append, visit, plain_visitName h2.1, tokensOf_mark, expected]
      exact perm4 (by simp) (ih2 h2.2 fun k' hk' => ih k' (by simp [hk']))
    | _ =>
      have h2 := (show Fine _ ∧ FineKids ks from h)
      simp only [marks, visits, expecteds, tokensOf_append]
      exact perm4 (a := []) (by simpa using ihk h2.1) (ih2 h2.2 fun k' hk' => ih k' (by simp [hk']))

/-- The tokens of a tree are the expected ones. -/
theorem visit_perm : ∀ t : Tree, Fine t → (tokensOf (visit t)).Perm (expected .none t)
  | .leaf l, _ => by simp only [visit, expected, tokensOf_leaf]; exact .rfl
  | .special l, _ => by simp [visit, expected, tokensOf_mktokens]
  | .named _ _, h => absurd h (by simp [Fine])
  | .node kids, h => by
    have h2 : FineKids kids := by simpa [Fine] using h
    simp only [visit, expected, tokensOf_append]
    exact kids_perm h2 fun k hk hf => visit_perm k hf
  | .optionName parts, _ => by
    simp only [visit, expected, tokensOf_flat]
    rw [show (fun x => tokensOf (partTokens x)) = Part.expected from funext tokensOf_part]
  | .option fd pre val post, h => by
    obtain ⟨h1, h2, h3⟩ := (by simpa [Fine] using h : Fines pre ∧ Fine val ∧ Fines post)
    have p1 := visits_perm fun k hk => visit_perm k (fines_mem h1 k hk)
    have p2 := visit_perm val h2
    have p3 := visits_perm fun k hk => visit_perm k (fines_mem h3 k hk)
    have hv : (tokensOf (optionTokens fd val) ++ tokensOf (visit val)).Perm (expected (Ctx.ofOption fd) val) := by
      cases val with
      | leaf l =>
        simp only [visit, tokensOf_leaf, expected]
        rw [option_leaf]
      | array kids =>
        rw [option_other fd _ (by intro l; simp), option_array]
        simpa [tokensOf_nil] using p2
      | _ =>
        rw [option_other fd _ (by intro l; simp), expected_ctx _ _ (by intro l; simp) (by intro l; simp)]
        simpa [tokensOf_nil] using p2
    simp only [visit, expected, tokensOf_append]
    have h4 : (tokensOf (optionTokens fd val) ++ (tokensOf (visits pre) ++ tokensOf (visit val) ++ tokensOf (visits post))).Perm
        (tokensOf (visits pre) ++ (tokensOf (optionTokens fd val) ++ tokensOf (visit val)) ++ tokensOf (visits post)) := by
      rw [← List.append_assoc, ← List.append_assoc, ← List.append_assoc]
      exact ((List.perm_append_comm).append_right _).append_right _
    exact h4.trans ((p1.append hv).append p3)
  | .field fd ref sep val post, h => by
    obtain ⟨h0, h1, h2, h3, h4, h5⟩ := (by simpa only [Fine] using h : ref.Plain ∧ ValueOk fd val ∧
      (∀ kids, val = .array kids → ∀ k ∈ kids, ElementOk fd k) ∧ Fines sep ∧ Fine val ∧ Fines post)
    have p1 := visits_perm fun k hk => visit_perm k (fines_mem h3 k hk)
    have p2 := visit_perm val h4
    have p3 := visits_perm fun k hk => visit_perm k (fines_mem h5 k hk)
    have hv : (tokensOf (valueTokens fd val) ++ tokensOf (visit val)).Perm (expected (Ctx.ofValue fd) val) := by
      match val, h1, h2, h4, p2 with
      | .leaf l, h1, _, _, _ =>
        simp only [visit, tokensOf_leaf, expected, valueTokens]
        rw [field_leaf fd l h1]
      | .array kids, _, h2, h4, _ =>
        rw [expected_array]
        simp only [valueTokens, visit]
        have h6 : Fines kids := by simpa [Fine] using h4
        exact elements_perm fd kids (h2 kids rfl) fun k hk => visit_perm k (fines_mem h6 k hk)
      | .special l, h1, _, _, p2 =>
        rw [expected_ctx _ _ (by intro l; simp) (by intro l; simp), valueTokens, field_other fd _ (by intro l; simp) h1]
        · simpa [tokensOf_nil] using p2
        · intro kids; simp
      | .named m n, h1, _, _, p2 =>
        rw [expected_ctx _ _ (by intro l; simp) (by intro l; simp), valueTokens, field_other fd _ (by intro l; simp) h1]
        · simpa [tokensOf_nil] using p2
        · intro kids; simp
      | .node kids, h1, _, _, p2 =>
        rw [expected_ctx _ _ (by intro l; simp) (by intro l; simp), valueTokens, field_other fd _ (by intro l; simp) h1]
        · simpa [tokensOf_nil] using p2
        · intro kids; simp
      | .optionName parts, h1, _, _, p2 =>
        rw [expected_ctx _ _ (by intro l; simp) (by intro l; simp), valueTokens, field_other fd _ (by intro l; simp) h1]
        · simpa [tokensOf_nil] using p2
        · intro kids; simp
      | .option _ _ _ _, h1, _, _, p2 =>
        rw [expected_ctx _ _ (by intro l; simp) (by intro l; simp), valueTokens, field_other fd _ (by intro l; simp) h1]
        · simpa [tokensOf_nil] using p2
        · intro kids; simp
      | .field _ _ _ _ _, h1, _, _, p2 =>
        rw [expected_ctx _ _ (by intro l; simp) (by intro l; simp), valueTokens, field_other fd _ (by intro l; simp) h1]
        · simpa [tokensOf_nil] using p2
        · intro kids; simp
    simp only [visit, expected, tokensOf_append, tokensOf_ref, plain_visitRef h0, List.nil_append]
    have h6 : (ref.expected ++ tokensOf (valueTokens fd val) ++ (tokensOf (visits sep) ++ tokensOf (visit val) ++ tokensOf (visits post))).Perm
        (ref.expected ++ tokensOf (visits sep) ++ (tokensOf (valueTokens fd val) ++ tokensOf (visit val)) ++ tokensOf (visits post)) := by
      simp only [List.append_assoc]
      apply List.Perm.append_left
      exact List.perm_append_comm_assoc _ _ _
    exact h6.trans ((((List.Perm.refl _).append p1).append hv).append p3)
  | .array kids, h => by
    have h2 : Fines kids := by simpa [Fine] using h
    rw [expected_array]
    simp only [visit, Ctx.inside]
    exact visits_perm fun k hk => visit_perm k (fines_mem h2 k hk)
termination_by t => sizeOf t
decreasing_by
  all_goals first
    | (have := List.sizeOf_lt_of_mem hk; simp_wf; omega)
    | (simp_wf; omega)

/-! ## No leaf twice -/

theorem count_name (i : Nat) (n : Name) (t : Typ) (m : Mods) : ((nameTokens n t m).map (·.1)).count i = n.ids.count i := by
  congr 1
  simp [nameTokens, Function.comp_def]

theorem count_mark (i : Nat) (k : Mark) (n : Name) : ((k.expected n).map (·.1)).count i = n.ids.count i := by
  cases k with
  | whole t m => exact count_name i n t m
  | split m => cases n <;> exact count_name _ _ _ _

theorem count_ref (i : Nat) (r : Ref) : (r.expected.map (·.1)).count i = r.ids.count i := by
  cases r <;> simp [Ref.expected, Ref.ids, List.count_cons, count_name]

theorem count_part (i : Nat) (p : Part) : (p.expected.map (·.1)).count i = p.ids.count i := by
  cases p <;> simp [Part.expected, Part.ids, List.count_cons, count_name]

theorem count_word (i : Nat) (c : Ctx) (id : Nat) (text : Str) : ((word c id text).map (·.1)).count i ≤ [id].count i := by
  cases c with
  | none => simp [word]
  | option k => cases k <;> simp only [word] <;> (try split) <;> simp
  | value k => cases k <;> simp only [word] <;> (try split) <;> simp
  | element k => cases k <;> simp only [word] <;> (try split) <;> simp

theorem count_leaf (i : Nat) (c : Ctx) (l : Leaf) : ((leafToken c l).map (·.1)).count i + (quietLeaf l).count i ≤ [l.id].count i := by
  obtain ⟨id, term⟩ := l
  cases term with
  | ident text kw =>
    cases kw with
    | true => simp [leafToken, quietLeaf]
    | false => simpa [leafToken, quietLeaf] using count_word i c id text
  | number => simp [leafToken, quietLeaf]
  | str e => cases e <;> simp [leafToken, quietLeaf]
  | rune r v =>
    simp only [leafToken, quietLeaf]
    by_cases h : v = false ∧ r.toNat ≠ 0 ∧ Sign r
    · rw [if_pos h, if_pos (Or.inr (Or.inr h.2.2))]; simp
    · rw [if_neg h]
      split <;> simp

mutual
theorem count_tree (i : Nat) (c : Ctx) : ∀ t : Tree, ((expected c t).map (·.1)).count i + (quiet t).count i ≤ (ids t).count i
  | .leaf l => by rw [expected, quiet, ids]; exact count_leaf i c l
  | .special l => by rw [expected, quiet, ids]; simp
  | .named m n => by rw [expected, quiet, ids, count_mark]; simp
  | .node kids => by rw [expected, quiet, ids]; exact count_trees i .none kids
  | .optionName parts => by
    rw [expected, quiet, ids]
    simp only [List.count_nil, Nat.add_zero]
    induction parts with
    | nil => simp
    | cons p ps ih =>
      simp only [List.flatMap_cons, List.map_append, List.count_append, count_part]
      omega
  | .option fd pre val post => by
    rw [expected, quiet, ids]
    have h1 := count_trees i .none pre
    have h2 := count_tree i (Ctx.ofOption fd) val
    have h3 := count_trees i .none post
    simp only [List.map_append, List.count_append]
    omega
  | .field fd ref sep val post => by
    rw [expected, quiet, ids]
    have h0 := count_ref i ref
    have h1 := count_trees i .none sep
    have h2 := count_tree i (Ctx.ofValue fd) val
    have h3 := count_trees i .none post
    simp only [List.map_append, List.count_append]
    omega
  | .array kids => by
    rw [expected_array, quiet, ids]; exact count_trees i _ kids

theorem count_trees (i : Nat) (c : Ctx) : ∀ ts : List Tree, ((expecteds c ts).map (·.1)).count i + (quiets ts).count i ≤ (idss ts).count i
  | [] => by simp [expecteds, quiets, idss]
  | t :: ts => by
    rw [expecteds, quiets, idss]
    have h1 := count_tree i c t
    have h2 := count_trees i c ts
    simp only [List.map_append, List.count_append]
    omega
end

/-! ## Comments -/

theorem leadsOf_append (a b : List Out) : leadsOf (a ++ b) = leadsOf a ++ leadsOf b := by simp [leadsOf]
theorem trailsOf_append (a b : List Out) : trailsOf (a ++ b) = trailsOf a ++ trailsOf b := by simp [trailsOf]

/-- Each token is of one leaf and goes with its comments; `q` are the leaves that only have comments. -/
def Single (outs : List Out) (q : List Nat) : Prop :=
  (leadsOf outs).Perm ((tokensOf outs).map (·.1) ++ q) ∧ (trailsOf outs).Perm ((tokensOf outs).map (·.1) ++ q)

theorem single_nil : Single [] [] := ⟨.rfl, .rfl⟩

theorem single_append {a b : List Out} {p q : List Nat} (h1 : Single a p) (h2 : Single b q) : Single (a ++ b) (p ++ q) := by
  have key : ∀ x y z w : List Nat, ((x ++ p) ++ (y ++ q)).Perm ((x ++ y) ++ (p ++ q)) := by
    intro x y z w
    rw [List.append_assoc, List.append_assoc]
    apply List.Perm.append_left
    exact List.perm_append_comm_assoc _ _ _
  constructor
  · rw [leadsOf_append, tokensOf_append, List.map_append]
    exact (h1.1.append h2.1).trans (key _ _ [] [])
  · rw [trailsOf_append, tokensOf_append, List.map_append]
    exact (h1.2.append h2.2).trans (key _ _ [] [])

theorem single_mktokens (l : Leaf) (t : Typ) (m : Mods) : Single (mktokens l [] t m) [] := ⟨.rfl, .rfl⟩

theorem single_leaf (l : Leaf) : Single (visitLeaf l) (quietLeaf l) := by
  obtain ⟨id, term⟩ := l
  cases term with
  | ident text kw => cases kw with
    | true => exact single_mktokens _ _ _
    | false => exact single_nil
  | number => exact single_mktokens _ _ _
  | str e => cases e with
    | true => exact ⟨.rfl, .rfl⟩
    | false => exact single_mktokens _ _ _
  | rune r v =>
    simp only [visitLeaf, quietLeaf]
    cases v with
    | true => simpa using single_nil
    | false =>
      by_cases h0 : r.toNat = 0
      · simpa [h0] using single_nil
      · by_cases hp : r ∈ punctuation
        · simp only [h0, hp, sign_iff, Bool.false_or, beq_iff_eq, if_false, List.contains_eq_mem, decide_true, if_true, ne_eq, not_false_eq_true,
            and_self]
          exact ⟨.rfl, .rfl⟩
        · simp only [h0, hp, sign_iff, Bool.false_or, beq_iff_eq, if_false, List.contains_eq_mem, decide_false, Bool.false_eq_true, ne_eq,
            not_false_eq_true, and_false]
          exact single_mktokens _ _ _

theorem single_name {n : Name} (h : n.Word) (t : Typ) (m : Mods) : Single (n.tokens t m) [] := by
  cases n with
  | ident l => exact single_mktokens l t m
  | compound f r w g => exact absurd h (by simp [Name.Word])

theorem word_visit {l : Leaf} (h : l.Word) : visitLeaf l = [] := by
  obtain ⟨text, h⟩ := h
  unfold visitLeaf
  rw [h]

theorem word_visitName {n : Name} (h : n.Word) : visitName n = [] := by
  cases n with
  | ident l => exact word_visit h
  | compound f r w g => exact absurd h (by simp [Name.Word])

theorem single_mark {n : Name} (h : n.Word) (m : Mark) : Single (m.tokens n) [] := by
  cases m with
  | whole t m => exact single_name h t m
  | split m =>
    cases n with
    | ident l => exact single_mktokens l _ _
    | compound f r w g => exact absurd h (by simp [Name.Word])

theorem single_part {p : Part} (h : p.Word) : Single (partTokens p) [] := by
  cases p with
  | ext op name cl =>
    exact single_append (single_append (single_mktokens _ _ _) (single_name h _ _)) (single_mktokens _ _ _)
  | plain name pseudo => exact single_name h _ _
  | dot l => exact single_mktokens _ _ _

theorem single_ite {c : Prop} [Decidable c] {a b : List Out} (ha : Single a []) (hb : Single b []) : Single (if c then a else b) [] := by
  split <;> assumption

theorem single_option (fd : Option Kind) (t : Tree) : Single (optionTokens fd t) [] := by
  unfold optionTokens
  split
  · exact single_mktokens _ _ _
  · exact single_mktokens _ _ _
  · exact single_ite (single_mktokens _ _ _) single_nil
  · exact single_nil

theorem single_field (fd : Option Kind) (t : Tree) : Single (fieldLiteral fd t) [] := by
  unfold fieldLiteral
  split
  · exact single_mktokens _ _ _
  · exact single_ite (single_mktokens _ _ _) single_nil
  · exact single_ite (single_mktokens _ _ _) single_nil
  · exact single_nil

theorem single_element (fd : Option Kind) (t : Tree) : Single (elementTokens fd t) [] := by
  unfold elementTokens
  split
  · exact single_mktokens _ _ _
  · exact single_ite (single_mktokens _ _ _) single_nil
  · exact single_ite (single_mktokens _ _ _) single_nil
  · exact single_nil

theorem single_flat {α : Type} (f : α → List Out) (l : List α) (h : ∀ x ∈ l, Single (f x) []) : Single (l.flatMap f) [] := by
  induction l with
  | nil => exact single_nil
  | cons a l ih =>
    rw [List.flatMap_cons]
    exact single_append (h a (by simp)) (ih fun x hx => h x (by simp [hx]))

theorem single_value (fd : Option Kind) (t : Tree) : Single (valueTokens fd t) [] := by
  unfold valueTokens
  split
  · exact single_flat _ _ fun x _ => single_element fd x
  · exact single_field fd _

theorem single_marks : ∀ kids : List Tree, Wordss kids → Single (marks kids) [] := by
  intro kids
  induction kids with
  | nil => intro _; exact single_nil
  | cons k ks ih =>
    intro h
    cases k with
    | named m n =>
      rw [marks]
      have h2 : n.Word ∧ Wordss ks := by simpa [Wordss, Words] using h
      exact single_append (single_mark h2.1 m) (ih h2.2)
    | _ =>
      rw [marks]
      · exact ih (by rw [Wordss] at h; exact h.2)
      · intro m n; simp

mutual
theorem single_visit : ∀ t : Tree, Words t → Single (visit t) (quiet t)
  | .leaf l, _ => by rw [visit, quiet]; exact single_leaf l
  | .special l, _ => by rw [visit, quiet]; exact single_mktokens _ _ _
  | .named m n, h => by
    rw [visit, quiet, word_visitName (by simpa [Words] using h)]; exact single_nil
  | .node kids, h => by
    rw [visit, quiet]
    have h2 : Wordss kids := by simpa [Words] using h
    exact single_append (p := []) (single_marks kids h2) (single_visits kids h2)
  | .optionName parts, h => by
    rw [visit, quiet]
    exact single_flat _ _ fun p hp => single_part ((by simpa only [Words] using h : ∀ p ∈ parts, p.Word) p hp)
  | .option fd pre val post, h => by
    rw [visit, quiet]
    obtain ⟨h1, h2, h3⟩ := (by simpa only [Words] using h : Wordss pre ∧ Words val ∧ Wordss post)
    exact single_append (p := []) (single_option fd val)
      (single_append (single_append (single_visits pre h1) (single_visit val h2)) (single_visits post h3))
  | .field fd ref sep val post, h => by
    rw [visit, quiet]
    obtain ⟨h0, h1, h2, h3⟩ := (by simpa only [Words] using h : ref.Word ∧ Wordss sep ∧ Words val ∧ Wordss post)
    cases ref with
    | any => exact absurd h0 (by simp [Ref.Word])
    | ext => exact absurd h0 (by simp [Ref.Word])
    | plain name =>
      have h4 : visitRef (.plain name) = [] := word_visit h0
      rw [h4, List.nil_append]
      exact single_append (p := []) (single_append (p := []) (q := []) (single_mktokens _ _ _) (single_value fd val))
        (single_append (single_append (single_visits sep h1) (single_visit val h2)) (single_visits post h3))
  | .array kids, h => by
    rw [visit, quiet]
    exact single_visits kids (by simpa [Words] using h)

theorem single_visits : ∀ ts : List Tree, Wordss ts → Single (visits ts) (quiets ts)
  | [], _ => by rw [visits, quiets]; exact single_nil
  | t :: ts, h => by
    rw [visits, quiets]
    obtain ⟨h1, h2⟩ := (by simpa only [Wordss] using h : Words t ∧ Wordss ts)
    exact single_append (single_visit t h1) (single_visits ts h2)
end

end Verif.Inspect
