import Verif.Lemmas.CelTokens
/-!
# C91: the tokens of CEL expressions cover the words of the expression
-/
namespace Verif.CelTokens

/-- **C91** (words): if the first field `expression` of a CEL rule can be parsed, each operator, identifier and literal of it gets one
token of its type, inside the quotes of the literal in which it is written, that covers exactly its text in the file. (Partial: only
for literals in one line without escape sequences other than `\\`, which do not start with white space, see `C91_escape_violated`,
`C91_trim_violated` and `C91_newline_violated`, and only for literals that are printed as they are written, see
`C91_number_violated`.) -/
theorem C91_tokens_partial (parse : Str → Option (List Expr)) (pre : List Elem) (e : Elem) (post : List Elem)
    (hpre : ∀ x ∈ pre, ∃ n, x.name = some n ∧ n ≠ ['e', 'x', 'p', 'r', 'e', 's', 's', 'i', 'o', 'n'])
    (he : e.name = some ['e', 'x', 'p', 'r', 'e', 's', 's', 'i', 'o', 'n'])
    (hid : ∃ x ∈ pre ++ e :: post, x.name = some ['i', 'd']) (exprs : List Expr) (hp : parse e.val.text = some exprs)
    (hf : e.val.Faithful) (word : Expr → Str)
    (hes : ∀ x ∈ exprs, x.kind.silent = false → At e.val.text x (word x) ∧ ∃ t, Written x.kind (word x) t) :
    ∃ ts, messageLiteral parse (pre ++ e :: post) = some (ts, e.val.lits) ∧
      List.Forall₂ (fun x tok => Written x.kind (word x) tok.typ ∧ ∃ l, e.val.lits[x.line - 1]? = some l ∧ Covers l tok (word x))
        (exprs.filter fun x => !x.kind.silent) ts := by
  replace he : e.name = some kwExpression := he
  replace hid : ∃ x ∈ pre ++ e :: post, x.name = some kwId := hid
  obtain ⟨ts, h1, h2⟩ := celTokens_written hf word exprs hes
  refine ⟨ts, ?_, h2⟩
  have hc : ((pre ++ e :: post).any fun x => x.name = some kwExpression) = true := by
    rw [List.any_eq_true]
    exact ⟨e, by simp, by simp [he]⟩
  have hd : ((pre ++ e :: post).any fun x => x.name = some kwId) = true := by
    rw [List.any_eq_true]
    obtain ⟨x, hx, hn⟩ := hid
    exact ⟨x, hx, by simp [hn]⟩
  unfold messageLiteral
  rw [hc, hd, inspect_first parse pre e post hpre he, hp]
  simp [h1]

/-- **C91** (other literals): a message literal without a field `id` or without a field `expression` is not touched. -/
theorem C91_other (parse : Str → Option (List Expr)) (es : List Elem)
    (h : (∀ e ∈ es, e.name ≠ some ['i', 'd']) ∨ (∀ e ∈ es, e.name ≠ some ['e', 'x', 'p', 'r', 'e', 's', 's', 'i', 'o', 'n'])) : messageLiteral parse es = some ([], []) := by
  unfold messageLiteral
  rw [if_neg]
  simp only [Bool.and_eq_true, List.any_eq_true, decide_eq_true_eq]
  rintro ⟨⟨x, hx, hn⟩, y, hy, hm⟩
  rcases h with h | h
  · exact h y hy hm
  · exact h x hx hn

/-- **C91** (no panic): highlighting does not panic if all fields have names, all fields `expression` are strings, and the parser
finds no expression behind the lines that stand for literals. (Partial: see `C91_value_violated`, `C91_newline_violated` and
`C91_unnamed_violated`.) -/
theorem C91_no_panic_partial (parse : Str → Option (List Expr)) (es : List Elem) (hn : ∀ e ∈ es, e.name.isSome)
    (hs : ∀ e ∈ es, e.name = some ['e', 'x', 'p', 'r', 'e', 's', 's', 'i', 'o', 'n'] → e.val.lits ≠ [])
    (hl : ∀ e ∈ es, ∀ xs, parse e.val.text = some xs → ∀ x ∈ xs, 1 ≤ x.line ∧ x.line ≤ e.val.lits.length) :
    (messageLiteral parse es).isSome := by
  have hcel : ∀ (lits : List Lit) (xs : List Expr), (∀ x ∈ xs, 1 ≤ x.line ∧ x.line ≤ lits.length) → (celTokens lits xs).isSome := by
    intro lits xs
    induction xs with
    | nil => intro _; rfl
    | cons x xs ih =>
      intro hx
      have h1 := ih fun y hy => hx y (by simp [hy])
      obtain ⟨h2, h3⟩ := hx x (by simp)
      unfold celTokens
      cases x.kind.token with
      | none => exact h1
      | some p =>
        have h0 : x.line ≠ 0 := by omega
        have h4 : lits[x.line - 1]? = some (lits[x.line - 1]'(by omega)) := List.getElem?_eq_getElem (by omega)
        simp only [h0, if_false, h4, Option.isSome_map, h1]
  have hins : (inspectCelExpr parse es).isSome := by
    induction es with
    | nil => rfl
    | cons e es ih =>
      have ih2 := ih (fun x hx => hn x (by simp [hx])) (fun x hx => hs x (by simp [hx])) (fun x hx => hl x (by simp [hx]))
      unfold inspectCelExpr
      cases hname : e.name with
      | none => have := hn e (by simp); rw [hname] at this; cases this
      | some n =>
        simp only []
        split
        · rename_i h5
          cases hp : parse e.val.text with
          | none =>
            simp only []
            rw [if_neg (hs e (by simp) (by rw [hname, h5]; rfl))]
            exact ih2
          | some xs =>
            simp only [Option.isSome_map]
            exact hcel _ _ (hl e (by simp) xs hp)
        · exact ih2
  unfold messageLiteral
  split
  · exact hins
  · rfl

/-! ## Violations -/

/-- `{ id: …, expression: 5 }`: if `expression` is not a string, the text of the expression is empty, which the CEL parser rejects, and
`stringNodes[0]` in line 909 panics. -/
theorem C91_value_violated (parse : Str → Option (List Expr)) (hp : parse [] = none) (v : Val) :
    messageLiteral parse [⟨some kwId, v⟩, ⟨some kwExpression, .other⟩] = none := by
  have h : parse (Val.text .other) = none := hp
  have h1 : kwId ≠ kwExpression := by decide
  have h2 : inspectCelExpr parse [⟨some kwId, v⟩, ⟨some kwExpression, .other⟩] = none := by
    simp only [inspectCelExpr, h1, if_false, if_true, h, Val.lits]
  unfold messageLiteral
  rw [h2, if_pos]
  simp

/-- `expression: "a\n&& b"`: a line feed in the string makes a second line, for which there is no literal: line 930 panics, whatever
stands in that line. -/
theorem C91_newline_violated (parse : Str → Option (List Expr)) (v : Val) (l : Lit) (xs : List Expr)
    (hp : parse (escape l.value) = some xs) (x : Expr) (hx : x ∈ xs) (ht : x.kind.token.isSome) (hline : x.line = 2) :
    messageLiteral parse [⟨some kwId, v⟩, ⟨some kwExpression, .str l⟩] = none := by
  have h : parse (Val.text (.str l)) = some xs := hp
  have h1 : kwId ≠ kwExpression := by decide
  have hcel : celTokens [l] xs = none := by
    clear hp h
    induction xs with
    | nil => simp at hx
    | cons y ys ih =>
      unfold celTokens
      rcases List.mem_cons.1 hx with rfl | hx
      · cases hk : x.kind.token with
        | none => rw [hk] at ht; cases ht
        | some p => simp [hline]
      · have ih2 := ih hx
        cases y.kind.token with
        | none => exact ih2
        | some p =>
          simp only []
          split
          · rfl
          · split
            · rfl
            · rw [ih2]; rfl
  have h2 : inspectCelExpr parse [⟨some kwId, v⟩, ⟨some kwExpression, .str l⟩] = none := by
    simp only [inspectCelExpr, h1, if_false, if_true, h, Val.lits, hcel, Option.map_none]
  unfold messageLiteral
  rw [h2, if_pos]
  simp

/-- A field without a name before `expression`: line 604 expects this, line 885 does not. -/
theorem C91_unnamed_violated (parse : Str → Option (List Expr)) (v w x : Val) :
    messageLiteral parse [⟨none, v⟩, ⟨some kwId, w⟩, ⟨some kwExpression, x⟩] = none := by
  have h2 : inspectCelExpr parse [⟨none, v⟩, ⟨some kwId, w⟩, ⟨some kwExpression, x⟩] = none := rfl
  unfold messageLiteral
  rw [h2, if_pos]
  simp

/-- `"\"x\" == y"`: the operator is at column 4 of the expression, and the token covers `\" ` instead of `==`. -/
theorem C91_escape_violated :
    let l : Lit := ⟨1, 1, ['"', '\\', '"', 'x', '\\', '"', ' ', '=', '=', ' ', 'y', '"'], ['"', 'x', '"', ' ', '=', '=', ' ', 'y']⟩
    let e : Expr := ⟨.call (some ['=', '=']), 1, 4⟩
    At (Val.text (.str l)) e ['=', '='] ∧ ∃ tok, celTokens [l] [e] = some [tok] ∧ (l.raw.drop tok.start).take tok.len = ['"', ' '] ∧
      ¬ Covers l tok ['=', '='] := by
  refine ⟨⟨by decide, _, rfl, by decide, _, rfl⟩, _, rfl, by decide, ?_⟩
  simp [Covers, mktokens]

/-- `"a" "  || b"`: white space at the start of a part is removed before the expression is parsed, and the token is two columns too
far to the left. -/
theorem C91_trim_violated :
    let l1 : Lit := ⟨1, 1, ['"', 'a', '"'], ['a']⟩
    let l2 : Lit := ⟨2, 1, ['"', ' ', ' ', '|', '|', ' ', 'b', '"'], [' ', ' ', '|', '|', ' ', 'b']⟩
    let e : Expr := ⟨.call (some ['|', '|']), 2, 0⟩
    At (Val.text (.strs [l1, l2])) e ['|', '|'] ∧ ∃ tok, celTokens [l1, l2] [e] = some [tok] ∧
      (l2.raw.drop tok.start).take tok.len = [' ', ' '] ∧ ¬ Covers l2 tok ['|', '|'] := by
  refine ⟨⟨by decide, _, rfl, by decide, _, rfl⟩, _, rfl, by decide, ?_⟩
  simp [Covers, mktokens]

/-- `"0x10"`: the number is printed as `16`, and the token covers only `0x`. -/
theorem C91_number_violated :
    let l : Lit := ⟨1, 1, ['"', '0', 'x', '1', '0', '"'], ['0', 'x', '1', '0']⟩
    let e : Expr := ⟨.num ['1', '6'], 1, 0⟩
    l.Faithful ∧ At (Val.text (.str l)) e ['0', 'x', '1', '0'] ∧ ∃ tok, celTokens [l] [e] = some [tok] ∧ Covers l tok ['0', 'x'] := by
  refine ⟨⟨by decide, by decide, by decide, '"', by decide⟩, ⟨by decide, _, rfl, by decide, _, rfl⟩, _, rfl, ?_⟩
  exact ⟨by decide, by decide, by decide, by decide⟩

/-! ## Examples -/

/-- `C91_tokens_partial`: `id: "i" expression: "this" "<a"`. -/
def exampleVal : Val := .strs [⟨3, 5, ['"', 't', 'h', 'i', 's', '"'], kwThis⟩, ⟨4, 5, ['"', '<', 'a', '"'], ['<', 'a']⟩]

def exampleExprs : List Expr := [⟨.call (some ['<']), 2, 0⟩, ⟨.ident kwThis, 1, 0⟩, ⟨.ident ['a'], 2, 1⟩]

def exampleWord (e : Expr) : Str := match e.kind with
  | .ident n => n
  | _ => ['<']

theorem exampleVal_faithful : exampleVal.Faithful := by
  refine ⟨by simp, fun l hl => ?_⟩
  simp only [List.mem_cons, List.not_mem_nil, or_false] at hl
  rcases hl with rfl | rfl
  · exact ⟨⟨by decide, by decide, by decide, '"', by decide⟩, by intro c hc; cases hc; decide⟩
  · exact ⟨⟨by decide, by decide, by decide, '"', by decide⟩, by intro c hc; cases hc; decide⟩

example : ∃ ts, messageLiteral (fun _ => some exampleExprs) [⟨some kwId, .other⟩, ⟨some kwExpression, exampleVal⟩] = some (ts, exampleVal.lits) := by
  obtain ⟨ts, h, _⟩ := C91_tokens_partial (fun _ => some exampleExprs) [⟨some kwId, .other⟩] ⟨some kwExpression, exampleVal⟩ []
    (by intro x hx; simp only [List.mem_singleton] at hx; subst hx; exact ⟨kwId, rfl, by decide⟩) rfl ⟨⟨some kwId, .other⟩, by simp, rfl⟩ exampleExprs rfl
    exampleVal_faithful exampleWord (by
      intro x hx _
      simp only [exampleExprs, List.mem_cons, List.not_mem_nil, or_false] at hx
      rcases hx with rfl | rfl | rfl
      · exact ⟨⟨by decide, _, rfl, by decide, _, rfl⟩, _, .call _ _⟩
      · exact ⟨⟨by decide, _, rfl, by decide, _, rfl⟩, _, .this⟩
      · exact ⟨⟨by decide, _, rfl, by decide, _, rfl⟩, _, .ident _ (by decide)⟩)
  exact ⟨ts, h⟩

example : messageLiteral (fun _ => none) [⟨some kwId, .other⟩] = some ([], []) := C91_other _ _ (Or.inr (by decide))

end Verif.CelTokens
