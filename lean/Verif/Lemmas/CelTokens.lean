import Mathlib.Data.List.Forall2
import Verif.Spec.CelTokens
/-!
# Lemmas about the tokens inside CEL expressions
-/
namespace Verif.CelTokens

theorem escape_append (a b : Str) : escape (a ++ b) = escape a ++ escape b := by simp [escape]

theorem escape_no_newline {s : Str} (h : '\n' ∉ s) : '\n' ∉ escape s := by
  intro hm
  unfold escape at hm
  rw [List.mem_flatMap] at hm
  obtain ⟨c, hc, hm⟩ := hm
  split at hm
  · simp at hm
  · simp only [List.mem_singleton] at hm
    exact h (hm ▸ hc)

theorem escape_join (ws : List Str) : escape (joinWith '\n' ws) = joinWith '\n' (ws.map escape) := by
  induction ws with
  | nil => rfl
  | cons w ws ih =>
    by_cases hw : ws = []
    · subst hw; rfl
    · rw [joinWith_cons '\n' w ws hw, List.map_cons, joinWith_cons '\n' _ _ (by simpa using hw), escape_append, ← ih]
      rfl

/-- The lines of the expression are prefixes of the literals without quotes. -/
theorem lines_of {v : Val} (h : v.Faithful) :
    ∃ xs : List Str, splitOn '\n' v.text = xs ∧ xs.length = v.lits.length ∧
      ∀ (i : Nat) (x : Str), xs[i]? = some x → ∃ l, v.lits[i]? = some l ∧ l.Faithful ∧ ∃ q y, l.raw = q :: (x ++ (y ++ [q])) := by
  cases v with
  | str l =>
    obtain ⟨h1, h2, h3, q, h4⟩ := h
    refine ⟨[escape l.value], ?_, rfl, ?_⟩
    · exact splitOn_join '\n' [escape l.value] (by simp) (by simpa using escape_no_newline h3)
    · intro i x hx
      cases i with
      | zero =>
        simp only [List.getElem?_cons_zero, Option.some.injEq] at hx
        exact ⟨l, rfl, ⟨h1, h2, h3, q, h4⟩, q, [], by rw [h4, hx]; rfl⟩
      | succ i => simp at hx
  | strs ls =>
    obtain ⟨hne, hls⟩ := h
    have hpre : ∀ l ∈ ls, ∃ y, l.value = trimSpace l.value ++ y := by
      intro l hl
      obtain ⟨w, w', e1, e2, _, e4⟩ := trimSpace_split l.value
      have hw : w = [] := by
        cases w with
        | nil => rfl
        | cons c w =>
          have := (hls l hl).2 c (by rw [e1]; rfl)
          have h5 := e2 c (by simp)
          rw [h5] at this
          cases this
      subst hw
      exact ⟨w', by simpa using e1⟩
    refine ⟨ls.map fun l => escape (trimSpace l.value), ?_, by simp [Val.lits], ?_⟩
    · show splitOn '\n' (escape (joinWith '\n' (ls.map fun l => trimSpace l.value))) = _
      rw [escape_join, List.map_map]
      apply splitOn_join
      · simpa using hne
      · intro w hw
        rw [List.mem_map] at hw
        obtain ⟨l, hl, rfl⟩ := hw
        apply escape_no_newline
        intro hm
        obtain ⟨y, hy⟩ := hpre l hl
        exact (hls l hl).1.2.2.1 (by rw [hy]; simp [hm])
    · intro i x hx
      rw [List.getElem?_map] at hx
      cases hl : ls[i]? with
      | none => rw [hl] at hx; cases hx
      | some l =>
        rw [hl] at hx
        simp only [Option.map_some, Option.some.injEq] at hx
        have hm : l ∈ ls := List.mem_of_getElem? hl
        obtain ⟨y, hy⟩ := hpre l hm
        obtain ⟨q, hq⟩ := (hls l hm).1.2.2.2
        refine ⟨l, hl, (hls l hm).1, q, escape y, ?_⟩
        rw [hq, ← hx]
        have : escape l.value = escape (trimSpace l.value) ++ escape y := by
          rw [← escape_append, ← hy]
        rw [this, List.append_assoc]
  | other => exact absurd h (by simp [Val.Faithful])

/-- The token of an expression covers its word. -/
theorem token_covers {l : Lit} {x w r : Str} {e : Expr} {t : Typ} {q : Char} {y : Str} (hf : l.Faithful) (hraw : l.raw = q :: (x ++ (y ++ [q])))
    (hc : e.col ≤ x.length) (hw : x.drop e.col = w ++ r) : Covers l (mktokens l e.col (e.col + w.length) t) w := by
  have hlen : x.length = e.col + (w.length + r.length) := by
    have := congrArg List.length hw
    simp only [List.length_drop, List.length_append] at this
    omega
  obtain ⟨h1, h2, _, _⟩ := hf
  refine ⟨?_, ?_, ?_, ?_⟩
  · simp only [mktokens]; omega
  · simp only [mktokens]; omega
  · simp only [mktokens, hraw, List.length_cons, List.length_append, List.length_nil]; omega
  · simp only [mktokens]
    have e1 : l.col + e.col + 1 - l.col = e.col + 1 := by omega
    rw [e1, hraw, List.drop_succ_cons, List.drop_append_of_le_length hc, hw]
    have e2 : e.col + w.length - e.col = w.length := by omega
    rw [e2, List.append_assoc, List.take_left']
    rfl

/-- All tokens, given that each expression has its word in the text. -/
theorem celTokens_covers {v : Val} (h : v.Faithful) (word : Expr → Str) : ∀ (es : List Expr),
    (∀ e ∈ es, ∀ n t, e.kind.token = some (n, t) → (word e).length = n ∧ At v.text e (word e)) →
    ∃ ts, celTokens v.lits es = some ts ∧
      List.Forall₂ (fun e tok => ∃ l n, l ∈ v.lits ∧ e.kind.token = some (n, tok.typ) ∧ v.lits[e.line - 1]? = some l ∧ Covers l tok (word e))
        (es.filter fun e => e.kind.token.isSome) ts := by
  intro es
  obtain ⟨xs, h1, h2, h3⟩ := lines_of h
  induction es with
  | nil => intro _; exact ⟨[], rfl, .nil⟩
  | cons e es ih =>
    intro hes
    obtain ⟨ts, h4, h5⟩ := ih fun e' he' => hes e' (by simp [he'])
    cases ht : e.kind.token with
    | none =>
      refine ⟨ts, ?_, ?_⟩
      · simp only [celTokens, ht, h4]
      · rw [List.filter_cons_of_neg (by simp [ht])]
        exact h5
    | some p =>
      obtain ⟨n, t⟩ := p
      obtain ⟨hl, hline, x, hx, hcol, r, hr⟩ := hes e (by simp) n t ht
      rw [h1] at hx
      obtain ⟨l, hlit, hf, q, y, hraw⟩ := h3 _ _ hx
      refine ⟨mktokens l e.col (e.col + n) t :: ts, ?_, ?_⟩
      · have h0 : e.line ≠ 0 := by omega
        simp only [celTokens, ht, h0, if_false, hlit, h4, Option.map_some]
      · rw [List.filter_cons_of_pos (by simp [ht])]
        refine .cons ⟨l, n, List.mem_of_getElem? hlit, ht, hlit, ?_⟩ h5
        rw [← hl]
        exact token_covers hf hraw hcol hr

theorem Written.token {k : Kind} {w : Str} {t : Typ} (h : Written k w t) : k.token = some (w.length, t) := by
  cases h with
  | ident _ hn => simp only [Kind.token]; rw [if_neg (show _ ≠ kwThis from hn)]
  | _ => first | rfl | simp [Kind.token]

theorem silent_iff (k : Kind) : k.token.isSome = !k.silent := by
  cases k with
  | call d =>
    cases d with
    | none => rfl
    | some d => cases d <;> simp [Kind.token, Kind.silent]
  | _ => rfl

/-- The same, in terms of how expressions are written. -/
theorem celTokens_written {v : Val} (h : v.Faithful) (word : Expr → Str) (es : List Expr)
    (hes : ∀ e ∈ es, e.kind.silent = false → At v.text e (word e) ∧ ∃ t, Written e.kind (word e) t) :
    ∃ ts, celTokens v.lits es = some ts ∧
      List.Forall₂ (fun e tok => Written e.kind (word e) tok.typ ∧ ∃ l, v.lits[e.line - 1]? = some l ∧ Covers l tok (word e))
        (es.filter fun e => !e.kind.silent) ts := by
  have key : ∀ e ∈ es, ∀ n t, e.kind.token = some (n, t) → (word e).length = n ∧ At v.text e (word e) ∧ Written e.kind (word e) t := by
    intro e he n t ht
    have hs : e.kind.silent = false := by
      have := silent_iff e.kind
      rw [ht] at this
      simpa using this.symm
    obtain ⟨h1, t', h2⟩ := hes e he hs
    have h3 := h2.token
    rw [ht] at h3
    cases h3
    exact ⟨rfl, h1, h2⟩
  obtain ⟨ts, h1, h2⟩ := celTokens_covers h word es fun e he n t ht => ⟨(key e he n t ht).1, (key e he n t ht).2.1⟩
  refine ⟨ts, h1, ?_⟩
  have hf : (es.filter fun e => !e.kind.silent) = es.filter fun e => e.kind.token.isSome := by
    apply List.filter_congr
    intro e _
    exact (silent_iff e.kind).symm
  rw [hf]
  clear h1 hf hes
  generalize hgen : es.filter (fun e => e.kind.token.isSome) = fs at h2
  have hsub : ∀ e ∈ fs, e ∈ es := by
    intro e he
    rw [← hgen] at he
    exact (List.mem_filter.1 he).1
  clear hgen
  induction h2 with
  | nil => exact .nil
  | @cons e tok fs ts hd _ ih =>
    obtain ⟨l, n, _, h3, h4, h5⟩ := hd
    exact .cons ⟨(key e (hsub e (by simp)) n _ h3).2.2, l, h4, h5⟩ (ih fun e' he' => hsub e' (by simp [he']))

/-- The first field `expression` decides. -/
theorem inspect_first (parse : Str → Option (List Expr)) (pre : List Elem) (e : Elem) (post : List Elem)
    (hpre : ∀ x ∈ pre, ∃ n, x.name = some n ∧ n ≠ kwExpression) (he : e.name = some kwExpression) :
    inspectCelExpr parse (pre ++ e :: post) =
      match parse e.val.text with
      | none => if e.val.lits = [] then none else inspectCelExpr parse post
      | some exprs => (celTokens e.val.lits exprs).map fun ts => (ts, e.val.lits) := by
  induction pre with
  | nil =>
    simp only [List.nil_append, inspectCelExpr, he, if_true]
    cases parse e.val.text <;> rfl
  | cons x pre ih =>
    obtain ⟨n, hn, hne⟩ := hpre x (by simp)
    simp only [List.cons_append, inspectCelExpr, hn, hne, if_false]
    exact ih fun y hy => hpre y (by simp [hy])

end Verif.CelTokens
