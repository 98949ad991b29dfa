import Verif.Lemmas.DumpAst
/-!
# C113: the dump of a syntax tree
-/
namespace Verif.DumpAst

theorem split_lines : ∀ ls : List Str, (∀ l ∈ ls, '\n' ∉ l) → splitOn '\n' (ls.flatMap (· ++ ['\n'])) = ls ++ [[]]
  | [], _ => rfl
  | l :: ls, h => by
    have ih := split_lines ls (fun x hx => h x (by simp [hx]))
    rw [List.flatMap_cons, List.append_assoc]
    have := splitOn_append '\n' l (ls.flatMap (· ++ ['\n']))
    simp only [List.cons_append, List.nil_append] at *
    rw [this, splitOn_of_no_sep _ _ (h l (by simp)), ih]
    simp

theorem dump_lines (env : Env) (n : Node) (hf : ∀ x ∈ places 0 n, Fine x.2) :
    dump env n = ((places 0 n).map fun x => line env x.1 x.2.1 x.2.2).flatMap (· ++ ['\n']) := by
  have := (inspect_eq env n 0 ⟨[], -1⟩ (by simp) hf).1
  unfold dump
  rw [this, List.flatMap_map]
  rfl

theorem lines_fine (env : Env) (hq : ∀ s, '\n' ∉ env.quote s) (n : Node) (hf : ∀ x ∈ places 0 n, Fine x.2) :
    ∀ l ∈ (places 0 n).map fun x => line env x.1 x.2.1 x.2.2, '\n' ∉ l := by
  intro l hl
  obtain ⟨x, hx, rfl⟩ := List.mem_map.1 hl
  exact line_no env hq _ _ _ (hf x hx)

/-- C113: a dump consists of exactly one line for each node, each before its children, with the line of the source, the type, the numbers of
comments and the properties of the node, indented by its depth. Missing: packages without name, and texts with line breaks. -/
theorem C113_lines_partial (env : Env) (hq : ∀ s, '\n' ∉ env.quote s) (n : Node) (hf : ∀ x ∈ places 0 n, Fine x.2) :
    splitOn '\n' (dump env n) = (places 0 n).map (fun x => line env x.1 x.2.1 x.2.2) ++ [[]] := by
  rw [dump_lines env n hf, split_lines _ (lines_fine env hq n hf)]

theorem fine_ne {x : Info × Payload} (h : Fine x) : ∀ t, x.2 ≠ .other t := by
  intro t ht
  obtain ⟨i, p⟩ := x
  simp only at ht
  subst ht
  exact h.2

/-- C113: trees with the same dump have the same shape: the same kinds of nodes from the same lines, nested in the same way. -/
theorem C113_shape_partial (env : Env) (hq : ∀ s, '\n' ∉ env.quote s) (n n' : Node) (hf : ∀ x ∈ places 0 n, Fine x.2)
    (hf' : ∀ x ∈ places 0 n', Fine x.2) (h : dump env n = dump env n') : shape n = shape n' := by
  rw [dump_lines env n hf, dump_lines env n' hf'] at h
  have h1 := lines_inj (lines_fine env hq n hf) (lines_fine env hq n' hf') h
  have h2 : ∀ (a b : List (Nat × Info × Payload)), (∀ x ∈ a, Fine x.2) → (∀ x ∈ b, Fine x.2) →
      a.map (fun x => line env x.1 x.2.1 x.2.2) = b.map (fun x => line env x.1 x.2.1 x.2.2) → a.map key = b.map key := by
    intro a
    induction a with
    | nil => intro b _ _ e; cases b with
      | nil => rfl
      | cons y ys => simp at e
    | cons x xs ih =>
      intro b ha hb e
      cases b with
      | nil => simp at e
      | cons y ys =>
        simp only [List.map_cons, List.cons.injEq] at e ⊢
        have fx := ha x (by simp)
        have fy := hb y (by simp)
        obtain ⟨e1, e2, e3⟩ := line_inj env (fine_ne fx) (fine_ne fy) e.1
        exact ⟨by simp [key, e1, e2, e3], ih ys (fun z hz => ha z (by simp [hz])) (fun z hz => hb z (by simp [hz])) e.2⟩
  have h3 := h2 _ _ hf hf' h1
  exact (shape_inj n n' 0 [] [] (by simp) (by simp) (by rw [h3])).1

/-- C113: the types that are shown. -/
theorem C113_types (p : Payload) (h : ∀ t, p ≠ .other t) : (names[p.ctorIdx]?).map lit = some (typeName p) := by
  have h1 : typeName p = typeName (rep p) := by cases p <;> rfl
  have h2 : p.ctorIdx = (rep p).ctorIdx := by cases p <;> rfl
  have h3 : rep p ∈ reps := by
    cases p with
    | other t => exact absurd rfl (h t)
    | _ => simp only [rep]; decide +kernel
  have h4 : ∀ q ∈ reps, (names[q.ctorIdx]?).map lit = some (typeName q) := by decide +kernel
  rw [h1, h2]
  exact h4 _ h3

/-- C113 is violated: after a package without name there is no line break, so that two nodes share a line. -/
theorem C113_package_violated (env : Env) (hq : ∀ s, '\n' ∉ env.quote s) :
    let t := Node.mk ⟨1, none, 0, 0⟩ (.file (some []) 2) [.mk ⟨1, none, 0, 0⟩ (.package none) [], .mk ⟨2, none, 0, 0⟩ (.message ['M'] 0) []]
    (splitOn '\n' (dump env t)).length = (places 0 t).length := by
  intro t
  have h1 := before_eq env ⟨1, none, 0, 0⟩ (.file (some []) 2) ⟨[], -1⟩ 0 rfl (by simp) (by simp)
  have l1 := line_no env hq 0 ⟨1, none, 0, 0⟩ (.file (some []) 2) (by simp [Fine])
  have l3 := line_no env hq 1 ⟨2, none, 0, 0⟩ (.message ['M'] 0) (by simp [Fine])
  have hd : dump env t = line env 0 ⟨1, none, 0, 0⟩ (.file (some []) 2) ++ '\n' ::
      (line env 1 ⟨1, none, 0, 0⟩ (.package none) ++ line env 1 ⟨2, none, 0, 0⟩ (.message ['M'] 0) ++ '\n' :: []) := by
    simp [t, dump, inspect, inspectAll, before, after, visit, line, items, joinWith, attr, padLeft, lit, List.replicate]
  have l2 : '\n' ∉ line env 1 ⟨1, none, 0, 0⟩ (.package none) := by
    have hdg : ∀ n, '\n' ∉ dec n := fun n => dec_not_mem n _ (by decide)
    simp [line, items, joinWith, lit, typeName, hdg]
  rw [hd, splitOn_append, splitOn_of_no_sep _ _ l1, splitOn_append, splitOn_of_no_sep _ _ (by simp [l2, l3])]
  simp [t, places, placesAll, splitOn]

/-- C113 is violated: a string with a line break is written as it is. -/
theorem C113_string_violated (env : Env) :
    let t := Node.mk ⟨1, none, 0, 0⟩ (.stringLiteral ['a', '\n', 'b']) []
    (splitOn '\n' (dump env t)).length = (places 0 t).length + 2 := by
  intro t
  have hdg : ∀ n, '\n' ∉ dec n := fun n => dec_not_mem n _ (by decide)
  have hd : dump env t = line env 0 ⟨1, none, 0, 0⟩ (.stringLiteral ['a']) ++ '\n' :: (['b'] ++ '\n' :: []) := by
    simp [t, dump, inspect, inspectAll, before, after, visit, line, items, joinWith, attr, padLeft, lit, typeName]
  have l : '\n' ∉ line env 0 ⟨1, none, 0, 0⟩ (.stringLiteral ['a']) := by
    simp [line, items, joinWith, lit, typeName, hdg, attr]
  rw [hd, splitOn_append, splitOn_of_no_sep _ _ l, splitOn_append]
  simp [t, places, placesAll, splitOn]

namespace Example

/-- Quotes without escapes, but for line breaks. -/
def env : Env := ⟨fun s => '"' :: s.flatMap (fun c => if c = '\n' then ['\\', 'n'] else [c]) ++ ['"'], 2⟩

theorem quote_no (s : Str) : '\n' ∉ env.quote s := by
  intro h
  simp only [env, List.mem_append, List.mem_cons, List.mem_flatMap] at h
  rcases h with (h | ⟨c, _, h⟩) | h
  · exact absurd h (by decide)
  · split at h
    · exact absurd h (by decide)
    · simp only [List.mem_singleton] at h
      exact absurd h.symm ‹_›
  · simp at h

def tree : Node :=
  .mk ⟨1, some ['F'], 1, 0⟩ (.file (some ['p']) 1) [
    .mk ⟨3, none, 0, 2⟩ (.message ['M'] 1) [.mk ⟨4, none, 0, 0⟩ (.field [] ['i'] ['a'] 1 none) [.mk ⟨4, none, 0, 0⟩ (.ident false ['a']) []]],
    .mk ⟨6, none, 0, 0⟩ (.stringLiteral ['x']) []]

theorem tree_fine : ∀ x ∈ places 0 tree, Fine x.2 := by
  intro x hx
  simp only [tree, places, placesAll, List.nil_append, List.append_nil, List.mem_cons, List.cons_append, List.not_mem_nil, or_false] at hx
  rcases hx with rfl | rfl | rfl | rfl | rfl <;> simp [Fine]

example : line env 1 ⟨3, none, 0, 2⟩ (.message ['M'] 1) = " 3   [MessageNode] /tc=2/ name=\"M\" #decls=1".toList := by
  simp [line, env, items, joinWith, attr, lit, typeName, dec, digitChar, List.replicate]

example : typeName (.message ['M'] 1) = "MessageNode".toList := by simp [typeName, lit]

example : splitOn '\n' (dump env tree) = (places 0 tree).map (fun x => line env x.1 x.2.1 x.2.2) ++ [[]] :=
  C113_lines_partial env quote_no tree tree_fine

/-- The field of the message and the field after the message. -/
def tree' : Node :=
  .mk ⟨1, some ['F'], 1, 0⟩ (.file (some ['p']) 1) [
    .mk ⟨3, none, 0, 2⟩ (.message ['M'] 1) [], .mk ⟨4, none, 0, 0⟩ (.field [] ['i'] ['a'] 1 none) [.mk ⟨4, none, 0, 0⟩ (.ident false ['a']) []],
    .mk ⟨6, none, 0, 0⟩ (.stringLiteral ['x']) []]

example : dump env tree ≠ dump env tree' := fun h => by
  have hf : ∀ x ∈ places 0 tree', Fine x.2 := by
    intro x hx
    simp only [tree', places, placesAll, List.nil_append, List.append_nil, List.mem_cons, List.cons_append, List.not_mem_nil, or_false] at hx
    rcases hx with rfl | rfl | rfl | rfl | rfl <;> simp [Fine]
  have := C113_shape_partial env quote_no tree tree' tree_fine hf h
  simp [tree, tree', shape, shapes] at this

end Example

end Verif.DumpAst
