import Verif.Lemmas.Hover
/-!
# C95: hover shows the declaration of what the cursor is on
-/
namespace Verif.Hover

open CursorPath

/-- **C95** (text): the last step of `PrintNode` panics exactly for a text that is a single line break, and otherwise takes away nothing but one
line break at either end. -/
theorem C95_print (s : Str) :
    (trimNode s = none ↔ s = ['\n']) ∧
    ∀ t, trimNode s = some t → ∃ a b, s = a ++ (t ++ b) ∧ (a = [] ∨ a = ['\n']) ∧ (b = [] ∨ b = ['\n']) ∧
      (s.head? = some '\n' → a = ['\n']) ∧ (s.getLast? = some '\n' → b = ['\n']) := by
  rcases List.eq_nil_or_concat s with rfl | ⟨m, z, rfl⟩
  · refine ⟨by simp [trimNode], ?_⟩
    intro t h
    simp [trimNode] at h
    subst h
    exact ⟨[], [], rfl, .inl rfl, .inl rfl, by simp, by simp⟩
  · rw [List.concat_eq_append]
    cases m with
    | nil =>
      by_cases hz : z = '\n'
      · subst hz
        simp [trimNode]
      · refine ⟨by simp [trimNode, hz], ?_⟩
        intro t h
        simp [trimNode, hz] at h
        subst h
        exact ⟨[], [], rfl, .inl rfl, .inl rfl, by simp [hz], by simp [hz]⟩
    | cons y m =>
      have hlast : (y :: m ++ [z]).getLast? = some z := List.getLast?_concat ..
      have hhead : (y :: m ++ [z]).head? = some y := by simp
      unfold trimNode
      rw [hlast, hhead]
      by_cases hy : y = '\n' <;> by_cases hz : z = '\n'
      · subst hy hz
        simp only [if_true]
        refine ⟨by simp, ?_⟩
        intro t h
        simp at h
        subst h
        exact ⟨['\n'], ['\n'], by simp, .inr rfl, .inr rfl, by simp, by simp⟩
      · subst hy
        simp only [if_true, Option.some.injEq, hz, if_false]
        refine ⟨by simp, ?_⟩
        intro t h
        simp at h
        subst h
        exact ⟨['\n'], [], by simp [List.take_of_length_le], .inr rfl, .inl rfl, by simp, False.elim⟩
      · subst hz
        simp only [if_true, Option.some.injEq, hy, if_false]
        refine ⟨by simp, ?_⟩
        intro t h
        simp at h
        subst h
        exact ⟨[], ['\n'], by simp, .inl rfl, .inr rfl, by simp, by simp⟩
      · simp only [Option.some.injEq, hy, hz, if_false]
        refine ⟨by simp, ?_⟩
        intro t h
        simp at h
        subst h
        exact ⟨[], [], by simp [List.take_of_length_le], .inl rfl, .inl rfl, False.elim, False.elim⟩

/-- **C95** (declarations): hovering over the name of something, or over a reference to it, shows the declaration. (Partial: declarations of
the kinds that the search knows; not RPCs with a body. The tree must be the one that the definition was found in.) -/
theorem C95_declaration_partial {δ ρ : Type} (env : Env δ ρ) (pkg : Option (Hover ρ)) (d : δ) (rng : ρ) (uri : Str) (start : Pos)
    (root : Node) (decl : List Nat) (info : Info) (k : Nat) (text : Str)
    (hdef : env.definition d = some (uri, start)) (htree : env.parse uri start = some root) (hitem : env.item uri start = true)
    (hname : NameAt root start decl info k) (hkind : Addressable info.kind) (hrpc : info.kind = .rpc → info.semicolon ≠ none)
    (htext : trimNode (env.text uri decl false) = some text) :
    computeHover env pkg (.desc d rng) = .ok (some ⟨['`', '`', '`', 'p', 'r', 'o', 't', 'o', 'b', 'u', 'f', '\n'] ++ text ++
      ['\n', '`', '`', '`', '\n'], rng⟩) := by
  have hel : eligible info start = true :=
    (eligible_iff info start (fun h => hrpc h.1 h.2)).2 ⟨hkind, hname.inside⟩
  obtain ⟨len, hat⟩ := hname.declaration
  have hc := found_chain hname
  have hf : ∃ f, findPathIntersectingToken root start = some f ∧ f.path = decl ∧ f.name = false := by
    cases hf : findPathIntersectingToken root start with
    | none =>
      have := hc.2 hf decl len info hat
      rw [hel] at this
      cases this
    | some f =>
      obtain ⟨h1, h2, _, h3⟩ := hc.1 f hf
      have h4 := h3 decl len info hat hel
      exact ⟨f, rfl, List.IsPrefix.eq_of_length h2 (Nat.le_antisymm h2.length_le h4.length_le), h1⟩
  obtain ⟨f, hf, hp, hn⟩ := hf
  simp [computeHover, hdef, htree, hitem, hf, hp, hn, htext, fence, sOpen, sClose]

/-- What hover shows instead of declarations of other kinds: the innermost declaration around the name that the search knows. -/
theorem C95_around {root : Node} {start : Pos} {decl : List Nat} {info : Info} {k : Nat} (h : NameAt root start decl info k) (outer : List Nat)
    (len : Nat) (oinfo : Info) (ho : At (fun _ => True) root outer len oinfo) (hk : Addressable oinfo.kind) (hc : Covers oinfo start)
    (hrpc : oinfo.kind = .rpc → oinfo.semicolon ≠ none)
    (hin : ∀ q l i, At (fun _ => True) root q l i → q <+: decl → outer <+: q → q ≠ outer → ¬ Addressable i.kind ∨ (i.kind = .rpc ∧ i.semicolon = none)) :
    ∃ f, findPathIntersectingToken root start = some f ∧ f.path = outer := by
  have hel : eligible oinfo start = true := (eligible_iff oinfo start (fun h => hrpc h.1 h.2)).2 ⟨hk, hc⟩
  have hch := found_chain h
  cases hf : findPathIntersectingToken root start with
  | none =>
    have := hch.2 hf outer len oinfo ho
    rw [hel] at this
    cases this
  | some f =>
    refine ⟨f, rfl, ?_⟩
    obtain ⟨_, h2, ⟨l, i, h5, h6⟩, h3⟩ := hch.1 f hf
    have h4 := h3 outer len oinfo ho hel
    by_contra hne
    rcases hin f.path l i h5 h2 h4 hne with h7 | ⟨h7, h8⟩
    · have hr : ¬ (i.kind = .rpc ∧ i.semicolon = none) := by
        rintro ⟨h, _⟩
        rw [h] at h7
        exact h7 trivial
      exact h7 ((eligible_iff i start hr).1 h6).1
    · unfold eligible at h6
      rw [h7, h8] at h6
      cases hcl : i.close <;> rw [hcl] at h6 <;> simp at h6

/-- **C95** (violated): whatever the tree and the position, hover never shows a map field, a group, a oneof or another declaration that the
search does not know, and never an RPC with a body. -/
theorem C95_kinds_violated (root : Node) (start : Pos) (f : Found) (h : findPathIntersectingToken root start = some f) (hn : f.name = false) :
    ∃ len i, At (fun _ => True) root f.path len i ∧ i.kind ≠ .mapField ∧ i.kind ≠ .group ∧ i.kind ≠ .other ∧
      ¬ (i.kind = .rpc ∧ i.semicolon = none) := by
  unfold findPathIntersectingToken at h
  cases hc : collect start [] 1 root with
  | nil => rw [hc] at h; cases h
  | cons a rest =>
    rw [hc] at h
    simp only [Option.some.injEq] at h
    obtain ⟨l1, l2, h1, _, _⟩ := longest_spec a (a :: rest)
    rw [h] at h1
    have hm : f ∈ collect start [] 1 root := by
      rw [hc]
      have : f ∈ a :: a :: rest := by rw [h1]; simp
      simpa using this
    obtain ⟨q, l, i, ha, hh⟩ := (mem_collect start [] 1 f root).1 hm
    have hp := here_path hh
    simp only [List.nil_append] at hp
    rw [hp]
    have he : eligible i start = true := by
      unfold here at hh
      rcases List.mem_append.1 hh with h2 | h2
      · split at h2
        · assumption
        · simp at h2
      · split at h2
        · rw [List.mem_singleton] at h2
          rw [h2] at hn
          cases hn
        · simp at h2
    refine ⟨l, i, ha, ?_, ?_, ?_, ?_⟩
    · intro hk; rw [eligible, hk] at he; cases he
    · intro hk; rw [eligible, hk] at he; cases he
    · intro hk; rw [eligible, hk] at he; cases he
    · rintro ⟨hk, hs⟩
      rw [eligible, hk, hs] at he
      cases hcl : i.close <;> rw [hcl] at he <;> simp at he

theorem hoverParts_at (tok len : Nat) (pre : List Str) (n : Nat) (ids : List Ident) (i : Nat) (part : Ident) (hi : ids[i]? = some part)
    (hinc : (ids.map (·.tok)).Pairwise (· < ·)) (ht : part.tok = tok) :
    hoverParts tok len pre n ids =
      some (if n + i = len - 1 then .statement else .parts (joinWith '.' (pre ++ (ids.take (i + 1)).map (·.val))) (n + i + 1)) := by
  induction ids generalizing pre n i with
  | nil => simp at hi
  | cons a ids ih =>
    rw [List.map_cons, List.pairwise_cons] at hinc
    cases i with
    | zero =>
      simp only [List.getElem?_cons_zero, Option.some.injEq] at hi
      subst hi
      unfold hoverParts
      simp only [ht, ge_iff_le, Nat.le_refl, and_self, if_true, Nat.add_zero, List.take_succ_cons, List.take_zero, List.map_cons, List.map_nil]
      split <;> rfl
    | succ i =>
      rw [List.getElem?_cons_succ] at hi
      have hlt := hinc.1 part.tok (List.mem_map.2 ⟨part, List.mem_of_getElem? hi, rfl⟩)
      unfold hoverParts
      rw [if_neg (by omega)]
      rw [ih (pre ++ [a.val]) (n + 1) i hi hinc.2, show n + 1 + i = n + (i + 1) by omega, List.take_succ_cons, List.map_cons, List.append_assoc]
      rfl

theorem hoverParts_none (tok len : Nat) (pre : List Str) (n : Nat) (ids : List Ident) (h : ∀ p ∈ ids, p.tok ≠ tok) :
    hoverParts tok len pre n ids = none := by
  induction ids generalizing pre n with
  | nil => rfl
  | cons a ids ih =>
    unfold hoverParts
    have := h a (by simp)
    rw [if_neg (by omega)]
    exact ih _ _ fun p hp => h p (by simp [hp])

theorem refParts_at (tok : Nat) (all : List Ident) (n : Nat) (ids : List Ident) (i : Nat) (part : Ident) (hi : ids[i]? = some part)
    (hinc : (ids.map (·.tok)).Pairwise (· < ·)) (ht : part.tok = tok) :
    refParts tok all n ids = some (joinWith '.' ((List.range (n + i + 1)).filterMap fun j => (all[j]?).map (·.val)), decide (n + i < all.length - 1)) := by
  induction ids generalizing n i with
  | nil => simp at hi
  | cons a ids ih =>
    rw [List.map_cons, List.pairwise_cons] at hinc
    cases i with
    | zero =>
      simp only [List.getElem?_cons_zero, Option.some.injEq] at hi
      subst hi
      unfold refParts
      rw [if_pos (by omega)]
      rfl
    | succ i =>
      rw [List.getElem?_cons_succ] at hi
      have hlt := hinc.1 part.tok (List.mem_map.2 ⟨part, List.mem_of_getElem? hi, rfl⟩)
      unfold refParts
      rw [if_neg (by omega), ih (n + 1) i hi hinc.2, show n + 1 + i = n + (i + 1) by omega]

theorem refParts_none (tok : Nat) (all : List Ident) (n : Nat) (ids : List Ident) (h : ∀ p ∈ ids, p.tok ≠ tok) : refParts tok all n ids = none := by
  induction ids generalizing n with
  | nil => rfl
  | cons a ids ih =>
    unfold refParts
    have := h a (by simp)
    rw [if_neg (by omega)]
    exact ih _ fun p hp => h p (by simp [hp])

theorem range_take (l : List Ident) (n : Nat) : (List.range n).filterMap (fun j => (l[j]?).map (·.val)) = (l.take n).map (·.val) := by
  induction n with
  | zero => rfl
  | succ n ih =>
    rw [List.range_succ, List.filterMap_append, ih, List.take_add_one, List.map_append]
    congr 1
    cases h : l[n]? <;> simp [h]

theorem others (tok : Nat) (before after : List Decl) (h : ∀ d ∈ before, d = .other) :
    hoverPackage tok (before ++ after) = hoverPackage tok after ∧ refsPackage tok (before ++ after) = refsPackage tok after := by
  induction before with
  | nil => exact ⟨rfl, rfl⟩
  | cons d ds ih =>
    rw [h d (by simp)]
    exact ih fun x hx => h x (by simp [hx])

/-- **C95** (package): the part of a package name at the cursor decides what is shown: for the last one the statement, otherwise the name up
to this part, with `.*`; the references are searched for the same name, and for packages below it unless it is the last part. -/
theorem C95_package (decls : List Decl) (parts : List Ident) (hd : PackageIs decls parts) (hinc : (parts.map (·.tok)).Pairwise (· < ·))
    (i : Nat) (part : Ident) (hi : parts[i]? = some part) (name : Str) (hname : PrefixName parts (i + 1) name) :
    hoverPackage part.tok decls = some (if i + 1 = parts.length then .statement else .parts name (i + 1)) ∧
    refsPackage part.tok decls = some (name, decide (i + 1 ≠ parts.length)) := by
  obtain ⟨before, nm, after, rfl, hb, hn⟩ := hd
  obtain ⟨h1, h2⟩ := others part.tok before (Decl.package (some nm) :: after) hb
  rw [h1, h2]
  unfold PrefixName at hname
  have hlt : i < parts.length := (List.getElem?_eq_some_iff.1 hi).1
  rcases hn with ⟨x, rfl, rfl⟩ | ⟨rfl, hlen⟩
  · have h0 : i = 0 := by simpa using hlt
    subst h0
    simp only [List.getElem?_cons_zero, Option.some.injEq] at hi
    subst hi
    simp [hoverPackage, refsPackage, hname, joinWith]
  · constructor
    · show hoverParts part.tok parts.length [] 0 parts = _
      rw [hoverParts_at part.tok parts.length [] 0 parts i part hi hinc rfl, hname]
      simp only [Nat.zero_add, List.nil_append]
      by_cases h : i + 1 = parts.length
      · rw [if_pos h, if_pos (by omega)]
      · rw [if_neg h, if_neg (by omega)]
    · have hspan : ∃ a b, nameSpan parts = some (a, b) ∧ a ≤ part.tok ∧ part.tok ≤ b := by
        unfold nameSpan
        cases hp : parts with
        | nil => rw [hp] at hlt; simp at hlt
        | cons a rest =>
          rcases List.eq_nil_or_concat (a :: rest) with h | ⟨m, z, h⟩
          · cases h
          · rw [List.concat_eq_append] at h
            refine ⟨a.tok, z.tok, by rw [h, List.getLast?_concat, ← h]; rfl, ?_, ?_⟩
            · have hm := List.mem_of_getElem? hi
              rw [hp] at hm hinc
              rw [List.map_cons, List.pairwise_cons] at hinc
              rcases List.mem_cons.1 hm with rfl | hm
              · exact Nat.le_refl _
              · exact Nat.le_of_lt (hinc.1 _ (List.mem_map.2 ⟨_, hm, rfl⟩))
            · have hm := List.mem_of_getElem? hi
              rw [hp, h] at hm hinc
              rw [List.map_append, List.pairwise_append] at hinc
              rcases List.mem_append.1 hm with hm | hm
              · exact Nat.le_of_lt (hinc.2.2 _ (List.mem_map.2 ⟨_, hm, rfl⟩) _ (by simp))
              · rw [List.mem_singleton.1 hm]; exact Nat.le_refl _
      obtain ⟨a, b, hs, ha, hb'⟩ := hspan
      show (match nameSpan parts with
        | none => none
        | some (a, b) => if part.tok ≥ a ∧ part.tok ≤ b then refParts part.tok parts 0 parts else none) = _
      rw [hs]
      show (if part.tok ≥ a ∧ part.tok ≤ b then refParts part.tok parts 0 parts else none) = _
      rw [if_pos ⟨ha, hb'⟩, refParts_at part.tok parts 0 parts i part hi hinc rfl, Nat.zero_add, range_take, hname]
      congr 2
      rw [decide_eq_decide]
      omega

/-- **C95** (package): nothing is shown and no references are found for tokens other than the parts of the name. -/
theorem C95_package_none (decls : List Decl) (parts : List Ident) (hd : PackageIs decls parts) (tok : Nat) (ht : ∀ p ∈ parts, p.tok ≠ tok) :
    hoverPackage tok decls = none ∧ refsPackage tok decls = none := by
  obtain ⟨before, nm, after, rfl, hb, hn⟩ := hd
  obtain ⟨h1, h2⟩ := others tok before (Decl.package (some nm) :: after) hb
  rw [h1, h2]
  rcases hn with ⟨x, rfl, rfl⟩ | ⟨rfl, hlen⟩
  · have := ht x (by simp)
    have h : ¬ (tok ≥ x.tok ∧ tok ≤ x.tok) := by omega
    simp only [hoverPackage, refsPackage, if_neg h, and_self]
  · refine ⟨hoverParts_none _ _ _ _ _ ht, ?_⟩
    unfold refsPackage
    split
    · rfl
    · split
      · exact refParts_none _ _ _ _ ht
      · rfl

/-- **C95** (block): the answer is one block of code with the lines of the text, if none of them ends the block. -/
theorem C95_block_partial (lines : List Str) (hne : lines ≠ []) (hl : ∀ l ∈ lines, '\n' ∉ l) (hc : ∀ l ∈ lines, ¬ Closing l) :
    Shows (fence (joinWith '\n' lines)) lines := by
  have hj : ∀ (ls : List Str), ls ≠ [] → joinWith '\n' (ls ++ [['`', '`', '`'], []]) = joinWith '\n' ls ++ ['\n', '`', '`', '`', '\n'] := by
    intro ls
    induction ls with
    | nil => intro h; exact absurd rfl h
    | cons a ls ih =>
      intro _
      cases ls with
      | nil => rfl
      | cons b ls =>
        have := ih (by simp)
        rw [List.cons_append, joinWith_cons _ _ _ (by simp), joinWith_cons _ _ _ (by simp), this]
        simp
  refine ⟨_, ['`', '`', '`'], [[]], ?_, ?_, rfl, hc, ⟨0, 3, 0, rfl, by omega, by omega⟩, by simp⟩
  · rw [joinWith_cons _ _ _ (by simp)]
    show _ = _ ++ '\n' :: joinWith '\n' (lines ++ [['`', '`', '`'], []])
    rw [hj lines hne]
    simp [fence, sOpen, sClose]
  · intro l h
    simp only [List.mem_cons, List.mem_append, List.not_mem_nil, or_false] at h
    rcases h with rfl | h | rfl | rfl
    · decide
    · exact hl l h
    · decide
    · decide

/-- **C95** (package): the text that is shown for a part of a package name. -/
theorem C95_package_text (decls : List Decl) (parts : List Ident) (hd : PackageIs decls parts) (hinc : (parts.map (·.tok)).Pairwise (· < ·))
    (i : Nat) (part : Ident) (hi : parts[i]? = some part) (name : Str) (hname : PrefixName parts (i + 1) name) (statement : Str) :
    (hoverPackage part.tok decls).map (shownValue statement) = some (['`', '`', '`', 'p', 'r', 'o', 't', 'o', 'b', 'u', 'f', '\n'] ++
      (if i + 1 = parts.length then statement else ['p', 'a', 'c', 'k', 'a', 'g', 'e', ' '] ++ name ++ ['.', '*']) ++ ['\n', '`', '`', '`', '\n']) := by
  rw [(C95_package decls parts hd hinc i part hi name hname).1]
  split <;> simp [shownValue, fence, sOpen, sClose, sPackage]

/-- **C95** (failures): without a definition, or if its file cannot be read, the request fails; if there is nothing to define, the answer is the
one for package names; something is shown only for a definition in a file that can be parsed. -/
theorem C95_failures {δ ρ : Type} (env : Env δ ρ) (pkg : Option (Hover ρ)) (cursor : AtCursor δ ρ) :
    (∀ h, computeHover env pkg cursor = .ok (some h) →
      (cursor = .nothing ∧ pkg = some h) ∨
      ∃ d uri start root f text, cursor = .desc d h.range ∧ env.definition d = some (uri, start) ∧ env.parse uri start = some root ∧
        findPathIntersectingToken root start = some f ∧ trimNode (env.text uri f.path f.name) = some text ∧ h.value = fence text) ∧
    (computeHover env pkg cursor = .error ↔
      cursor = .error ∨ ∃ d rng, cursor = .desc d rng ∧ ∀ uri start, env.definition d = some (uri, start) → env.parse uri start = none) := by
  cases cursor with
  | error => simp [computeHover]
  | nothing => simp [computeHover]
  | desc d rng =>
    cases hdef : env.definition d with
    | none => simp [computeHover, hdef]
    | some us =>
      obtain ⟨uri, start⟩ := us
      cases hp : env.parse uri start with
      | none => simp [computeHover, hdef, hp]
      | some root =>
        cases hi : env.item uri start with
        | false => simp [computeHover, hdef, hp, hi]
        | true =>
          cases hf : findPathIntersectingToken root start with
          | none => simp [computeHover, hdef, hp, hi, hf]
          | some f =>
            cases ht : trimNode (env.text uri f.path f.name) with
            | none => simp [computeHover, hdef, hp, hi, hf, ht]
            | some text =>
              simp only [computeHover, hdef, hp, hi, hf, ht]
              refine ⟨?_, by simp [hdef, hp]⟩
              intro h hh
              simp at hh
              subst hh
              exact .inr ⟨d, uri, start, root, f, text, rfl, hdef, hp, hf, ht, rfl⟩

/-! ## Violations -/

def node (kind : Kind) (start stop : Pos) (semi close : Option Close) (kids : List (Nat × Node)) : Node :=
  .mk ⟨kind, start, stop, semi, close, false, false⟩ true kids

/-- `message A {` / `  map<string, string> m = 1;` / `}`, with the cursor on `m`. -/
def mapTree : Node :=
  node .file ⟨0, 0⟩ ⟨3, 0⟩ none none [(2, node .message ⟨0, 0⟩ ⟨2, 1⟩ none (some ⟨⟨2, 1⟩, false⟩)
    [(2, node .mapField ⟨1, 2⟩ ⟨1, 28⟩ (some ⟨⟨1, 28⟩, false⟩) none [(1, node .other ⟨1, 22⟩ ⟨1, 23⟩ none none [])])])]

/-- **C95** (violated): for a map field, hover shows the whole message. -/
theorem C95_map_violated {δ ρ : Type} (d : δ) (rng : ρ) (env : Env δ ρ) (pkg : Option (Hover ρ)) (uri : Str)
    (hdef : env.definition d = some (uri, ⟨1, 22⟩)) (hparse : env.parse uri ⟨1, 22⟩ = some mapTree) (hitem : env.item uri ⟨1, 22⟩ = true)
    (text : Str) (ht : trimNode (env.text uri [0] false) = some text) :
    computeHover env pkg (.desc d rng) = .ok (some ⟨fence text, rng⟩) := by
  have : findPathIntersectingToken mapTree ⟨1, 22⟩ = some ⟨[0], false, 3⟩ := by decide +kernel
  simp [computeHover, hdef, hparse, hitem, this, ht]

/-- `service S {` / `  rpc F(A) returns (B) {}` / `}`, with the cursor on `F`. -/
def rpcTree : Node :=
  node .file ⟨0, 0⟩ ⟨3, 0⟩ none none [(2, node .service ⟨0, 0⟩ ⟨2, 1⟩ none (some ⟨⟨2, 1⟩, false⟩)
    [(2, node .rpc ⟨1, 2⟩ ⟨1, 26⟩ none (some ⟨⟨1, 26⟩, false⟩) [(1, node .other ⟨1, 6⟩ ⟨1, 7⟩ none none [])])])]

/-- **C95** (violated): for an RPC with a body, hover shows the whole service. -/
theorem C95_rpc_violated {δ ρ : Type} (d : δ) (rng : ρ) (env : Env δ ρ) (pkg : Option (Hover ρ)) (uri : Str)
    (hdef : env.definition d = some (uri, ⟨1, 6⟩)) (hparse : env.parse uri ⟨1, 6⟩ = some rpcTree) (hitem : env.item uri ⟨1, 6⟩ = true)
    (text : Str) (ht : trimNode (env.text uri [0] false) = some text) :
    computeHover env pkg (.desc d rng) = .ok (some ⟨fence text, rng⟩) := by
  have : findPathIntersectingToken rpcTree ⟨1, 6⟩ = some ⟨[0], false, 3⟩ := by decide +kernel
  simp [computeHover, hdef, hparse, hitem, this, ht]

/-- `syntax = "proto3";`; the definition of an import is the file, which begins where its first statement begins. -/
def importTree : Node :=
  node .file ⟨0, 0⟩ ⟨1, 0⟩ none none [(1, node .syntaxK ⟨0, 0⟩ ⟨0, 18⟩ (some ⟨⟨0, 18⟩, false⟩) none [])]

/-- **C95** (violated): for an import, hover shows the syntax statement of the imported file. -/
theorem C95_import_violated {δ ρ : Type} (d : δ) (rng : ρ) (env : Env δ ρ) (pkg : Option (Hover ρ)) (uri : Str)
    (hdef : env.definition d = some (uri, ⟨0, 0⟩)) (hparse : env.parse uri ⟨0, 0⟩ = some importTree) (hitem : env.item uri ⟨0, 0⟩ = true)
    (text : Str) (ht : trimNode (env.text uri [0] false) = some text) :
    computeHover env pkg (.desc d rng) = .ok (some ⟨fence text, rng⟩) := by
  have : findPathIntersectingToken importTree ⟨0, 0⟩ = some ⟨[0], false, 2⟩ := by decide +kernel
  simp [computeHover, hdef, hparse, hitem, this, ht]

/-- The definition was found at the start of line 1 in the linked file, but in the file as it was parsed since then, another message
stands there. -/
def movedTree : Node :=
  node .file ⟨0, 0⟩ ⟨3, 0⟩ none none [(2, node .message ⟨1, 0⟩ ⟨1, 12⟩ none (some ⟨⟨1, 12⟩, false⟩) [(1, node .other ⟨1, 8⟩ ⟨1, 9⟩ none none [])]),
    (2, .mk ⟨.message, ⟨2, 0⟩, ⟨2, 12⟩, none, some ⟨⟨2, 12⟩, false⟩, false, false⟩ false [])]

/-- **C95** (violated): if the file with the definition does not compile at the moment, the position in the last linked version is used in the
current text, and another declaration is shown (here, the first in place of the second, which has moved down by a line). -/
theorem C95_stale_violated {δ ρ : Type} (d : δ) (rng : ρ) (env : Env δ ρ) (pkg : Option (Hover ρ)) (uri : Str)
    (hdef : env.definition d = some (uri, ⟨1, 8⟩)) (hparse : env.parse uri ⟨1, 8⟩ = some movedTree) (hitem : env.item uri ⟨1, 8⟩ = true)
    (text : Str) (ht : trimNode (env.text uri [0] false) = some text) :
    computeHover env pkg (.desc d rng) = .ok (some ⟨fence text, rng⟩) := by
  have : findPathIntersectingToken movedTree ⟨1, 8⟩ = some ⟨[0], false, 3⟩ := by decide +kernel
  simp [computeHover, hdef, hparse, hitem, this, ht]

/-- **C95** (violated): a block comment with a line of three backticks, which the formatter indents by three spaces, ends the block; the
declaration is not shown as code. -/
theorem C95_block_violated (declaration : Str) (hd : declaration ≠ []) (hn : '\n' ∉ declaration) (hb : ∃ c ∈ declaration, c ≠ ' ' ∧ c ≠ '`') (lines : List Str) :
    ¬ Shows (fence (joinWith '\n' [['/', '*'], [' ', ' ', ' ', '`', '`', '`'], ['*', '/'], declaration])) lines := by
  rintro ⟨first, close, rest, h1, h2, h3, h4, h5, h6⟩
  have e : fence (joinWith '\n' [['/', '*'], [' ', ' ', ' ', '`', '`', '`'], ['*', '/'], declaration]) =
      joinWith '\n' [['`', '`', '`', 'p', 'r', 'o', 't', 'o', 'b', 'u', 'f'], ['/', '*'], [' ', ' ', ' ', '`', '`', '`'], ['*', '/'], declaration,
        ['`', '`', '`'], []] := by
    simp [fence, joinWith, sOpen, sClose]
  rw [e] at h1
  have h7 := congrArg (splitOn '\n') h1
  rw [splitOn_join, splitOn_join] at h7
  rotate_left
  · simp
  · exact h2
  · simp
  · intro l hl
    simp only [List.mem_cons, List.not_mem_nil, or_false] at hl
    rcases hl with rfl | rfl | rfl | rfl | rfl | rfl | rfl
    · decide
    · decide
    · decide
    · decide
    · exact hn
    · decide
    · decide
  rw [List.cons.injEq] at h7
  obtain ⟨_, h7⟩ := h7
  cases lines with
  | nil =>
    simp only [List.nil_append, List.cons.injEq] at h7
    obtain ⟨a, b, c, hh, _, _⟩ := h5
    rw [← h7.1] at hh
    rcases a with _ | a <;> rcases b with _ | b <;> rcases c with _ | c <;> simp [List.replicate_succ] at hh
  | cons l1 lines =>
    simp only [List.cons_append, List.cons.injEq] at h7
    obtain ⟨_, h7⟩ := h7
    cases lines with
    | nil =>
      simp only [List.nil_append, List.cons.injEq] at h7
      have := h6 ['*', '/'] (by rw [← h7.2]; simp) '*' (by simp)
      exact absurd this (by decide)
    | cons l2 lines =>
      simp only [List.cons_append, List.cons.injEq] at h7
      exact h4 l2 (by simp) (h7.1 ▸ ⟨3, 3, 0, rfl, by omega, by omega⟩)

/-! ## Examples -/

/-- `message A {` / `  string x = 1;` / `}`, with the cursor on `x`. -/
def fieldTree : Node :=
  node .file ⟨0, 0⟩ ⟨3, 0⟩ none none [(2, node .message ⟨0, 0⟩ ⟨2, 1⟩ none (some ⟨⟨2, 1⟩, false⟩)
    [(2, node .field ⟨1, 2⟩ ⟨1, 15⟩ (some ⟨⟨1, 15⟩, false⟩) none [(1, node .other ⟨1, 9⟩ ⟨1, 10⟩ none none [])])])]

/-- The hypotheses of `C95_declaration_partial` are met. -/
theorem nameAt_field : NameAt fieldTree ⟨1, 9⟩ [0, 0] ⟨.field, ⟨1, 2⟩, ⟨1, 15⟩, some ⟨⟨1, 15⟩, false⟩, none, false, false⟩ 0 := by
  have hall : ∀ q len i, At (fun _ => True) fieldTree q len i → i.sepHit = false ∧ (q <+: [0, 0] ∨ (q = [0, 0] ++ [0] ∧ i.kind = .other)) := by
    intro q len i h
    unfold fieldTree node at h
    cases h with
    | here => exact ⟨rfl, .inl (List.nil_prefix)⟩
    | kid _ _ k st n pa le j _ hk h =>
      obtain rfl : k = 0 := by have := (List.getElem?_eq_some_iff.1 hk).1; simpa using this
      cases hk
      cases h with
      | here => exact ⟨rfl, .inl ⟨[0], rfl⟩⟩
      | kid _ _ k st n pa le j _ hk h =>
        obtain rfl : k = 0 := by have := (List.getElem?_eq_some_iff.1 hk).1; simpa using this
        cases hk
        cases h with
        | here => exact ⟨rfl, .inl ⟨[], rfl⟩⟩
        | kid _ _ k st n pa le j _ hk h =>
          obtain rfl : k = 0 := by have := (List.getElem?_eq_some_iff.1 hk).1; simpa using this
          cases hk
          cases h with
          | here => exact ⟨rfl, .inr ⟨rfl, rfl⟩⟩
          | kid _ _ k st n pa le j _ hk h => simp at hk
  refine ⟨?_, ⟨4, ?_⟩, fun q l i h => (hall q l i h).2, fun q l i h => (hall q l i h).1, by decide⟩
  · unfold fieldTree node
    repeat (first
      | (refine .mk _ _ _ (by simp) ?_; intro x hx; simp only [List.mem_cons, List.not_mem_nil, or_false] at hx; subst hx)
      | exact .mk _ _ _ (by simp) (by simp))
  · unfold fieldTree node
    exact .kid _ _ 0 2 _ _ 2 _ trivial rfl (.kid _ _ 0 2 _ _ 0 _ trivial rfl (.here _ _))

example (text : List Nat → Bool → Str) (ht : text [0, 0] false = ['\n', 's', 't', 'r', 'i', 'n', 'g', '\n']) :
    computeHover (δ := Unit) (ρ := Nat) ⟨fun _ => some (['a'], ⟨1, 9⟩), fun _ _ => some fieldTree, fun _ _ => true, fun _ => text⟩ none (.desc () 5) =
      .ok (some ⟨['`', '`', '`', 'p', 'r', 'o', 't', 'o', 'b', 'u', 'f', '\n'] ++ ['s', 't', 'r', 'i', 'n', 'g'] ++ ['\n', '`', '`', '`', '\n'], 5⟩) :=
  C95_declaration_partial _ none () 5 ['a'] ⟨1, 9⟩ fieldTree [0, 0] _ 0 _ rfl rfl rfl nameAt_field trivial (by simp) (by show trimNode (text [0, 0] false) = _; rw [ht]; rfl)

/-- `package a.b.c;` with the cursor on `b`. -/
example : hoverPackage 4 [.other, .package (some (.compound [⟨['a'], 2⟩, ⟨['b'], 4⟩, ⟨['c'], 6⟩]))] = some (.parts ['a', '.', 'b'] 2) ∧
    refsPackage 4 [.other, .package (some (.compound [⟨['a'], 2⟩, ⟨['b'], 4⟩, ⟨['c'], 6⟩]))] = some (['a', '.', 'b'], true) :=
  C95_package _ [⟨['a'], 2⟩, ⟨['b'], 4⟩, ⟨['c'], 6⟩] ⟨[.other], _, [], rfl, by simp, .inr ⟨rfl, by simp⟩⟩ (by decide) 1 ⟨['b'], 4⟩ rfl _ rfl

/-- On a dot. -/
example : hoverPackage 3 [.package (some (.compound [⟨['a'], 2⟩, ⟨['b'], 4⟩]))] = none :=
  (C95_package_none _ [⟨['a'], 2⟩, ⟨['b'], 4⟩] ⟨[], _, [], rfl, by simp, .inr ⟨rfl, by simp⟩⟩ 3 (by simp)).1

/-- The lines of a message do not end the block. -/
example : Shows (fence (joinWith '\n' [['m', ' ', '{'], ['}']])) [['m', ' ', '{'], ['}']] :=
  C95_block_partial _ (by simp) (by decide) (by
    intro l hl
    simp only [List.mem_cons, List.not_mem_nil, or_false] at hl
    rintro ⟨a, b, c, hh, _, _⟩
    have : l.head? = (List.replicate a ' ' ++ (List.replicate b '`' ++ List.replicate c ' ')).head? := by rw [hh]
    rcases hl with rfl | rfl <;> rcases a with _ | a <;> rcases b with _ | b <;> rcases c with _ | c <;> simp [List.replicate_succ] at this)

end Verif.Hover
