/-!
Models of the functions of Go's `strings` package that the code uses, on lists of
characters, with their characteristic lemmas.
-/
namespace Verif

abbrev Str := List Char

/-- Go's `unicode.IsSpace`. -/
def isSpace (c : Char) : Bool :=
  let n := c.toNat
  (decide (9 ≤ n) && decide (n ≤ 13)) || n == 32 || n == 0x85 || n == 0xA0 || n == 0x1680 ||
  (decide (0x2000 ≤ n) && decide (n ≤ 0x200a)) || n == 0x2028 || n == 0x2029 || n == 0x202f ||
  n == 0x205f || n == 0x3000

/-- `strings.Split(s, string(sep))` for a one-character separator. -/
def splitOn (sep : Char) : Str → List Str
  | [] => [[]]
  | c :: t =>
    if c = sep then [] :: splitOn sep t
    else
      match splitOn sep t with
      | [] => [[c]]
      | w :: ws => (c :: w) :: ws

/-- `strings.Join(parts, string(sep))`. -/
def joinWith (sep : Char) : List Str → Str
  | [] => []
  | [w] => w
  | w :: ws => w ++ sep :: joinWith sep ws

/-- `strings.FieldsFunc(s, p)` / `strings.Fields`: maximal runs of characters not
satisfying `p`. -/
def fieldsBy (p : Char → Bool) : Str → List Str
  | [] => []
  | c :: t =>
    if p c then fieldsBy p t
    else
      match t with
      | [] => [[c]]
      | d :: _ =>
        if p d then [c] :: fieldsBy p t
        else
          match fieldsBy p t with
          | [] => [[c]]
          | w :: ws => (c :: w) :: ws

/-- `strings.Cut(s, string(sep))`: the parts before and after the first separator, or
`none` if there is none. -/
def cut (sep : Char) : Str → Option (Str × Str)
  | [] => none
  | c :: t => if c = sep then some ([], t) else (cut sep t).map (fun r => (c :: r.1, r.2))

theorem splitOn_ne_nil (sep : Char) (s : Str) : splitOn sep s ≠ [] := by
  cases s with
  | nil => simp [splitOn]
  | cons c t =>
    simp only [splitOn]
    split
    · simp
    · split <;> simp

theorem joinWith_cons (sep : Char) (w : Str) (ws : List Str) (h : ws ≠ []) :
    joinWith sep (w :: ws) = w ++ sep :: joinWith sep ws := by
  cases ws with
  | nil => exact absurd rfl h
  | cons v vs => rfl

theorem join_splitOn (sep : Char) (s : Str) : joinWith sep (splitOn sep s) = s := by
  induction s with
  | nil => rfl
  | cons c t ih =>
    simp only [splitOn]
    split
    · rename_i h
      rw [joinWith_cons _ _ _ (splitOn_ne_nil sep t), ih, h]; rfl
    · cases hs : splitOn sep t with
      | nil => exact absurd hs (splitOn_ne_nil sep t)
      | cons w ws =>
        rw [hs] at ih
        cases ws with
        | nil => simp only [joinWith] at *; rw [ih]
        | cons v vs =>
          rw [joinWith_cons _ _ _ (by simp)] at *
          simp [ih]

theorem splitOn_no_sep (sep : Char) (s : Str) : ∀ w ∈ splitOn sep s, sep ∉ w := by
  induction s with
  | nil => simp [splitOn]
  | cons c t ih =>
    simp only [splitOn]
    split
    · intro w hw
      rcases List.mem_cons.mp hw with rfl | hw
      · simp
      · exact ih w hw
    · rename_i hc
      cases hs : splitOn sep t with
      | nil => exact absurd hs (splitOn_ne_nil sep t)
      | cons v vs =>
        rw [hs] at ih
        intro w hw
        simp only [List.mem_cons] at hw
        rcases hw with rfl | hw
        · simp only [List.mem_cons, not_or]
          exact ⟨fun h => hc h.symm, ih v (by simp)⟩
        · exact ih w (by simp [hw])

theorem splitOn_of_no_sep (sep : Char) (s : Str) (h : sep ∉ s) : splitOn sep s = [s] := by
  induction s with
  | nil => rfl
  | cons c t ih =>
    simp only [List.mem_cons, not_or] at h
    have hc : ¬ c = sep := fun hc => h.1 hc.symm
    simp only [splitOn, if_neg hc, ih h.2]

theorem splitOn_append (sep : Char) (a b : Str) :
    splitOn sep (a ++ sep :: b) = splitOn sep a ++ splitOn sep b := by
  induction a with
  | nil => simp [splitOn]
  | cons c t ih =>
    simp only [List.cons_append, splitOn]
    split
    · simp [ih]
    · rw [ih]
      cases hs : splitOn sep t with
      | nil => exact absurd hs (splitOn_ne_nil sep t)
      | cons w ws => simp

/-- Splitting is inverse to joining words without separator. -/
theorem splitOn_join (sep : Char) (ws : List Str) (hne : ws ≠ []) (h : ∀ w ∈ ws, sep ∉ w) :
    splitOn sep (joinWith sep ws) = ws := by
  induction ws with
  | nil => exact absurd rfl hne
  | cons w ws ih =>
    cases ws with
    | nil => exact splitOn_of_no_sep sep w (h w (by simp))
    | cons v vs =>
      rw [joinWith_cons _ _ _ (by simp), splitOn_append, splitOn_of_no_sep sep w (h w (by simp)),
        ih (by simp) (fun x hx => h x (by simp [hx]))]
      rfl

theorem cut_eq_some {sep : Char} {s a b : Str} :
    cut sep s = some (a, b) ↔ s = a ++ sep :: b ∧ sep ∉ a := by
  induction s generalizing a b with
  | nil => simp [cut]
  | cons c t ih =>
    simp only [cut]
    split
    · rename_i hc
      subst hc
      constructor
      · intro h
        simp only [Option.some.injEq, Prod.mk.injEq] at h
        obtain ⟨rfl, rfl⟩ := h
        simp
      · rintro ⟨h1, h2⟩
        cases a with
        | nil => simp at h1; simp [h1]
        | cons x a =>
          simp only [List.cons_append, List.cons.injEq] at h1
          simp [h1.1] at h2
    · rename_i hc
      constructor
      · intro h
        simp only [Option.map_eq_some_iff, Prod.exists, Prod.mk.injEq] at h
        obtain ⟨a', b', h1, rfl, rfl⟩ := h
        obtain ⟨rfl, h2⟩ := ih.mp h1
        refine ⟨rfl, ?_⟩
        simp only [List.mem_cons, not_or]
        exact ⟨fun h => hc h.symm, h2⟩
      · rintro ⟨h1, h2⟩
        cases a with
        | nil => simp at h1; exact absurd h1.1 hc
        | cons x a =>
          simp only [List.cons_append, List.cons.injEq] at h1
          simp only [List.mem_cons, not_or] at h2
          simp only [Option.map_eq_some_iff, Prod.exists, Prod.mk.injEq]
          exact ⟨a, b, ih.mpr ⟨h1.2, h2.2⟩, by rw [h1.1], rfl⟩

theorem cut_eq_none {sep : Char} {s : Str} : cut sep s = none ↔ sep ∉ s := by
  induction s with
  | nil => simp [cut]
  | cons c t ih =>
    simp only [cut]
    split
    · rename_i hc; subst hc; simp
    · rename_i hc
      simp only [Option.map_eq_none_iff, ih, List.mem_cons, not_or]
      exact ⟨fun h => ⟨fun h' => hc h'.symm, h⟩, fun h => h.2⟩

/-- `w` is one of the fields of `s`: a maximal non-empty run of characters not
satisfying `p`. -/
def IsField (p : Char → Bool) (w s : Str) : Prop :=
  w ≠ [] ∧ (∀ c ∈ w, p c = false) ∧
  ∃ a b, s = a ++ w ++ b ∧ (∀ c, a.getLast? = some c → p c = true) ∧
    (∀ c, b.head? = some c → p c = true)

theorem fieldsBy_cons_of_pos {p : Char → Bool} {c : Char} {t : Str} (h : p c = true) :
    fieldsBy p (c :: t) = fieldsBy p t := by
  cases t <;> simp [fieldsBy, h]

theorem fieldsBy_head {p : Char → Bool} {d : Char} {t : Str} (h : p d = false) :
    ∃ w ws, fieldsBy p (d :: t) = (d :: w) :: ws := by
  cases t with
  | nil => exact ⟨[], [], by simp [fieldsBy, h]⟩
  | cons e u =>
    simp only [fieldsBy, h]
    simp only [Bool.false_eq_true, if_false]
    split
    · exact ⟨_, _, rfl⟩
    · split
      · exact ⟨_, _, rfl⟩
      · exact ⟨_, _, rfl⟩

/-- The first field of a string starting with a field character is the longest run. -/
theorem fieldsBy_run {p : Char → Bool} (w : Str) (b : Str) (hw : w ≠ [])
    (hp : ∀ c ∈ w, p c = false) (hb : ∀ c, b.head? = some c → p c = true) :
    fieldsBy p (w ++ b) = w :: fieldsBy p b := by
  induction w with
  | nil => exact absurd rfl hw
  | cons c t ih =>
    have hc := hp c (by simp)
    cases t with
    | nil =>
      cases b with
      | nil => simp [fieldsBy, hc]
      | cons d u =>
        have hd := hb d rfl
        simp only [List.cons_append, List.nil_append, fieldsBy, hc, hd]
        simp
    | cons d u =>
      have hd := hp d (by simp)
      have ih' := ih (by simp) (fun x hx => hp x (by simp [hx]))
      simp only [List.cons_append] at ih' ⊢
      conv => lhs; unfold fieldsBy
      simp only [hc, hd, Bool.false_eq_true, if_false]
      rw [ih']

theorem mem_takeWhile {p : Char → Bool} {s : Str} {x : Char} (h : x ∈ s.takeWhile p) :
    p x = true := by
  induction s with
  | nil => simp at h
  | cons c t ih =>
    rw [List.takeWhile_cons] at h
    split at h
    · rename_i hc
      rcases List.mem_cons.mp h with rfl | h
      · exact hc
      · exact ih h
    · simp at h

theorem run_split (p : Char → Bool) (s : Str) :
    s = s.takeWhile (fun c => !p c) ++ s.dropWhile (fun c => !p c) :=
  (List.takeWhile_append_dropWhile).symm

theorem dropWhile_head {p : Char → Bool} (s : Str) :
    ∀ c, (s.dropWhile (fun c => !p c)).head? = some c → p c = true := by
  induction s with
  | nil => simp
  | cons d t ih =>
    intro c h
    rw [List.dropWhile_cons] at h
    cases hd : p d with
    | true => simp [hd] at h; rw [← h]; exact hd
    | false => simp [hd] at h; exact ih c h

/-- Unfolding `fieldsBy` at a field character. -/
theorem fieldsBy_cons_of_neg {p : Char → Bool} {c : Char} {t : Str} (h : p c = false) :
    fieldsBy p (c :: t) = (c :: t.takeWhile (fun c => !p c)) ::
      fieldsBy p (t.dropWhile (fun c => !p c)) := by
  have := fieldsBy_run (p := p) (c :: t.takeWhile (fun c => !p c))
    (t.dropWhile (fun c => !p c)) (by simp) ?_ (dropWhile_head t)
  · rw [← this, List.cons_append, ← run_split]
  · intro x hx
    rcases List.mem_cons.mp hx with rfl | hx
    · exact h
    · have := mem_takeWhile hx
      simpa using this

theorem fieldsBy_append {p : Char → Bool} (n : Nat) : ∀ (a b : Str), a.length ≤ n →
    (∀ c, a.getLast? = some c → p c = true) →
    fieldsBy p (a ++ b) = fieldsBy p a ++ fieldsBy p b := by
  induction n with
  | zero =>
    intro a b hl _
    cases a with
    | nil => rfl
    | cons c t => simp at hl
  | succ n ih =>
    intro a b hl ha
    cases a with
    | nil => rfl
    | cons c t =>
      simp only [List.length_cons] at hl
      cases hc : p c with
      | true =>
        rw [List.cons_append, fieldsBy_cons_of_pos hc, fieldsBy_cons_of_pos hc]
        refine ih t b (by omega) ?_
        intro x hx
        apply ha
        cases t with
        | nil => simp at hx
        | cons y u => simpa using hx
      | false =>
        -- the run ends inside `t`
        have hex : ∃ d ∈ t, p d = true := by
          cases hl : (c :: t).getLast? with
          | none => simp at hl
          | some d =>
            have hd := ha d hl
            have hm := List.mem_of_getLast? hl
            rcases List.mem_cons.mp hm with rfl | hm
            · rw [hc] at hd; cases hd
            · exact ⟨d, hm, hd⟩
        have key : ∀ t : Str, (∃ d ∈ t, p d = true) →
            (t ++ b).takeWhile (fun c => !p c) = t.takeWhile (fun c => !p c) ∧
            (t ++ b).dropWhile (fun c => !p c) = t.dropWhile (fun c => !p c) ++ b := by
          intro t
          induction t with
          | nil => rintro ⟨d, hd, _⟩; simp at hd
          | cons e u ihu =>
            rintro ⟨d, hd, hp⟩
            cases he : p e with
            | true => simp [he]
            | false =>
              have : ∃ d ∈ u, p d = true := by
                rcases List.mem_cons.mp hd with rfl | hd
                · rw [he] at hp; cases hp
                · exact ⟨d, hd, hp⟩
              obtain ⟨h1, h2⟩ := ihu this
              simp [he, h1, h2]
        obtain ⟨k1, k2⟩ := key t hex
        rw [List.cons_append, fieldsBy_cons_of_neg hc, fieldsBy_cons_of_neg hc, k1, k2]
        rw [ih]
        · rfl
        · have := (List.dropWhile_sublist (p := fun c => !p c) (l := t)).length_le
          omega
        · intro x hx
          apply ha
          have hsuf := run_split p t
          have hne : t.dropWhile (fun c => !p c) ≠ [] := by
            intro h0; rw [h0] at hx; simp at hx
          rw [hsuf]
          rw [List.getLast?_cons, List.getLast?_append, hx]
          simp

theorem mem_fieldsBy {p : Char → Bool} (w s : Str) : w ∈ fieldsBy p s ↔ IsField p w s := by
  constructor
  · suffices h : ∀ n, ∀ s : Str, s.length ≤ n → w ∈ fieldsBy p s → IsField p w s from
      h s.length s (Nat.le_refl _)
    intro n
    induction n with
    | zero =>
      intro s hl h
      cases s with
      | nil => simp [fieldsBy] at h
      | cons c t => simp at hl
    | succ n ih =>
      intro s hl h
      cases s with
      | nil => simp [fieldsBy] at h
      | cons c t =>
        simp only [List.length_cons] at hl
        cases hc : p c with
        | true =>
          rw [fieldsBy_cons_of_pos hc] at h
          obtain ⟨h1, h2, a, b, h3, h4, h5⟩ := ih t (by omega) h
          refine ⟨h1, h2, c :: a, b, by rw [h3]; simp, ?_, h5⟩
          intro x hx
          cases a with
          | nil => simp at hx; rw [← hx]; exact hc
          | cons y u => exact h4 x (by simpa using hx)
        | false =>
          rw [fieldsBy_cons_of_neg hc] at h
          have hrun : ∀ x ∈ c :: t.takeWhile (fun c => !p c), p x = false := by
            intro x hx
            rcases List.mem_cons.mp hx with rfl | hx
            · exact hc
            · simpa using mem_takeWhile hx
          rcases List.mem_cons.mp h with rfl | h
          · refine ⟨by simp, hrun, [], t.dropWhile (fun c => !p c), ?_, by simp, dropWhile_head t⟩
            simp only [List.nil_append, List.cons_append]
            rw [← run_split]
          · have hlen := (List.dropWhile_sublist (p := fun c => !p c) (l := t)).length_le
            obtain ⟨h1, h2, a, b, h3, h4, h5⟩ := ih _ (by omega) h
            refine ⟨h1, h2, (c :: t.takeWhile (fun c => !p c)) ++ a, b, ?_, ?_, h5⟩
            · rw [List.append_assoc, List.append_assoc, ← List.append_assoc a, ← h3,
                List.cons_append, ← run_split]
            · intro x hx
              cases a with
              | nil =>
                exfalso
                cases w with
                | nil => exact h1 rfl
                | cons y u =>
                  have := dropWhile_head (p := p) t y (by rw [h3]; rfl)
                  rw [h2 y (by simp)] at this
                  cases this
              | cons y u =>
                rw [List.getLast?_append] at hx
                exact h4 x (by simpa using hx)
  · rintro ⟨h1, h2, a, b, rfl, h4, h5⟩
    rw [List.append_assoc, fieldsBy_append a.length a _ (Nat.le_refl _) h4,
      fieldsBy_run w b h1 h2 h5]
    simp

/-- `strings.Index(s, pat)`. -/
def indexSub (pat : Str) : Str → Option Nat
  | [] => if pat = [] then some 0 else none
  | c :: t => if pat.isPrefixOf (c :: t) then some 0 else (indexSub pat t).map (· + 1)

/-- `strings.IndexByte(s, c)`. -/
def indexChar (c : Char) : Str → Option Nat
  | [] => none
  | d :: t => if d = c then some 0 else (indexChar c t).map (· + 1)

/-- `strings.LastIndexByte(s, c)`. -/
def lastIndexChar (c : Char) : Str → Option Nat
  | [] => none
  | d :: t =>
    match lastIndexChar c t with
    | some i => some (i + 1)
    | none => if d = c then some 0 else none

theorem indexSub_append (c : Char) (p a b : Str) (h : c ∉ a) :
    indexSub (c :: p) (a ++ (c :: p) ++ b) = some a.length := by
  induction a with
  | nil => simp [indexSub]
  | cons d t ih =>
    simp only [List.mem_cons, not_or] at h
    have h1 : List.isPrefixOf (c :: p) (d :: (t ++ c :: p ++ b)) = false := by
      simp [List.isPrefixOf, h.1]
    have ih' := ih h.2
    rw [List.cons_append, List.cons_append]
    simp only [indexSub, h1, ih']
    simp

theorem indexSub_infix (p s : Str) (i : Nat) (h : indexSub p s = some i) :
    ∃ b, s = s.take i ++ p ++ b ∧ i ≤ s.length := by
  induction s generalizing i with
  | nil =>
    simp only [indexSub] at h
    split at h
    · rename_i hp; simp at h; subst h; exact ⟨[], by simp [hp]⟩
    · simp at h
  | cons c t ih =>
    simp only [indexSub] at h
    split at h
    · rename_i hp
      simp at h; subst h
      obtain ⟨b, hb⟩ := List.isPrefixOf_iff_prefix.mp hp
      exact ⟨b, by simp [hb], by simp⟩
    · cases hi : indexSub p t with
      | none => rw [hi] at h; simp at h
      | some j =>
        rw [hi] at h; simp at h; subst h
        obtain ⟨b, hb, hj⟩ := ih j hi
        refine ⟨b, ?_, by simp; exact hj⟩
        simp only [List.take_succ_cons, List.cons_append]
        rw [← hb]

theorem lastIndexChar_none (c : Char) (b : Str) (h : c ∉ b) : lastIndexChar c b = none := by
  induction b with
  | nil => rfl
  | cons x t ih =>
    simp only [List.mem_cons, not_or] at h
    have hx : ¬ x = c := fun e => h.1 e.symm
    simp [lastIndexChar, ih h.2, hx]

theorem lastIndexChar_append (c : Char) (a b : Str) (h : c ∉ b) :
    lastIndexChar c (a ++ c :: b) = some a.length := by
  induction a with
  | nil => simp [lastIndexChar, lastIndexChar_none c b h]
  | cons d t ih => simp [lastIndexChar, ih]

theorem lastIndexChar_some (c : Char) (s : Str) (i : Nat) (h : lastIndexChar c s = some i) :
    ∃ a b, s = a ++ c :: b ∧ i = a.length ∧ c ∉ b := by
  induction s generalizing i with
  | nil => simp [lastIndexChar] at h
  | cons x t ih =>
    simp only [lastIndexChar] at h
    cases hl : lastIndexChar c t with
    | some j =>
      rw [hl] at h; simp at h
      obtain ⟨a, b, h1, h2, h3⟩ := ih j hl
      exact ⟨x :: a, b, by simp [h1], by simp [← h, h2], h3⟩
    | none =>
      rw [hl] at h
      by_cases hx : x = c
      · simp [hx] at h
        refine ⟨[], t, by simp [hx], by simp [← h], fun hc => ?_⟩
        obtain ⟨a, b, hab⟩ := List.append_of_mem hc
        clear ih h
        -- a character that occurs has a last occurrence
        have : ∀ s : Str, c ∈ s → lastIndexChar c s ≠ none := by
          intro s
          induction s with
          | nil => simp
          | cons y ys ihy =>
            intro hy
            simp only [lastIndexChar]
            cases hq : lastIndexChar c ys with
            | some _ => simp
            | none =>
              rcases List.mem_cons.mp hy with e | hm
              · simp [e]
              · exact absurd hq (ihy hm)
        exact this t hc hl
      · simp [hx] at h

theorem indexChar_append (c : Char) (a b : Str) (h : c ∉ a) :
    indexChar c (a ++ b) = (indexChar c b).map (· + a.length) := by
  induction a with
  | nil => simp
  | cons x t ih =>
    simp only [List.mem_cons, not_or] at h
    simp only [List.cons_append, indexChar, ih h.2, if_neg (fun e : x = c => h.1 e.symm),
      Option.map_map, List.length_cons]
    congr 1

end Verif
