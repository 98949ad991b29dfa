import Verif.Model.PrefixList
/-!
# Properties of scope prefixes and default JSON names: C37, C38
-/
namespace Verif.PrefixList

/-! ## C37 -/

/-- Specification: `p` is the package or what precedes one of its dots. -/
def Scope (pkg p : Str) : Prop := p = pkg ∨ ∃ rest, pkg = p ++ '.' :: rest

/-- What precedes the dots of `rest`, shortest first. -/
def dotPrefixes : Str → Str → List Str
  | _, [] => []
  | pre, c :: rest =>
    if c = '.' then pre :: dotPrefixes (pre ++ [c]) rest else dotPrefixes (pre ++ [c]) rest

theorem dotPrefixes_length (pre rest : Str) :
    (dotPrefixes pre rest).length = rest.countP (fun c => decide (c = '.')) := by
  induction rest generalizing pre with
  | nil => rfl
  | cons c rest ih =>
    unfold dotPrefixes
    by_cases h : c = '.'
    · rw [if_pos h, List.length_cons, ih, List.countP_cons_of_pos (by simpa using h)]
    · rw [if_neg h, ih, List.countP_cons_of_neg (by simpa using h)]

theorem mem_dotPrefixes (pre rest p : Str) :
    p ∈ dotPrefixes pre rest ↔ ∃ a b, rest = a ++ '.' :: b ∧ p = pre ++ a := by
  induction rest generalizing pre with
  | nil => simp [dotPrefixes]
  | cons c rest ih =>
    have key : p ∈ dotPrefixes (pre ++ [c]) rest ↔ ∃ a b, rest = a ++ '.' :: b ∧ p = pre ++ c :: a := by
      rw [ih]
      simp
    unfold dotPrefixes
    by_cases h : c = '.'
    · rw [if_pos h, List.mem_cons, key]
      constructor
      · rintro (rfl | ⟨a, b, rfl, rfl⟩)
        · exact ⟨[], rest, by rw [h]; rfl, by simp⟩
        · exact ⟨c :: a, b, rfl, rfl⟩
      · rintro ⟨a, b, hr, rfl⟩
        match a, hr with
        | [], _ => exact .inl (by simp)
        | d :: a, hr =>
          obtain ⟨rfl, hr'⟩ := List.cons.inj hr
          exact .inr ⟨a, b, hr', rfl⟩
    · rw [if_neg h, key]
      constructor
      · rintro ⟨a, b, rfl, rfl⟩
        exact ⟨c :: a, b, rfl, rfl⟩
      · rintro ⟨a, b, hr, rfl⟩
        match a, hr with
        | [], hr => exact absurd (List.cons.inj hr).1 h
        | d :: a, hr =>
          obtain ⟨rfl, hr'⟩ := List.cons.inj hr
          exact ⟨a, b, hr', rfl⟩

theorem dotPrefixes_sorted (pre rest : Str) :
    (dotPrefixes pre rest).Pairwise (fun a b => a.length < b.length) := by
  induction rest generalizing pre with
  | nil => exact List.Pairwise.nil
  | cons c rest ih =>
    unfold dotPrefixes
    split
    · refine List.Pairwise.cons ?_ (ih _)
      intro b hb
      obtain ⟨x, y, _, rfl⟩ := (mem_dotPrefixes _ _ _).1 hb
      simp only [List.length_append, List.length_singleton]
      omega
    · exact ih _

theorem fill_eq (pre rest : Str) (arr : List Str) (n : Nat)
    (hn : rest.countP (fun c => decide (c = '.')) = n) (hl : n + 1 ≤ arr.length) :
    fill pre rest n arr = arr.take 1 ++ (dotPrefixes pre rest).reverse ++ arr.drop (n + 1) := by
  induction rest generalizing pre arr n with
  | nil =>
    simp only [List.countP_nil] at hn
    subst hn
    simp only [fill, dotPrefixes, List.reverse_nil, List.append_nil, Nat.zero_add]
    exact (List.take_append_drop 1 arr).symm
  | cons c rest ih =>
    unfold fill dotPrefixes
    by_cases h : c = '.'
    · rw [List.countP_cons_of_pos (by simpa using h)] at hn
      rw [if_pos h, if_pos h, ih (pre ++ [c]) (arr.set n pre) (n - 1) (by omega) (by rw [List.length_set]; omega)]
      have hd : (arr.set n pre).drop (n - 1 + 1) = pre :: arr.drop (n + 1) := by
        have : n - 1 + 1 = n := by omega
        rw [this, List.drop_set, if_neg (by omega), Nat.sub_self]
        rw [List.drop_eq_getElem_cons (by omega)]
        rfl
      have ht : (arr.set n pre).take 1 = arr.take 1 := by
        rw [List.take_set, List.set_eq_of_length_le]
        rw [List.length_take]
        omega
      rw [hd, ht, List.reverse_cons]
      simp
    · rw [List.countP_cons_of_neg (by simpa using h)] at hn
      rw [if_neg h, if_neg h, ih (pre ++ [c]) arr n hn hl]

theorem createPrefixList_eq (pkg : Str) (h : pkg ≠ []) :
    createPrefixList pkg = pkg :: (dotPrefixes [] pkg).reverse ++ [[]] := by
  unfold createPrefixList
  rw [if_neg h]
  simp only
  generalize hn : pkg.countP (fun c => decide (c = '.')) = n
  have hlen := dotPrefixes_length [] pkg
  by_cases h0 : n = 0
  · rw [if_pos h0]
    rw [hn, h0] at hlen
    rw [List.length_eq_zero_iff.1 hlen]
    rfl
  · rw [if_neg h0, fill_eq [] pkg _ n hn (by rw [List.length_replicate]; omega)]
    have ht : (List.replicate (n + 2) ([] : Str)).take 1 = [[]] := by
      rw [List.take_replicate]
      have : min 1 (n + 2) = 1 := by omega
      rw [this]
      rfl
    have hd : (List.replicate (n + 2) ([] : Str)).drop (n + 1) = [[]] := by
      rw [List.drop_replicate]
      have : n + 2 - (n + 1) = 1 := by omega
      rw [this]
      rfl
    rw [ht, hd]
    rfl

/-- **C37**: the list consists of the enclosing scopes of the package - the package itself and what
precedes each of its dots -, longest first, each once, followed by the root. -/
theorem C37_prefixes (pkg : Str) (h : pkg ≠ []) :
    ∃ scopes, createPrefixList pkg = scopes ++ [[]] ∧ (∀ p, p ∈ scopes ↔ Scope pkg p) ∧
      scopes.Pairwise (fun a b => b.length < a.length) := by
  refine ⟨pkg :: (dotPrefixes [] pkg).reverse, createPrefixList_eq pkg h, ?_, ?_⟩
  · intro p
    rw [List.mem_cons, List.mem_reverse, mem_dotPrefixes]
    unfold Scope
    constructor
    · rintro (h | ⟨a, b, h, rfl⟩)
      · exact .inl h
      · exact .inr ⟨b, h⟩
    · rintro (h | ⟨b, h⟩)
      · exact .inl h
      · exact .inr ⟨p, b, h, rfl⟩
  · refine List.Pairwise.cons ?_ (List.pairwise_reverse.2 (dotPrefixes_sorted _ _))
    intro b hb
    rw [List.mem_reverse, mem_dotPrefixes] at hb
    obtain ⟨x, y, rfl, rfl⟩ := hb
    simp

/-- **C37** (part): without a package, the root is the only scope. -/
theorem C37_root : createPrefixList [] = [[]] := rfl

example : createPrefixList "foo.bar.baz".toList = ["foo.bar.baz".toList, "foo.bar".toList, "foo".toList, []] := by
  decide

/-! ## C38 -/

/-- Specification: the character a position of the name contributes. -/
def jsonChar (toUpper : Char → Char) (name : Str) (i : Nat) : Option Char :=
  match name[i]? with
  | none => none
  | some c =>
    if c = '_' then none
    else if 0 < i ∧ name[i - 1]? = some '_' then some (toUpper c) else some c

theorem jsonLoop_eq (toUpper : Char → Char) (pre s : Str) :
    jsonLoop toUpper (decide (pre.getLast? = some '_')) s
      = (List.range' pre.length s.length).filterMap (jsonChar toUpper (pre ++ s)) := by
  induction s generalizing pre with
  | nil => rfl
  | cons r s ih =>
    have ih := ih (pre ++ [r])
    rw [List.append_assoc, List.singleton_append, List.length_append, List.length_singleton,
      List.getLast?_concat] at ih
    rw [List.length_cons, List.range'_succ]
    have hr : (pre ++ r :: s)[pre.length]? = some r := by simp
    by_cases h : r = '_'
    · subst h
      have hj : jsonChar toUpper (pre ++ '_' :: s) pre.length = none := by
        unfold jsonChar; rw [hr]; rfl
      rw [List.filterMap_cons_none hj, ← ih]
      simp [jsonLoop]
    · have hprev : (0 < pre.length ∧ (pre ++ r :: s)[pre.length - 1]? = some '_') ↔ pre.getLast? = some '_' := by
        rcases List.eq_nil_or_concat pre with rfl | ⟨q, d, rfl⟩
        · simp
        · simp
      have hj : jsonChar toUpper (pre ++ r :: s) pre.length
          = some (if pre.getLast? = some '_' then toUpper r else r) := by
        unfold jsonChar
        rw [hr]
        simp only [h, if_false]
        by_cases hp : pre.getLast? = some '_'
        · rw [if_pos (hprev.2 hp), if_pos hp]
        · rw [if_neg (fun hh => hp (hprev.1 hh)), if_neg hp]
      rw [List.filterMap_cons_some hj, ← ih]
      have hd : decide (some r = some '_') = false := by simp [h]
      rw [hd]
      conv => lhs; unfold jsonLoop
      simp only [if_neg h]
      by_cases hp : pre.getLast? = some '_'
      · simp [hp]
      · simp [hp]

/-- **C38**: the default JSON name is the name without underscores, in which exactly the characters
directly after an underscore are upper-cased, whatever `toUpper` does. -/
theorem C38_json_name (toUpper : Char → Char) (name : Str) :
    jsonName toUpper name = (List.range name.length).filterMap (jsonChar toUpper name) := by
  have := jsonLoop_eq toUpper [] name
  rw [List.range_eq_range']
  exact this

/-- **C38** (part): it contains no underscore. -/
theorem C38_no_underscore (toUpper : Char → Char) (hu : ∀ c, c ≠ '_' → toUpper c ≠ '_') (name : Str) :
    '_' ∉ jsonName toUpper name := by
  rw [C38_json_name]
  intro h
  obtain ⟨i, _, hi⟩ := List.mem_filterMap.1 h
  unfold jsonChar at hi
  split at hi
  · cases hi
  · split at hi
    · cases hi
    · rename_i hne
      split at hi
      · exact hu _ hne (Option.some.inj hi)
      · exact hne (Option.some.inj hi)

/-- **C38** (part): names without underscores are their own default. -/
theorem C38_identity (toUpper : Char → Char) (name : Str) (h : '_' ∉ name) : jsonName toUpper name = name := by
  unfold jsonName
  induction name with
  | nil => rfl
  | cons r s ih =>
    unfold jsonLoop
    have hr : r ≠ '_' := fun he => h (he ▸ List.mem_cons_self)
    rw [if_neg hr, if_neg (by simp),
      ih (fun hm => h (List.mem_cons_of_mem _ hm))]

/-- **C38** (part): a field other than an extension with a (non-empty) JSON name that is printed and
read back - the option if there is one, the default name otherwise - has the same JSON name, and the
option is printed only if necessary. -/
theorem C38_roundtrip (toUpper : Char → Char) (jsn name : Str) (h : jsn ≠ []) :
    (jsonOption toUpper false jsn name).getD (jsonName toUpper name) = jsn ∧
    (jsonOption toUpper false jsn name = none ↔ jsonName toUpper name = jsn) := by
  unfold jsonOption
  by_cases he : jsn = jsonName toUpper name
  · rw [if_neg (by simp [he])]
    exact ⟨he.symm, iff_of_true rfl he.symm⟩
  · rw [if_pos ⟨rfl, h, he⟩]
    exact ⟨rfl, iff_of_false (by simp) (fun hh => he hh.symm)⟩

example : jsonName Char.toUpper "foo_bar__baz_1_".toList = "fooBarBaz1".toList := by decide

end Verif.PrefixList
