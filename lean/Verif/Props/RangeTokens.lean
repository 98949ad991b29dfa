import Verif.Lemmas.RangeTokens
import Verif.Lemmas.InlayHints
import Verif.Props.Inspect
import Mathlib.Tactic.ByContra
/-!
# C115: the semantic tokens of a range
-/
namespace Verif.RangeTokens

open Inspect
open InlayHints (Ordered OnToken tokenAt_on tokenAt_off rangeOffsets tokenAt)
open Documents (Pos)
open ImportComplete (mapperOffset)
open QuickFix (posAfter)

theorem rangeOffsets_eq {content a b x y : Str} (hc : content = a ++ x) (hc' : content = b ++ y) :
    rangeOffsets content (posAfter a, posAfter b) = (a.length, b.length) := by
  unfold rangeOffsets
  have h1 : mapperOffset content (posAfter a) = some a.length := by rw [hc]; exact ImportComplete.mapperOffset_posAfter a x
  have h2 : mapperOffset content (posAfter b) = some b.length := by rw [hc']; exact ImportComplete.mapperOffset_posAfter b y
  simp only [h1, h2]

theorem inText_iff {toks : List (Nat × Nat)} (ho : Ordered toks) {a b : Nat} (ha : OnToken toks a) (hb : OnToken toks b) {i : Nat}
    (hi : i < toks.length) : InText toks a b i ↔ tokenAt toks a ≤ i ∧ (i : Int) ≤ tokenAt toks b := by
  obtain ⟨k, s, hk, hs, hs1, hs2⟩ := tokenAt_on ha
  obtain ⟨l, t, hl, ht, ht1, ht2⟩ := tokenAt_on hb
  have gi : toks[i]? = some toks[i] := by simp [hi]
  have hw := ho.1 toks[i] (by simp)
  rw [hk, hl]
  constructor
  · rintro ⟨u, hu, h1, h2⟩
    constructor
    · by_contra h
      have := ho.lt hu hs (by omega)
      omega
    · by_contra h
      have := ho.lt ht hu (by omega)
      omega
  · rintro ⟨h1, h2⟩
    refine ⟨toks[i], gi, ?_, ?_⟩
    · rcases Nat.lt_or_ge i l with h | h
      · have := ho.lt gi ht h
        omega
      · have : i = l := by omega
        subst this
        rw [gi] at ht
        cases ht
        omega
    · rcases Nat.lt_or_ge k i with h | h
      · have := ho.lt hs gi h
        omega
      · have : i = k := by omega
        subst this
        rw [gi] at hs
        cases hs
        omega

theorem mem_tokensOf {os : List Out} {x : Nat × Typ × Mods} : x ∈ tokensOf os ↔ ∃ o ∈ os, ∃ l, o = .tok l x.2.1 x.2.2 ∧ x.1 ∈ l := by
  obtain ⟨i, t, m⟩ := x
  simp only [tokensOf, List.mem_flatMap]
  constructor
  · rintro ⟨o, ho, h⟩
    cases o with
    | tok l t' m' =>
      simp only [List.mem_map] at h
      obtain ⟨j, hj, e⟩ := h
      cases e
      exact ⟨_, ho, l, rfl, hj⟩
    | lead j => simp at h
    | trail j => simp at h
  · rintro ⟨o, ho, l, rfl, h⟩
    exact ⟨_, ho, by simpa using h⟩

theorem tokensOf_filter (lo hi : Int) (q : Nat → Bool) (hq : ∀ i, q i = true → lo ≤ (i : Int) ∧ (i : Int) ≤ hi) : ∀ os : List Out,
    (tokensOf (os.filter (touches lo hi))).filter (fun x => q x.1) = (tokensOf os).filter (fun x => q x.1)
  | [] => rfl
  | o :: os => by
    have ih := tokensOf_filter lo hi q hq os
    rw [List.filter_cons]
    split
    · rw [show o :: os = [o] ++ os from rfl, show o :: List.filter (touches lo hi) os = [o] ++ List.filter (touches lo hi) os from rfl,
        tokensOf_append, tokensOf_append, List.filter_append, List.filter_append, ih]
    · rename_i hn
      rw [show o :: os = [o] ++ os from rfl, tokensOf_append, List.filter_append, ih]
      have : (tokensOf [o]).filter (fun x => q x.1) = [] := by
        rw [List.filter_eq_nil_iff]
        intro x hx hqx
        obtain ⟨o', ho', l, rfl, hl⟩ := mem_tokensOf.1 hx
        simp only [List.mem_singleton] at ho'
        subst ho'
        exact hn (by simpa [touches, leaves] using ⟨x.1, hl, hq _ hqx⟩)
      rw [this, List.nil_append]

/-- **C115** (nothing new): what is answered for a range is part of what is answered for the whole document, in the same order; for every
document, every list of tokens and every range, also one that is not in the text. -/
theorem C115_within (content : Str) (toks : List (Nat × Nat)) (t : Tree) (rng : Pos × Pos) : (rangeTokens content toks t rng).Sublist (visit t) :=
  visitIn_sub _ _ t

/-- **C115** (nothing missing): if the range begins and ends on tokens, the answer has all tokens and comments of the leaves in the range, in
the order of the answer for the whole document. (Partial: the range must begin and end on tokens, see `C115_blank_violated`.) -/
theorem C115_complete_partial (content : Str) (toks : List (Nat × Nat)) (t : Tree) (a b x y : Str) (hc : content = a ++ x) (hc' : content = b ++ y)
    (ho : Ordered toks) (ha : OnToken toks a.length) (hb : OnToken toks b.length) (hs : (ids t).Pairwise (· < ·)) (hl : ∀ i ∈ ids t, i < toks.length) :
    ((rangeTokens content toks t (posAfter a, posAfter b)).filter fun o => (leaves o).any fun i => decide (InText toks a.length b.length i)) =
    (visit t).filter fun o => (leaves o).any fun i => decide (InText toks a.length b.length i) := by
  have h1 := visitIn_eq (tokenAt toks a.length) (tokenAt toks b.length) t (hs.imp Nat.le_of_lt)
  have h2 : ∀ o, (∀ i ∈ leaves o, i ∈ ids t) → (leaves o).any (fun i => decide (InText toks a.length b.length i)) =
      touches (tokenAt toks a.length) (tokenAt toks b.length) o := by
    intro o hsub
    rw [Bool.eq_iff_iff, touches, List.any_eq_true, List.any_eq_true]
    constructor
    · rintro ⟨i, hi, h⟩
      exact ⟨i, hi, by simpa using (inText_iff ho ha hb (hl i (hsub i hi))).1 (by simpa using h)⟩
    · rintro ⟨i, hi, h⟩
      exact ⟨i, hi, by simpa using (inText_iff ho ha hb (hl i (hsub i hi))).2 (by simpa using h)⟩
  have h3 := sub_visit t
  have h4 := visitIn_sub (tokenAt toks a.length) (tokenAt toks b.length) t
  unfold rangeTokens
  simp only [rangeOffsets_eq hc hc']
  rw [List.filter_congr (q := touches (tokenAt toks a.length) (tokenAt toks b.length)) (fun o h => h2 o (h3 o (h4.subset h)).2), h1]
  exact (List.filter_congr (fun o h => h2 o (h3 o h).2)).symm

/-- **C115** (tokens): in the range, exactly one token is answered for each leaf of a name, each keyword, number, string and operator, of the
right type, and none for punctuation. (Partial: as `C90_tokens_partial`, and the range must begin and end on tokens.) -/
theorem C115_tokens_partial (content : Str) (toks : List (Nat × Nat)) (t : Tree) (a b x y : Str) (hc : content = a ++ x) (hc' : content = b ++ y)
    (ho : Ordered toks) (ha : OnToken toks a.length) (hb : OnToken toks b.length) (hs : (ids t).Pairwise (· < ·)) (hl : ∀ i ∈ ids t, i < toks.length)
    (hf : Fine t) :
    ((tokensOf (rangeTokens content toks t (posAfter a, posAfter b))).filter fun p => decide (InText toks a.length b.length p.1)).Perm
      ((expected .none t).filter fun p => decide (InText toks a.length b.length p.1)) := by
  have h1 := visitIn_eq (tokenAt toks a.length) (tokenAt toks b.length) t (hs.imp Nat.le_of_lt)
  have hq : ∀ i, decide (InText toks a.length b.length i) = true → tokenAt toks a.length ≤ (i : Int) ∧ (i : Int) ≤ tokenAt toks b.length := by
    intro i hi
    have hi : InText toks a.length b.length i := by simpa using hi
    refine (inText_iff ho ha hb ?_).1 hi
    obtain ⟨s, hs, _⟩ := hi
    exact (List.getElem?_eq_some_iff.1 hs).1
  have h2 := tokensOf_filter _ _ (fun i => decide (InText toks a.length b.length i)) hq (visitIn (tokenAt toks a.length) (tokenAt toks b.length) t)
  have h3 := tokensOf_filter _ _ (fun i => decide (InText toks a.length b.length i)) hq (visit t)
  unfold rangeTokens
  simp only [rangeOffsets_eq hc hc']
  rw [← h2, h1, h3]
  exact (C90_tokens_partial t hf).filter _

/-- **C115** (whole document): a range from the first to the last token gets the answer for the whole document, without exception. -/
theorem C115_whole (content : Str) (toks : List (Nat × Nat)) (t : Tree) (a b x y : Str) (hc : content = a ++ x) (hc' : content = b ++ y)
    (ho : Ordered toks) (ha : OnToken toks a.length) (hb : OnToken toks b.length) (hs : (ids t).Pairwise (· < ·)) (hl : ∀ i ∈ ids t, i < toks.length)
    (hall : ∀ i ∈ ids t, InText toks a.length b.length i) :
    rangeTokens content toks t (posAfter a, posAfter b) = visit t := by
  have h := C115_complete_partial content toks t a b x y hc hc' ho ha hb hs hl
  have hw := C115_within content toks t (posAfter a, posAfter b)
  have hin : ∀ o ∈ visit t, (leaves o).any (fun i => decide (InText toks a.length b.length i)) = true := by
    intro o ho
    obtain ⟨i, hi⟩ := List.exists_mem_of_ne_nil _ (sub_visit t o ho).1
    exact List.any_eq_true.2 ⟨i, hi, by simpa using hall i ((sub_visit t o ho).2 i hi)⟩
  rw [List.filter_eq_self.2 hin, List.filter_eq_self.2 (fun o ho => hin o (hw.subset ho))] at h
  exact h

/-- **C115** (errors): a request is answered exactly if the text is well formed and there are a parse result with a syntax tree and a mapper;
the range does not matter for that, and what is answered is part of the answer for the whole document. -/
theorem C115_answered (d : Doc) (rng : Pos × Pos) :
    (∀ os, computeSemanticTokensRange d rng = some os → ∃ t, d.parsed = some (some t) ∧ os.Sublist (visit t)) ∧
    ((computeSemanticTokensRange d rng).isSome ↔ d.wellFormed = some true ∧ (∃ t, d.parsed = some (some t)) ∧ ∃ c, d.mapper = some c) := by
  obtain ⟨w, p, m, toks⟩ := d
  constructor
  · intro os h
    simp only [computeSemanticTokensRange, semanticTokensRange] at h
    split at h
    · cases h
    · split at h
      · cases h
      · split at h
        · cases h
        · split at h
          · cases h
          · split at h
            · cases h
            · rename_i t
              cases h
              exact ⟨t, rfl, C115_within _ _ _ _⟩
  · rcases w with _ | _ | _ <;> rcases p with _ | _ | _ <;> rcases m with _ | _ <;> simp [computeSemanticTokensRange, semanticTokensRange]

/-! ## Violations -/

theorem overlaps_neg (lo : Int) (L : List Nat) : overlaps lo (-1) L = false := by
  unfold overlaps
  split
  · simp only [decide_eq_false_iff_not]
    omega
  · rfl

theorem visitIn_neg (lo : Int) (t : Tree) : visitIn lo (-1) t = [] := by
  cases t <;> simp [visitIn, leafIn, nameIn, overlaps_neg]

/-- If the requested range ends on white space or at the end of the text, nothing at all is answered: the token there is `TokenError`, which
is less than every token. Editors ask for the visible lines, and lines end in white space. -/
theorem C115_blank_violated (content : Str) (toks : List (Nat × Nat)) (t : Tree) (rng : Pos × Pos)
    (hb : ¬ OnToken toks (rangeOffsets content rng).2) : rangeTokens content toks t rng = [] := by
  unfold rangeTokens
  simp only [tokenAt_off hb]
  exact visitIn_neg _ t

/-- A range that is not in the text (such as one that ends behind the last line) is no error; it is taken for the beginning of the text. -/
theorem C115_outside_violated (content : Str) (toks : List (Nat × Nat)) (t : Tree) (rng : Pos × Pos)
    (h : mapperOffset content rng.1 = none ∨ mapperOffset content rng.2 = none) :
    rangeTokens content toks t rng = rangeTokens content toks t (⟨0, 0⟩, ⟨0, 0⟩) := by
  have h0 : mapperOffset content ⟨0, 0⟩ = some 0 := ImportComplete.mapperOffset_posAfter [] content
  have h1 : rangeOffsets content rng = (0, 0) := by
    unfold rangeOffsets
    rcases h with h | h
    · rw [h]
    · rw [h]; cases mapperOffset content rng.1 <;> rfl
  have h2 : rangeOffsets content (⟨0, 0⟩, ⟨0, 0⟩) = (0, 0) := by
    unfold rangeOffsets
    simp only [h0]
  unfold rangeTokens
  simp only [h1, h2]

/-- The answer is not restricted to the range: with a declaration that touches the range come the tokens of its names, even if they do not
touch it. -/
theorem C115_excess_violated (lo hi : Nat) (m : Mods) (ty : Typ) (l : Leaf) (kids : List Tree) (h : l.id < lo) (hlo : lo ≤ hi)
    (hk : (idss kids).getLast? = some hi) :
    Out.tok [l.id] ty m ∈ visitIn lo hi (.node (.named (.whole ty m) (.ident l) :: kids)) ∧ touches lo hi (.tok [l.id] ty m) = false := by
  constructor
  · simp only [visitIn]
    have : overlaps lo hi (idss (.named (.whole ty m) (.ident l) :: kids)) = true := by
      have h2 : (l.id :: idss kids).getLast? = some hi := by
        rw [List.getLast?_cons, hk]; rfl
      simp only [overlaps, idss, ids, Name.ids, List.singleton_append, List.head?_cons, h2, decide_eq_true_eq]
      omega
    rw [if_pos this]
    simp [marks, Mark.tokens, Name.tokens, mktokens]
  · simp [touches, leaves]
    omega

/-! ## Examples -/

namespace Example

/-- `enum E {\n A = 0;\n}` -/
def content : Str := ['e', 'n', 'u', 'm', ' ', 'E', ' ', '{', '\n', ' ', 'A', ' ', '=', ' ', '0', ';', '\n', '}']

def toks : List (Nat × Nat) := [(0, 4), (5, 6), (7, 8), (10, 11), (12, 13), (14, 15), (15, 16), (17, 18)]

theorem ordered : Ordered toks := by
  constructor
  · decide
  · decide

/-- The range `A = 0`. -/
example : ((tokensOf (rangeTokens content toks exampleEnum (posAfter (content.take 10), posAfter (content.take 14)))).filter fun p =>
      decide (InText toks 10 14 p.1)).Perm ((expected .none exampleEnum).filter fun p => decide (InText toks 10 14 p.1)) :=
  C115_tokens_partial content toks exampleEnum (content.take 10) (content.take 14) (content.drop 10) (content.drop 14) (by decide) (by decide)
    ordered ⟨(10, 11), by decide, by decide⟩ ⟨(14, 15), by decide, by decide⟩ (by decide +kernel) (by decide +kernel)
    (by simp [exampleEnum, Fine, FineKids, Name.Plain, Leaf.Plain])

example : (expected .none exampleEnum).filter (fun p => decide (InText toks 10 14 p.1)) =
    [(3, .enumMember, .none), (4, .operator, .none), (5, .number, .none)] := by decide +kernel

/-- The whole text. -/
example : rangeTokens content toks exampleEnum (posAfter [], posAfter (content.take 17)) = visit exampleEnum :=
  C115_whole content toks exampleEnum [] (content.take 17) content (content.drop 17) (by decide) (by decide)
    ordered ⟨(0, 4), by decide, by decide⟩ ⟨(17, 18), by decide, by decide⟩ (by decide +kernel) (by decide +kernel) (by decide +kernel)

/-- A document that is answered. -/
example : (computeSemanticTokensRange ⟨some true, some (some exampleEnum), some content, toks⟩ (⟨0, 0⟩, ⟨2, 0⟩)).isSome :=
  (C115_answered _ _).2.2 ⟨rfl, ⟨_, rfl⟩, ⟨_, rfl⟩⟩

/-- The whole text, with its end: nothing. -/
example : rangeTokens content toks exampleEnum (⟨0, 0⟩, ⟨2, 1⟩) = [] :=
  C115_blank_violated content toks exampleEnum _ (by
    have h : rangeOffsets content (⟨0, 0⟩, ⟨2, 1⟩) = (0, 18) := by decide +kernel
    rw [h]
    rintro ⟨t, ht, h1, h2⟩
    revert h1 h2
    revert t
    decide)

/-- The range behind the text. -/
example : rangeTokens content toks exampleEnum (⟨0, 0⟩, ⟨9, 0⟩) = rangeTokens content toks exampleEnum (⟨0, 0⟩, ⟨0, 0⟩) :=
  C115_outside_violated _ _ _ _ (.inr (by decide +kernel))

/-- The range from `{` to the end: the name `E` is answered, too. -/
example : Out.tok [1] .class .none ∈ visitIn 2 3 (.node (.named (.whole .class .none) (.ident ⟨1, .ident ['E'] false⟩) ::
    [.leaf ⟨2, .rune '{' false⟩, .leaf ⟨3, .rune '}' false⟩])) :=
  (C115_excess_violated 2 3 _ _ _ _ (by decide) (by decide) rfl).1

end Example

end Verif.RangeTokens
