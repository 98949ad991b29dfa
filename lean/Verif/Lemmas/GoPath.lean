import Verif.Model.GoPath
import Verif.Spec.GoPath
import Verif.Lemmas.FindFile
/-!
# Lemmas about paths
-/
namespace Verif.GoPath

open Verif.FindFile

theorem split_some (a b : Str) (h : '/' ∉ b) : split (a ++ '/' :: b) = (a ++ ['/'], b) := by
  unfold split
  rw [lastIndexChar_append _ _ _ h]
  simp only []
  have e : a ++ '/' :: b = (a ++ ['/']) ++ b := by simp
  rw [e, show a.length + 1 = (a ++ ['/']).length by simp, List.take_left, List.drop_left]

theorem split_none (b : Str) (h : '/' ∉ b) : split b = ([], b) := by
  unfold split
  rw [lastIndexChar_none _ _ h]

theorem lastIndexChar_none' (c : Char) (b : Str) (h : lastIndexChar c b = none) : c ∉ b := by
  induction b with
  | nil => simp
  | cons x t ih =>
    simp only [lastIndexChar] at h
    cases ht : lastIndexChar c t with
    | some i => rw [ht] at h; simp at h
    | none =>
      rw [ht] at h
      simp only [] at h
      split at h
      · simp at h
      · rename_i hne
        simp only [List.mem_cons, not_or]
        exact ⟨fun e => hne e.symm, ih ht⟩

/-- Every path without slash, or with a last slash. -/
theorem cases_slash (p : Str) : '/' ∉ p ∨ ∃ a b, p = a ++ '/' :: b ∧ '/' ∉ b := by
  cases h : lastIndexChar '/' p with
  | none => exact .inl (lastIndexChar_none' _ _ h)
  | some i =>
    obtain ⟨a, b, h1, -, h3⟩ := lastIndexChar_some _ _ _ h
    exact .inr ⟨a, b, h1, h3⟩

/-- Walking down names only. -/
theorem walk_mem (l : List Str) : ∀ (d : List Str), (∀ x ∈ d, plain x) →
    ∀ x ∈ walk d l, plain x ∧ (x ∈ d ∨ x ∈ l) := by
  induction l with
  | nil => intro d hd x hx; exact ⟨hd x hx, .inl hx⟩
  | cons part rest ih =>
    intro d hd x hx
    rw [walk_cons] at hx
    split at hx
    · rcases ih d hd x hx with ⟨h1, h2 | h2⟩
      · exact ⟨h1, .inl h2⟩
      · exact ⟨h1, .inr (by simp [h2])⟩
    · rename_i hn
      split at hx
      · rcases ih d.dropLast (fun y hy => hd y (List.dropLast_subset _ hy)) x hx with ⟨h1, h2 | h2⟩
        · exact ⟨h1, .inl (List.dropLast_subset _ h2)⟩
        · exact ⟨h1, .inr (by simp [h2])⟩
      · rename_i hn2
        have hp : plain part := ⟨fun e => hn (.inl e), fun e => hn (.inr e), hn2⟩
        rcases ih (d ++ [part]) (fun y hy => by
            rcases List.mem_append.1 hy with hy | hy
            · exact hd y hy
            · simp only [List.mem_singleton] at hy; exact hy ▸ hp) x hx with ⟨h1, h2 | h2⟩
        · rcases List.mem_append.1 h2 with h2 | h2
          · exact ⟨h1, .inl h2⟩
          · simp only [List.mem_singleton] at h2
            exact ⟨h1, .inr (by simp [h2])⟩
        · exact ⟨h1, .inr (by simp [h2])⟩

theorem place_names (p : Str) : ∀ x ∈ place p, Name x := by
  intro x hx
  obtain ⟨h1, h2⟩ := walk_mem (splitOn '/' p) [] (by simp) x hx
  exact ⟨h1, splitOn_no_sep _ _ x (by simpa using h2)⟩

theorem place_pathOf (l : List Str) (h : ∀ x ∈ l, Name x) : place (pathOf l) = l := by
  unfold place pathOf
  have e : splitOn '/' ('/' :: joinWith '/' l) = [] :: splitOn '/' (joinWith '/' l) := by
    simp [splitOn]
  rw [e, walk_cons, if_pos (.inl rfl)]
  cases l with
  | nil => rfl
  | cons a t =>
    rw [splitOn_join _ _ (by simp) fun w hw => (h w hw).2, walk_plain _ _ fun w hw => (h w hw).1]
    simp

theorem clean_rooted (p : Str) (h : p.head? = some '/') : clean p = pathOf (place p) := by
  unfold clean
  rw [if_pos h, cleanAux_rooted _ _ (by simp)]
  rfl

theorem place_clean (p : Str) (h : p.head? = some '/') : place (clean p) = place p := by
  rw [clean_rooted p h, place_pathOf _ (place_names p)]

theorem place_snoc (a b : Str) : place (a ++ '/' :: b) = walk (place a) (splitOn '/' b) := by
  unfold place
  rw [splitOn_append, walk_append]

theorem place_append_name (a b : Str) (h : Name b) : place (a ++ '/' :: b) = place a ++ [b] := by
  rw [place_snoc, splitOn_of_no_sep _ _ h.2, walk_plain _ _ (by simpa using h.1)]

/-- The directory of an absolute path. -/
theorem dirOf_rooted (f : Str) (h : f.head? = some '/') : ∃ a b, f = a ++ '/' :: b ∧ '/' ∉ b ∧ dirOf f = pathOf (place a) := by
  rcases cases_slash f with h1 | ⟨a, b, rfl, hb⟩
  · cases f with
    | nil => simp at h
    | cons c t => simp at h; subst h; simp at h1
  · refine ⟨a, b, rfl, hb, ?_⟩
    unfold dirOf
    rw [split_some _ _ hb]
    have hh : (a ++ ['/']).head? = some '/' := by
      cases a with
      | nil => rfl
      | cons c t => simpa using h
    rw [clean_rooted _ hh]
    have : place (a ++ ['/']) = place a := by
      rw [show a ++ ['/'] = a ++ '/' :: [] by rfl, place_snoc]; rfl
    rw [this]

/-- Joining a place and a last part. -/
theorem join_pathOf (l : List Str) (hl : ∀ x ∈ l, Name x) (b : Str) (hb : b ≠ []) :
    join (pathOf l) b = pathOf (walk l (splitOn '/' b)) := by
  unfold join
  rw [if_neg (by simp [pathOf]), if_neg hb, clean_rooted _ (by simp [pathOf]), place_snoc, place_pathOf _ hl]

theorem join_pathOf_name (l : List Str) (hl : ∀ x ∈ l, Name x) (b : Str) (hb : Name b) :
    join (pathOf l) b = pathOf (l ++ [b]) := by
  rw [join_pathOf l hl b hb.1.1, splitOn_of_no_sep _ _ hb.2, walk_plain _ _ (by simpa using hb.1)]

theorem pathOf_inj {l m : List Str} (hl : ∀ x ∈ l, Name x) (hm : ∀ x ∈ m, Name x) (h : pathOf l = pathOf m) : l = m := by
  rw [← place_pathOf l hl, h, place_pathOf m hm]

/-- What `path.Base` gives. -/
theorem baseOf_cases (p : Str) : baseOf p = ['.'] ∨ baseOf p = ['/'] ∨ baseOf p = ['.', '.'] ∨ Name (baseOf p) := by
  unfold baseOf
  split
  · exact .inl rfl
  · generalize trimSlashes p = q
    have hq : '/' ∉ (split q).2 := by
      rcases cases_slash q with h | ⟨a, b, rfl, h⟩
      · rw [split_none _ h]; exact h
      · rw [split_some _ _ h]; exact h
    split
    · exact .inr (.inl rfl)
    · rename_i b hb
      by_cases h1 : (split q).2 = ['.']
      · exact .inl h1
      · by_cases h2 : (split q).2 = ['.', '.']
        · exact .inr (.inr (.inl h2))
        · exact .inr (.inr (.inr ⟨⟨fun e => hb (by rw [e]), h1, h2⟩, hq⟩))

theorem trimSlashes_name (a b : Str) (hb : Name b) : trimSlashes (a ++ b) = a ++ b := by
  unfold trimSlashes
  rcases List.eq_nil_or_concat b with rfl | ⟨i, c, hc⟩
  · exact absurd rfl hb.1.1
  · rw [List.concat_eq_append] at hc
    subst hc
    have hc : c ≠ '/' := fun e => hb.2 (by simp [e])
    have : (a ++ (i ++ [c])).reverse = c :: (i.reverse ++ a.reverse) := by simp
    rw [this, List.dropWhile_cons, if_neg (by simpa using hc)]
    simp

/-- The two parts of a path of a file in a directory. -/
theorem in_parts {k b p : Str} (h : In k b p) : dirOf p = k ∧ baseOf p = b := by
  obtain ⟨hb, ⟨hk, rfl⟩ | ⟨rfl, rfl⟩⟩ := h
  · have hbase : baseOf (k ++ '/' :: b) = b := by
      unfold baseOf
      rw [if_neg (by simp), show k ++ '/' :: b = (k ++ ['/']) ++ b by simp, trimSlashes_name _ _ hb]
      rw [show (k ++ ['/']) ++ b = k ++ '/' :: b by simp, split_some _ _ hb.2]
      simp only []
      split
      · exact absurd rfl hb.1.1
      · rfl
    refine ⟨?_, hbase⟩
    unfold dirOf
    rw [split_some _ _ hb.2]
    simp only []
    have hhead : (k ++ ['/']).head? ≠ some '/' := by
      cases k with
      | nil => exact absurd rfl (hk [] (by simp [splitOn])).1
      | cons c t =>
        intro e
        simp at e
        subst e
        exact (hk [] (by simp [splitOn])).1 rfl
    unfold clean
    rw [if_neg hhead, show k ++ ['/'] = k ++ '/' :: [] by rfl, splitOn_append]
    have e : cleanAux false [] (splitOn '/' k ++ splitOn '/' []) = splitOn '/' k := by
      have h2 : ∀ (l acc : List Str), (∀ part ∈ l, plain part) → cleanAux false acc (l ++ [[]]) = acc.reverse ++ l := by
        intro l
        induction l with
        | nil => intro acc _; simp [cleanAux]
        | cons part rest ih =>
          intro acc h
          obtain ⟨h1, h2, h3⟩ := h part (by simp)
          rw [List.cons_append, cleanAux.eq_def]
          simp only []
          rw [if_neg (by simp [h1, h2]), if_neg h3, ih _ fun x hx => h x (List.mem_cons_of_mem _ hx)]
          simp
      rw [show splitOn '/' ([] : Str) = [[]] from rfl, h2 _ _ hk]
      rfl
    rw [e]
    cases hs : splitOn '/' k with
    | nil => exact absurd hs (splitOn_ne_nil _ _)
    | cons a t =>
      simp only []
      rw [← hs, join_splitOn]
  · have hbase : baseOf p = p := by
      unfold baseOf
      rw [if_neg hb.1.1]
      have := trimSlashes_name [] p hb
      rw [List.nil_append] at this
      rw [this, split_none _ hb.2]
      simp only []
      split
      · exact absurd rfl hb.1.1
      · rfl
    refine ⟨?_, hbase⟩
    unfold dirOf
    rw [split_none _ hb.2]
    rfl

/-- A relative path of names is clean. -/
theorem clean_names (p : Str) (h : Names p) : clean p = p := by
  unfold clean
  have hh : p.head? ≠ some '/' := by
    intro h0
    cases p with
    | nil => simp at h0
    | cons c t =>
      simp only [List.head?_cons, Option.some.injEq] at h0
      subst h0
      exact (h [] (by simp [splitOn])).1 rfl
  rw [if_neg hh, FindFile.cleanAux_plain false [] _ h]
  simp only [List.reverse_nil, List.nil_append]
  have := join_splitOn '/' p
  split
  · rename_i h0
    exact absurd h0 (splitOn_ne_nil _ _)
  · exact this

/-- Joining a relative path of names and a name. -/
theorem join_names (k b : Str) (h : Names k) (hb : Name b) : join k b = k ++ '/' :: b := by
  unfold join
  have hk : k ≠ [] := by rintro rfl; exact (h [] (by simp [splitOn])).1 rfl
  rw [if_neg hk, if_neg hb.1.1, clean_names]
  intro part hp
  rw [splitOn_append, List.mem_append, splitOn_of_no_sep _ _ hb.2] at hp
  rcases hp with hp | hp
  · exact h part hp
  · simp only [List.mem_singleton] at hp
    rw [hp]; exact hb.1

theorem indexSub_none {p s : Str} (h : indexSub p s = none) : ∀ a b, s ≠ a ++ p ++ b := by
  induction s with
  | nil =>
    intro a b e
    have : p = [] := by
      have := (List.append_eq_nil_iff.1 e.symm).1
      exact (List.append_eq_nil_iff.1 this).2
    simp [indexSub, this] at h
  | cons c t ih =>
    intro a b e
    simp only [indexSub] at h
    split at h
    · simp at h
    · rename_i hp
      simp only [Option.map_eq_none_iff] at h
      cases a with
      | nil => exact hp (List.isPrefixOf_iff_prefix.2 ⟨b, by simpa using e.symm⟩)
      | cons x a =>
        simp only [List.cons_append, List.cons.injEq] at e
        exact ih h a b (by simpa using e.2)

theorem indexSub_first {p s : Str} {i : Nat} (h : indexSub p s = some i) : ∀ a b, s = a ++ p ++ b → i ≤ a.length := by
  induction s generalizing i with
  | nil =>
    intro a b e
    simp only [indexSub] at h
    split at h
    · simp at h; omega
    · simp at h
  | cons c t ih =>
    intro a b e
    simp only [indexSub] at h
    split at h
    · simp at h; omega
    · rename_i hp
      cases hi : indexSub p t with
      | none => rw [hi] at h; simp at h
      | some j =>
        rw [hi] at h
        simp only [Option.map_some, Option.some.injEq] at h
        subst h
        cases a with
        | nil => exact absurd (List.isPrefixOf_iff_prefix.2 ⟨b, by simpa using e.symm⟩) hp
        | cons x a =>
          simp only [List.cons_append, List.cons.injEq] at e
          have := ih hi a b (by simpa using e.2)
          simp only [List.length_cons]
          omega

end Verif.GoPath
