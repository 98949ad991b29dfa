import Verif.Spec.Comment
import Verif.Util.Trim
/-!
Lemmas on block comments.
-/
namespace Verif.Comment

theorem respaced_refl (s : Str) : Respaced s s := by
  induction s with
  | nil => exact .nil
  | cons c s ih => exact .char c s s ih

theorem respaced_append (p a b : Str) (h : Respaced a b) : Respaced (p ++ a) (p ++ b) := by
  induction p with
  | nil => exact h
  | cons c p ih => exact .char c _ _ ih

theorem closes_cons (c : Char) (s : Str) (h : c ≠ '*') : closes (c :: s) = closes s := by
  cases s with
  | nil => rfl
  | cons d s => simp [closes, h]

theorem closes_star (d : Char) (s : Str) (h : d ≠ '/') : closes ('*' :: d :: s) = closes (d :: s) := by
  simp [closes, h]

theorem closes_blank (w s : Str) (hw : ∀ c ∈ w, isSpace c = true) : closes (w ++ s) = closes s := by
  induction w with
  | nil => rfl
  | cons c w ih =>
    have hc : c ≠ '*' := by
      intro h
      have := hw c List.mem_cons_self
      rw [h] at this
      revert this
      decide
    rw [List.cons_append, closes_cons _ _ hc]
    exact ih (fun d hd => hw d (List.mem_cons_of_mem _ hd))

theorem space_ne {c d : Char} (h : isSpace c = true) (hd : isSpace d = false) : c ≠ d := by
  rintro rfl
  rw [h] at hd
  cases hd

/-- The first characters of respaced texts. -/
theorem respaced_head {a b : Str} (h : Respaced a b) (x : Char) (hx : isSpace x = false) :
    a.head? = some x ↔ b.head? = some x := by
  cases h with
  | nil => exact Iff.rfl
  | char c a b _ => exact Iff.rfl
  | run w w' a b h1 h2 h3 h4 _ =>
    obtain ⟨c, w, rfl⟩ := List.exists_cons_of_ne_nil h1
    obtain ⟨c', w', rfl⟩ := List.exists_cons_of_ne_nil h2
    have e1 := space_ne (h3 c List.mem_cons_self) hx
    have e2 := space_ne (h4 c' List.mem_cons_self) hx
    simp [e1, e2]

theorem respaced_cons {c : Char} {a b : Str} (hc : isSpace c = false) (h : Respaced (c :: a) b) :
    ∃ b', b = c :: b' ∧ Respaced a b' := by
  generalize ha : c :: a = a' at h
  cases h with
  | nil => cases ha
  | char d a' b h =>
    obtain ⟨rfl, rfl⟩ := List.cons.inj ha
    exact ⟨b, rfl, h⟩
  | run w w' a' b h1 h2 h3 h4 _ =>
    obtain ⟨d, w, rfl⟩ := List.exists_cons_of_ne_nil h1
    rw [List.cons_append] at ha
    have := (List.cons.inj ha).1
    exact absurd this (space_ne (h3 d List.mem_cons_self) hc).symm

theorem respaced_nil {b : Str} (h : Respaced [] b) : b = [] := by
  generalize ha : ([] : Str) = a at h
  cases h with
  | nil => rfl
  | char d a b h => cases ha
  | run w w' a b h1 h2 h3 h4 _ =>
    obtain ⟨d, w, rfl⟩ := List.exists_cons_of_ne_nil h1
    cases ha

/-- Respacing does not move the end of a block comment. -/
theorem closes_respaced {a b : Str} (h : Respaced a b) :
    (closes a = none → closes b = none) ∧ ∀ r, closes a = some r → ∃ r', closes b = some r' ∧ Respaced r r' := by
  induction h with
  | nil => exact ⟨fun _ => rfl, (by intro r hr; cases hr)⟩
  | char c a b h ih =>
    by_cases hc : c = '*'
    · subst hc
      by_cases ha : a.head? = some '/'
      · obtain ⟨x, a1, rfl⟩ : ∃ x t, a = x :: t := by
          cases a with
          | nil => cases ha
          | cons x t => exact ⟨x, t, rfl⟩
        cases ha
        obtain ⟨b1, rfl, h'⟩ := respaced_cons (by decide) h
        have e : ∀ s, closes ('*' :: '/' :: s) = some s := fun s => by simp [closes]
        rw [e, e]
        refine ⟨(by intro hh; cases hh), ?_⟩
        intro r hr
        cases hr
        exact ⟨b1, rfl, h'⟩
      · have hb : b.head? ≠ some '/' := fun hb => ha ((respaced_head h '/' (by decide)).2 hb)
        have e : ∀ s : Str, s.head? ≠ some '/' → closes ('*' :: s) = closes s := by
          intro s hs
          cases s with
          | nil => rfl
          | cons d s => exact closes_star d s (fun hd => hs (by rw [hd]; rfl))
        rw [e a ha, e b hb]
        exact ih
    · rw [closes_cons _ _ hc, closes_cons _ _ hc]
      exact ih
  | run w w' a b _ _ h3 h4 _ ih =>
    rw [closes_blank _ _ h3, closes_blank _ _ h4]
    exact ih

theorem block_respaced {a b : Str} (h : Respaced a b) (ha : IsBlock a) : IsBlock b := by
  obtain ⟨r, rfl, hr⟩ := ha
  obtain ⟨b1, rfl, h1⟩ := respaced_cons (by decide) h
  obtain ⟨b2, rfl, h2⟩ := respaced_cons (by decide) h1
  obtain ⟨r', hr', hrr⟩ := (closes_respaced h2).2 [] hr
  rw [respaced_nil hrr] at hr'
  exact ⟨b2, rfl, hr'⟩

theorem closes_last (s r : Str) (h : closes s = some r) : ∃ p, s = p ++ '*' :: '/' :: r := by
  induction s with
  | nil => cases h
  | cons c s ih =>
    cases s with
    | nil => cases h
    | cons d s =>
      simp only [closes] at h
      split at h
      · rename_i hcd
        cases h
        exact ⟨[], by rw [hcd.1, hcd.2]; rfl⟩
      · obtain ⟨p, hp⟩ := ih h
        exact ⟨c :: p, by rw [hp]; rfl⟩

/-- A block comment starts and ends with characters that are not white space. -/
theorem block_trimmed (s : Str) (h : IsBlock s) : Trimmed s := by
  obtain ⟨r, rfl, hr⟩ := h
  obtain ⟨p, rfl⟩ := closes_last r [] hr
  refine ⟨?_, ?_⟩
  · intro c hc; cases hc; decide
  · intro c hc
    have : '/' :: '*' :: (p ++ ['*', '/']) = ('/' :: '*' :: (p ++ ['*'])) ++ ['/'] := by simp
    rw [this, List.getLast?_concat] at hc
    cases hc
    decide

/-- Joining trimmed lines with spaces instead of line breaks. -/
theorem respaced_lines (ls : List Str) (hne : ls ≠ [])
    (hlast : ∀ l, ls.getLast? = some l → ∀ c, l.getLast? = some c → isSpace c = false) :
    ∀ w w', w ≠ [] → w' ≠ [] → Blank w → Blank w' →
      Respaced (w ++ joinWith '\n' ls) (w' ++ joinWith ' ' (ls.map trimSpace)) := by
  induction ls with
  | nil => exact absurd rfl hne
  | cons l ls ih =>
    intro w w' hw hw' hb hb'
    obtain ⟨v, v', h1, h2, h3, h4⟩ := trimSpace_split l
    cases ls with
    | nil =>
      simp only [joinWith, List.map_cons, List.map_nil]
      -- the last line does not end in white space
      have hv' : v' = [] := by
        rcases List.eq_nil_or_concat v' with h | ⟨p, c, rfl⟩
        · exact h
        · exfalso
          have := hlast l rfl c (by rw [h1, List.concat_eq_append, ← List.append_assoc, List.getLast?_concat])
          rw [h3 c (by simp)] at this
          cases this
      rw [hv', List.append_nil] at h1
      have : w ++ l = (w ++ v) ++ trimSpace l := by
        conv => lhs; rw [h1]
        rw [List.append_assoc]
      rw [this]
      exact .run _ _ _ _ (by simp [hw]) hw' (blank_append hb h2) hb' (respaced_refl _)
    | cons m ms =>
      have ih' := ih (by simp) (fun l hl => hlast l (by rw [List.getLast?_cons_cons]; exact hl))
      rw [joinWith_cons '\n' l (m :: ms) (by simp), List.map_cons, joinWith_cons ' ' _ _ (by simp)]
      have hnl : Blank ['\n'] := by intro c hc; rw [List.mem_singleton.1 hc]; decide
      have hsp : Blank [' '] := by intro c hc; rw [List.mem_singleton.1 hc]; decide
      by_cases ht : trimSpace l = []
      · rw [ht, List.append_nil] at h1
        have e1 : w ++ (l ++ '\n' :: joinWith '\n' (m :: ms)) = (w ++ (v ++ v') ++ ['\n']) ++ joinWith '\n' (m :: ms) := by
          rw [h1]; simp
        have e2 : w' ++ (trimSpace l ++ ' ' :: joinWith ' ' ((m :: ms).map trimSpace)) =
            (w' ++ [' ']) ++ joinWith ' ' ((m :: ms).map trimSpace) := by
          rw [ht]; simp
        rw [e1, e2]
        exact ih' _ _ (by simp) (by simp) (blank_append (blank_append hb (blank_append h2 h3)) hnl) (blank_append hb' hsp)
      · have e1 : w ++ (l ++ '\n' :: joinWith '\n' (m :: ms)) =
            (w ++ v) ++ (trimSpace l ++ ((v' ++ ['\n']) ++ joinWith '\n' (m :: ms))) := by
          conv => lhs; rw [h1]
          simp
        have e2 : w' ++ (trimSpace l ++ ' ' :: joinWith ' ' ((m :: ms).map trimSpace)) =
            w' ++ (trimSpace l ++ ([' '] ++ joinWith ' ' ((m :: ms).map trimSpace))) := by simp
        rw [e1, e2]
        refine .run _ _ _ _ (by simp [hw]) hw' (blank_append hb h2) hb' (respaced_append _ _ _ ?_)
        exact ih' _ _ (by simp) (by simp) (blank_append h3 hnl) hsp

end Verif.Comment

namespace Verif.Comment

/-- Texts whose lines have the same content. -/
theorem respaced_lines2 (x y : Char) (hx : isSpace x = true) (hy : isSpace y = true) (ls : List Str) :
    ∀ (ms : List Str), ls ≠ [] → ls.map trimSpace = ms.map trimSpace →
    (∀ l, ls.getLast? = some l → ∀ c, l.getLast? = some c → isSpace c = false) →
    (∀ l, ms.getLast? = some l → ∀ c, l.getLast? = some c → isSpace c = false) →
    ∀ w w', w ≠ [] → w' ≠ [] → Blank w → Blank w' → Respaced (w ++ joinWith x ls) (w' ++ joinWith y ms) := by
  have blank1 : ∀ c, isSpace c = true → Blank [c] := by
    intro c hc d hd; rw [List.mem_singleton.1 hd]; exact hc
  induction ls with
  | nil => intro ms h; exact absurd rfl h
  | cons l ls ih =>
    intro ms _ hms hl hm w w' hw hw' hb hb'
    cases ms with
    | nil => cases hms
    | cons m ms =>
      obtain ⟨e1, e2⟩ := List.cons.inj hms
      obtain ⟨v, v', h1, h2, h3, h4⟩ := trimSpace_split l
      obtain ⟨u, u', k1, k2, k3, k4⟩ := trimSpace_split m
      cases ls with
      | nil =>
        have hms' : ms = [] := by
          cases ms with
          | nil => rfl
          | cons a b => cases e2
        subst hms'
        simp only [joinWith]
        have noend : ∀ (a b c l : Str), l = a ++ b ++ c → Blank c → (∀ d, l.getLast? = some d → isSpace d = false) → c = [] := by
          intro a b c l hl hc hd
          rcases List.eq_nil_or_concat c with h | ⟨p, z, rfl⟩
          · exact h
          · exfalso
            have := hd z (by rw [hl, List.concat_eq_append, ← List.append_assoc, List.getLast?_concat])
            rw [hc z (by simp)] at this
            cases this
        have hv' := noend _ _ _ _ h1 h3 (hl l rfl)
        have hu' := noend _ _ _ _ k1 k3 (hm m rfl)
        rw [hv', List.append_nil] at h1
        rw [hu', List.append_nil] at k1
        have q1 : w ++ l = (w ++ v) ++ trimSpace l := by
          conv => lhs; rw [h1]
          rw [List.append_assoc]
        have q2 : w' ++ m = (w' ++ u) ++ trimSpace l := by
          rw [e1]
          conv => lhs; rw [k1]
          rw [List.append_assoc]
        rw [q1, q2]
        exact .run _ _ _ _ (by simp [hw]) (by simp [hw']) (blank_append hb h2) (blank_append hb' k2) (respaced_refl _)
      | cons l2 ls =>
        cases ms with
        | nil => cases e2
        | cons m2 ms =>
          have ih' := ih (m2 :: ms) (by simp) e2 (fun l hl' => hl l (by rw [List.getLast?_cons_cons]; exact hl'))
            (fun l hl' => hm l (by rw [List.getLast?_cons_cons]; exact hl'))
          rw [joinWith_cons x l _ (by simp), joinWith_cons y m _ (by simp)]
          by_cases ht : trimSpace l = []
          · have bl : Blank l := trimSpace_eq_nil.1 ht
            have bm : Blank m := trimSpace_eq_nil.1 (e1 ▸ ht)
            have q1 : w ++ (l ++ x :: joinWith x (l2 :: ls)) = (w ++ l ++ [x]) ++ joinWith x (l2 :: ls) := by simp
            have q2 : w' ++ (m ++ y :: joinWith y (m2 :: ms)) = (w' ++ m ++ [y]) ++ joinWith y (m2 :: ms) := by simp
            rw [q1, q2]
            exact ih' _ _ (by simp) (by simp) (blank_append (blank_append hb bl) (blank1 x hx))
              (blank_append (blank_append hb' bm) (blank1 y hy))
          · have q1 : w ++ (l ++ x :: joinWith x (l2 :: ls)) =
                (w ++ v) ++ (trimSpace l ++ ((v' ++ [x]) ++ joinWith x (l2 :: ls))) := by
              conv => lhs; rw [h1]
              simp
            have q2 : w' ++ (m ++ y :: joinWith y (m2 :: ms)) =
                (w' ++ u) ++ (trimSpace l ++ ((u' ++ [y]) ++ joinWith y (m2 :: ms))) := by
              rw [e1]
              conv => lhs; rw [k1]
              simp
            rw [q1, q2]
            refine .run _ _ _ _ (by simp [hw]) (by simp [hw']) (blank_append hb h2) (blank_append hb' k2)
              (respaced_append _ _ _ ?_)
            exact ih' _ _ (by simp) (by simp) (blank_append h3 (blank1 x hx)) (blank_append k3 (blank1 y hy))

end Verif.Comment
