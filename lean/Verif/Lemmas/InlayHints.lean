import Verif.Spec.InlayHints
import Verif.Lemmas.OptionComplete
import Verif.Props.Links
/-!
# Lemmas about hints and links
-/
namespace Verif.InlayHints
open Verif.QuickFix (posAfter sourcePosAfter applyEdit Fits toPosition u32_small posAfter_append_line posAfter_le toPosition_sourcePosAfter)
open Verif.ImportComplete (adjustColumn adjust_eq applyEdit_replace)
open Verif.TokenCells (u32)

variable {L M : Type}

theorem Site.edit_eq (s : Site) (hq : s.q ≠ '\n') (hq' : s.q' ≠ '\n') (hf : Fits s.content) (p : Str) :
    applyEdit s.content (importEdit s.import p) = some (s.with p) := by
  have e : s.content = (s.above ++ [s.q]) ++ s.body ++ (s.q' :: s.rest) := by simp [Site.content, Site.literal]
  have hf1 : Fits (s.above ++ [s.q] ++ s.body ++ [s.q'] ++ s.rest) := by simpa [Site.content, Site.literal] using hf
  have h1 : adjustColumn (toPosition s.import.start) 1 = posAfter (s.above ++ [s.q]) := by
    show adjustColumn (toPosition (sourcePosAfter s.above)) 1 = _
    rw [toPosition_sourcePosAfter _ hf1.left.left.left.left]
    exact adjust_eq s.above [s.q] (by simpa using hq.symm) hf1.left.left.left
  have h2 : adjustColumn (toPosition s.import.stop) (-1) = posAfter (s.above ++ [s.q] ++ s.body) := by
    show adjustColumn (toPosition (sourcePosAfter (s.above ++ s.literal))) (-1) = _
    have hl : s.above ++ s.literal = s.above ++ [s.q] ++ s.body ++ [s.q'] := by simp [Site.literal]
    rw [hl, toPosition_sourcePosAfter _ hf1.left]
    exact OptionComplete.adjust_neg (s.above ++ [s.q] ++ s.body) [s.q'] (by simpa using hq'.symm) hf1.left
  unfold importEdit
  rw [h1, h2, e, applyEdit_replace]
  simp [Site.with]

theorem u32_line (a : Str) (h : Fits a) : u32 (((sourcePosAfter a).line : Int) - 1) = (posAfter a).line := by
  have := posAfter_le a
  unfold Fits at h
  show u32 ((((posAfter a).line + 1 : Nat) : Int) - 1) = _
  rw [show (((posAfter a).line + 1 : Nat) : Int) - 1 = ((posAfter a).line : Nat) by omega, u32_small _ (by omega)]

theorem Site.hint_pos (s : Site) (hq : s.q ≠ '\n') (hf : Fits s.content) :
    (⟨u32 ((s.import.start.line : Int) - 1), u32 s.import.start.col⟩ : Documents.Pos) = posAfter (s.above ++ [s.q]) := by
  have hf1 : Fits (s.above ++ ([s.q] ++ s.body ++ [s.q'] ++ s.rest)) := by simpa [Site.content, Site.literal] using hf
  rw [posAfter_append_line _ _ (by simpa using hq.symm)]
  show (⟨u32 (((sourcePosAfter s.above).line : Int) - 1), u32 (((posAfter s.above).char + 1 : Nat) : Int)⟩ : Documents.Pos) = _
  have := posAfter_le s.above
  have hf2 := hf1.left
  rw [u32_line _ hf2]
  unfold Fits at hf2
  rw [u32_small _ (by omega)]
  rfl

theorem Site.hint_behind (s : Site) (hq : s.q ≠ '\n') (hq' : s.q' ≠ '\n') (hb : '\n' ∉ s.body) (hf : Fits s.content) :
    (⟨u32 ((s.import.start.line : Int) - 1), u32 ((s.import.stop.col : Int) + 2)⟩ : Documents.Pos) =
      ⟨(posAfter (s.above ++ s.literal)).line, (posAfter (s.above ++ s.literal)).char + 3⟩ := by
  have hf1 : Fits (s.above ++ s.literal) := by
    have : Fits (s.above ++ s.literal ++ s.rest) := hf
    exact this.left
  show (⟨u32 (((sourcePosAfter s.above).line : Int) - 1), u32 ((((posAfter (s.above ++ s.literal)).char + 1 : Nat) : Int) + 2)⟩ : Documents.Pos) = _
  have := posAfter_le (s.above ++ s.literal)
  rw [u32_line _ hf1.left]
  unfold Fits at hf1
  rw [show (((posAfter (s.above ++ s.literal)).char + 1 : Nat) : Int) + 2 = (((posAfter (s.above ++ s.literal)).char + 3 : Nat) : Int) by omega,
    u32_small _ (by omega)]
  have hl : '\n' ∉ s.literal := by simp [Site.literal, hq.symm, hq'.symm, hb]
  rw [posAfter_append_line _ _ hl]

theorem Site.hintFor (s : Site) (hq : s.q ≠ '\n') (hq' : s.q' ≠ '\n') (hf : Fits s.content) (p : Str) :
    if p = s.path then importHint (L := L) s.import p = none
    else ∃ h, importHint (L := L) s.import p = some h ∧ HintFor s.content s p h ∧ h.location = none := by
  split
  · next he => unfold importHint; rw [if_neg]; simpa [Site.import] using he
  · next hne =>
    unfold importHint
    rw [if_pos (by simpa [Site.import] using hne)]
    by_cases hs : s.path <:+ p
    · rw [if_pos (by simpa [Site.import] using hs)]
      refine ⟨_, rfl, ⟨⟨_, rfl, s.edit_eq hq hq' hf p⟩, fun _ => ⟨s.hint_pos hq hf, ?_, rfl⟩, fun h => absurd hs h, rfl⟩, rfl⟩
      obtain ⟨t, rfl⟩ := hs
      show List.take ((t ++ s.path).length - s.path.length) (t ++ s.path) ++ s.path = _
      simp
    · rw [if_neg (by simpa [Site.import] using hs)]
      exact ⟨_, rfl, ⟨⟨_, rfl, s.edit_eq hq hq' hf p⟩, fun h => absurd h hs,
        fun _ => ⟨rfl, rfl, fun hb => s.hint_behind hq hq' hb hf⟩, rfl⟩, rfl⟩

theorem dependencies_eq {d : Str} {names paths deps : List Str} (hl : paths.length = names.length) (h : Deps d names paths deps) :
    (Links.request d names deps).1 = some paths := by
  unfold Links.request
  have key : (Links.dependencyPaths d names deps).1 = paths := by
    rcases Links.dependencyPaths_cases d names deps with ⟨e, hc⟩ | ⟨hn, a, b, he, ha, e⟩
    · rw [e]
      cases h with
      | plain _ => rfl
      | added a b hn hp ha => rcases hc with hc | hc
                              · exact absurd hc hn
                              · simp at hc
    · rw [e]
      cases h with
      | plain hc =>
        rcases hc with hc | hc
        · exact absurd hc hn
        · exact absurd (by rw [he]; simp) hc
      | added a' b' _ hp ha' =>
        subst hp
        have : a = a' ∧ b = b' := by
          clear e hl
          induction a generalizing a' with
          | nil =>
            cases a' with
            | nil => simp at he; exact ⟨rfl, he.symm⟩
            | cons x t => simp at he; exact absurd (by simp [he.1]) ha'
          | cons y u ih =>
            cases a' with
            | nil => simp at he; exact absurd (by simp [he.1]) ha
            | cons x t =>
              simp only [List.cons_append, List.cons.injEq] at he
              simp only [List.mem_cons, not_or] at ha ha'
              obtain ⟨h1, h2⟩ := ih ha.2 t ha'.2 he.2
              exact ⟨by rw [he.1, h1], h2⟩
        rw [this.1, this.2]
  simp only [key, Links.pathsFor]
  rw [if_pos (by omega), List.take_of_length_le (by omega)]

theorem withPaths_eq {d : Str} {imports : List Import} {paths deps : List Str} (sites : List Site)
    (hi : imports.filter (·.complete) = sites.map Site.import) (hl : paths.length = sites.length) (h : Deps d (sites.map (·.path)) paths deps) :
    withPaths d imports deps = some ((sites.map Site.import).zip paths) := by
  unfold withPaths
  simp only [hi, List.map_map]
  rw [show (fun x : Import => x.path) ∘ Site.import = (·.path) from rfl, dependencies_eq (by simp [hl]) h]
  rfl

theorem readPlain_append (q : Char) (p rest : Str) (h : q ∉ p ∧ '\\' ∉ p ∧ '\n' ∉ p) : readPlain q (p ++ q :: rest) = some (p, rest) := by
  induction p with
  | nil => simp [readPlain]
  | cons x t ih =>
    simp only [List.mem_cons, not_or] at h
    simp only [List.cons_append, readPlain]
    rw [if_neg (Ne.symm h.1.1), if_neg (by rintro (e | e); exact h.2.1.1 e.symm; exact h.2.2.1 e.symm), ih ⟨h.1.2, h.2.1.2, h.2.2.2⟩]
    rfl

/-! ## Tokens -/

theorem Ordered.lt {toks : List (Nat × Nat)} (h : Ordered toks) {i j : Nat} {s t : Nat × Nat} (hi : toks[i]? = some s) (hj : toks[j]? = some t)
    (hij : i < j) : s.2 ≤ t.1 := by
  rw [List.getElem?_eq_some_iff] at hi hj
  obtain ⟨hi', rfl⟩ := hi
  obtain ⟨hj', rfl⟩ := hj
  exact List.pairwise_iff_getElem.1 h.2 i j hi' hj' hij

theorem tokenAt_on {toks : List (Nat × Nat)} {o : Nat} (h : OnToken toks o) :
    ∃ (k : Nat) (t : Nat × Nat), tokenAt toks o = k ∧ toks[k]? = some t ∧ t.1 ≤ o ∧ o < t.2 := by
  unfold tokenAt
  cases hf : toks.findIdx? (fun t => decide (t.1 ≤ o ∧ o < t.2)) with
  | none =>
    obtain ⟨t, ht, h1⟩ := h
    rw [List.findIdx?_eq_none_iff] at hf
    have := hf t ht
    simp at this
    omega
  | some k =>
    rw [List.findIdx?_eq_some_iff_getElem] at hf
    obtain ⟨hk, h1, _⟩ := hf
    simp only [decide_eq_true_eq] at h1
    exact ⟨k, toks[k], rfl, by simp [hk], h1⟩

theorem tokenAt_off {toks : List (Nat × Nat)} {o : Nat} (h : ¬ OnToken toks o) : tokenAt toks o = -1 := by
  unfold tokenAt
  cases hf : toks.findIdx? (fun t => decide (t.1 ≤ o ∧ o < t.2)) with
  | none => rfl
  | some k =>
    rw [List.findIdx?_eq_some_iff_getElem] at hf
    obtain ⟨hk, h1, _⟩ := hf
    simp only [decide_eq_true_eq] at h1
    exact absurd ⟨toks[k], by simp, h1⟩ h

theorem touches_iff {toks : List (Nat × Nat)} (ho : Ordered toks) {a b : Nat} (ha : OnToken toks a) (hb : OnToken toks b) (r : Ref M)
    (hr : ∃ i j : Nat, r.first = i ∧ r.last = j ∧ i < toks.length ∧ j < toks.length) :
    Touches toks a b r ↔ ¬ (r.first > tokenAt toks b ∨ r.last < tokenAt toks a) := by
  obtain ⟨k, s, hk, hs, hs1, hs2⟩ := tokenAt_on ha
  obtain ⟨l, t, hl, ht, ht1, ht2⟩ := tokenAt_on hb
  obtain ⟨i, j, hi, hj, hi', hj'⟩ := hr
  have gi : toks[i]? = some toks[i] := by simp [hi']
  have gj : toks[j]? = some toks[j] := by simp [hj']
  rw [hk, hl, hi, hj]
  constructor
  · rintro ⟨i', j', u, v, hi2, hj2, hu, hv, h1, h2⟩
    have : i' = i := by rw [hi] at hi2; exact_mod_cast hi2.symm
    subst this
    have : j' = j := by rw [hj] at hj2; exact_mod_cast hj2.symm
    subst this
    rintro (h | h)
    · have := ho.lt ht hu (by exact_mod_cast h)
      omega
    · have := ho.lt hv hs (by exact_mod_cast h)
      omega
  · intro h
    rw [not_or] at h
    refine ⟨i, j, toks[i], toks[j], hi, hj, gi, gj, ?_, ?_⟩
    · rcases Nat.lt_or_ge i l with h1 | h1
      · have := ho.lt gi ht h1
        have := ho.1 toks[i] (by simp)
        omega
      · have : i = l := by omega
        subst this
        rw [gi] at ht
        cases ht
        exact ht1
    · rcases Nat.lt_or_ge k j with h1 | h1
      · have := ho.lt hs gj h1
        have := ho.1 toks[j] (by simp)
        omega
      · have : k = j := by omega
        subst this
        rw [gj] at hs
        cases hs
        exact hs2

end Verif.InlayHints
