import Verif.Spec.OptionComplete
import Verif.Lemmas.ImportComplete
/-!
# Lemmas about the completion of names
-/
namespace Verif.OptionComplete
open Verif.QuickFix (posAfter posAfter_append_line u32_small applyEdit Fits)
open Verif.ImportComplete (adjustColumn adjust_eq applyEdit_replace)
open Verif.Documents (Pos)

theorem adjust_neg (a s : Str) (hs : '\n' ∉ s) (hf : Fits (a ++ s)) : adjustColumn (posAfter (a ++ s)) (-(s.length : Int)) = posAfter a := by
  have h1 := QuickFix.posAfter_le (a ++ s)
  rw [posAfter_append_line _ _ hs] at h1 ⊢
  unfold Fits at hf
  unfold adjustColumn
  rw [show (((posAfter a).char + s.length : Nat) : Int) + -(s.length : Int) = ((posAfter a).char : Int) by omega, u32_small _ (by simp only [] at h1; omega)]

theorem _root_.Verif.QuickFix.Fits.left {a b : Str} (h : Fits (a ++ b)) : Fits a := by
  unfold Fits at h ⊢
  simp only [List.length_append] at h
  omega

/-- Replacing the text between two places of one line. -/
theorem replace_range (above l r rest : Str) (hl : '\n' ∉ l) (hr : '\n' ∉ r) (hf : Fits (above ++ l ++ (r ++ rest))) (new : Str) :
    applyEdit (above ++ l ++ (r ++ rest)) ⟨adjustColumn (posAfter (above ++ l)) (-(l.length : Int)), adjustColumn (posAfter (above ++ l)) r.length, new⟩ =
      some (above ++ new ++ rest) := by
  have hf' : Fits (above ++ l ++ r ++ rest) := by simpa using hf
  rw [adjust_neg _ _ hl hf.left, adjust_eq _ _ hr hf'.left]
  have := applyEdit_replace above (l ++ r) rest new
  rw [← this]
  simp

theorem adjust_adjust (a l₁ l₂ : Str) (h₁ : '\n' ∉ l₁) (h₂ : '\n' ∉ l₂) (hf : Fits (a ++ l₁ ++ l₂)) :
    adjustColumn (adjustColumn (posAfter (a ++ l₁ ++ l₂)) (-(l₂.length : Int))) (-(l₁.length : Int)) =
      adjustColumn (posAfter (a ++ (l₁ ++ l₂))) (-((l₁ ++ l₂).length : Int)) := by
  rw [adjust_neg _ _ h₂ hf, adjust_neg _ _ h₁ hf.left, adjust_neg _ _ (by simp [h₁, h₂]) (by simpa using hf)]

theorem adjust_adjust_right (a r₁ r₂ : Str) (h₁ : '\n' ∉ r₁) (h₂ : '\n' ∉ r₂) (hf : Fits (a ++ r₁ ++ r₂)) :
    adjustColumn (adjustColumn (posAfter a) r₁.length) r₂.length = adjustColumn (posAfter a) ((r₁ ++ r₂).length : Nat) := by
  rw [adjust_eq _ _ h₁ hf.left, adjust_eq _ _ h₂ hf, adjust_eq _ _ (by simp [h₁, h₂]) (by simpa using hf)]
  simp

theorem findPartialNames_word (above l r rest : Str) :
    Completion.findPartialNames (above ++ l ++ (r ++ rest)) above.length (above.length + (l ++ r).length) (above.length + l.length) = (l, r) := by
  unfold Completion.findPartialNames
  have e1 : (above ++ l ++ (r ++ rest)).drop above.length = l ++ (r ++ rest) := by rw [List.append_assoc]; simp
  have e2 : (above ++ l ++ (r ++ rest)).drop (above.length + l.length) = r ++ rest := by
    rw [← List.length_append]; simp
  refine Prod.ext ?_ ?_
  · simp only []
    split
    · rw [e1, List.length_append, show min (above.length + l.length) (above.length + (l.length + r.length)) - above.length = l.length by omega]
      simp
    · rename_i h
      exact (List.length_eq_zero_iff.1 (by omega)).symm
  · simp only []
    split
    · rw [show max above.length (above.length + l.length) = above.length + l.length by omega, e2, List.length_append,
        show above.length + (l.length + r.length) - (above.length + l.length) = r.length by omega]
      simp
    · rename_i h
      rw [List.length_append] at h
      exact (List.length_eq_zero_iff.1 (by omega)).symm

/-- The cursor before the name. -/
theorem findPartialNames_before (above m n rest : Str) (hm : m ≠ []) :
    Completion.findPartialNames (above ++ (m ++ (n ++ rest))) (above.length + m.length) (above.length + m.length + n.length) above.length = ([], n) := by
  unfold Completion.findPartialNames
  have : 0 < m.length := List.length_pos_iff.2 hm
  rw [if_neg (by omega), if_pos (by omega), show max (above.length + m.length) above.length = above.length + m.length by omega]
  have e : (above ++ (m ++ (n ++ rest))).drop (above.length + m.length) = n ++ rest := by
    rw [← List.append_assoc, ← List.length_append]; simp
  rw [e]
  simp

/-- The cursor behind the name. -/
theorem findPartialNames_behind (above n m rest : Str) :
    Completion.findPartialNames (above ++ (n ++ (m ++ rest))) above.length (above.length + n.length) (above.length + n.length + m.length) = (n, []) := by
  unfold Completion.findPartialNames
  rw [if_neg (show ¬ above.length + n.length + m.length < above.length + n.length by omega)]
  refine Prod.ext ?_ rfl
  simp only []
  split
  · rw [show min (above.length + n.length + m.length) (above.length + n.length) - above.length = n.length by omega]
    simp
  · exact (List.length_eq_zero_iff.1 (by omega)).symm

theorem offered_iff (l r : Str) (set : List Str) (f : Field) : offered l r set f = decide (Open l (l ++ r) set f) := by
  rw [Bool.eq_iff_iff, decide_eq_true_eq]
  unfold offered Open
  rw [Bool.and_eq_true, List.isPrefixOf_iff_prefix]
  refine and_congr_right fun _ => ?_
  by_cases h1 : f.name = l ++ r
  · have : ¬ (r = [] ∧ f.name ≠ l) := by
      rintro ⟨rfl, h⟩
      exact h (by simpa using h1)
    simp [h1]
  · simp [h1]
    cases hr : f.repeated <;> simp

theorem shown_iff (l : Str) (x : Ext) : (!(gogoproto.isPrefixOf x.fullName && !gogo.isPrefixOf l)) = decide (Shown l x) := by
  rw [Bool.eq_iff_iff, decide_eq_true_eq]
  have h1 : gogoproto.isPrefixOf x.fullName = true ↔ ['g', 'o', 'g', 'o', 'p', 'r', 'o', 't', 'o', '.'] <+: x.fullName := List.isPrefixOf_iff_prefix
  have h2 : gogo.isPrefixOf l = true ↔ ['g', 'o', 'g', 'o'] <+: l := List.isPrefixOf_iff_prefix
  unfold Shown
  rw [← h1, ← h2]
  cases gogoproto.isPrefixOf x.fullName <;> cases gogo.isPrefixOf l <;> simp

/-- The items of the fields. -/
theorem field_rows (p : Place) (h : p.Ok) (set : List Str) (fs : List Field) :
    ((fs.filter (offered p.l p.r set)).map (fieldItem p.l p.r p.cursor.pos)).map (row p.content) =
      (fs.filter fun f => decide (Open p.l (p.l ++ p.r) set f)).map fun f => (f.name, some (p.with f.name), decide (f.name = p.l ++ p.r), []) := by
  have e : offered p.l p.r set = fun f => decide (Open p.l (p.l ++ p.r) set f) := funext (offered_iff p.l p.r set)
  rw [e, List.map_map]
  apply List.map_congr_left
  intro f _
  show (f.name, accept p.content _, _, _) = _
  unfold accept
  have := replace_range p.above p.l p.r p.rest h.l h.r h.fits f.name
  unfold Place.content Place.with
  rw [show (fieldItem p.l p.r p.cursor.pos f).edit = ⟨adjustColumn (posAfter (p.above ++ p.l)) (-(p.l.length : Int)),
    adjustColumn (posAfter (p.above ++ p.l)) p.r.length, f.name⟩ from rfl, this]
  rfl

/-- The items of the extensions, given what accepting one does. -/
theorem ext_rows (content typed sfx : Str) (ref : Option Ref) (pos : Pos) (xs : List Ext) (f : Ext → Str)
    (hf : ∀ x, accept content (extItem typed sfx ref pos x) = some (f x)) :
    ((xs.filter fun x => !(gogoproto.isPrefixOf x.fullName && !gogo.isPrefixOf typed)).map (extItem typed sfx ref pos)).map (row content) =
      (xs.filter fun x => decide (Shown typed x)).map fun x => (inParens x.rel, some (f x), false, x.imp.toList) := by
  have e : (fun x : Ext => !(gogoproto.isPrefixOf x.fullName && !gogo.isPrefixOf typed)) = fun x => decide (Shown typed x) := funext (shown_iff typed)
  rw [e, List.map_map]
  apply List.map_congr_left
  intro x _
  show (_, accept content _, _, _) = _
  rw [hf]
  rfl

/-- Without a reference, parentheses are inserted. -/
theorem accept_new (p : Place) (h : p.Ok) (x : Ext) : accept p.content (extItem p.l p.r none p.cursor.pos x) = some (p.with (inParens x.rel)) := by
  have := replace_range p.above p.l p.r p.rest h.l h.r h.fits (inParens x.rel)
  unfold accept Place.content Place.with
  rw [← this]
  rfl

theorem accept_plain (p : Place) (h : p.Ok) (x : Ext) (b : Bool) :
    accept p.content (extItem p.l p.r (some ⟨b, none, none⟩) p.cursor.pos x) = some (p.with x.rel) := by
  have := replace_range p.above p.l p.r p.rest h.l h.r h.fits x.rel
  unfold accept Place.content Place.with
  rw [← this]
  show applyEdit _ ⟨_, _, [] ++ x.rel ++ []⟩ = _
  simp [Place.cursor, widen]

/-- The cursor in or beside a name in brackets of any kind. -/
theorem accept_paren (p : Place) (h : p.Ok) (n : Str) (o c : Char) (hn : p.l ++ p.r = o :: (n ++ [c])) (x : Ext) :
    let names := Completion.findPartialNames p.content (p.above.length + 1) (p.above.length + 1 + n.length) p.cursor.offset
    names.1 = (p.l.drop 1).take n.length ∧
      accept p.content (extItem names.1 names.2 (some (parenNode p.above n).ref) p.cursor.pos x) = some (p.with (inParens x.rel)) := by
  obtain ⟨above, l, r, rest⟩ := p
  have hl := h.l
  have hr := h.r
  have hfit := h.fits
  simp only [Place.content] at hl hr hfit hn ⊢
  have key := replace_range above l r rest hl hr hfit (inParens x.rel)
  have hposc : (posAfter (above ++ l)).char = (posAfter above).char + l.length := by rw [posAfter_append_line _ _ hl]
  cases l with
  | nil =>
    simp only [List.nil_append] at hn
    subst hn
    have e := findPartialNames_before above [o] n ([c] ++ rest) (by simp)
    have e' : Completion.findPartialNames (above ++ [] ++ (o :: (n ++ [c]) ++ rest)) (above.length + 1) (above.length + 1 + n.length)
        (Place.cursor ⟨above, [], o :: (n ++ [c]), rest⟩).offset = ([], n) := by
      rw [← e]
      simp [Place.cursor]
    rw [e']
    refine ⟨by simp, ?_⟩
    unfold accept Place.with
    rw [← key]
    have hn' : '\n' ∉ n := by simp at hr; exact hr.2.1
    have w : (extItem [] n (some (parenNode above n).ref) (Place.cursor ⟨above, [], o :: (n ++ [c]), rest⟩).pos x).edit =
        ⟨adjustColumn (posAfter (above ++ [])) 0, adjustColumn (adjustColumn (adjustColumn (posAfter (above ++ [])) n.length) 1) 1, inParens x.rel⟩ := by
      have h2 : ¬ (posAfter above).char + 1 + n.length < (posAfter above).char := by omega
      simp [extItem, parenNode, Place.cursor, widen, inParens, h2]
    rw [w]
    congr 2
    have hf' : Fits (above ++ (n ++ [o]) ++ [c] ++ rest) := by
      unfold Fits at hfit ⊢
      simp only [List.length_append, List.length_cons, List.length_nil] at hfit ⊢
      omega
    have ho : '\n' ∉ [o] := by simp at hr ⊢; exact hr.1
    have hc : '\n' ∉ [c] := by simp at hr ⊢; exact hr.2.2
    have hf3 : Fits (above ++ (n ++ [o]) ++ [c]) := hf'.left
    have q1 := adjust_adjust_right above n [o] hn' ho (by have := hf3.left; simpa using this)
    have q2 := adjust_adjust_right above (n ++ [o]) [c] (by simp at hn' ho ⊢; exact ⟨hn', ho⟩) hc hf3
    simp only [List.append_nil]
    rw [show (1 : Int) = (([o] : Str).length : Int) by simp, q1, show (([o] : Str).length : Int) = (([c] : Str).length : Int) by simp, q2]
    congr 1
    simp
    omega
  | cons o' l' =>
    rw [List.cons_append, List.cons.injEq] at hn
    obtain ⟨rfl, hn⟩ := hn
    have ho : '\n' ∉ [o'] := by simp at hl ⊢; exact hl.1
    have hl' : '\n' ∉ l' := by simp at hl; exact hl.2
    rcases List.eq_nil_or_concat r with rfl | ⟨r', c', rfl⟩
    · simp only [List.append_nil] at hn
      subst hn
      have e := findPartialNames_behind (above ++ [o']) n [c] rest
      have e' : Completion.findPartialNames (above ++ o' :: (n ++ [c]) ++ ([] ++ rest)) (above.length + 1) (above.length + 1 + n.length)
          (Place.cursor ⟨above, o' :: (n ++ [c]), [], rest⟩).offset = (n, []) := by
        rw [← e]
        simp [Place.cursor]
        congr 1
        omega
      rw [e']
      refine ⟨by simp, ?_⟩
      unfold accept Place.with
      rw [← key]
      have w : (extItem n [] (some (parenNode above n).ref) (Place.cursor ⟨above, o' :: (n ++ [c]), [], rest⟩).pos x).edit =
          ⟨adjustColumn (adjustColumn (adjustColumn (posAfter (above ++ o' :: (n ++ [c]))) (-(n.length : Int))) (-1)) (-1),
            adjustColumn (posAfter (above ++ o' :: (n ++ [c]))) 0, inParens x.rel⟩ := by
        have h1 : (posAfter above).char < (posAfter (above ++ o' :: (n ++ [c]))).char := by rw [hposc]; simp
        have h2 : (posAfter above).char + 1 + n.length < (posAfter (above ++ o' :: (n ++ [c]))).char := by rw [hposc]; simp; omega
        simp [extItem, parenNode, Place.cursor, widen, inParens, h1, h2]
      rw [w]
      congr 2
      have hn' : '\n' ∉ n := by simp at hl'; exact hl'.1
      have hc : '\n' ∉ [c] := by simp at hl' ⊢; exact hl'.2
      -- the position only depends on the number of columns
      have hch : posAfter (above ++ o' :: (n ++ [c])) = posAfter (above ++ [o'] ++ [c] ++ n) := by
        rw [posAfter_append_line _ _ hl, show above ++ [o'] ++ [c] ++ n = above ++ ([o'] ++ [c] ++ n) by simp,
          posAfter_append_line above ([o'] ++ [c] ++ n) (by simp at ho hc ⊢; exact ⟨ho, hc, hn'⟩)]
        simp
      have hf3 : Fits (above ++ [o'] ++ [c] ++ n) := by
        unfold Fits at hfit ⊢
        simp only [List.length_append, List.length_cons, List.length_nil] at hfit ⊢
        omega
      rw [hch, adjust_neg _ _ hn' hf3, show (-1 : Int) = -(([c] : Str).length : Int) by simp, adjust_neg _ _ hc hf3.left,
        show -(([c] : Str).length : Int) = -(([o'] : Str).length : Int) by simp, adjust_neg _ _ ho hf3.left.left, ← hch,
        adjust_neg _ _ hl hfit.left]
    · simp only [List.concat_eq_append, ← List.append_assoc] at hn
      have hn2 := List.append_inj' hn rfl
      obtain ⟨rfl, hc'⟩ := hn2
      simp only [List.concat_eq_append] at *
      have e := findPartialNames_word (above ++ [o']) l' r' ([c'] ++ rest)
      have e' : Completion.findPartialNames (above ++ o' :: l' ++ (r' ++ [c'] ++ rest)) (above.length + 1) (above.length + 1 + (l' ++ r').length)
          (Place.cursor ⟨above, o' :: l', r' ++ [c'], rest⟩).offset = (l', r') := by
        rw [← e]
        simp [Place.cursor]
        congr 1
        omega
      rw [e']
      refine ⟨by rw [List.drop_one, List.tail_cons, List.take_of_length_le (by simp)], ?_⟩
      unfold accept Place.with
      rw [← key]
      have hr' : '\n' ∉ r' := by simp at hr; exact hr.1
      have hc : '\n' ∉ [c'] := by simp at hr ⊢; exact hr.2
      have w : (extItem l' r' (some (parenNode above (l' ++ r')).ref) (Place.cursor ⟨above, o' :: l', r' ++ [c'], rest⟩).pos x).edit =
          ⟨adjustColumn (adjustColumn (posAfter (above ++ o' :: l')) (-(l'.length : Int))) (-1),
            adjustColumn (adjustColumn (posAfter (above ++ o' :: l')) r'.length) 1, inParens x.rel⟩ := by
        have h1 : (posAfter above).char < (posAfter (above ++ o' :: l')).char := by rw [hposc]; simp
        have h2 : ¬ (posAfter above).char + 1 + (l'.length + r'.length) < (posAfter (above ++ o' :: l')).char := by rw [hposc]; simp; omega
        simp [extItem, parenNode, Place.cursor, widen, inParens, h1, h2]
      rw [w]
      congr 2
      · have := adjust_adjust above [o'] l' ho hl' (by have := hfit.left; simpa using this)
        simpa using this
      · have hf4 : Fits (above ++ o' :: l' ++ r' ++ [c'] ++ rest) := by simpa using hfit
        have := adjust_adjust_right (above ++ o' :: l') r' [c'] hr' hc hf4.left
        simpa using this

end Verif.OptionComplete
