import Verif.Spec.ValueComplete
import Verif.Lemmas.OptionComplete
import Verif.Lemmas.PathSearch
/-!
# Lemmas about the completion of values, fields and keywords
-/
namespace Verif.ValueComplete
open Verif.QuickFix (posAfter Fits offset_posAfter)
open Verif.ImportComplete (adjustColumn adjust_eq)
open Verif.OptionComplete (Place adjust_neg)
open Verif.Documents (Pos)

theorem hole_append (a b : Str) (h : '$' ∉ a) : hole (a ++ ['$', '{', '0', '}'] ++ b) = some (a, b) := by
  induction a with
  | nil => simp [hole]
  | cons c t ih =>
    simp only [List.mem_cons, not_or] at h
    have ih := ih h.2
    have hc : ¬ (['$', '{', '0', '}'] <+: c :: (t ++ ['$', '{', '0', '}'] ++ b)) := by
      rw [List.cons_prefix_cons]
      exact fun e => h.1 e.1
    rw [List.cons_append, List.cons_append, hole, if_neg hc, ih]
    rfl

/-- An insertion at the cursor. -/
theorem accept_insert (p : Place) (h : p.l = [] ∧ p.r = []) (it : Item) (t : Str) (he : it.edit = some ⟨p.cursor.pos, p.cursor.pos, t⟩) :
    accept p.content it = some (p.above ++ (parts it.snippet t).1, (parts it.snippet t).2 ++ p.rest) := by
  unfold accept
  rw [he]
  have e : p.content = p.above ++ p.rest := by simp [Place.content, h.1, h.2]
  have e' : p.cursor.pos = posAfter p.above := by simp [Place.cursor, h.1]
  simp only [e, e', offset_posAfter, List.take_left', List.drop_left']

/-- A replacement of the word at the cursor. -/
theorem accept_word (p : Place) (h : p.Ok) (w : Str) : row p.content (wordItem p.l p.r p.cursor.pos w) = replaced p w := by
  have hf : Fits (p.above ++ p.l ++ p.r ++ p.rest) := by simpa [Place.content] using h.fits
  unfold row replaced accept wordItem
  simp only [Place.cursor]
  rw [adjust_neg _ _ h.l hf.left.left, adjust_eq _ _ h.r hf.left]
  have e1 : Documents.offset p.content (posAfter p.above).line (posAfter p.above).char = some p.above.length := by
    rw [Place.content, List.append_assoc]
    exact offset_posAfter _ _
  have e2 : Documents.offset p.content (posAfter (p.above ++ p.l ++ p.r)).line (posAfter (p.above ++ p.l ++ p.r)).char =
      some (p.above ++ p.l ++ p.r).length := by
    rw [Place.content, ← List.append_assoc]
    exact offset_posAfter _ _
  rw [e1, e2]
  have e3 : p.content.take p.above.length = p.above := by
    rw [Place.content, List.append_assoc, List.take_left']
    rfl
  have e4 : p.content.drop (p.above ++ p.l ++ p.r).length = p.rest := by
    rw [Place.content, ← List.append_assoc, List.drop_left']
    rfl
  simp only [e3, e4, parts]
  rfl

theorem word_rows (p : Place) (h : p.Ok) (ws : List Str) :
    ((ws.filter fun k => p.l.isPrefixOf k).map (wordItem p.l p.r p.cursor.pos)).map (row p.content) =
      (ws.filter fun w => decide (p.l <+: w)).map (replaced p) := by
  rw [List.map_map]
  have e : (ws.filter fun k => p.l.isPrefixOf k) = ws.filter fun w => decide (p.l <+: w) := by
    apply List.filter_congr
    intro w _
    rw [Bool.eq_iff_iff]
    simp
  rw [e]
  apply List.map_congr_left
  intro w _
  exact accept_word p h w

theorem names_of_place (p : Place) :
    Completion.findPartialNames p.content p.above.length (p.above.length + (p.l ++ p.r).length) p.cursor.offset = (p.l, p.r) :=
  OptionComplete.findPartialNames_word p.above p.l p.r p.rest

/-! ## The descriptor of a message literal -/
open Verif.PathSearch

variable {D : Type}

theorem top_suffix {n : Node} {below : List (Entry D)} {d : Option D} {es : List (Entry D)} (h : PathSearch.top n below d = .stack es) :
    ∃ pre, es = pre ++ below := by
  cases d with
  | none => simp [PathSearch.top] at h
  | some d =>
    simp only [PathSearch.top, Climbed.stack.injEq] at h
    exact ⟨[⟨n, some d⟩], h.symm⟩

/-- The first loop only adds entries. -/
theorem climb_suffix (S : Schema D) : ∀ (path : List Node) (below es : List (Entry D)), climb S below path = .stack es → ∃ pre, es = pre ++ below
  | [], below, es, h => by
    simp only [climb, Climbed.stack.injEq] at h
    exact ⟨[], h.symm⟩
  | [_], below, es, h => by
    simp only [climb, Climbed.stack.injEq] at h
    exact ⟨[], h.symm⟩
  | n :: parent :: rest, below, es, h => by
    have push : ∀ es, climb S (⟨n, none⟩ :: below) (parent :: rest) = .stack es → ∃ pre, es = pre ++ below := by
      intro es h
      obtain ⟨pre, e⟩ := climb_suffix S (parent :: rest) _ es h
      exact ⟨pre ++ [⟨n, none⟩], by simp [e]⟩
    unfold climb at h
    simp only at h
    split at h
    · cases h
    · split at h
      · exact push _ h
      · exact top_suffix h
    · split at h
      · exact push _ h
      · exact top_suffix h
    · split at h
      · cases h
      · split at h
        · exact push _ h
        · split at h
          · simp only [Climbed.stack.injEq] at h
            exact ⟨[_], h.symm⟩
          · exact push _ h
    · split at h
      · exact push _ h
      · exact top_suffix h
    · exact top_suffix h
    · exact top_suffix h
    · split at h
      · cases h
      · split at h
        · exact top_suffix h
        · exact top_suffix h
        · cases h
    · exact push _ h

/-- The second loop gives a literal the descriptor of a message. -/
theorem step_literal (S : Schema D) (hT : Typed S) (hn prev want : Node) (hd d : D) (hw : want.shape = .messageLiteral)
    (h : step S hn hd prev want = .desc (some d)) : S.sort d = .message := by
  unfold step at h
  split at h
  · simp [stepFile, hw] at h
  · rename_i hs
    simp only [stepMessage, hw, Step.desc.injEq, Option.some.injEq] at h
    rw [← h]; exact hs
  · simp [stepExtension, hw] at h
  · simp only [stepField, hw, Step.desc.injEq] at h
    exact hT.message h
  · simp [stepEnum, hw] at h
  · simp [stepEnumValue, hw] at h
  · simp [stepService, hw] at h
  · simp [stepMethod, hw] at h
  · simp [stepOneof, hw] at h

theorem resolve_literal (S : Schema D) (hT : Typed S) (lit : Node) (hl : lit.shape = .messageLiteral) :
    ∀ (es above rs : List (Entry D)), resolve S above (es ++ [⟨lit, none⟩]) = .stack rs →
      ∃ d rest, rs = ⟨lit, some d⟩ :: rest ∧ S.sort d = .message
  | [], above, rs, h => by
    simp only [List.nil_append, resolve] at h
    split at h
    · split at h
      · rename_i d hs
        simp only [Resolved.stack.injEq] at h
        exact ⟨d, _, h.symm, step_literal S hT _ _ _ _ _ hl hs⟩
      all_goals cases h
    · cases h
  | e :: es, above, rs, h => by
    simp only [List.cons_append, resolve] at h
    split at h
    · exact resolve_literal S hT lit hl es _ rs h
    · split at h
      · split at h
        · exact resolve_literal S hT lit hl es _ rs h
        all_goals cases h
      · cases h

theorem search_literal (S : Schema D) (hT : Typed S) (file lit : Node) (ps : List Node) (hl : lit.shape = .messageLiteral) (d : D) (n : Nat)
    (h : search S file (lit :: ps).reverse = .found d n) : S.sort d = .message := by
  unfold search at h
  rw [if_neg (by simp), List.reverse_reverse] at h
  have hc : ∀ es, climb S [] (lit :: ps ++ [file]) = .stack es → ∃ pre, es = pre ++ [⟨lit, none⟩] := by
    intro es he
    obtain ⟨p, rest, hp⟩ : ∃ p rest, ps ++ [file] = p :: rest := by cases ps <;> exact ⟨_, _, rfl⟩
    rw [List.cons_append, hp] at he
    simp only [climb, hl] at he
    exact climb_suffix S _ _ _ he
  split at h
  · cases h
  · cases h
  · rename_i es hes
    obtain ⟨pre, hpre⟩ := hc es hes
    split at h
    · rename_i n' d' heq
      cases pre with
      | nil => simp at hpre
      | cons x t => simp at hpre
    · split at h
      · cases h
      · cases h
      · cases h
      · rename_i rs hr
        rw [hpre, ← List.cons_append] at hr
        obtain ⟨d', rest, e, hs⟩ := resolve_literal S hT lit hl _ _ _ hr
        subst e
        simp only [answer, Result.found.injEq] at h
        rw [← h.1]; exact hs

end Verif.ValueComplete
