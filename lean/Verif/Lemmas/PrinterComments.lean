import Verif.Spec.PrintedComments
import Verif.Lemmas.PrinterLocal
import Verif.Lemmas.PrinterFile
import Verif.Props.CommentText
/-! The comments that the descriptor printer writes. -/
namespace Verif.Printer
open Verif.Lexer Verif.PrintWriter Verif.Decls Verif.Literal

/-! ### Lines in a text -/

theorem Framed.pre {ls : List Str} {x d : Str} (h : Framed ls x) (hd : ∀ y ∈ d, decor y = true) : Framed ls (d ++ x) := by
  cases h with
  | nil e he => exact .nil _ (fun y hy => (List.mem_append.1 hy).elim (hd y) (he y))
  | cons e ws t ws' ls r h1 h2 h3 h4 =>
    have := Framed.cons (d ++ e) ws t ws' ls r (fun y hy => (List.mem_append.1 hy).elim (hd y) (h1 y)) h2 h3 h4
    simpa using this

theorem Framed.append {ls ms : List Str} {x y : Str} (h : Framed ls x) (h2 : Framed ms y) : Framed (ls ++ ms) (x ++ y) := by
  induction h with
  | nil d hd => exact h2.pre hd
  | cons d ws t ws' ls r h1 h2 h3 _ ih =>
    have := Framed.cons d ws t ws' _ _ h1 h2 h3 ih
    simpa using this

theorem Framed.post {ls : List Str} {x d : Str} (h : Framed ls x) (hd : ∀ y ∈ d, decor y = true) : Framed ls (x ++ d) := by
  have := h.append (.nil d hd)
  rwa [List.append_nil] at this

theorem framed_line (l : Str) : Framed [l] l := by
  have := Framed.cons [] [] l [] [] [] (by simp) (by simp) (by simp) (.nil [] (by simp))
  simpa using this

theorem framed_empty : Framed [[]] [] := framed_line []

theorem lines_nil : lines [] = [[]] := by simp [lines, splitOn]


theorem blank_decor {x : Char} (h : blank x = true) : decor x = true := by
  unfold blank at h
  unfold decor
  simp only [Bool.or_eq_true, beq_iff_eq] at h ⊢
  tauto

/-- The last blank may be missing. -/
theorem Framed.unblank {ls : List Str} {x : Str} (h : Framed ls (x ++ [' '])) : Framed ls x := by
  generalize hy : x ++ [' '] = y at h
  induction h generalizing x with
  | nil d hd =>
    subst hy
    exact .nil _ (fun y hy => hd y (List.mem_append_left _ hy))
  | cons d ws t ws' ls r h1 h2 h3 h4 ih =>
    rcases List.eq_nil_or_concat r with hr | ⟨r0, z, hr⟩
    · subst hr
      rw [List.append_nil] at hy
      rcases List.eq_nil_or_concat t with ht | ⟨t0, z, ht⟩
      · subst ht
        rw [List.append_nil] at hy
        have := Framed.cons x ws [] ws' ls [] (fun y hy' => h1 y (hy ▸ List.mem_append_left _ hy')) h2 h3 h4
        simpa using this
      · rw [List.concat_eq_append] at ht
        subst ht
        rw [← List.append_assoc] at hy
        obtain ⟨e1, e2⟩ := List.append_inj' hy rfl
        have hz : z = ' ' := by simpa using e2.symm
        subst hz
        have := Framed.cons d ws t0 (' ' :: ws') ls [] h1 h2 (by
          intro y hy'
          rcases List.mem_cons.1 hy' with rfl | hy'
          · decide
          · exact h3 y hy') h4
        rw [e1]
        simpa using this
    · rw [List.concat_eq_append] at hr
      subst hr
      rw [← List.append_assoc] at hy
      obtain ⟨e1, e2⟩ := List.append_inj' hy rfl
      have hz : z = ' ' := by simpa using e2.symm
      subst hz
      rw [e1]
      exact Framed.cons d ws t ws' ls r0 h1 h2 h3 (ih rfl)

/-! ### Comments -/

theorem framed_commentLines {t x : Str} (h : Framed (PrintComment.commentLines t) x) : Framed (lines t) x := by
  unfold lines
  unfold PrintComment.commentLines at h
  generalize splitOn '\n' t = ls at h ⊢
  have h1 : Framed (PrintComment.dropFirst ls) x := by
    unfold PrintComment.dropLast at h
    by_cases hl : (PrintComment.dropFirst ls).getLast? = some []
    · rw [if_pos hl] at h
      obtain ⟨ys, hys⟩ := List.getLast?_eq_some_iff.1 hl
      rw [hys] at h ⊢
      rw [List.dropLast_concat] at h
      have := h.append framed_empty
      rwa [List.append_nil] at this
    · rwa [if_neg hl] at h
  cases ls with
  | nil => exact h1
  | cons l ls =>
    simp only [PrintComment.dropFirst] at h1
    by_cases hl : l = []
    · rw [if_pos hl] at h1
      subst hl
      have := framed_empty.append h1
      simpa using this
    · rwa [if_neg hl] at h1

theorem framed_spaced (l : Str) : Framed [l] (PrintComment.trimRight (PrintComment.spaced l)) := by
  obtain ⟨ws, h1, _, h3⟩ := PrintComment.rendered_spec l
  have hws : ∀ x ∈ ws, blank x = true := fun x hx => by rcases h1 x hx with h | h <;> subst h <;> decide
  generalize PrintComment.trimRight (PrintComment.spaced l) = out at h3
  by_cases hl : l = [] ∨ l.head? = some ' '
  · rw [if_pos hl] at h3
    have := Framed.cons [] [] out ws [] [] (by simp) (by simp) hws (.nil [] (by simp))
    rw [← h3]
    simpa using this
  · rw [if_neg hl] at h3
    cases out with
    | nil =>
      have hl2 : ∀ x ∈ l, blank x = true := fun x hx => hws x (by
        rw [List.nil_append] at h3; rw [h3]; exact List.mem_cons_of_mem _ hx)
      have := Framed.cons [] [] [] l [] [] (by simp) (by simp) hl2 (.nil [] (by simp))
      simpa using this
    | cons x out =>
      rw [List.cons_append] at h3
      injection h3 with e1 e2
      subst e1
      have := Framed.cons [' '] [] out ws [] [] (by simp; decide) (by simp) hws (.nil [] (by simp))
      rw [← e2]
      simpa using this

variable {c : Cfg} {si : SI}

theorem mem_indentText {cfg : PrintComment.Cfg} (hi : ∀ x ∈ cfg.indent, x = ' ' ∨ x = '\t') (n : Int) :
    ∀ x ∈ PrintComment.indentText cfg n, decor x = true := by
  intro x hx
  unfold PrintComment.indentText at hx
  obtain ⟨l, hl, hx⟩ := List.mem_flatten.1 hx
  rw [List.eq_of_mem_replicate hl] at hx
  rcases hi x hx with h | h <;> subst h <;> decide

theorem mem_maybeIndent {cfg : PrintComment.Cfg} (hi : ∀ x ∈ cfg.indent, x = ' ' ∨ x = '\t') (n : Int) (r : Bool) :
    ∀ x ∈ PrintComment.maybeIndent cfg n r, decor x = true := by
  unfold PrintComment.maybeIndent
  split
  · exact mem_indentText hi _
  · exact mem_indentText hi _

theorem mem_lead (cfg : PrintComment.Cfg) (ind : Int) (force : Bool) (ls : List Str) :
    ∀ x ∈ (PrintComment.lead cfg ind force ls).1, decor x = true := by
  intro x hx
  unfold PrintComment.lead at hx
  split at hx
  · split at hx
    · have : x = '\n' := by simpa using hx
      subst this; decide
    · simp only at hx
      split at hx
      · cases hx
      · have : x = ' ' := by simpa using hx
        subst this; decide
  · cases hx

theorem framed_flatMap {f : Str → Str} {ls : List Str} (h : ∀ l, Framed [l] (f l)) : Framed ls (ls.flatMap f) := by
  induction ls with
  | nil => exact .nil [] (by simp)
  | cons l ls ih => rw [List.flatMap_cons]; exact (h l).append ih

theorem framed_single {cfg : PrintComment.Cfg} (hi : ∀ x ∈ cfg.indent, x = ' ' ∨ x = '\t') (ind : Int) (req : Bool) (l : Str) :
    Framed [l] (PrintComment.single cfg ind req l) := by
  unfold PrintComment.single
  refine Framed.post ?_ (by simp; decide)
  refine (framed_spaced l).pre (d := PrintComment.maybeIndent cfg ind req ++ ['/', '/']) ?_
  intro y hy
  rcases List.mem_append.1 hy with hy | hy
  · exact mem_maybeIndent hi _ _ y hy
  · simp at hy; subst hy; decide

theorem framed_middle {cfg : PrintComment.Cfg} (hi : ∀ x ∈ cfg.indent, x = ' ' ∨ x = '\t') (ind : Int) (l : Str) :
    Framed [l] (PrintComment.middle cfg ind l) := by
  unfold PrintComment.middle
  refine Framed.post ?_ (by simp; decide)
  refine (framed_spaced l).pre (d := PrintComment.maybeIndent cfg ind true ++ [' ', '*']) ?_
  intro y hy
  rcases List.mem_append.1 hy with hy | hy
  · exact mem_maybeIndent hi _ _ y hy
  · simp at hy; rcases hy with rfl | rfl <;> decide

theorem framed_singles {cfg : PrintComment.Cfg} (hi : ∀ x ∈ cfg.indent, x = ' ' ∨ x = '\t') (ind : Int) (ls : List Str) :
    Framed ls (PrintComment.singles cfg ind ls) := by
  cases ls with
  | nil => exact .nil [] (by simp)
  | cons l ls => exact (framed_single hi ind false l).append (framed_flatMap fun l => framed_single hi ind true l)

theorem framed_multi {cfg : PrintComment.Cfg} (hi : ∀ x ∈ cfg.indent, x = ' ' ∨ x = '\t') (ind : Int) (ls : List Str) :
    Framed ls (PrintComment.multi cfg ind ls) := by
  unfold PrintComment.multi
  have h1 := (framed_flatMap (f := PrintComment.middle cfg ind) (ls := ls) fun l => framed_middle hi ind l).pre
    (d := PrintComment.maybeIndent cfg ind false ++ ['/', '*', '\n']) (by
      intro y hy
      rcases List.mem_append.1 hy with hy | hy
      · exact mem_maybeIndent hi _ _ y hy
      · simp at hy; rcases hy with rfl | rfl | rfl <;> decide)
  have h2 := h1.post (d := PrintComment.maybeIndent cfg ind true ++ [' ', '*', '/'] ++ (if ind ≥ 0 then ['\n'] else [])) (by
      intro y hy
      rcases List.mem_append.1 hy with hy | hy
      · rcases List.mem_append.1 hy with hy | hy
        · exact mem_maybeIndent hi _ _ y hy
        · simp at hy; rcases hy with rfl | rfl | rfl <;> decide
      · split at hy
        · simp at hy; subst hy; decide
        · cases hy)
  simpa using h2

/-- The text of a comment. -/
theorem framed_comment {cfg : PrintComment.Cfg} (hi : ∀ x ∈ cfg.indent, x = ' ' ∨ x = '\t') {t : Str} {ind : Int} {force : Bool} {x : Str} {b : Bool}
    (h : PrintComment.printComment cfg t ind force = .ok x b) : Framed (lines t) x := by
  refine framed_commentLines ?_
  unfold PrintComment.printComment at h
  split at h
  · rename_i h0
    subst h0
    cases h
    exact .nil [] (by simp)
  · simp only at h
    split at h
    · rename_i hl
      cases h
      rw [List.length_eq_zero_iff.1 hl]
      exact .nil [] (by simp)
    · generalize hc : PrintComment.commentLines t = ls at h
      have hlead := mem_lead cfg ind force ls
      generalize PrintComment.lead cfg ind force ls = pi at h hlead
      obtain ⟨pre, i2⟩ := pi
      simp only at h hlead
      split at h
      · cases h
      · rename_i c l _
        cases h
        have hp : ∀ y ∈ pre ++ PrintComment.indentText cfg i2 ++ ['/', '*'], decor y = true := by
          intro y hy
          rcases List.mem_append.1 hy with hy | hy
          · rcases List.mem_append.1 hy with hy | hy
            · exact hlead y hy
            · exact mem_indentText hi _ y hy
          · simp at hy; rcases hy with rfl | rfl <;> decide
        have hq : ∀ y ∈ (['*', '/'] ++ (if i2 ≥ 0 then ['\n'] else []) : Str), decor y = true := by
          intro y hy
          rcases List.mem_append.1 hy with hy | hy
          · simp at hy; rcases hy with rfl | rfl <;> decide
          · split at hy
            · simp at hy; subst hy; decide
            · cases hy
        have hline : Framed [c :: l] (if c = ' ' ∧ (c :: l).getLast? ≠ some ' ' then (c :: l) ++ [' '] else c :: l) := by
          split
          · exact (framed_line _).post (by simp; decide)
          · exact framed_line _
        have := (hline.pre hp).post hq
        simpa using this
      · cases h
        exact (framed_multi hi _ _).pre hlead
      · cases h
        exact (framed_singles hi _ _).pre hlead

/-! ### What functions write -/

/-- The function adds a text with the property. -/
structure Writes (g : W → W) (P : Str → Prop) : Prop where
  ex : ∀ w, ∃ x, (g w).w.out = w.w.out ++ x ∧ P x

theorem Writes.and {g : W → W} {P Q : Str → Prop} (h1 : Writes g P) (h2 : Writes g Q) : Writes g (fun x => P x ∧ Q x) := by
  constructor; intro w
  obtain ⟨x, e1, p1⟩ := h1.ex w
  obtain ⟨y, e2, p2⟩ := h2.ex w
  have : x = y := List.append_cancel_left (e1.symm.trans e2)
  subst this
  exact ⟨x, e1, p1, p2⟩

theorem Writes.imp {g : W → W} {P Q : Str → Prop} (h : Writes g P) (hi : ∀ x, P x → Q x) : Writes g Q := by
  constructor; intro w
  obtain ⟨x, e1, p1⟩ := h.ex w
  exact ⟨x, e1, hi x p1⟩

theorem Writes.comp {g h : W → W} {as bs : List Str} (h1 : Writes g (Framed as)) (h2 : Writes h (Framed bs)) :
    Writes (fun w => h (g w)) (Framed (as ++ bs)) := by
  constructor; intro w
  obtain ⟨x, e1, p1⟩ := h1.ex w
  obtain ⟨y, e2, p2⟩ := h2.ex (g w)
  exact ⟨x ++ y, by rw [e2, e1, List.append_assoc], p1.append p2⟩

/-- The tokens of what is written. -/
theorem writes_lex {g : W → W} {ts : List Str} {k : K} (hl : Local g) (he : Emits g .idle ts k) : Writes g (fun x => lex x = ts) := by
  constructor; intro w
  obtain ⟨⟨o, sp, n⟩, st⟩ := w
  obtain ⟨x, sp', n', q, h⟩ := hl.ex sp n
  refine ⟨x, by rw [h], ?_⟩
  have hg : Good .idle [] ⟨⟨[], sp, n⟩, false⟩ [] .idle := ⟨rfl, rfl, rfl, List.prefix_refl _⟩
  have := (hg.after he).lexed
  rw [h] at this
  exact this

theorem mem_pendingBlank {sp : Bool} {x y : Char} (h : y ∈ pendingBlank sp x) : y = ' ' := by
  unfold pendingBlank at h
  split at h
  · split at h
    · simpa using h
    · cases h
  · cases h

theorem writes_put {ls : List Str} {s : Str} (h : Framed ls s) : Writes (put s) (Framed ls) := by
  constructor; intro w
  cases s with
  | nil => exact ⟨[], by simp [put, write], h⟩
  | cons x s =>
    refine ⟨pendingBlank w.w.space x ++ (if decide ((x :: s).getLast? = some ' ') then (x :: s).dropLast else x :: s), ?_, ?_⟩
    · simp [put, write]
    · refine Framed.pre ?_ (fun y hy => by rw [mem_pendingBlank hy]; decide)
      by_cases hl : (x :: s).getLast? = some ' '
      · simp only [hl, decide_true, if_true]
        obtain ⟨ys, hys⟩ := List.getLast?_eq_some_iff.1 hl
        rw [hys] at h ⊢
        rw [List.dropLast_concat]
        exact h.unblank
      · simp only [hl, decide_false, Bool.false_eq_true, if_false]
        exact h

theorem writes_id : Writes (fun w => w) (Framed []) := ⟨fun w => ⟨[], by simp, .nil [] (by simp)⟩⟩
theorem writes_nl : Writes nl (Framed []) := writes_put (.nil _ (by simp; decide))
theorem writes_space : Writes (put [' ']) (Framed []) := writes_put (.nil _ (by simp; decide))
theorem writes_newLine (b : Bool) : Writes (newLine b) (Framed []) := by
  unfold newLine
  cases b
  · exact writes_nl
  · exact writes_id

theorem writes_comment (hi : IndentOk c) (t : Str) (ht : CommentOk t) (ind : Int) (force : Bool) :
    Writes (fun w => (comment c t ind force w).1) (Framed (lines t)) := by
  constructor; intro w
  show ∃ x, (comment c t ind force w).1.w.out = _ ∧ _
  unfold comment
  generalize hr : PrintComment.printComment _ t ind force = r
  cases r with
  | panic => exact absurd ((PrintComment.C34_no_crash_partial _ _ _ _).1 hr).1 ht
  | ok text b => exact (writes_put (framed_comment (fun x hx => hi x hx) hr)).ex w

/-- What follows may depend on the result. -/
theorem Writes.then {g : W → W × Bool} {k : Bool → W → W} {as bs : List Str} (h1 : Writes (fun w => (g w).1) (Framed as))
    (h2 : ∀ b, Writes (k b) (Framed bs)) : Writes (fun w => k (g w).2 (g w).1) (Framed (as ++ bs)) := by
  constructor; intro w
  obtain ⟨x, e1, p1⟩ := h1.ex w
  obtain ⟨y, e2, p2⟩ := (h2 (g w).2).ex (g w).1
  exact ⟨x ++ y, by rw [e2, e1, List.append_assoc], p1.append p2⟩

theorem Writes.ite {p : Prop} [Decidable p] {g h : W → W} {P : Str → Prop} (hg : Writes g P) (hh : Writes h P) :
    Writes (fun w => if p then g w else h w) P := by
  by_cases hp : p
  · simpa only [if_pos hp] using hg
  · simpa only [if_neg hp] using hh

theorem writes_detachedLoop (hi : IndentOk c) (ind : Int) (ts : List Str) (ht : ∀ t ∈ ts, CommentOk t) :
    Writes (detachedLoop c ind ts) (Framed (ts.flatMap lines)) := by
  induction ts with
  | nil => exact writes_id
  | cons t ts ih =>
    have h1 := (writes_comment hi t (ht t List.mem_cons_self) ind true).then (k := fun b w => afterDetached c ind (w, b)) (bs := []) fun b => by
      unfold afterDetached
      cases b
      · simp only [Bool.false_eq_true, if_false]
        refine Writes.ite writes_space ?_
        exact writes_nl.comp (writes_newLine _)
      · exact writes_newLine _
    rw [List.append_nil] at h1
    exact h1.comp (ih fun x hx => ht x (List.mem_cons_of_mem _ hx))

theorem writes_leading (hi : IndentOk c) {l : Loc} (hl : LocOk l) (ind : Int) :
    Writes (leadingComments c l ind) (Framed ((before c l).flatMap lines)) := by
  unfold before
  rw [List.flatMap_append]
  have h1 : Writes (fun w => if c.omitDetached then w else detachedLoop c ind l.detached w)
      (Framed ((if c.omitDetached then [] else l.detached).flatMap lines)) := by
    cases c.omitDetached
    · exact writes_detachedLoop hi ind l.detached hl.detached
    · exact writes_id
  refine h1.comp (h := leadingPart c l ind) ?_
  unfold leadingPart
  cases ho : c.omitLeading
  · simp only [Bool.false_or]
    cases he : l.leading with
    | nil => simpa [lines_nil] using writes_id.imp (Q := Framed [[]]) (fun x hx => by simpa using framed_empty.append hx)
    | cons x r =>
      rw [← he]
      simp only [he, List.isEmpty_cons, Bool.false_eq_true, if_false]
      rw [← he]
      have := (writes_comment hi l.leading hl.leading ind true).then (bs := [])
        (k := fun b w => if b = true then w else if ind ≥ 0 then nl w else put [' '] w)
        fun b => Writes.ite writes_id (Writes.ite writes_nl writes_space)
      simpa using this
  · simpa using writes_id

theorem writes_trailing (hi : IndentOk c) {l : Loc} (hl : LocOk l) (ind : Int) :
    Writes (fun w => (trailingComments c l ind w).1) (Framed ((after c l).flatMap lines)) := by
  unfold after trailingComments
  cases ho : c.omitTrailing
  · simp only [Bool.false_or]
    cases he : l.trailing with
    | nil => simpa [lines_nil] using writes_id.imp (Q := Framed [[]]) (fun x hx => by simpa using framed_empty.append hx)
    | cons x r =>
      simp only [List.isEmpty_cons, Bool.false_eq_true, if_false]
      rw [← he]
      have := (writes_comment hi l.trailing hl.trailing ind c.trailingSeparate).then (bs := [])
        (k := fun b w => (if b = false ∧ ind ≥ 0 then (nl w, true) else if ind < 0 then (put [' '] w, true) else (w, true)).1)
        fun b => by
          by_cases h1 : b = false ∧ ind ≥ 0
          · simp only [if_pos h1]; exact writes_nl
          · by_cases h2 : ind < 0
            · simp only [if_neg h1, if_pos h2]; exact writes_space
            · simp only [if_neg h1, if_neg h2]; exact writes_id
      simpa using this
  · simpa using writes_id

theorem writes_trailer (hi : IndentOk c) {l : Loc} (hl : LocOk l) (ind : Int) (want : Bool) :
    Writes (trailer c (some l) ind want) (Framed ((after c l).flatMap lines)) := by
  unfold trailer
  have := (writes_trailing (c := c) hi hl ind).then (bs := []) (g := trailingComments c l ind)
    (k := fun b w => if (b && want && !c.compactTrailing) = true then nl w else w) fun b => Writes.ite writes_nl writes_id
  rw [List.append_nil] at this
  exact this

end Verif.Printer
