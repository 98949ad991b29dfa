import Verif.Spec.FormatDoc
import Verif.Lemmas.QuickFix
/-!
# Lemmas about formatting requests
-/
namespace Verif.FormatDoc

open Documents
open QuickFix hiding Edit

variable {T : Type}

theorem wellFormed_strict (ds : List Kind) : wellFormed true ds = true ↔ Kind.parseError ∉ ds ∧ Kind.extended false ∉ ds := by
  induction ds with
  | nil => simp [wellFormed]
  | cons k ds ih =>
    cases k with
    | parseError => simp [wellFormed]
    | extended b => cases b <;> simp [wellFormed, ih]
    | other => simp [wellFormed, ih]

theorem position_posAfter (a b : Str) : position (a ++ b) a.length = posAfter a := by
  induction a with
  | nil => cases b <;> rfl
  | cons c t ih =>
    simp only [List.cons_append, List.length_cons, position, ih]
    by_cases hc : c = '\n'
    · subst hc
      rw [if_pos rfl, posAfter_cons_nl]
    · rw [if_neg hc]
      by_cases h0 : t.count '\n' = 0
      · have h1 : (posAfter t).line = 0 := h0
        rw [if_pos h1]
        have h2 : (c :: t).count '\n' = 0 := by rw [List.count_cons]; simp [h0, hc]
        have h3 := posAfter_line0 _ h0
        have h4 := posAfter_line0 _ h2
        have h5 : (posAfter (c :: t)).line = 0 := h2
        cases hp : posAfter (c :: t) with
        | mk l k =>
          rw [hp] at h4 h5
          simp only [] at h4 h5
          rw [h3, h5, h4]
          simp
      · have h1 : (posAfter t).line ≠ 0 := h0
        rw [if_neg h1, posAfter_cons t hc h0]

theorem offset_position (text : Str) (n : Nat) (h : n ≤ text.length) :
    offset text (position text n).line (position text n).char = some n := by
  have e : text = text.take n ++ text.drop n := (List.take_append_drop n text).symm
  have hl : (text.take n).length = n := by rw [List.length_take]; omega
  have h1 := position_posAfter (text.take n) (text.drop n)
  rw [← e, hl] at h1
  have h2 := offset_posAfter (text.take n) (text.drop n)
  rw [← e, hl] at h2
  rw [h1]; exact h2

/-- The edits that the client receives are those of the difference. -/
theorem toEdits_fromDiff (text : Str) (es : List Edit) (h : ∀ e ∈ es, e.start ≤ text.length ∧ e.stop ≤ text.length) :
    ∃ cs, fromDiff text es = some cs ∧ toEdits text cs = some es := by
  induction es with
  | nil => exact ⟨[], rfl, rfl⟩
  | cons e es ih =>
    obtain ⟨cs, h1, h2⟩ := ih fun e' he => h e' (by simp [he])
    obtain ⟨ha, hb⟩ := h e (by simp)
    unfold fromDiff
    rw [if_pos ⟨ha, hb⟩, h1]
    refine ⟨_, rfl, ?_⟩
    simp only [toEdits, toEdit, offset_position text _ ha, offset_position text _ hb, h2]

theorem validate_bounds (len : Nat) : ∀ (es : List Edit) (last : Nat), validate len last es = true →
    ∀ e ∈ es, e.start ≤ len ∧ e.stop ≤ len := by
  intro es
  induction es with
  | nil => intro last _ e he; simp at he
  | cons a es ih =>
    intro last h e he
    simp only [validate, Bool.and_eq_true, decide_eq_true_eq] at h
    obtain ⟨⟨⟨h1, h2⟩, h3⟩, h4⟩ := h
    rcases List.mem_cons.1 he with rfl | he
    · omega
    · exact ih _ h4 e he

theorem apply_bounds {text out : Str} {es : List Edit} (h : apply text es = .ok out) :
    ∀ e ∈ es, e.start ≤ text.length ∧ e.stop ≤ text.length := by
  unfold apply at h
  simp only [] at h
  split at h
  · rename_i hv
    intro e he
    exact validate_bounds _ _ _ hv e ((isort_perm _ _).mem_iff.2 he)
  · cases h

/-- What the server knows about an open document is about its text. -/
def Fresh (parse : Parser T) (d : Doc T) : Prop :=
  ∀ text, d.overlay = some text → d.diags = (parse text).2 ∧ ∀ tree, (parse text).1 = some tree → d.tree = some tree

theorem fresh_compile (parse : Parser T) (d : Doc T) : Fresh parse (compile parse d) := by
  intro text h
  unfold compile at h ⊢
  cases hc : d.current with
  | none =>
    rw [hc] at h
    simp only [] at h
    simp [Doc.current, h] at hc
  | some t =>
    rw [hc] at h
    simp only [] at h
    simp only [Doc.current, h, Option.some_or, Option.some.injEq] at hc
    subst hc
    refine ⟨rfl, fun tree ht => ?_⟩
    simp [ht]

theorem fresh_step {parse : Parser T} {d d' : Doc T} {e : Event} (he : ∀ text, e ≠ .opened false text)
    (hs : step parse d e = some d') : Fresh parse d' := by
  cases e with
  | opened pb text =>
    cases pb with
    | false => exact absurd rfl (he text)
    | true =>
      simp only [step] at hs
      split at hs
      · cases hs
      · simp only [if_true, Option.some.injEq] at hs
        rw [← hs]; exact fresh_compile _ _
  | changed text =>
    simp only [step] at hs
    split at hs
    · simp only [Option.some.injEq] at hs
      rw [← hs]; exact fresh_compile _ _
    · cases hs
  | saved =>
    simp only [step] at hs
    split at hs
    · simp only [Option.some.injEq] at hs
      rw [← hs]; exact fresh_compile _ _
    · cases hs
  | closed =>
    simp only [step] at hs
    split at hs
    · simp only [Option.some.injEq] at hs
      rw [← hs]; intro text ht; simp at ht
    · cases hs
  | disk text =>
    simp only [step, Option.some.injEq] at hs
    rw [← hs]; exact fresh_compile _ _

theorem fresh_run {parse : Parser T} : ∀ (es : List Event) (d d' : Doc T), Fresh parse d → Protobuf es → run parse d es = some d' →
    Fresh parse d' := by
  intro es
  induction es with
  | nil => intro d d' h _ hr; cases hr; exact h
  | cons e es ih =>
    intro d d' h hp hr
    simp only [run] at hr
    cases hs : step parse d e with
    | none => rw [hs] at hr; cases hr
    | some d1 =>
      rw [hs] at hr
      exact ih d1 d' (fresh_step (fun text he => hp text (by simp [he])) hs) (fun text ht => hp text (by simp [ht])) hr

theorem compile_overlay (parse : Parser T) (d : Doc T) : (compile parse d).overlay = d.overlay := by
  unfold compile
  split <;> rfl

/-- The overlay is the text that the client shows. -/
theorem overlay_run {parse : Parser T} : ∀ (es : List Event) (d d' : Doc T), run parse d es = some d' →
    d'.overlay = showing d.overlay es := by
  intro es
  induction es with
  | nil => intro d d' hr; cases hr; rfl
  | cons e es ih =>
    intro d d' hr
    simp only [run] at hr
    cases hs : step parse d e with
    | none => rw [hs] at hr; cases hr
    | some d1 =>
      rw [hs] at hr
      rw [ih d1 d' hr]
      cases e with
      | opened pb text =>
        simp only [step] at hs
        split at hs
        · cases hs
        · split at hs <;> cases hs <;> simp [showing, compile_overlay]
      | changed text =>
        simp only [step] at hs
        split at hs <;> cases hs
        simp [showing, compile_overlay]
      | saved =>
        simp only [step] at hs
        split at hs <;> cases hs
        simp [showing, compile_overlay]
      | closed =>
        simp only [step] at hs
        split at hs <;> cases hs
        simp [showing]
      | disk text =>
        simp only [step] at hs
        cases hs
        simp [showing, compile_overlay]

theorem overlay_start {parse : Parser T} {disk : Option Str} {es : List Event} {d : Doc T} (hr : run parse (start parse disk) es = some d) :
    d.overlay = showing none es := by
  rw [overlay_run es _ _ hr]
  unfold start
  rw [compile_overlay]

/-- What a formatting request does with a text and a tree. -/
theorem format_sound {tools : Tools T} (hs : Sound tools) {d : Doc T} {text out : Str} {tree : T} (hw : wellFormed true d.diags = true)
    (hc : d.current = some text) (ht : d.tree = some tree) (hn : tools.nofmt tree = false) (hf : tools.format tree = some out) :
    ∃ cs, formatDocument tools d = .ok cs ∧ clientApply text cs = .ok out := by
  obtain ⟨cs, h1, h2⟩ := toEdits_fromDiff text (tools.diff text out) (apply_bounds (hs text out))
  refine ⟨cs, ?_, ?_⟩
  · unfold formatDocument
    simp [hw, hc, ht, hn, hf, h1]
  · unfold clientApply
    rw [h2]
    exact hs text out

end Verif.FormatDoc
