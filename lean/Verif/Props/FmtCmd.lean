import Verif.Lemmas.FmtCmd
import Verif.Props.FormatComments
import Mathlib.Algebra.Order.BigOperators.Group.Finset
import Mathlib.Data.Prod.Lex
import Mathlib.Order.WellFounded
/-!
# C102: the `fmt` command formats the files it is given

`Reach` are the states that the program can reach with any interleaving of its goroutines, `Final` the states in which it ends,
`wanted` the files that the command shall leave.
-/
namespace Verif.FmtCmd

variable {α E : Type} {zero : α} {fmt : List α → Result α E} {args : List Nat} {fs : Nat → Option (List α)} {write : Bool}

/-- C102: if no two arguments denote the same file, then at the end every file that can be formatted has its formatted content,
all others are unchanged, and there are no backups; the command succeeds exactly if all files could be formatted, and else
reports what is wrong with one of them. -/
theorem C102_files_partial (hn : args.Nodup) {s : St α E} (h : Reach zero fmt args (init write fs) s) (hf : Final args s) :
    (∀ i, s.files i = wanted fmt args fs i) ∧ (∀ k, k < args.length → s.backups k = none) ∧
      (s.err = none ↔ ∀ i ∈ args, failure fmt fs i = none) ∧ ∀ e, s.err = some e → ∃ i ∈ args, failure fmt fs i = some e := by
  have hi := inv_reach hn h
  have hg := group_reach h
  have hk : ∀ k (hk : k < args.length), s.files args[k] = (fs args[k]).map (formatted fmt) ∧ s.backups k = none ∧
      s.tasks k = .done (failure fmt fs args[k]) := by
    intro k hk
    obtain ⟨r, hr⟩ := hf k hk
    have := hi.each k args[k] (List.getElem?_eq_getElem hk)
    rw [hr] at this
    obtain ⟨h1, h2, h3⟩ := this
    refine ⟨h1, h2, hr.trans ?_⟩
    rw [h3]; rfl
  refine ⟨?_, fun k h => (hk k h).2.1, ⟨?_, ?_⟩, ?_⟩
  · intro i
    unfold wanted
    split
    · rename_i hm
      obtain ⟨k, h1, rfl⟩ := List.mem_iff_getElem.1 hm
      exact (hk k h1).1
    · exact hi.other i ‹_›
  · intro he i hm
    obtain ⟨k, h1, rfl⟩ := List.mem_iff_getElem.1 hm
    exact hg.none he k _ (hk k h1).2.2
  · intro hall
    cases he : s.err with
    | none => rfl
    | some e =>
      obtain ⟨k, h1, h2⟩ := hg.some e he
      have := (hk k h1).2.2.symm.trans h2
      rw [hall _ (List.getElem_mem h1)] at this
      cases this
  · intro e he
    obtain ⟨k, h1, h2⟩ := hg.some e he
    have := (hk k h1).2.2.symm.trans h2
    exact ⟨_, List.getElem_mem h1, Phase.done.inj this⟩

/-- C102: at each moment, for every argument the file has its old content or its new one, or there is a backup with the old
content; and no other file is changed. -/
theorem C102_safe_partial (hn : args.Nodup) {s : St α E} (h : Reach zero fmt args (init write fs) s) :
    (∀ k i c, args[k]? = some i → fs i = some c → s.files i = some c ∨ s.files i = some (formatted fmt c) ∨ s.backups k = some c) ∧
      ∀ i, i ∉ args → s.files i = fs i := by
  have hi := inv_reach hn h
  refine ⟨?_, hi.other⟩
  intro k i c ha hc
  have := hi.each k i ha
  rw [hc] at this
  cases hp : s.tasks k <;> rw [hp] at this
  case start => exact .inl this.1
  case stated => obtain ⟨_, _, _, h3, _⟩ := this; exact .inl h3
  case read => exact .inl this.2.2.1
  case waitBackup => exact .inl this.2.2.2.1
  case backup => exact .inl this.2.2.2.1
  case waitWrite => exact .inl this.2.2.2.1
  case opening => exact .inl this.2.2.2.1
  case writing => obtain ⟨h1, _, _, _, _, h6⟩ := this; exact .inr (.inr (h6.trans h1.symm))
  case removing => obtain ⟨h1, _, _, h6⟩ := this; exact .inr (.inr (h6.trans h1.symm))
  case done => exact .inr (.inl this.1)

/-- C102: the command does not hang: before the end a goroutine can continue, unless the program has panicked because of a
file for which the formatter panics. -/
theorem C102_progress (hn : args.Nodup) {s : St α E} (h : Reach zero fmt args (init write fs) s) :
    Final args s ∨ (∃ k s', step zero fmt args k s = some s') ∨ s.dead = true ∧ ∃ i ∈ args, ∃ c, fs i = some c ∧ fmt c = .panic := by
  have hdead : s.dead = true → ∃ i ∈ args, ∃ c, fs i = some c ∧ fmt c = .panic := by
    induction h with
    | refl => intro h; cases h
    | @step s s' k h hs ih =>
      intro hd
      obtain ⟨h0, i, ha, hk, hst⟩ := step_cases hs
      have hi := (inv_reach hn h).each k i ha
      unfold stepTask at hst
      cases hp : s.tasks k <;> rw [hp] at hst hi <;> simp only [Option.some.injEq, acquire, reduceCtorEq] at hst
      case read n o =>
        cases hfm : fmt o with
        | panic => exact ⟨i, List.mem_of_getElem? ha, o, hi.1, hfm⟩
        | ok new => rw [hfm] at hst; subst hst; simp [h0] at hd
        | error e => rw [hfm] at hst; subst hst; simp [h0, finish] at hd
      case start => subst hst; cases hf : s.files i <;> simp [hf, h0, finish] at hd
      case stated => subst hst; cases hf : s.files i <;> simp [hf, h0, finish] at hd
      case waitBackup => split at hst <;> cases hst; simp [h0] at hd
      case waitWrite => split at hst <;> cases hst; simp [h0] at hd
      case backup => subst hst; simp [h0, release] at hd
      case opening => subst hst; cases hf : s.files i <;> simp [hf, h0, finish, release] at hd
      case writing n o new m => subst hst; cases hf : new[m]? <;> simp [hf, h0] at hd
      case removing => subst hst; simp [h0, finish, release] at hd
  by_cases hd : s.dead = true
  · exact .inr (.inr ⟨hd, hdead hd⟩)
  by_cases hf : Final args s
  · exact .inl hf
  refine .inr (.inl ?_)
  have go : ∀ k (hk : k < args.length), step zero fmt args k s = stepTask zero fmt k args[k] s := by
    intro k hk
    unfold step
    rw [if_neg hd, List.getElem?_eq_getElem hk]
  -- a goroutine that is not done
  obtain ⟨k, hk, hnd⟩ : ∃ k, k < args.length ∧ ∀ r, s.tasks k ≠ .done r := by
    by_contra hc
    refine hf (fun k hk => ?_)
    by_contra hr
    exact hc ⟨k, hk, fun r e => hr ⟨r, e⟩⟩
  have hg := group_reach h
  by_cases hsem : s.sem = []
  · have hcap : s.sem.length < capacity := by rw [hsem]; decide
    refine ⟨k, ?_⟩
    rw [go k hk]
    unfold stepTask
    cases hp : s.tasks k <;> simp [acquire, hcap]
    exact absurd hp (hnd _)
  · obtain ⟨j, hj⟩ := List.exists_mem_of_ne_nil _ hsem
    have hh := hg.holds j hj
    have hjl : j < args.length := by
      by_contra hge
      have : s.tasks j = .start := by
        clear hdead hd hf go hnd hg hsem hj hh
        induction h with
        | refl => rfl
        | @step s s' k _ hs ih =>
          obtain ⟨_, i, _, hk, h⟩ := step_cases hs
          rw [(step_frame h).1 j (by omega)]
          exact ih
      rw [this] at hh; exact hh
    refine ⟨j, ?_⟩
    rw [go j hjl]
    unfold stepTask
    cases hp : s.tasks j <;> rw [hp] at hh <;> first | exact absurd hh id | simp

/-- The number of calls that a goroutine still makes, a write being one. -/
def Phase.left : Phase α E → Nat
  | .start => 9
  | .stated _ => 8
  | .read .. => 7
  | .waitBackup .. => 6
  | .backup .. => 5
  | .waitWrite .. => 4
  | .opening .. => 3
  | .writing .. => 2
  | .removing .. => 1
  | .done _ => 0

/-- The number of bytes that it still writes in the current write. -/
def Phase.bytes : Phase α E → Nat
  | .writing _ _ new k => new.length - k
  | _ => 0

theorem left_step {k i : Nat} {s s' : St α E} (h : stepTask zero fmt k i s = some s') :
    s'.dead = true ∨ s'.dead = s.dead ∧ (s'.tasks k).left < (s.tasks k).left ∨
      s'.dead = s.dead ∧ (s'.tasks k).left = (s.tasks k).left ∧ (s'.tasks k).bytes < (s.tasks k).bytes := by
  unfold stepTask at h
  cases hp : s.tasks k <;> rw [hp] at h <;> simp only [Option.some.injEq, acquire, reduceCtorEq] at h
  case read n o => subst h; cases fmt o <;> simp [finish, put, Phase.left]
  case start => subst h; cases hf : s.files i <;> simp [finish, put, Phase.left]
  case stated => subst h; cases hf : s.files i <;> simp [finish, put, Phase.left]
  case waitBackup => split at h <;> cases h; simp [put, Phase.left]
  case waitWrite => split at h <;> cases h; simp [put, Phase.left]
  case backup => subst h; simp [put, Phase.left, release]
  case opening => subst h; cases hf : s.files i <;> simp [finish, put, Phase.left, release]
  case writing n o new m =>
    subst h
    cases hf : new[m]? with
    | none => simp [put, Phase.left]
    | some b =>
      obtain ⟨hm, _⟩ := List.getElem?_eq_some_iff.1 hf
      right; right
      simp only [put_same, Phase.left, Phase.bytes, true_and]
      omega
  case removing => subst h; simp [finish, put, Phase.left, release]

/-- C102: the command ends: there is no infinite execution, also if arguments denote the same file. -/
theorem C102_ends : ¬ ∃ f : Nat → St α E, f 0 = init write fs ∧ ∀ n, ∃ k, step zero fmt args k (f n) = some (f (n + 1)) := by
  rintro ⟨f, _, hf⟩
  let m : St α E → Nat ×ₗ Nat ×ₗ Nat := fun s => toLex (if s.dead then 0 else 1,
    toLex (∑ k ∈ Finset.range args.length, (s.tasks k).left, ∑ k ∈ Finset.range args.length, (s.tasks k).bytes))
  have dec : ∀ n, m (f (n + 1)) < m (f n) := by
    intro n
    obtain ⟨k, hk⟩ := hf n
    obtain ⟨h0, i, _, hl, hs⟩ := step_cases hk
    obtain ⟨ht, _, _, _⟩ := step_frame hs
    have hmem : k ∈ Finset.range args.length := Finset.mem_range.2 hl
    rcases left_step hs with h1 | ⟨h1, h2⟩ | ⟨h1, h2, h3⟩
    · exact Prod.Lex.toLex_lt_toLex.2 (.inl (by simp [h0, h1]))
    · refine Prod.Lex.toLex_lt_toLex.2 (.inr ⟨by simp [h1], Prod.Lex.toLex_lt_toLex.2 (.inl ?_)⟩)
      show (∑ j ∈ Finset.range args.length, ((f (n + 1)).tasks j).left) < ∑ j ∈ Finset.range args.length, ((f n).tasks j).left
      refine Finset.sum_lt_sum (fun j _ => ?_) ⟨k, hmem, h2⟩
      by_cases e : j = k
      · subst e; exact h2.le
      · rw [ht j e]
    · refine Prod.Lex.toLex_lt_toLex.2 (.inr ⟨by simp [h1], Prod.Lex.toLex_lt_toLex.2 (.inr ⟨?_, ?_⟩)⟩)
      · show (∑ j ∈ Finset.range args.length, ((f (n + 1)).tasks j).left) = ∑ j ∈ Finset.range args.length, ((f n).tasks j).left
        refine Finset.sum_congr rfl (fun j _ => ?_)
        by_cases e : j = k
        · subst e; exact h2
        · rw [ht j e]
      · show (∑ j ∈ Finset.range args.length, ((f (n + 1)).tasks j).bytes) < ∑ j ∈ Finset.range args.length, ((f n).tasks j).bytes
        refine Finset.sum_lt_sum (fun j _ => ?_) ⟨k, hmem, h3⟩
        by_cases e : j = k
        · subst e; exact h3.le
        · rw [ht j e]
  obtain ⟨n, hn⟩ := WellFounded.not_rel_apply_succ (r := ((· < ·) : Nat ×ₗ Nat ×ₗ Nat → _ → Prop)) (fun n => m (f n))
  exact hn (dec n)

/-! ### With the formatter -/

open Verif.Formatter Verif.Lexer

/-- `Format` with the formatter of C70 and any parser. -/
def runFormat (parse : Str → Option Formatter.File) (cfg : Cfg) (c : Str) : Result Char Unit :=
  match parse c with
  | none => .error ()
  | some x => if (x.write cfg {}).stuck then .panic else .ok (format cfg x)

/-- C102: after the command, a file with a well-formed syntax tree has the same identifiers, numbers, literals and signs as its
tree, and, if its comments are at the places of C101, the same comments; and the formatter has not panicked for it. -/
theorem C102_program_partial {parse : Str → Option Formatter.File} {cfg : Cfg} {fs : Nat → Option Str} {zero : Char} (hn : args.Nodup)
    {s : St Char Unit} (h : Reach zero (runFormat parse cfg) args (init write fs) s) (hf : Final args s) {i : Nat} (hi : i ∈ args) {c : Str}
    (hc : fs i = some c) {x : Formatter.File} (hx : parse c = some x) (hok : FileOk x) :
    ∃ d, s.files i = some d ∧ (lex d).filter sig = (strs x.src).filter sig ∧ (x.Plain → said d = x.told) := by
  have h1 := (C102_files_partial hn h hf).1 i
  unfold wanted at h1
  rw [if_pos hi, hc, Option.map_some] at h1
  have : formatted (runFormat parse cfg) c = format cfg x := by
    unfold formatted runFormat
    rw [hx]
    simp only
    rw [if_neg (by rw [(C70_tokens_partial cfg x hok).2]; simp)]
  rw [this] at h1
  exact ⟨_, h1, C70_significant_partial cfg x hok, C101_comments_partial cfg x hok⟩

/-! ### Examples and violations -/

/-- Steps of the goroutines in the given order. -/
def runs (zero : α) (fmt : List α → Result α E) (args : List Nat) : List Nat → St α E → Option (St α E)
  | [], s => some s
  | k :: ks, s => (step zero fmt args k s).bind (runs zero fmt args ks)

theorem runs_reach {ks : List Nat} {s0 s s' : St α E} (h0 : Reach zero fmt args s0 s) (h : runs zero fmt args ks s = some s') :
    Reach zero fmt args s0 s' := by
  induction ks generalizing s with
  | nil => obtain rfl := Option.some.inj h; exact h0
  | cons k ks ih =>
    obtain ⟨t, h1, h2⟩ := Option.bind_eq_some_iff.1 h
    exact ih (.step k h0 h1) h2

namespace Demo

/-- A formatter that removes blanks; a text with `!` is not accepted, and it panics for one with `?`. -/
def strip (c : List Char) : Result Char Unit :=
  if '?' ∈ c then .panic else if '!' ∈ c then .error () else .ok (c.filter (· ≠ ' '))

def files : Nat → Option (List Char)
  | 0 => some ['a', ' ', 'b']
  | 1 => some ['c', '!']
  | 2 => some ['d', ' ', ' ', 'e']
  | 3 => some ['?']
  | _ => none

/-- Three files, one of them with an error, one step of each in turn. -/
def order : List Nat := [0, 1, 2, 0, 1, 2, 0, 1, 2, 0, 2, 0, 2, 0, 2, 0, 2, 0, 2, 0, 2, 0, 2, 0, 2]

example : ((runs ' ' strip [0, 1, 2] order (init true files)).map fun s => ((List.range 5).map s.files, s.err)) =
    some ([some ['a', 'b'], some ['c', '!'], some ['d', 'e'], some ['?'], none], some (.format ())) := by decide +kernel

/-- The end of this run meets the hypotheses of C102. -/
example : ∃ s : St Char Unit, Reach ' ' strip [0, 1, 2] (init true files) s ∧ Final [0, 1, 2] s ∧ [0, 1, 2].Nodup ∧
    s.files 0 = wanted strip [0, 1, 2] files 0 := by
  obtain ⟨s, hs⟩ := Option.isSome_iff_exists.1 (show (runs ' ' strip [0, 1, 2] order (init true files)).isSome = true by decide +kernel)
  have hd : ((runs ' ' strip [0, 1, 2] order (init true files)).map fun s => (List.range 3).map s.tasks) =
      some [.done none, .done (some (.format ())), .done none] := by decide +kernel
  rw [hs] at hd
  have hd : [s.tasks 0, s.tasks 1, s.tasks 2] = [.done none, .done (some (.format ())), .done none] := by simpa [List.range_succ] using hd
  have hf : Final [0, 1, 2] s := by
    intro k hk
    simp only [List.cons.injEq] at hd
    have hk : k < 3 := hk
    match k, hk with
    | 0, _ => exact ⟨_, hd.1⟩
    | 1, _ => exact ⟨_, hd.2.1⟩
    | 2, _ => exact ⟨_, hd.2.2.1⟩
  have hr := runs_reach .refl hs
  exact ⟨s, hr, hf, by decide, (C102_files_partial (by decide) hr hf).1 0⟩

end Demo

open Demo

/-- C102 is violated: if a file is given twice, one goroutine may read it while the other one is writing it, and the command
succeeds but the file has neither its old content nor the formatted one. -/
theorem C102_twice_violated : ∃ s : St Char Unit, Reach ' ' strip [0, 0] (init true files) s ∧ Final [0, 0] s ∧ s.err = none ∧
    files 0 = some ['a', ' ', 'b'] ∧ strip ['a', ' ', 'b'] = .ok ['a', 'b'] ∧ strip ['a', 'b'] = .ok ['a', 'b'] ∧ s.files 0 = some ['a', 'b', 'b'] := by
  let order := [0, 0, 0, 0, 0, 0, 0, 0, 0, 1, 1, 0, 0, 1, 1, 1, 1, 1, 1, 1, 1, 1, 1]
  have hx : ((runs ' ' strip [0, 0] order (init true files)).map fun s => (s.tasks 0, s.tasks 1, s.err, s.files 0)) =
      some (.done none, .done none, none, some ['a', 'b', 'b']) := by decide +kernel
  obtain ⟨s, hs, he⟩ := Option.map_eq_some_iff.1 hx
  simp only [Prod.mk.injEq] at he
  refine ⟨s, runs_reach .refl hs, ?_, he.2.2.1, rfl, by decide, by decide, he.2.2.2⟩
  intro k hk
  have hk : k < 2 := hk
  match k, hk with
  | 0, _ => exact ⟨_, he.1⟩
  | 1, _ => exact ⟨_, he.2.1⟩

/-- C102 is violated: without the flag `write`, whose description says that else the result goes to the standard output, the
file is overwritten and nothing is printed. -/
theorem C102_stdout_violated : ∃ s : St Char Unit, Reach ' ' strip [0] (init false files) s ∧ Final [0] s ∧ s.err = none ∧
    files 0 = some ['a', ' ', 'b'] ∧ s.files 0 = some ['a', 'b'] ∧ s.stdout = [] := by
  let order := List.replicate 11 0
  have hx : ((runs ' ' strip [0] order (init false files)).map fun s => (s.tasks 0, s.err, s.files 0, s.stdout)) =
      some (.done none, none, some ['a', 'b'], []) := by decide +kernel
  obtain ⟨s, hs, he⟩ := Option.map_eq_some_iff.1 hx
  simp only [Prod.mk.injEq] at he
  refine ⟨s, runs_reach .refl hs, ?_, he.2.1, rfl, he.2.2.1, he.2.2.2⟩
  intro k hk
  obtain rfl : k = 0 := by simpa using hk
  exact ⟨_, he.1⟩

/-- C102 is violated: if the formatter panics for one file, another file is left with neither its old content nor its new one. -/
theorem C102_panic_violated : ∃ s : St Char Unit, Reach ' ' strip [2, 3] (init true files) s ∧ s.dead = true ∧
    files 2 = some ['d', ' ', ' ', 'e'] ∧ strip ['d', ' ', ' ', 'e'] = .ok ['d', 'e'] ∧ s.files 2 = some ['d', 'e', ' ', 'e'] := by
  let order := [1, 1, 0, 0, 0, 0, 0, 0, 0, 0, 0, 1]
  have hx : ((runs ' ' strip [2, 3] order (init true files)).map fun s => (s.dead, s.files 2)) = some (true, some ['d', 'e', ' ', 'e']) := by
    decide +kernel
  obtain ⟨s, hs, he⟩ := Option.map_eq_some_iff.1 hx
  simp only [Prod.mk.injEq] at he
  exact ⟨s, runs_reach .refl hs, he.1, rfl, by decide, he.2⟩

end Verif.FmtCmd
