import Verif.Model.Vet
import Verif.Spec.Vet
import Verif.Props.AllDiags
import Verif.Props.Driver

/-!
# C108: the command `vet`
-/
namespace Verif.Vet

open Documents (Res)
open Diagnostics (Path Severity)
open AllDiags (Uri Item Op Entry Reported ShownAsError Shows Unrelated)

/-- What is known if the command returns. -/
theorem vet_ok {w : World} {hist : List Op} {lines : List Driver.Message} {failed : Bool} (hd : Unrelated hist ∨ ∀ p, Op.clear p ∉ hist)
    (hperm : ∀ l, (w.order l).Perm l) (hinj : Distinct w hist) (h : vet w hist = .ok (lines, failed)) :
    ∃ wd m r, w.wd = some wd ∧ Driver.compile ⟨w.exists_, wd⟩ wd w.pathOf (sources w m) w.linked = .ok r ∧ r.messages = lines ∧
      r.error = failed ∧ (∀ p, Reported hist p → ∃ u, w.env.uriOf p = some u) ∧
      (∀ u items, (u, items) ∈ m → ∃ p, Reported hist p ∧ w.env.uriOf p = some u ∧ List.Forall₂ (Shows w.env) (AllDiags.entries p hist) items) ∧
      ∀ p u, Reported hist p → w.env.uriOf p = some u →
        ∃ items, (u, items) ∈ m ∧ List.Forall₂ (Shows w.env) (AllDiags.entries p hist) items := by
  unfold vet at h
  cases hw : w.wd with
  | none => rw [hw] at h; cases h
  | some wd =>
    rw [hw] at h
    simp only at h
    cases hr : AllDiags.run {} hist with
    | none => rw [hr] at h; cases h
    | some s =>
      rw [hr] at h
      simp only at h
      have huri : ∀ p, Reported hist p → ∃ u, w.env.uriOf p = some u := by
        intro p hp
        cases hu : w.env.uriOf p with
        | some u => exact ⟨u, rfl⟩
        | none =>
          have := (AllDiags.C107_fails_iff hist w.env w.order hperm s hr).2 ⟨p, hp, hu⟩
          rw [this] at h
          cases h
      obtain ⟨s', t, m, hs', hg, h1, h2⟩ := AllDiags.C107_all_partial hist hd w.env w.order hperm huri hinj
      rw [hr] at hs'
      cases hs'
      rw [hg] at h
      simp only at h
      cases hc : Driver.compile ⟨w.exists_, wd⟩ wd w.pathOf (sources w m) w.linked with
      | err => rw [hc] at h; cases h
      | panic => rw [hc] at h; cases h
      | ok r =>
        rw [hc] at h
        simp only [Res.ok.injEq, Prod.mk.injEq] at h
        refine ⟨wd, m, r, rfl, hc, h.1, h.2, huri, h1, fun p u hp hu => ?_⟩
        obtain ⟨items, hi, hf⟩ := h2 p u hp hu
        refine ⟨items, ?_, hf⟩
        unfold Assoc.get at hi
        cases hx : m.find? fun e => decide (e.1 = u) with
        | none => rw [hx] at hi; cases hi
        | some e =>
          rw [hx] at hi
          simp only [Option.map_some, Option.some.injEq] at hi
          have he := List.find?_some hx
          simp only [decide_eq_true_eq] at he
          have hm := List.mem_of_find?_eq_some hx
          obtain ⟨a, b⟩ := e
          simp only at he hi
          rw [← he, ← hi]
          exact hm

/-- A file has reports if one stands. -/
theorem Stands.reported {hist : List Op} {p : Path} {x : Entry} (h : Stands hist p x) : Reported hist p ∧ x.err.file = p := by
  have key : ∀ (ops : List Op) (acc : List Entry), (∀ y ∈ acc, (∃ e, (Op.error e ∈ hist ∨ Op.warning e ∈ hist) ∧ e.file = p) ∧ y.err.file = p) →
      (∀ o ∈ ops, o ∈ hist) → ∀ y ∈ ops.foldl (AllDiags.note p) acc, (∃ e, (Op.error e ∈ hist ∨ Op.warning e ∈ hist) ∧ e.file = p) ∧ y.err.file = p := by
    intro ops
    induction ops with
    | nil => intro acc ha _ y hy; exact ha y hy
    | cons o ops ih =>
      intro acc ha ho
      apply ih _ _ fun x hx => ho x (List.mem_cons_of_mem _ hx)
      intro y hy
      have hoh := ho o List.mem_cons_self
      cases o with
      | error e =>
        simp only [AllDiags.note] at hy
        split at hy
        · rename_i he
          rcases List.mem_append.1 hy with hy | hy
          · exact ha y hy
          · rw [List.mem_singleton] at hy
            subst hy
            exact ⟨⟨e, .inl hoh, he⟩, he⟩
        · exact ha y hy
      | warning e =>
        simp only [AllDiags.note] at hy
        split at hy
        · rename_i he
          rcases List.mem_append.1 hy with hy | hy
          · exact ha y hy
          · rw [List.mem_singleton] at hy
            subst hy
            exact ⟨⟨e, .inr hoh, he⟩, he⟩
        · exact ha y hy
      | clear q =>
        simp only [AllDiags.note] at hy
        split at hy
        · cases hy
        · exact ha y hy
      | stream env q =>
        simp only [AllDiags.note] at hy
        split at hy
        · obtain ⟨z, hz, rfl⟩ := List.mem_map.1 hy
          exact ha z hz
        · exact ha y hy
      | all env order perm => exact ha y hy
  exact key hist [] (by simp) (fun _ h => h) x h

theorem forall₂_left {α β : Type} {R : α → β → Prop} {as : List α} {bs : List β} (h : List.Forall₂ R as bs) {a : α} (ha : a ∈ as) :
    ∃ b ∈ bs, R a b := by
  induction h with
  | nil => cases ha
  | cons hab _ ih =>
    rcases List.mem_cons.1 ha with rfl | ha
    · exact ⟨_, List.mem_cons_self, hab⟩
    · obtain ⟨b, hb, hr⟩ := ih ha
      exact ⟨b, List.mem_cons_of_mem _ hb, hr⟩

theorem forall₂_right {α β : Type} {R : α → β → Prop} {as : List α} {bs : List β} (h : List.Forall₂ R as bs) {b : β} (hb : b ∈ bs) :
    ∃ a ∈ as, R a b := by
  induction h with
  | nil => cases hb
  | cons hab _ ih =>
    rcases List.mem_cons.1 hb with rfl | hb
    · exact ⟨_, List.mem_cons_self, hab⟩
    · obtain ⟨a, ha, hr⟩ := ih hb
      exact ⟨a, List.mem_cons_of_mem _ ha, hr⟩

theorem severity_one {env : AllDiags.Env} {x : Entry} {i : Item} (h : Shows env x i) : severityNumber i.severity = 1 ↔ ShownAsError env x := by
  by_cases hx : ShownAsError env x
  · simp [h.asError hx, severityNumber, hx]
  · simp [h.asWarning hx, severityNumber, hx]

theorem severity_two {env : AllDiags.Env} {x : Entry} {i : Item} (h : Shows env x i) : severityNumber i.severity = 2 ↔ ¬ ShownAsError env x := by
  by_cases hx : ShownAsError env x
  · simp [h.asError hx, severityNumber, hx]
  · simp [h.asWarning hx, severityNumber, hx]

/-- **C108** (status): if the command returns, then it fails exactly if a report stands that is an error, or has a category that its file does
not tolerate. So it never passes although the compiler has found an error. (Partial: the command may not return, see
`C108_eof_violated`; and `hd` as for `C107_all_partial`.) -/
theorem C108_status_partial (w : World) (hist : List Op) (hd : Unrelated hist ∨ ∀ p, Op.clear p ∉ hist) (hperm : ∀ l, (w.order l).Perm l)
    (hperm' : ∀ l, (w.order' l).Perm l) (hinj : Distinct w hist) (lines : List Driver.Message) (failed : Bool)
    (h : vet w hist = .ok (lines, failed)) :
    failed = true ↔ ∃ p x, Stands hist p x ∧ ShownAsError w.env x := by
  obtain ⟨wd, m, r, -, hc, -, he, huri, h1, h2⟩ := vet_ok hd hperm hinj h
  have := (Driver.C88_error _ _ _ _ _ r hc).1
  rw [he] at this
  rw [this]
  constructor
  · rintro ⟨f, hf, d, hdf, hs⟩
    obtain ⟨⟨u, items⟩, hm, rfl⟩ := List.mem_map.1 hf
    obtain ⟨i, hi, rfl⟩ := List.mem_map.1 hdf
    obtain ⟨p, -, -, hall⟩ := h1 u items ((hperm' m).mem_iff.1 hm)
    obtain ⟨x, hx, hsh⟩ := forall₂_right hall hi
    exact ⟨p, x, hx, (severity_one hsh).1 hs⟩
  · rintro ⟨p, x, hx, hsx⟩
    obtain ⟨u, hu⟩ := huri p hx.reported.1
    obtain ⟨items, hm, hall⟩ := h2 p u hx.reported.1 hu
    obtain ⟨i, hi, hsh⟩ := forall₂_left hall hx
    exact ⟨_, List.mem_map.2 ⟨(u, items), (hperm' m).mem_iff.2 hm, rfl⟩, _, List.mem_map.2 ⟨i, hi, rfl⟩, (severity_one hsh).2 hsx⟩

/-- **C108** (exit status): the program ends with status 0 only if no report stands that is an error, and every file with a report has a
document. -/
theorem C108_exit_zero (w : World) (hist : List Op) (hd : Unrelated hist ∨ ∀ p, Op.clear p ∉ hist) (hperm : ∀ l, (w.order l).Perm l)
    (hperm' : ∀ l, (w.order' l).Perm l) (hinj : Distinct w hist) (h : exitStatus (vet w hist) = 0) :
    (∀ p x, Stands hist p x → ¬ ShownAsError w.env x) ∧ ∀ p, Reported hist p → ∃ u, w.env.uriOf p = some u := by
  cases hv : vet w hist with
  | panic => rw [hv] at h; cases h
  | err => rw [hv] at h; cases h
  | ok o =>
    obtain ⟨lines, failed⟩ := o
    rw [hv] at h
    cases failed with
    | true => cases h
    | false =>
      have h1 := C108_status_partial w hist hd hperm hperm' hinj lines false hv
      obtain ⟨_, _, _, _, _, _, _, huri, _⟩ := vet_ok hd hperm hinj hv
      refine ⟨fun p x hx hs => ?_, huri⟩
      have := h1.2 ⟨p, x, hx, hs⟩
      cases this

/-- The text of the file of the report is known, and the report is not in its last line. -/
def Visible (w : World) (u : Uri) (x : Entry) : Prop :=
  ∃ content, w.content u = some content ∧ (w.place x.err.range).1.1 + 1 < (Driver.linesOf content).length

/-- **C108**: if the command returns from loading and reporting, the status of the program is 1 if a report stands that is shown as error, and 0
otherwise. -/
theorem C108_exit_partial (w : World) (hist : List Op) (hd : Unrelated hist ∨ ∀ p, Op.clear p ∉ hist) (hperm : ∀ l, (w.order l).Perm l)
    (hperm' : ∀ l, (w.order' l).Perm l) (hinj : Distinct w hist) (lines : List Driver.Message) (failed : Bool)
    (h : vet w hist = .ok (lines, failed)) :
    ((∃ p x, Stands hist p x ∧ ShownAsError w.env x) → exitStatus (vet w hist) = 1) ∧
    ((¬ ∃ p x, Stands hist p x ∧ ShownAsError w.env x) → exitStatus (vet w hist) = 0) := by
  have h1 := C108_status_partial w hist hd hperm hperm' hinj lines failed h
  rw [h, ← h1]
  cases failed
  · exact ⟨fun hh => (by cases hh), fun _ => rfl⟩
  · exact ⟨fun _ => rfl, fun hh => absurd rfl hh⟩

/-- **C108**: without a working directory, and if a file with a report has no document, the command fails without a panic, with status 1. -/
theorem C108_fails (w : World) (hist : List Op) (hperm : ∀ l, (w.order l).Perm l)
    (h : w.wd = none ∨ ∃ p, Reported hist p ∧ w.env.uriOf p = none) : vet w hist = .err ∧ exitStatus (vet w hist) = 1 := by
  have : vet w hist = .err := by
    unfold vet
    cases hw : w.wd with
    | none => rfl
    | some wd =>
      obtain ⟨s, hs, -⟩ := AllDiags.C107_no_panic hist w.env w.order hperm
      have he := (AllDiags.C107_fails_iff hist w.env w.order hperm s hs).2 (h.resolve_left (by rw [hw]; simp))
      simp only [hs, he]
  exact ⟨this, by rw [this]; rfl⟩

/-- **C108** (messages): if the command returns, it prints a message for each report that stands and lies in one line, and only such
messages. (Partial: if the texts are known and no report is in the last line of its file; reports over more than one line have no message,
see `C108_multiline_violated`.) -/
theorem C108_messages_partial (w : World) (hist : List Op) (hd : Unrelated hist ∨ ∀ p, Op.clear p ∉ hist) (hperm : ∀ l, (w.order l).Perm l)
    (hperm' : ∀ l, (w.order' l).Perm l) (hinj : Distinct w hist)
    (hc : ∀ p u, Reported hist p → w.env.uriOf p = some u → w.content u ≠ none)
    (hv : ∀ p u x, Stands hist p x → w.env.uriOf p = some u → OneLine w x → Visible w u x)
    (lines : List Driver.Message) (failed : Bool) (h : vet w hist = .ok (lines, failed)) :
    (∀ p x, Stands hist p x → OneLine w x → ∃ u, w.env.uriOf p = some u ∧ ∃ m ∈ lines, Tells w u x m) ∧
    ∀ m ∈ lines, ∃ p x u, Stands hist p x ∧ OneLine w x ∧ w.env.uriOf p = some u ∧ Tells w u x m := by
  obtain ⟨wd, dm, r, -, hcp, hl, -, huri, h1, h2⟩ := vet_ok hd hperm hinj h
  have hmem : ∀ f ∈ sources w dm, ∃ u items, (u, items) ∈ dm ∧ f = ⟨w.fileOf u, w.content u, items.map (diagOf w)⟩ := by
    intro f hf
    obtain ⟨⟨u, items⟩, hm, rfl⟩ := List.mem_map.1 hf
    exact ⟨u, items, (hperm' dm).mem_iff.1 hm, rfl⟩
  have hE := (Driver.C88_messages_partial ⟨w.exists_, wd⟩ wd w.pathOf (sources w dm) w.linked
    (fun f hf => by
      obtain ⟨u, items, hm, rfl⟩ := hmem f hf
      obtain ⟨p, hp, hu, -⟩ := h1 u items hm
      exact hc p u hp hu)
    (fun f hf d hdf hone => by
      obtain ⟨u, items, hm, rfl⟩ := hmem f hf
      obtain ⟨p, hp, hu, hall⟩ := h1 u items hm
      obtain ⟨i, hi, rfl⟩ := List.mem_map.1 hdf
      obtain ⟨x, hx, hsh⟩ := forall₂_right hall hi
      have ho : OneLine w x := by
        unfold OneLine
        rw [← hsh.range]
        exact hone
      obtain ⟨content, hcon, hlt⟩ := hv p u x hx hu ho
      refine ⟨content, hcon, ?_⟩
      show (w.place i.range).1.1 + 1 < _
      rw [hsh.range]
      exact hlt)).1 r hcp
  rw [hl] at hE
  have tells : ∀ {u items i x content line m}, Shows w.env x i →
      Driver.Reports (⟨w.fileOf u, content, items⟩ : Driver.Source).file line (diagOf w i) m → Tells w u x m := by
    intro u items i x content line m hsh hr
    refine ⟨hr.hfile, ?_, ?_, ?_, ?_⟩
    · rw [hr.hline, ← hsh.range]; rfl
    · rw [hr.htext, ← hsh.ident]; rfl
    · rw [hr.hseverity]; exact severity_one hsh
    · rw [hr.hseverity]; exact severity_two hsh
  have left : ∀ {α β : Type} {R : α → β → Prop} {as : List α} {bs : List β}, Driver.Each R as bs →
      (∀ a ∈ as, ∃ b ∈ bs, R a b) ∧ ∀ b ∈ bs, ∃ a ∈ as, R a b := by
    intro α β R as bs hh
    induction hh with
    | nil => simp
    | cons hab _ ih =>
      refine ⟨fun a ha => ?_, fun b hb => ?_⟩
      · rcases List.mem_cons.1 ha with rfl | ha
        · exact ⟨_, List.mem_cons_self, hab⟩
        · obtain ⟨b, hb, hr⟩ := ih.1 a ha
          exact ⟨b, List.mem_cons_of_mem _ hb, hr⟩
      · rcases List.mem_cons.1 hb with rfl | hb
        · exact ⟨_, List.mem_cons_self, hab⟩
        · obtain ⟨a, ha, hr⟩ := ih.2 b hb
          exact ⟨a, List.mem_cons_of_mem _ ha, hr⟩
  obtain ⟨l1, l2⟩ := left hE
  constructor
  · intro p x hx ho
    obtain ⟨u, hu⟩ := huri p hx.reported.1
    obtain ⟨items, hm, hall⟩ := h2 p u hx.reported.1 hu
    obtain ⟨i, hi, hsh⟩ := forall₂_left hall hx
    obtain ⟨msg, hmsg, content, line, -, -, hr⟩ := l1 (⟨w.fileOf u, w.content u, items.map (diagOf w)⟩, diagOf w i) (by
      rw [List.mem_filter]
      refine ⟨List.mem_flatMap.2 ⟨_, List.mem_map.2 ⟨(u, items), (hperm' dm).mem_iff.2 hm, rfl⟩,
        List.mem_map.2 ⟨_, List.mem_map.2 ⟨i, hi, rfl⟩, rfl⟩⟩, ?_⟩
      have : (w.place i.range).1.1 = (w.place i.range).2.1 := by rw [hsh.range]; exact ho
      exact decide_eq_true this)
    exact ⟨u, hu, msg, hmsg, tells hsh hr⟩
  · intro msg hmsg
    obtain ⟨⟨f, d⟩, hfd, content, line, -, -, hr⟩ := l2 msg hmsg
    rw [List.mem_filter] at hfd
    obtain ⟨hfd, hone⟩ := hfd
    obtain ⟨f', hf', hd'⟩ := List.mem_flatMap.1 hfd
    obtain ⟨d', hd'', heq⟩ := List.mem_map.1 hd'
    cases heq
    obtain ⟨u, items, hm, rfl⟩ := hmem f hf'
    obtain ⟨i, hi, rfl⟩ := List.mem_map.1 hd''
    obtain ⟨p, hp, hu, hall⟩ := h1 u items hm
    obtain ⟨x, hx, hsh⟩ := forall₂_right hall hi
    refine ⟨p, x, u, hx, ?_, hu, tells hsh hr⟩
    unfold OneLine
    rw [← hsh.range]
    exact of_decide_eq_true hone

/-! ## Examples and violations -/

namespace Demo

def world : World where
  wd := some []
  exists_ := fun _ => true
  env := ⟨fun p => if p = "a" then some 1 else none, fun _ => none⟩
  fileOf := fun _ => ['a']
  content := fun _ => some ['x', 'y', '\n', 'z', '\n']
  place := fun n => if n = 0 then ((0, 0), (0, 1)) else if n = 1 then ((0, 0), (1, 1)) else ((2, 0), (2, 0))
  text := fun n => if n = 7 then (['m'], false) else (['n'], true)
  pathOf := fun _ => none
  linked := []
  order := id
  order' := id

def err (range : Nat) : Op := .error ⟨"a", 1, range, 7, none, []⟩

theorem reported {hist : List Op} (h : ∀ o ∈ hist, ∃ r, o = err r ∨ o = .warning ⟨"a", 1, r, 8, none, []⟩) {p : Path}
    (hp : Reported hist p) : p = "a" := by
  obtain ⟨e, he, rfl⟩ := hp
  rcases he with he | he
  · obtain ⟨r, h1 | h1⟩ := h _ he
    · cases h1; rfl
    · cases h1
  · obtain ⟨r, h1 | h1⟩ := h _ he
    · cases h1
    · cases h1; rfl

theorem distinct {hist : List Op} (h : ∀ o ∈ hist, ∃ r, o = err r ∨ o = .warning ⟨"a", 1, r, 8, none, []⟩) : Distinct world hist :=
  fun p q hp hq _ => (reported h hp).trans (reported h hq).symm

/-- An error and a warning. -/
example : vet world [err 0, .warning ⟨"a", 1, 0, 8, none, []⟩] =
    .ok ([⟨1, ['a'], 1, ['m'], some ([], ['x'], ['y'])⟩, ⟨2, ['a'], 1, ['n'], none⟩], true) := by decide +kernel

example : ∃ p x, Stands [err 0] p x ∧ ShownAsError world.env x :=
  (C108_status_partial world [err 0] (.inr (by simp [err])) (fun _ => .refl _) (fun _ => .refl _)
    (distinct (by simp only [List.mem_singleton]; rintro o rfl; exact ⟨0, .inl rfl⟩)) [⟨1, ['a'], 1, ['m'], some ([], ['x'], ['y'])⟩] true
    (by decide +kernel)).1 rfl

example : exitStatus (vet world [err 0]) = 1 :=
  (C108_exit_partial world [err 0] (.inr (by simp [err])) (fun _ => .refl _) (fun _ => .refl _)
    (distinct (by simp only [List.mem_singleton]; rintro o rfl; exact ⟨0, .inl rfl⟩)) [⟨1, ['a'], 1, ['m'], some ([], ['x'], ['y'])⟩] true
    (by decide +kernel)).1 ⟨"a", _, List.mem_singleton.2 rfl, .inl rfl⟩

/-- A report for a file without a document. -/
example : vet world [.error ⟨"b", 1, 0, 8, none, []⟩] = .err :=
  (C108_fails world [.error ⟨"b", 1, 0, 8, none, []⟩] (fun _ => .refl _) (.inr ⟨"b", ⟨_, .inl (List.mem_singleton.2 rfl), rfl⟩, rfl⟩)).1

/-- A warning alone does not make the command fail. -/
example : exitStatus (vet world [.warning ⟨"a", 1, 0, 8, none, []⟩]) = 0 := by
  have h1 : ∃ s, AllDiags.run {} [.warning ⟨"a", 1, 0, 8, none, []⟩] = some s ∧
      (AllDiags.getAll s world.env world.order).2 = .ok [(1, [⟨0, .warning, 8, [], none⟩])] := ⟨_, rfl, by decide +kernel⟩
  obtain ⟨s, h1, h2⟩ := h1
  have h3 : Driver.allMessages (sources world [(1, [⟨0, .warning, 8, [], none⟩])]) = .ok [⟨2, ['a'], 1, ['n'], none⟩] := by decide +kernel
  have h4 : ((sources world [(1, [⟨0, .warning, 8, [], none⟩])]).any fun f => f.diags.any fun d => d.severity == 1) = false := by
    decide +kernel
  have h5 : Transform.topologicalSort [] = .ok [] := by simp [Transform.topologicalSort, Transform.topo, Transform.lookups]
  have h6 : Driver.linkerResults world.linked = [] := rfl
  have h7 : world.wd = some [] := rfl
  simp [exitStatus, vet, h1, h2, h7, Driver.compile, h3, h4, h5, h6]

end Demo

/-- **C108** fails for an error over more than one line: the command fails without any message. -/
theorem C108_multiline_violated : ∃ (w : World) (hist : List Op), vet w hist = .ok ([], true) ∧
    ∃ x, Stands hist "a" x ∧ ShownAsError w.env x :=
  ⟨Demo.world, [Demo.err 1], by decide +kernel, _, List.mem_singleton.2 rfl, .inl rfl⟩

/-- **C108** fails for an error at the end of a text, such as a missing brace: the command panics. -/
theorem C108_eof_violated : ∃ (w : World) (hist : List Op), exitStatus (vet w hist) = 2 ∧ vet w hist = .panic ∧
    ∃ x, Stands hist "a" x ∧ OneLine w x ∧ ShownAsError w.env x :=
  ⟨Demo.world, [Demo.err 2], by decide +kernel, by decide +kernel, _, List.mem_singleton.2 rfl, rfl, .inl rfl⟩

end Verif.Vet
