import Verif.Spec.Generate
import Verif.Lemmas.GoPath
import Verif.Props.Overwrite
/-!
# Lemmas about the command that generates code
-/
namespace Verif.Generate

open Verif.Assoc Verif.GoPath Verif.FindFile

variable {Uri : Type}

theorem kept_iff (d : Doc) : kept d = true ↔ d.package ≠ [] ∧ d.noGenerate = false := by
  simp [kept]

theorem home_names (w : World Uri) (u : Uri) : ∀ x ∈ home w u, Name x :=
  fun x hx => place_names _ x (List.dropLast_subset _ hx)

theorem dirOf_file {w : World Uri} {uris : List Uri} (ha : Absolute w uris) {u : Uri} (hu : u ∈ uris) :
    dirOf (w.file u) = pathOf (home w u) := by
  obtain ⟨h1, a, b, h2, h3⟩ := ha u hu
  obtain ⟨a', b', e, hb', hd⟩ := dirOf_rooted _ h1
  rw [hd]
  unfold home
  have : a' = a := by
    have s1 := split_some a b h3.2
    have s2 := split_some a' b' hb'
    rw [← e, h2, s1] at s2
    simp only [Prod.mk.injEq] at s2
    exact (List.append_cancel_right s2.1).symm
  rw [this, h2, place_append_name _ _ h3, List.dropLast_concat]

/-! ## The table of directories -/

/-- A key of the table for a document. -/
def Key (w : World Uri) (u : Uri) (k : Str) : Prop :=
  k = dirOf (w.path u) ∨ ∃ d g, w.result u = some d ∧ d.goPkg = some g ∧ k = (splitOn ';' g).headD []

theorem splitOn_head (g k : Str) : (splitOn ';' g).headD [] = k ↔ ';' ∉ k ∧ (g = k ∨ ∃ x, g = k ++ ';' :: x) := by
  constructor
  · intro h
    subst h
    cases hs : splitOn ';' g with
    | nil => exact absurd hs (splitOn_ne_nil _ _)
    | cons a t =>
      simp only [List.headD_cons]
      refine ⟨splitOn_no_sep ';' g a (by simp [hs]), ?_⟩
      have hj := join_splitOn ';' g
      rw [hs] at hj
      cases t with
      | nil => exact .inl hj.symm
      | cons b t' =>
        rw [joinWith_cons _ _ _ (by simp)] at hj
        exact .inr ⟨_, hj.symm⟩
  · rintro ⟨h, rfl | ⟨x, rfl⟩⟩
    · rw [splitOn_of_no_sep _ _ h]; rfl
    · rw [splitOn_append, splitOn_of_no_sep _ _ h]; rfl

theorem in_unique {k k' b b' p : Str} (h : In k b p) (h' : In k' b' p) : k = k' ∧ b = b' := by
  obtain ⟨h1, h2⟩ := in_parts h
  obtain ⟨h3, h4⟩ := in_parts h'
  exact ⟨h1.symm.trans h3, h2.symm.trans h4⟩

theorem key_iff {w : World Uri} {u : Uri} (hp : ∃ k x, In k x (w.path u)) (k : Str) : Key w u k ↔ Speaks w u k := by
  constructor
  · rintro (h | ⟨d, g, h1, h2, h3⟩)
    · obtain ⟨k', x, hk⟩ := hp
      have := (in_parts hk).1
      rw [← h] at this
      exact .inl ⟨x, this ▸ hk⟩
    · exact .inr ⟨d, g, h1, h2, (splitOn_head g k).1 h3.symm⟩
  · rintro (⟨x, h⟩ | ⟨d, g, h1, h2, h3⟩)
    · exact .inl (in_parts h).1.symm
    · exact .inr ⟨d, g, h1, h2, ((splitOn_head g k).2 h3).symm⟩

/-- The entries of the table come from documents, and all of their keys are there. -/
def Good (w : World Uri) (done : Uri → Prop) (m : List (Str × Str)) : Prop :=
  (∀ e ∈ m, ∃ u, done u ∧ Key w u e.1 ∧ e.2 = dirOf (w.file u)) ∧ ∀ u, done u → ∀ k, Key w u k → k ∈ keys m

theorem good_addDirs {w : World Uri} {done : Uri → Prop} {m : List (Str × Str)} (h : Good w done m) {u : Uri} {d : Doc}
    (hd : w.result u = some d) : Good w (fun v => done v ∨ v = u) (addDirs w u d m) := by
  unfold addDirs
  obtain ⟨h1, h2⟩ := h
  have key1 : ∀ e ∈ set m (dirOf (w.path u)) (dirOf (w.file u)), ∃ v, (done v ∨ v = u) ∧ Key w v e.1 ∧ e.2 = dirOf (w.file v) := by
    intro e he
    rcases mem_set.1 he with rfl | ⟨he, -⟩
    · exact ⟨u, .inr rfl, .inl rfl, rfl⟩
    · obtain ⟨v, a, b, c⟩ := h1 e he
      exact ⟨v, .inl a, b, c⟩
  cases hg : d.goPkg with
  | none =>
    simp only []
    refine ⟨key1, ?_⟩
    intro v hv k hk
    rw [mem_keys_set]
    rcases hv with hv | rfl
    · exact .inr (h2 v hv k hk)
    · rcases hk with hk | ⟨d', g, e1, e2, -⟩
      · exact .inl hk
      · rw [hd] at e1; cases e1; rw [hg] at e2; cases e2
  | some g =>
    simp only []
    refine ⟨?_, ?_⟩
    · intro e he
      rcases mem_set.1 he with rfl | ⟨he, -⟩
      · exact ⟨u, .inr rfl, .inr ⟨d, g, hd, hg, rfl⟩, rfl⟩
      · exact key1 e he
    · intro v hv k hk
      rw [mem_keys_set, mem_keys_set]
      rcases hv with hv | rfl
      · exact .inr (.inr (h2 v hv k hk))
      · rcases hk with hk | ⟨d', g', e1, e2, e3⟩
        · exact .inr (.inl hk)
        · rw [hd] at e1; cases e1; rw [hg] at e2; cases e2
          exact .inl e3

theorem collect_spec (w : World Uri) : ∀ (us roots : List Uri) (m : List (Str × Str)) (done : Uri → Prop)
    (roots' : List Uri) (m' : List (Str × Str)),
    Good w done m → (∀ u, u ∈ roots ↔ done u) → collect w us roots m = some (roots', m') →
    Good w (fun v => done v ∨ Target w us v) m' ∧ ∃ more, roots' = roots ++ more ∧ more.Sublist us ∧
      ∀ u, u ∈ more ↔ Target w us u := by
  intro us
  induction us with
  | nil =>
    intro roots m done roots' m' hg hr hc
    simp only [collect, Option.some.injEq, Prod.mk.injEq] at hc
    obtain ⟨rfl, rfl⟩ := hc
    have e : (fun v => done v ∨ Target w [] v) = done := by
      funext v
      simp [Target]
    rw [e]
    exact ⟨hg, [], by simp, List.Sublist.refl _, fun u => by simp [Target]⟩
  | cons u us ih =>
    intro roots m done roots' m' hg hr hc
    simp only [collect] at hc
    cases hd : w.result u with
    | none => rw [hd] at hc; simp at hc
    | some d =>
      rw [hd] at hc
      simp only [] at hc
      by_cases hk : kept d = true
      · rw [if_pos hk] at hc
        obtain ⟨h1, more, h2, h3, h4⟩ := ih (roots ++ [u]) _ (fun v => done v ∨ v = u) roots' m' (good_addDirs hg hd)
          (fun v => by simp [hr]) hc
        have ht : ∀ v, Target w (u :: us) v ↔ v = u ∨ Target w us v := by
          intro v
          constructor
          · rintro ⟨h5, h6⟩
            rcases List.mem_cons.1 h5 with rfl | h5
            · exact .inl rfl
            · exact .inr ⟨h5, h6⟩
          · rintro (rfl | ⟨h5, h6⟩)
            · exact ⟨by simp, d, hd, (kept_iff d).1 hk⟩
            · exact ⟨by simp [h5], h6⟩
        refine ⟨?_, u :: more, by simp [h2], h3.cons_cons _, ?_⟩
        · have e : (fun v => done v ∨ Target w (u :: us) v) = fun v => (done v ∨ v = u) ∨ Target w us v := by
            funext v
            rw [ht, or_assoc]
          rw [e]; exact h1
        · intro v
          rw [ht, List.mem_cons, h4]
      · rw [if_neg hk] at hc
        obtain ⟨h1, more, h2, h3, h4⟩ := ih roots m done roots' m' hg hr hc
        have ht : ∀ v, Target w (u :: us) v ↔ Target w us v := by
          intro v
          constructor
          · rintro ⟨h5, d', h6, h7⟩
            rcases List.mem_cons.1 h5 with rfl | h5
            · rw [hd] at h6; cases h6
              exact absurd ((kept_iff d).2 h7) hk
            · exact ⟨h5, d', h6, h7⟩
          · rintro ⟨h5, h6⟩
            exact ⟨by simp [h5], h6⟩
        refine ⟨?_, more, h2, h3.cons _, fun v => by rw [ht, h4]⟩
        have e : (fun v => done v ∨ Target w (u :: us) v) = fun v => done v ∨ Target w us v := by
          funext v; rw [ht]
        rw [e]; exact h1

theorem collect_none {w : World Uri} : ∀ (us roots : List Uri) (m : List (Str × Str)),
    (∃ u ∈ us, w.result u = none) → collect w us roots m = none := by
  intro us
  induction us with
  | nil => intro _ _ h; simp at h
  | cons u us ih =>
    intro roots m ⟨v, hv, hn⟩
    simp only [collect]
    cases hd : w.result u with
    | none => rfl
    | some d =>
      simp only []
      rcases List.mem_cons.1 hv with rfl | hv
      · rw [hd] at hn; cases hn
      · split
        · exact ih _ _ ⟨v, hv, hn⟩
        · exact ih _ _ ⟨v, hv, hn⟩

theorem collect_some {w : World Uri} : ∀ (us roots : List Uri) (m : List (Str × Str)),
    (∀ u ∈ us, w.result u ≠ none) → (collect w us roots m).isSome := by
  intro us
  induction us with
  | nil => intro _ _ _; simp [collect]
  | cons u us ih =>
    intro roots m h
    simp only [collect]
    cases hd : w.result u with
    | none => exact absurd hd (h u (by simp))
    | some d =>
      simp only []
      split
      · exact ih _ _ fun v hv => h v (by simp [hv])
      · exact ih _ _ fun v hv => h v (by simp [hv])

theorem good_nil (w : World Uri) : Good w (fun _ => False) [] := by
  constructor
  · simp
  · intro u h; exact h.elim

/-- The table of a run. -/
theorem collect_good {w : World Uri} {uris roots : List Uri} {m : List (Str × Str)} (h : collect w uris [] [] = some (roots, m)) :
    Good w (Target w uris) m ∧ roots.Sublist uris ∧ ∀ u, u ∈ roots ↔ Target w uris u := by
  obtain ⟨h1, more, h2, h3, h4⟩ := collect_spec w uris [] [] (fun _ => False) roots m (good_nil w) (by simp) h
  have e : (fun v => False ∨ Target w uris v) = Target w uris := by
    funext v; simp
  rw [e] at h1
  simp only [List.nil_append] at h2
  subst h2
  exact ⟨h1, h3, h4⟩

theorem good_get {w : World Uri} {uris : List Uri} {m : List (Str × Str)} (h : Good w (Target w uris) m) (ha : Absolute w uris)
    {k v : Str} (hg : get m k = some v) : ∃ u, Target w uris u ∧ Key w u k ∧ v = pathOf (home w u) := by
  obtain ⟨u, h1, h2, h3⟩ := h.1 _ (get_mem hg)
  exact ⟨u, h1, h2, h3.trans (dirOf_file ha h1.1)⟩

/-! ## Writing a file -/

theorem put_self (d : Disk) (p t : Str) : (d.put p t).at_ p = some (.file t) := by simp [Disk.put]

theorem put_ne (d : Disk) (p t : Str) {q : Str} (h : q ≠ p) : (d.put p t).at_ q = d.at_ q := by simp [Disk.put, h]

/-- What one write changes: nothing but the file, which is not a directory; it has the content if there was no failure. -/
theorem writeFile_spec (c : Call) (d : Disk) (p new : Str) :
    (∀ q, q ≠ p → (writeFile c d p new).1.at_ q = d.at_ q) ∧
    (∀ e ∈ (writeFile c d p new).1.backups, e ∈ d.backups ∨ e.1 = p) ∧
    (d.at_ p = some .dir → writeFile c d p new = (d, false)) ∧
    ((writeFile c d p new).2 = true → (writeFile c d p new).1.at_ p = some (.file new)) ∧
    ((writeFile c d p new).1.at_ p = some .dir → d.at_ p = some .dir) := by
  have hcreate : (∀ q, q ≠ p → (create c d p new).1.at_ q = d.at_ q) ∧
      (∀ e ∈ (create c d p new).1.backups, e ∈ d.backups ∨ e.1 = p) ∧
      (d.at_ p = some .dir → create c d p new = (d, false)) ∧
      ((create c d p new).2 = true → (create c d p new).1.at_ p = some (.file new)) ∧
      ((create c d p new).1.at_ p = some .dir → d.at_ p = some .dir) := by
    unfold create
    split
    · exact ⟨fun q _ => rfl, fun e he => .inl he, fun _ => rfl, fun h => by simp at h, fun h => h⟩
    · rename_i hn
      cases c.written with
      | none =>
        simp only []
        exact ⟨fun q hq => put_ne _ _ _ hq, fun e he => .inl he, fun h => absurd (.inl h) hn, fun _ => put_self _ _ _,
          fun h => by rw [put_self] at h; cases h⟩
      | some n =>
        simp only []
        exact ⟨fun q hq => put_ne _ _ _ hq, fun e he => .inl he, fun h => absurd (.inl h) hn, fun h => by simp at h,
          fun h => by rw [put_self] at h; cases h⟩
  unfold writeFile
  cases hs : c.statFails with
  | true => simpa using hcreate
  | false =>
    simp only [Bool.false_eq_true, if_false]
    cases hp : d.at_ p with
    | none => rw [hp] at hcreate; simpa using hcreate
    | some en =>
      cases en with
      | dir =>
        simp only []
        exact ⟨fun q _ => trivial, fun e he => .inl he, fun _ => trivial, fun h => by simp at h, fun _ => trivial⟩
      | file orig =>
        simp only []
        split
        · exact ⟨fun q _ => rfl, fun e he => .inl he, fun h => by simp at h, fun h => by simp at h, fun h => by rw [hp] at h; cases h⟩
        · unfold overwrite
          obtain ⟨l, s, h1, h2, h3⟩ := Overwrite.overwrite_final c.os orig new
          have hl : (Overwrite.overwrite c.os orig new orig.length orig).1.getLast? = some s := by rw [h1]; simp
          simp only [hl]
          cases hb : s.backup with
          | none =>
            simp only []
            refine ⟨fun q hq => put_ne _ _ _ hq, fun e he => .inl he, fun h => by simp at h, fun h => ?_, fun h => ?_⟩
            · rw [put_self, (h2 h).1]
            · rw [put_self] at h; cases h
          | some b =>
            simp only []
            refine ⟨fun q hq => put_ne _ _ _ hq, fun e he => ?_, fun h => by simp at h, fun h => ?_, fun h => ?_⟩
            · rcases List.mem_append.1 he with he | he
              · exact .inl he
              · simp only [List.mem_singleton] at he
                exact .inr (by rw [he])
            · have := put_self d p s.file
              rw [(h2 h).1] at this
              rw [(h2 h).1]
              exact this
            · have := put_self d p s.file
              change (d.put p s.file).at_ p = _ at h
              rw [this] at h; cases h

/-- Writing one file loses nothing, if the file is found when it exists. -/
theorem writeFile_recoverable {contents : List Str} {d0 d : Disk} (h : ∀ p, Whole contents d0 d p) (c : Call)
    (hs : c.statFails = false) (p new : Str) (hnew : new ∈ contents) :
    (∀ q, Recoverable contents d0 (writeFile c d p new).1 q) ∧
    ((writeFile c d p new).2 = true → ∀ q, Whole contents d0 (writeFile c d p new).1 q) := by
  have hsp := writeFile_spec c d p new
  have hother : ∀ q, q ≠ p → Whole contents d0 (writeFile c d p new).1 q := by
    intro q hq
    have := h q
    unfold Whole at this ⊢
    rw [hsp.1 q hq]
    exact this
  refine ⟨fun q => ?_, fun hok q => ?_⟩
  · by_cases hq : q = p
    · subst hq
      unfold writeFile
      rw [hs]
      simp only [Bool.false_eq_true, if_false]
      cases hp : d.at_ q with
      | none =>
        simp only []
        unfold create
        split
        · exact .inl (h q)
        · have h0 : d0.at_ q = none := by
            rcases h q with h1 | ⟨t, -, h1⟩
            · rw [← h1, hp]
            · rw [hp] at h1; cases h1
          cases c.written with
          | none => exact .inl (.inr ⟨new, hnew, put_self _ _ _⟩)
          | some n => exact .inr (.inl ⟨h0, new, hnew, _, List.take_prefix _ _, put_self _ _ _⟩)
      | some en =>
        cases en with
        | dir => exact .inl (h q)
        | file orig =>
          simp only []
          split
          · exact .inl (h q)
          · unfold overwrite
            obtain ⟨l, s, h1, h2, h3⟩ := Overwrite.overwrite_final c.os orig new
            have hl : (Overwrite.overwrite c.os orig new orig.length orig).1.getLast? = some s := by rw [h1]; simp
            have hsafe := Overwrite.C31_crash_safe c.os orig new s (List.mem_of_getLast? hl)
            have horig : d0.at_ q = some (.file orig) ∨ orig ∈ contents := by
              rcases h q with h4 | ⟨t, h5, h4⟩
              · rw [← h4, hp]; exact .inl rfl
              · rw [hp] at h4; cases h4; exact .inr h5
            have hfile : ∀ d' : Disk, d'.at_ q = some (.file s.file) → (s.file = orig ∨ s.file = new) → Whole contents d0 d' q := by
              intro d' hd' hf
              rcases hf with hf | hf
              · rcases horig with h4 | h4
                · exact .inl (by rw [hd', hf, h4])
                · exact .inr ⟨orig, h4, by rw [hd', hf]⟩
              · exact .inr ⟨new, hnew, by rw [hd', hf]⟩
            simp only [hl]
            cases hb : s.backup with
            | none =>
              simp only []
              rcases hsafe with h4 | h4 | h4
              · exact .inl (hfile _ (put_self _ _ _) (.inl h4))
              · rw [hb] at h4; cases h4
              · exact .inl (hfile _ (put_self _ _ _) (.inr h4))
            | some b =>
              simp only []
              rcases hsafe with h4 | h4 | h4
              · exact .inl (hfile _ (put_self d q s.file) (.inl h4))
              · rw [hb] at h4; cases h4
                exact .inr (.inr ⟨orig, by simp, horig⟩)
              · exact .inl (hfile _ (put_self d q s.file) (.inr h4))
    · exact .inl (hother q hq)
  · by_cases hq : q = p
    · rw [hq]
      exact .inr ⟨new, hnew, hsp.2.2.2.1 hok⟩
    · exact hother q hq

theorem writeAll_recoverable {contents : List Str} {d0 : Disk} (calls : Nat → Call) (hs : ∀ n, (calls n).statFails = false)
    (m : List (Str × Str)) : ∀ (files : List (Str × Str)) (n : Nat) (d : Disk) (r : Result),
    (∀ e ∈ files, e.2 ∈ contents) → (∀ p, Whole contents d0 d p) →
    ∀ p, Recoverable contents d0 (writeAll calls m n d r files).1 p := by
  intro files
  induction files with
  | nil => intro n d r _ h p; exact .inl (h p)
  | cons f rest ih =>
    intro n d r hc h p
    obtain ⟨name, content⟩ := f
    simp only [writeAll]
    cases hg : get m (dirOf name) with
    | none => exact ih _ _ _ (fun e he => hc e (by simp [he])) h p
    | some dir =>
      simp only []
      obtain ⟨h1, h2⟩ := writeFile_recoverable h (calls n) (hs n) (join dir (baseOf name)) content (hc (name, content) (by simp))
      split
      · rename_i hok
        exact ih _ _ _ (fun e he => hc e (by simp [he])) (h2 hok) p
      · exact h1 p

/-- Without failures a file that is not a directory is written. -/
theorem writeFile_fine (d : Disk) (p new : Str) (h : d.at_ p ≠ some .dir) : (writeFile {} d p new).2 = true := by
  unfold writeFile
  simp only [Bool.false_eq_true, if_false]
  cases hp : d.at_ p with
  | none =>
    simp only []
    unfold create
    rw [if_neg (by simp [hp])]
  | some en =>
    cases en with
    | dir => exact absurd hp h
    | file orig =>
      simp only []
      unfold overwrite
      have h1 := Overwrite.C31_no_failure_succeeds orig new
      obtain ⟨l, s, h2, -, -⟩ := Overwrite.overwrite_final {} orig new
      have hl : (Overwrite.overwrite {} orig new orig.length orig).1.getLast? = some s := by rw [h2]; simp
      simp only [hl]
      cases s.backup <;> exact h1

/-! ## Where a file goes -/

/-- The path that is written: a file beside the document, or the path of a directory. -/
theorem target_cases {w : World Uri} (u : Uri) (name : Str) :
    (∃ b, Name b ∧ baseOf name = b ∧ join (pathOf (home w u)) (baseOf name) = pathOf (home w u ++ [b])) ∨
    ∃ l, l <+: home w u ∧ join (pathOf (home w u)) (baseOf name) = pathOf l := by
  rcases baseOf_cases name with h | h | h | h
  · rw [h, join_pathOf _ (home_names w u) _ (by simp)]
    exact .inr ⟨home w u, List.prefix_refl _, rfl⟩
  · rw [h, join_pathOf _ (home_names w u) _ (by simp)]
    exact .inr ⟨home w u, List.prefix_refl _, rfl⟩
  · rw [h, join_pathOf _ (home_names w u) _ (by simp)]
    exact .inr ⟨(home w u).dropLast, List.dropLast_prefix _, rfl⟩
  · exact .inl ⟨_, h, rfl, join_pathOf_name _ (home_names w u) _ h⟩

/-- What has changed since a disk is beside the documents. -/
def Confined (w : World Uri) (uris : List Uri) (d0 d : Disk) : Prop :=
  (∀ p, d.at_ p ≠ d0.at_ p → Beside w uris p) ∧ ∀ e ∈ d.backups, e ∈ d0.backups ∨ Beside w uris e.1

/-- The directories of the documents are still there. -/
theorem writeFile_dirs {w : World Uri} {uris : List Uri} {d : Disk} (h : DirsExist w uris d) (c : Call) (p new : Str) :
    DirsExist w uris (writeFile c d p new).1 := by
  intro u hu l hl
  by_cases hp : pathOf l = p
  · subst hp
    rw [(writeFile_spec c d (pathOf l) new).2.2.1 (h u hu l hl)]
    exact h u hu l hl
  · rw [(writeFile_spec c d p new).1 _ hp]
    exact h u hu l hl

theorem writeFile_confined {w : World Uri} {uris : List Uri} {d0 d : Disk} (hc : Confined w uris d0 d)
    (hd : DirsExist w uris d) {u : Uri} (hu : Target w uris u) (c : Call) (name new : Str) :
    Confined w uris d0 (writeFile c d (join (pathOf (home w u)) (baseOf name)) new).1 := by
  rcases target_cases (w := w) u name with ⟨b, hb, -, he⟩ | ⟨l, hl, he⟩
  · rw [he]
    have hbe : Beside w uris (pathOf (home w u ++ [b])) := ⟨u, hu, b, hb, rfl⟩
    obtain ⟨s1, s2, -, -, -⟩ := writeFile_spec c d (pathOf (home w u ++ [b])) new
    constructor
    · intro p hp
      by_cases hq : p = pathOf (home w u ++ [b])
      · rw [hq]; exact hbe
      · rw [s1 p hq] at hp
        exact hc.1 p hp
    · intro e he
      rcases s2 e he with h | h
      · exact hc.2 e h
      · rw [h]; exact .inr hbe
  · rw [he, (writeFile_spec c d (pathOf l) new).2.2.1 (hd u hu.1 l hl)]
    exact hc

theorem writeAll_confined {w : World Uri} {uris : List Uri} (ha : Absolute w uris) {m : List (Str × Str)}
    (hm : Good w (Target w uris) m) (calls : Nat → Call) (d0 : Disk) : ∀ (files : List (Str × Str)) (n : Nat) (d : Disk) (r : Result),
    Confined w uris d0 d → DirsExist w uris d → Confined w uris d0 (writeAll calls m n d r files).1 := by
  intro files
  induction files with
  | nil => intro n d r h _; exact h
  | cons f rest ih =>
    intro n d r h hd
    obtain ⟨name, content⟩ := f
    simp only [writeAll]
    cases hg : get m (dirOf name) with
    | none => exact ih _ _ _ h hd
    | some dir =>
      simp only []
      obtain ⟨u, hu, -, rfl⟩ := good_get hm ha hg
      have h1 := writeFile_confined h hd hu (calls n) name content
      split
      · exact ih _ _ _ h1 (writeFile_dirs hd _ _ _)
      · exact h1

/-! ## Results -/

theorem writeAll_outside (calls : Nat → Call) (m : List (Str × Str)) : ∀ (files : List (Str × Str)) (n : Nat) (d : Disk),
    (writeAll calls m n d .outside files).2 ≠ .ok := by
  intro files
  induction files with
  | nil => intro n d; simp [writeAll]
  | cons f rest ih =>
    intro n d
    simp only [writeAll]
    split
    · exact ih _ _
    · split
      · exact ih _ _
      · simp

/-- A file without directory makes the command report an error. -/
theorem writeAll_refused (calls : Nat → Call) (m : List (Str × Str)) {name content : Str} (hn : get m (dirOf name) = none) :
    ∀ (files : List (Str × Str)) (n : Nat) (d : Disk) (r : Result), (name, content) ∈ files →
    (writeAll calls m n d r files).2 ≠ .ok := by
  intro files
  induction files with
  | nil => intro n d r h; simp at h
  | cons f rest ih =>
    intro n d r h
    obtain ⟨name', content'⟩ := f
    simp only [writeAll]
    rcases List.mem_cons.1 h with h | h
    · simp only [Prod.mk.injEq] at h
      obtain ⟨rfl, rfl⟩ := h
      rw [hn]
      exact writeAll_outside _ _ _ _ _
    · split
      · exact ih _ _ _ h
      · split
        · exact ih _ _ _ h
        · simp

/-- Files that go elsewhere, or have the same content, keep what was written. -/
theorem writeAll_keeps (calls : Nat → Call) (m : List (Str × Str)) {p c : Str} : ∀ (files : List (Str × Str)) (n : Nat) (d : Disk)
    (r : Result), d.at_ p = some (.file c) →
    (∀ e ∈ files, ∀ dir, get m (dirOf e.1) = some dir → join dir (baseOf e.1) = p → e.2 = c) →
    (writeAll calls m n d r files).2 ≠ .failed → (writeAll calls m n d r files).1.at_ p = some (.file c) := by
  intro files
  induction files with
  | nil => intro n d r h _ _; exact h
  | cons f rest ih =>
    intro n d r h hr hf
    obtain ⟨name, content⟩ := f
    simp only [writeAll] at hf ⊢
    cases hg : get m (dirOf name) with
    | none =>
      rw [hg] at hf
      exact ih _ _ _ h (fun e he => hr e (by simp [he])) hf
    | some dir =>
      rw [hg] at hf
      simp only [] at hf ⊢
      split at hf
      · rename_i hw
        rw [if_pos hw]
        refine ih _ _ _ ?_ (fun e he => hr e (by simp [he])) hf
        by_cases hp : join dir (baseOf name) = p
        · have := (writeFile_spec (calls n) d (join dir (baseOf name)) content).2.2.2.1 hw
          rw [hp] at this ⊢
          have e : content = c := hr (name, content) (by simp) dir hg hp
          rw [this, e]
        · rw [(writeFile_spec (calls n) d (join dir (baseOf name)) content).1 p (fun e => hp e.symm)]
          exact h
      · simp at hf

/-- A file that has a directory is written. -/
theorem writeAll_writes (calls : Nat → Call) (m : List (Str × Str)) {name content dir : Str} (hg : get m (dirOf name) = some dir)
    (post : List (Str × Str))
    (hpost : ∀ e ∈ post, ∀ dir', get m (dirOf e.1) = some dir' → join dir' (baseOf e.1) = join dir (baseOf name) → e.2 = content) :
    ∀ (pre : List (Str × Str)) (n : Nat) (d : Disk) (r : Result),
    (writeAll calls m n d r (pre ++ (name, content) :: post)).2 ≠ .failed →
    (writeAll calls m n d r (pre ++ (name, content) :: post)).1.at_ (join dir (baseOf name)) = some (.file content) := by
  intro pre
  induction pre with
  | nil =>
    intro n d r hf
    simp only [List.nil_append, writeAll, hg] at hf ⊢
    split at hf
    · rename_i hw
      rw [if_pos hw]
      exact writeAll_keeps _ _ _ _ _ _ ((writeFile_spec _ _ _ _).2.2.2.1 hw) hpost hf
    · simp at hf
  | cons f rest ih =>
    intro n d r hf
    obtain ⟨name', content'⟩ := f
    simp only [List.cons_append, writeAll] at hf ⊢
    cases hg' : get m (dirOf name') with
    | none => rw [hg'] at hf; exact ih _ _ _ hf
    | some dir' =>
      rw [hg'] at hf
      simp only [] at hf ⊢
      split at hf
      · rename_i hw
        rw [if_pos hw]
        exact ih _ _ _ hf
      · simp at hf

/-- Without failures, and if no file goes to a directory, everything is written. -/
theorem writeAll_ok (calls : Nat → Call) (hc : ∀ n, calls n = {}) (m : List (Str × Str)) : ∀ (files : List (Str × Str)) (n : Nat) (d : Disk),
    (∀ e ∈ files, ∃ dir, get m (dirOf e.1) = some dir ∧ d.at_ (join dir (baseOf e.1)) ≠ some .dir) →
    (writeAll calls m n d .ok files).2 = .ok := by
  intro files
  induction files with
  | nil => intro n d _; rfl
  | cons f rest ih =>
    intro n d h
    obtain ⟨name, content⟩ := f
    obtain ⟨dir, hg, hd⟩ := h (name, content) (by simp)
    simp only [writeAll]
    simp only [] at hg hd
    rw [hg]
    simp only [hc]
    rw [if_pos (writeFile_fine d _ content hd)]
    refine ih _ _ fun e he => ?_
    obtain ⟨dir', hg', hd'⟩ := h e (by simp [he])
    refine ⟨dir', hg', fun hdir => hd' ?_⟩
    by_cases hp : join dir' (baseOf e.1) = join dir (baseOf name)
    · rw [hp] at hdir ⊢
      exact (writeFile_spec _ _ _ _).2.2.2.2 hdir
    · rw [(writeFile_spec _ _ _ _).1 _ hp] at hdir
      exact hdir

end Verif.Generate
