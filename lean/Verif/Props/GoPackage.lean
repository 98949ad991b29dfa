import Verif.Model.GoPackage
import Mathlib.Data.List.Nodup
/-!
# Properties of the inference of Go packages: C52
-/
namespace Verif.GoPackage

open Verif.Assoc

/-! ### Specification -/

/-- Specification: the complete Go package for an option of a file in a directory: an option that is only a name
stands for the directory, with the name added if the directory does not end with it. -/
def Complete (dir g v : Str) : Prop :=
  (('.' ∈ g ∨ '/' ∈ g) ∧ v = g) ∨
  ('.' ∉ g ∧ '/' ∉ g ∧ ((g <:+ dir ∧ v = dir) ∨ (¬ g <:+ dir ∧ v = dir ++ [';'] ++ g)))

/-- Specification: the Go package of a file: that of its option, else that of a file in the same directory, else
its directory. -/
def Value (files : List File) (f : File) (v : Str) : Prop :=
  (∃ g, f.goPkg = some g ∧ Complete f.dir g v) ∨
  (f.goPkg = none ∧ (∃ o ∈ files, o.dir = f.dir ∧ ∃ g, o.goPkg = some g ∧ Complete f.dir g v)) ∨
  (f.goPkg = none ∧ (∀ o ∈ files, o.dir = f.dir → o.goPkg = none) ∧ v = f.dir)

/-- Specification: the files of a directory have the same package, and the same Go package if they say one. -/
def Consistent (files : List File) : Prop :=
  ∀ f ∈ files, ∀ o ∈ files, o.dir = f.dir → o.pkg = f.pkg ∧
    ∀ g g' v v', f.goPkg = some g → o.goPkg = some g' → Complete f.dir g v → Complete f.dir g' v' → v = v'

/-! ### Lemmas -/

theorem complete_iff {dir g v : Str} : Complete dir g v ↔ v = sanitize dir g := by
  unfold Complete sanitize
  by_cases h : '.' ∉ g ∧ '/' ∉ g
  · rw [if_pos h]
    by_cases hs : g <:+ dir
    · rw [if_pos (List.isSuffixOf_iff_suffix.2 hs)]
      constructor
      · rintro (⟨h1, _⟩ | ⟨_, _, ⟨_, h3⟩ | ⟨h3, _⟩⟩)
        · exact absurd h1 (by rw [not_or]; exact h)
        · exact h3
        · exact absurd hs h3
      · intro e; exact .inr ⟨h.1, h.2, .inl ⟨hs, e⟩⟩
    · rw [if_neg (fun h' => hs (List.isSuffixOf_iff_suffix.1 h'))]
      constructor
      · rintro (⟨h1, _⟩ | ⟨_, _, ⟨h3, _⟩ | ⟨_, h3⟩⟩)
        · exact absurd h1 (by rw [not_or]; exact h)
        · exact absurd h3 hs
        · rw [h3]; simp
      · intro e; exact .inr ⟨h.1, h.2, .inr ⟨hs, by rw [e]; simp⟩⟩
  · rw [if_neg h]
    have h' : '.' ∈ g ∨ '/' ∈ g := by
      by_cases h1 : '.' ∈ g
      · exact .inl h1
      · by_cases h2 : '/' ∈ g
        · exact .inr h2
        · exact absurd ⟨h1, h2⟩ h
    constructor
    · rintro (⟨_, h2⟩ | ⟨h1, h2, _⟩)
      · exact h2
      · exact absurd ⟨h1, h2⟩ h
    · intro e; exact .inl ⟨h', e⟩

theorem look_consistent {files : List File} (hc : Consistent files) {f : File} (hf : f ∈ files) :
    ∀ os : List File, (∀ o ∈ os, o ∈ files) →
      (look f os = .nothing ∧ ∀ o ∈ os, o.path ≠ f.path → o.dir = f.dir → o.goPkg = none) ∨
      (∃ o ∈ os, ∃ g, o.dir = f.dir ∧ o.goPkg = some g ∧ look f os = .sibling (sanitize f.dir g)) := by
  intro os
  induction os with
  | nil => intro _; exact .inl ⟨rfl, by simp⟩
  | cons o os ih =>
    intro hm
    have hm' := ih fun x hx => hm x (List.mem_cons_of_mem _ hx)
    unfold look
    by_cases hp : o.path = f.path
    · rw [if_pos hp]
      rcases hm' with ⟨h1, h2⟩ | ⟨o', h1, g, h2⟩
      · refine .inl ⟨h1, fun x hx h3 => ?_⟩
        rcases List.mem_cons.1 hx with rfl | hx
        · exact absurd hp h3
        · exact h2 x hx h3
      · exact .inr ⟨o', List.mem_cons_of_mem _ h1, g, h2⟩
    · rw [if_neg hp]
      by_cases hd : o.dir = f.dir
      · rw [if_neg (by simpa using hd)]
        have hpk := (hc f hf o (hm o (by simp)) hd).1
        cases hgo : o.goPkg with
        | some g =>
          simp only
          rw [if_pos hpk.symm]
          exact .inr ⟨o, by simp, g, hd, hgo, rfl⟩
        | none =>
          simp only
          rw [if_neg (by simpa using hpk.symm)]
          rcases hm' with ⟨h1, h2⟩ | ⟨o', h1, g, h2⟩
          · refine .inl ⟨h1, fun x hx h3 h4 => ?_⟩
            rcases List.mem_cons.1 hx with rfl | hx
            · exact hgo
            · exact h2 x hx h3 h4
          · exact .inr ⟨o', List.mem_cons_of_mem _ h1, g, h2⟩
      · rw [if_pos (by simpa using hd)]
        rcases hm' with ⟨h1, h2⟩ | ⟨o', h1, g, h2⟩
        · refine .inl ⟨h1, fun x hx h3 h4 => ?_⟩
          rcases List.mem_cons.1 hx with rfl | hx
          · exact absurd h4 hd
          · exact h2 x hx h3 h4
        · exact .inr ⟨o', List.mem_cons_of_mem _ h1, g, h2⟩

/-- In consistent directories the Go package of a file is determined. -/
theorem value_unique {files : List File} (hc : Consistent files) {f : File} {v v' : Str} (h : Value files f v)
    (h' : Value files f v') : v = v' := by
  rcases h with ⟨g, h1, h2⟩ | ⟨h1, o, ho, hd, g, h2, h3⟩ | ⟨h1, h2, h3⟩ <;>
    rcases h' with ⟨g', k1, k2⟩ | ⟨k1, o', ko, kd, g', k2, k3⟩ | ⟨k1, k2, k3⟩
  · rw [h1] at k1; cases k1; rw [complete_iff] at h2 k2; rw [h2, k2]
  · rw [h1] at k1; cases k1
  · rw [h1] at k1; cases k1
  · rw [h1] at k1; cases k1
  · exact (hc o ho o' ko (kd.trans hd.symm)).2 g g' v v' h2 k2 (by rw [hd]; exact h3) (by rw [hd]; exact k3)
  · rw [k2 o ho hd] at h2; cases h2
  · rw [h1] at k1; cases k1
  · rw [h2 o' ko kd] at k2; cases k2
  · rw [h3, k3]

/-- The table holds right values. -/
def TableOk (files : List File) (m : List (Str × Str)) : Prop :=
  ∀ f ∈ files, f.goPkg = none → ∀ v, get m f.dir = some v → Value files f v

theorem value_same_dir {files : List File} {f f' : File} (hd : f'.dir = f.dir) (hg : f.goPkg = none) (hg' : f'.goPkg = none) {v : Str}
    (h : Value files f v) : Value files f' v := by
  rcases h with ⟨g, h1, _⟩ | ⟨_, o, ho, h2, g, h3, h4⟩ | ⟨_, h2, h3⟩
  · rw [hg] at h1; cases h1
  · exact .inr (.inl ⟨hg', o, ho, h2.trans hd.symm, g, h3, by rw [hd]; exact h4⟩)
  · exact .inr (.inr ⟨hg', fun o ho h => h2 o ho (h.trans hd), by rw [hd]; exact h3⟩)

theorem inferFile_consistent {files : List File} (hn : (files.map File.path).Nodup) (hc : Consistent files) {m : List (Str × Str)}
    (hm : TableOk files m) {f : File} (hf : f ∈ files) (hg : f.goPkg = none) :
    ∃ m' v, inferFile files m f = some (m', v) ∧ TableOk files m' ∧ Value files f v := by
  have upd : ∀ v, Value files f v → TableOk files (set m f.dir v) := by
    intro v hv f' hf' hg' w hw
    by_cases hd : f'.dir = f.dir
    · rw [hd, get_set_self] at hw
      cases hw
      exact value_same_dir hd hg hg' hv
    · rw [get_set_ne _ _ hd] at hw
      exact hm f' hf' hg' w hw
  unfold inferFile
  cases hgm : get m f.dir with
  | some g => exact ⟨m, g, rfl, hm, hm f hf hg g hgm⟩
  | none =>
    simp only
    rcases look_consistent hc hf files (fun _ h => h) with ⟨h1, h2⟩ | ⟨o, h1, g, h2, h3, h4⟩
    · have hv : Value files f f.dir := by
        refine .inr (.inr ⟨hg, fun o ho hd => ?_, rfl⟩)
        by_cases hp : o.path = f.path
        · rw [List.inj_on_of_nodup_map hn ho hf hp]; exact hg
        · exact h2 o ho hp hd
      rw [h1]
      exact ⟨_, _, rfl, upd _ hv, hv⟩
    · have hv : Value files f (sanitize f.dir g) := .inr (.inl ⟨hg, o, h1, h2, g, h3, complete_iff.2 rfl⟩)
      rw [h4]
      exact ⟨_, _, rfl, upd _ hv, hv⟩

theorem loop_consistent {files : List File} (hn : (files.map File.path).Nodup) (hc : Consistent files) :
    ∀ (fs : List File) (m : List (Str × Str)), (∀ f ∈ fs, f ∈ files) → TableOk files m →
      (loop files m fs).2 = false ∧ (loop files m fs).1.map Prod.fst = fs ∧ ∀ e ∈ (loop files m fs).1, Value files e.1 e.2 := by
  intro fs
  induction fs with
  | nil => intro m _ _; exact ⟨rfl, rfl, by simp [loop]⟩
  | cons f fs ih =>
    intro m hs hm
    have hs' : ∀ x ∈ fs, x ∈ files := fun x hx => hs x (List.mem_cons_of_mem _ hx)
    unfold loop
    cases hg : f.goPkg with
    | some g =>
      simp only
      obtain ⟨h1, h2, h3⟩ := ih m hs' hm
      refine ⟨h1, by rw [List.map_cons, h2], fun e he => ?_⟩
      rcases List.mem_cons.1 he with rfl | he
      · exact .inl ⟨g, hg, complete_iff.2 rfl⟩
      · exact h3 e he
    | none =>
      simp only
      obtain ⟨m', v, hi, hm', hv⟩ := inferFile_consistent hn hc hm (hs f (by simp)) hg
      rw [hi]
      simp only
      obtain ⟨h1, h2, h3⟩ := ih m' hs' hm'
      refine ⟨h1, by rw [List.map_cons, h2], fun e he => ?_⟩
      rcases List.mem_cons.1 he with rfl | he
      · exact hv
      · exact h3 e he

/-! ### C52 -/

/-- C52 (partial): if the files of each directory agree on the package and on the Go package, there is no error, and
each file gets the Go package of its option, else that of its siblings, else its directory. Missing: directories
with several packages, see `C52_violated` and `C52_share_violated`. -/
theorem C52_value_partial (files : List File) (hn : (files.map File.path).Nodup) (hc : Consistent files) :
    ∃ r, infer files = some r ∧ r.map Prod.fst = files ∧ ∀ e ∈ r, ∀ v, Value files e.1 v ↔ v = e.2 := by
  obtain ⟨h1, h2, h3⟩ := loop_consistent hn hc files [] (fun _ h => h) (by intro f _ _ v h; cases h)
  refine ⟨_, by unfold infer; simp only; rw [if_neg (by rw [h1]; simp)], h2, fun e he v => ⟨fun hv => ?_, fun hv => ?_⟩⟩
  · exact value_unique hc hv (h3 e he)
  · rw [hv]; exact h3 e he

/-- C52 (partial): the Go packages do not depend on the order of the files, in consistent directories. -/
theorem C52_order_partial (files files' : List File) (hn : (files.map File.path).Nodup) (hc : Consistent files) (hp : files.Perm files') :
    ∃ r r', infer files = some r ∧ infer files' = some r' ∧ r.Perm r' := by
  have hn' : (files'.map File.path).Nodup := (hp.map _).nodup_iff.1 hn
  have hc' : Consistent files' := fun f hf o ho => hc f (hp.mem_iff.2 hf) o (hp.mem_iff.2 ho)
  obtain ⟨r, h1, h2, h3⟩ := C52_value_partial files hn hc
  obtain ⟨r', k1, k2, k3⟩ := C52_value_partial files' hn' hc'
  have hv : ∀ {f v}, Value files f v ↔ Value files' f v := by
    intro f v
    unfold Value
    simp only [hp.mem_iff]
  refine ⟨r, r', h1, k1, ?_⟩
  have nr : r.Nodup := List.Nodup.of_map Prod.fst (by rw [h2]; exact List.Nodup.of_map _ hn)
  have nr' : r'.Nodup := List.Nodup.of_map Prod.fst (by rw [k2]; exact List.Nodup.of_map _ hn')
  have sub : ∀ {a b : List (File × Str)} {fa fb : List File}, a.map Prod.fst = fa → b.map Prod.fst = fb → (∀ x, x ∈ fa → x ∈ fb) →
      (∀ e ∈ a, ∀ v, Value files e.1 v ↔ v = e.2) → (∀ e ∈ b, ∀ v, Value files e.1 v ↔ v = e.2) → ∀ e ∈ a, e ∈ b := by
    intro a b fa fb ha hb hs va vb e he
    have : e.1 ∈ fb := hs _ (by rw [← ha]; exact List.mem_map.2 ⟨e, he, rfl⟩)
    rw [← hb, List.mem_map] at this
    obtain ⟨e', he', h⟩ := this
    have h4 : e.2 = e'.2 := (vb e' he' e.2).1 (by rw [h]; exact (va e he e.2).2 rfl)
    have : e = e' := Prod.ext h.symm h4
    rw [this]; exact he'
  refine (List.perm_ext_iff_of_nodup nr nr').2 fun e => ⟨?_, ?_⟩
  · exact sub h2 k2 (fun x hx => hp.mem_iff.1 hx) h3 (fun e he v => by rw [hv]; exact k3 e he v) e
  · exact sub k2 h2 (fun x hx => hp.mem_iff.2 hx) (fun e he v => by rw [hv]; exact k3 e he v) h3 e

private def fa : File := ⟨['d', '/', 'a'], ['d'], ['p'], none⟩
private def fb : File := ⟨['d', '/', 'b'], ['d'], ['p'], some ['x', '/', 'y']⟩
private def fc : File := ⟨['d', '/', 'c'], ['d'], ['q'], none⟩

/-- C52 fails: the order of the files decides whether there is an error. -/
theorem C52_violated : ∃ files files' : List File, (files.map File.path).Nodup ∧ files.Perm files' ∧ infer files ≠ none ∧ infer files' = none :=
  ⟨[fa, fb, fc], [fc, fa, fb], by decide, by decide, by decide, by decide⟩

/-- C52 fails: a file gets the Go package of a file of another package. -/
theorem C52_share_violated : ∃ (files : List File) (r : List (File × Str)), (files.map File.path).Nodup ∧ infer files = some r ∧
    ∃ e ∈ r, ∃ e' ∈ r, e.1.goPkg = none ∧ e'.1.goPkg = none ∧ e.1.pkg ≠ e'.1.pkg ∧ e.2 = e'.2 :=
  ⟨[fa, fb, fc], [(fa, ['x', '/', 'y']), (fb, ['x', '/', 'y']), (fc, ['x', '/', 'y'])], by decide, by decide,
    (fa, ['x', '/', 'y']), by simp, (fc, ['x', '/', 'y']), by simp, by decide⟩

/-! ### A conflict that no order hides -/

theorem look_conflict {f : File} : ∀ os : List File, (∀ o ∈ os, o.dir = f.dir → o.goPkg = none) →
    (∃ o ∈ os, o.path ≠ f.path ∧ o.dir = f.dir ∧ o.pkg ≠ f.pkg) → look f os = .conflict := by
  intro os
  induction os with
  | nil => rintro _ ⟨o, ho, _⟩; cases ho
  | cons o os ih =>
    intro hg hx
    have hg' : ∀ x ∈ os, x.dir = f.dir → x.goPkg = none := fun x hx => hg x (List.mem_cons_of_mem _ hx)
    have step : ¬ (o.path ≠ f.path ∧ o.dir = f.dir ∧ o.pkg ≠ f.pkg) → look f os = .conflict := by
      intro hno
      refine ih hg' ?_
      obtain ⟨x, hx, h⟩ := hx
      rcases List.mem_cons.1 hx with rfl | hx
      · exact absurd h hno
      · exact ⟨x, hx, h⟩
    unfold look
    by_cases hp : o.path = f.path
    · rw [if_pos hp]; exact step fun h => h.1 hp
    · rw [if_neg hp]
      by_cases hd : o.dir = f.dir
      · rw [if_neg (by simpa using hd), hg o (by simp) hd]
        simp only
        by_cases hk : f.pkg = o.pkg
        · rw [if_neg (by simpa using hk)]; exact step fun h => h.2.2 hk.symm
        · rw [if_pos hk]
      · rw [if_pos (by simpa using hd)]; exact step fun h => hd h.2.1

/-- C52: if no file of a directory has an option and two of them have different packages, there is an error in
every order of the files. -/
theorem C52_conflict (files : List File) (hn : (files.map File.path).Nodup) (f o : File) (hf : f ∈ files) (ho : o ∈ files)
    (hd : o.dir = f.dir) (hp : o.pkg ≠ f.pkg) (hg : ∀ x ∈ files, x.dir = f.dir → x.goPkg = none) : infer files = none := by
  have main : ∀ (fs : List File) (m : List (Str × Str)), get m f.dir = none → (∃ x ∈ fs, x.dir = f.dir) → (∀ x ∈ fs, x ∈ files) →
      (loop files m fs).2 = true := by
    intro fs
    induction fs with
    | nil => rintro m _ ⟨x, hx, _⟩; cases hx
    | cons a fs ih =>
      intro m hm hx hs
      have hs' : ∀ x ∈ fs, x ∈ files := fun x hx => hs x (List.mem_cons_of_mem _ hx)
      unfold loop
      by_cases had : a.dir = f.dir
      · rw [hg a (hs a (by simp)) had]
        simp only
        have hl : look a files = .conflict := by
          refine look_conflict files (fun x hx h => hg x hx (h.trans had)) ?_
          by_cases hap : f.pkg = a.pkg
          · refine ⟨o, ho, fun e => ?_, hd.trans had.symm, fun e => hp (e.trans hap.symm)⟩
            have := List.inj_on_of_nodup_map hn ho (hs a (by simp)) e
            rw [this] at hp
            exact hp hap.symm
          · refine ⟨f, hf, fun e => ?_, had.symm, hap⟩
            have := List.inj_on_of_nodup_map hn hf (hs a (by simp)) e
            rw [this] at hap
            exact hap rfl
        have : inferFile files m a = none := by
          unfold inferFile
          rw [had, hm, hl]
        rw [this]
      · have hx' : ∃ x ∈ fs, x.dir = f.dir := by
          obtain ⟨x, hx, h⟩ := hx
          rcases List.mem_cons.1 hx with rfl | hx
          · exact absurd h had
          · exact ⟨x, hx, h⟩
        cases hga : a.goPkg with
        | some g => exact ih m hm hx' hs'
        | none =>
          simp only
          cases hi : inferFile files m a with
          | none => rfl
          | some r =>
            obtain ⟨m', v⟩ := r
            simp only
            refine ih m' ?_ hx' hs'
            unfold inferFile at hi
            split at hi
            · cases hi; exact hm
            · split at hi
              · cases hi; rw [get_set_ne _ _ (Ne.symm had)]; exact hm
              · cases hi; rw [get_set_ne _ _ (Ne.symm had)]; exact hm
              · cases hi
  unfold infer
  simp only
  rw [main files [] rfl ⟨f, hf, rfl⟩ (fun _ h => h), if_pos rfl]

example : infer [fa, fb] = some [(fa, ['x', '/', 'y']), (fb, ['x', '/', 'y'])] := by decide
example : infer [fb, fa] = some [(fb, ['x', '/', 'y']), (fa, ['x', '/', 'y'])] := by decide
example : infer [fa, fc] = none ∧ infer [fc, fa] = none := by decide
example : Consistent [fa, fb] := by
  intro f hf o ho _
  have hp : ∀ x ∈ [fa, fb], x.pkg = ['p'] := by decide
  refine ⟨(hp o ho).trans (hp f hf).symm, fun g g' v v' h1 h2 h3 h4 => ?_⟩
  have hk : ∀ x ∈ [fa, fb], ∀ g, x.goPkg = some g → g = ['x', '/', 'y'] := by
    intro x hx g h
    simp only [List.mem_cons, List.not_mem_nil, or_false] at hx
    rcases hx with rfl | rfl
    · cases h
    · cases h; rfl
  rw [hk f hf g h1] at h3
  rw [hk o ho g' h2] at h4
  rw [complete_iff] at h3 h4
  rw [h3, h4]

end Verif.GoPackage
