import Verif.Spec.FindFile

/-!
# Lemmas on finding files
-/
namespace Verif.FindFile

theorem wellKnown_iff {p : Path} : wellKnown p = true ↔ BelowGoogle p := by
  have hk : kwGoogle = litGoogle := rfl
  unfold BelowGoogle wellKnown
  split
  · rename_i a b c
    rw [decide_eq_true_eq, hk]
    constructor
    · rintro rfl
      exact ⟨_, by simp, rfl⟩
    · rintro ⟨r, _, h⟩
      exact (List.cons.inj h).1
  · rename_i h
    refine ⟨fun h => (by cases h), ?_⟩
    rintro ⟨r, hr, rfl⟩
    cases r with
    | nil => exact absurd rfl hr
    | cons a b => exact absurd rfl (h _ _ _)

theorem wellKnown_false {p : Path} : wellKnown p = false ↔ ¬ BelowGoogle p := by
  rw [← wellKnown_iff, Bool.not_eq_true]

@[simp] theorem upd_same {α β : Type} [DecidableEq α] (m : α → Option β) (k : α) (v : Option β) : upd m k v k = v := by simp [upd]

theorem upd_other {α β : Type} [DecidableEq α] (m : α → Option β) {k x : α} (v : Option β) (h : x ≠ k) : upd m k v x = m x := by
  simp [upd, h]

@[simp] theorem assign_uriOf (st : State) (u : Uri) (p : Path) : (st.assign u p).uriOf p = some u := by simp [State.assign]
@[simp] theorem assign_synthetic (st : State) (u : Uri) (p : Path) : (st.assign u p).synthetic = st.synthetic := rfl

/-- Only synthetic documents have synthetic text; one with a path that begins with `google/` is found by that path; files do not have
such a path. -/
structure Registered (st : State) : Prop where
  keys : ∀ u t, st.synthetic u = some t → ∃ p, u = .proto p
  known : ∀ p t, wellKnown p = true → st.synthetic (.proto p) = some t → st.uriOf p = some (.proto p)
  own : ∀ p q, st.pathOf (.proto p) = some q → q = p ∧ (wellKnown p = true → st.uriOf p = some (.proto p))
  files : ∀ f p, st.pathOf (.file f) = some p → wellKnown p = false

theorem Registered.empty : Registered State.empty :=
  ⟨by simp [State.empty], by simp [State.empty], by simp [State.empty], by simp [State.empty]⟩

theorem Registered.assign {st : State} (h : Registered st) {u : Uri} {p : Path}
    (hp : u = .proto p ∨ ((∃ f, u = .file f) ∧ wellKnown p = false)) : Registered (st.assign u p) where
  keys := h.keys
  known q t hq ht := by
    by_cases hqp : q = p
    · subst hqp
      rcases hp with rfl | ⟨-, hp⟩
      · simp
      · rw [hp] at hq; cases hq
    · simpa [State.assign, upd_other _ _ hqp] using h.known q t hq ht
  own q s hs := by
    by_cases hqu : Uri.proto q = u
    · rcases hp with rfl | ⟨⟨f, rfl⟩, -⟩
      · cases hqu
        simp only [State.assign, upd_same, Option.some.injEq] at hs
        exact ⟨hs.symm, fun _ => assign_uriOf _ _ _⟩
      · cases hqu
    · obtain ⟨h1, h2⟩ := h.own q s (by simpa [State.assign, upd, hqu] using hs)
      refine ⟨h1, fun hw => ?_⟩
      have hqp : q ≠ p := by
        rintro rfl
        rcases hp with rfl | ⟨-, hp⟩
        · exact hqu rfl
        · rw [hp] at hw; cases hw
      simpa [State.assign, upd_other _ _ hqp] using h2 hw
  files f q hq := by
    by_cases hfu : Uri.file f = u
    · rcases hp with rfl | ⟨-, hp⟩
      · cases hfu
      · subst hfu
        simp only [State.assign, upd_same, Option.some.injEq] at hq
        subst hq
        exact hp
    · exact h.files f q (by simpa [State.assign, upd, hfu] using hq)

theorem Registered.congr {st st' : State} (h : Registered st) (h1 : st'.synthetic = st.synthetic) (h2 : st'.uriOf = st.uriOf)
    (h3 : st'.pathOf = st.pathOf) : Registered st' :=
  ⟨fun u t hu => h.keys u t (h1 ▸ hu), fun p t hp ht => by rw [h2]; exact h.known p t hp (h1 ▸ ht),
    fun p q hq => by rw [h2]; exact h.own p q (h3 ▸ hq), fun f p hp => h.files f p (h3 ▸ hp)⟩

theorem Registered.fill {st : State} (h : Registered st) {p q : Path} {t : Text} (hp : st.pathOf (.proto p) = some q) :
    Registered { st with synthetic := upd st.synthetic (.proto p) (some t) } where
  keys u s hu := by
    by_cases e : u = .proto p
    · exact ⟨p, e⟩
    · exact h.keys u s (by simpa [upd, e] using hu)
  known q s hq hs := by
    by_cases e : q = p
    · subst e; exact (h.own _ _ hp).2 hq
    · exact h.known q s hq (by simpa [upd, e] using hs)
  own := h.own
  files := h.files

/-! ## Where results come from -/

theorem checkGlobalCache_ok {P : Program} {W : World} {st st' : State} {path : Path} {r : Found} (hw : wellKnown path = true)
    (h : Registered st) (he : checkGlobalCache P st path = (st', .ok r)) :
    r.resolved = path ∧ Located W st' r ∧ Registered st' := by
  unfold checkGlobalCache at he
  cases hr : P.registry path with
  | none => simp [hr] at he
  | some d =>
    simp only [hr] at he
    cases hs : st.synthetic (.proto path) with
    | some src =>
      simp only [hs, Prod.mk.injEq, Except.ok.injEq] at he
      obtain ⟨rfl, rfl⟩ := he
      exact ⟨rfl, ⟨_, h.known _ _ hw hs, hs⟩, h⟩
    | none =>
      simp only [hs] at he
      cases hp : P.print d with
      | none =>
        simp only [hp, Prod.mk.injEq, Except.ok.injEq] at he
        obtain ⟨rfl, rfl⟩ := he
        exact ⟨rfl, ⟨_, assign_uriOf _ _ _, rfl⟩, h.assign (.inl rfl)⟩
      | some src =>
        simp only [hp, Prod.mk.injEq, Except.ok.injEq] at he
        obtain ⟨rfl, rfl⟩ := he
        exact ⟨rfl, ⟨_, assign_uriOf _ _ _, by simp [shown]⟩, (h.assign (.inl rfl)).fill (q := path) (by simp [State.assign])⟩

theorem checkGlobalCache_error {P : Program} {st st' : State} {path : Path} {e : Err}
    (he : checkGlobalCache P st path = (st', .error e)) : st' = st ∧ e = .notRegistered := by
  unfold checkGlobalCache at he
  cases hr : P.registry path with
  | none => simp only [hr, Prod.mk.injEq, Except.error.injEq] at he; exact ⟨he.1.symm, he.2.symm⟩
  | some d =>
    simp only [hr] at he
    cases hs : st.synthetic (.proto path) with
    | some src => simp [hs] at he
    | none => cases hp : P.print d <;> simp [hs, hp] at he

theorem checkWellKnown_ok {P : Program} {W : World} {st st' : State} {path : Path} {r : Found}
    (h : Registered st) (he : checkWellKnown P st path = (st', .ok r)) :
    wellKnown path = true ∧ r.resolved = path ∧ Located W st' r ∧ Registered st' := by
  unfold checkWellKnown at he
  split at he
  · rename_i hw; exact ⟨hw, checkGlobalCache_ok hw h he⟩
  · simp at he

theorem checkWellKnown_error {P : Program} {st st' : State} {path : Path} {e : Err}
    (he : checkWellKnown P st path = (st', .error e)) :
    st' = st ∧ (e = .notExist ↔ wellKnown path = false) ∧ (e = .notExist ∨ e = .notRegistered) := by
  unfold checkWellKnown at he
  split at he
  · rename_i hw
    obtain ⟨h1, h2⟩ := checkGlobalCache_error he
    exact ⟨h1, by simp [h2, hw], .inr h2⟩
  · rename_i hw
    simp only [Prod.mk.injEq, Except.error.injEq] at he
    exact ⟨he.1.symm, by simp [← he.2, hw], .inl he.2.symm⟩

theorem checkFS_ok {W : World} {st : State} {path : Path} {r : Found} (he : checkFS W st path = .ok r) :
    r.resolved = path ∧ Located W st r := by
  unfold checkFS at he
  cases hu : st.uriOf path with
  | none => simp [hu] at he
  | some u =>
    simp only [hu, Option.bind_some] at he
    cases hc : W.read u with
    | none => simp [hc] at he
    | some content =>
      simp only [hc] at he
      split at he
      · cases he
      · simp only [Except.ok.injEq] at he
        subst he
        refine ⟨rfl, u, hu, ?_⟩
        cases u with
        | file f => exact hc
        | proto p => simp [World.read] at hc

/-- What `ImportFromGoModule` returns: `q` is the path of the package, the directory of the name or an edited form of it. -/
def Imported (W : World) (alts : List (Path × Path)) (name : Path) (res : ModuleImport) : Prop :=
  ∃ q filename, name = name.dropLast ++ [filename] ∧ name.dropLast ≠ [] ∧ kwProto.isSuffixOf filename = true ∧
    W.validImport name.dropLast = true ∧ W.findPackage q = some res.package ∧
    ((res.source = some (res.package.dir ++ [filename]) ∧ (W.disk (res.package.dir ++ [filename])).isSome) ∨
      (res.source = none ∧ W.disk (res.package.dir ++ [filename]) = none ∧
        ((res.alt = none ∧ q = name.dropLast) ∨
          (W.findPackage name.dropLast = none ∧ res.alt = some (joinPath q [filename]) ∧
            ∃ e ∈ alts, W.applyEdits e name.dropLast = some q))))

theorem findAlternative_some {W : World} {p edited : Path} {pkg : Package} {alts : List (Path × Path)}
    (ha : findAlternative W p alts = some (edited, pkg)) :
    W.findPackage edited = some pkg ∧ ∃ e ∈ alts, W.applyEdits e p = some edited := by
  induction alts with
  | nil => simp [findAlternative] at ha
  | cons e rest ih =>
    unfold findAlternative at ha
    cases h1 : W.applyEdits e p with
    | none =>
      simp only [h1] at ha
      obtain ⟨a, e', he', b⟩ := ih ha
      exact ⟨a, e', List.mem_cons_of_mem _ he', b⟩
    | some q =>
      simp only [h1] at ha
      cases h2 : W.findPackage q with
      | none =>
        simp only [h2] at ha
        obtain ⟨a, e', he', b⟩ := ih ha
        exact ⟨a, e', List.mem_cons_of_mem _ he', b⟩
      | some pkg' =>
        simp only [h2, Option.some.injEq, Prod.mk.injEq] at ha
        obtain ⟨rfl, rfl⟩ := ha
        exact ⟨h2, e, by simp, h1⟩

theorem importFromGoModule_some {W : World} {alts : List (Path × Path)} {name : Path} {res : ModuleImport}
    (h : importFromGoModule W alts name = some res) : Imported W alts name res := by
  unfold importFromGoModule at h
  cases hl : name.getLast? with
  | none => simp [hl] at h
  | some filename =>
    have hn : name = name.dropLast ++ [filename] := by
      obtain ⟨i, rfl⟩ := List.getLast?_eq_some_iff.mp hl
      simp
    simp only [hl] at h
    split at h
    · cases h
    split at h
    · cases h
    split at h
    · cases h
    rename_i h1 h2 h3
    simp only [Bool.not_eq_true', Bool.not_eq_false] at h2 h3
    have fin : ∀ q pkg alt, W.findPackage q = some pkg → moduleImport W filename pkg alt = res →
        ((alt = none ∧ q = name.dropLast) ∨ (W.findPackage name.dropLast = none ∧ alt = some (joinPath q [filename]) ∧
          ∃ e ∈ alts, W.applyEdits e name.dropLast = some q)) → Imported W alts name res := by
      intro q pkg alt hq hm ha
      refine ⟨q, filename, hn, h1, h2, h3, ?_⟩
      unfold moduleImport at hm
      simp only at hm
      split at hm
      · rename_i hd; subst hm; exact ⟨hq, .inl ⟨rfl, hd⟩⟩
      · rename_i hd; subst hm; exact ⟨hq, .inr ⟨rfl, by simpa using hd, ha⟩⟩
    cases hp : W.findPackage name.dropLast with
    | some pkg =>
      simp only [hp, Option.some.injEq] at h
      exact fin _ _ _ hp h (.inl ⟨rfl, rfl⟩)
    | none =>
      simp only [hp] at h
      cases ha : findAlternative W name.dropLast alts with
      | none => simp [ha] at h
      | some x =>
        obtain ⟨edited, pkg⟩ := x
        simp only [ha, Option.some.injEq] at h
        exact fin _ _ _ (findAlternative_some ha).1 h (.inr ⟨hp, rfl, (findAlternative_some ha).2⟩)

/-- A Go package without proto file, and its path. -/
theorem importFromGoModule_direct {W : World} {alts : List (Path × Path)} {q : Path} {filename : Str} {pkg : Package}
    (h0 : q ≠ []) (h1 : kwProto.isSuffixOf filename = true) (h2 : W.validImport q = true) (h3 : W.findPackage q = some pkg) :
    importFromGoModule W alts (q ++ [filename]) = some (moduleImport W filename pkg none) := by
  unfold importFromGoModule
  simp [h0, h1, h2, h3]

/-- The state after a file of a Go module was found. -/
def State.foundSource (st : State) (path : Path) (f : File) (isLocal : Bool) : State :=
  { st.assign (.file f) path with
    originOf := upd st.originOf (.file f) (some (if isLocal then Origin.localGoModule else .goModuleCache)) }

/-- The state after a descriptor was found in generated code. -/
def State.foundDesc (st : State) (path resolved : Path) (d : Desc) : State :=
  { st.assign (.proto resolved) resolved with
    originOf := upd st.originOf (.proto resolved) (some .synthetic)
    alts := if d.name ≠ path then st.alts ++ [(d.name, path)] else st.alts }

/-- The results of `checkGoModule` outside `github.com/gogo/googleapis/`. -/
def FromModule (W : World) (st : State) (path : Path) (res : ModuleImport) (st' : State) (r : Found) : Prop :=
  (∃ f t, res.source = some f ∧ W.disk f = some t ∧ st' = st.foundSource path f res.package.isLocal ∧ r = ⟨path, .text t⟩) ∨
  (res.source = none ∧ ∃ t, (st.uriOf (res.alt.getD path)).bind st.synthetic = some t ∧ st' = st ∧
    r = ⟨res.alt.getD path, .text t⟩) ∨
  (res.source = none ∧ (st.uriOf (res.alt.getD path)).bind st.synthetic = none ∧
    ∃ d, W.generated (path.getLast?.getD []) res.package.dir = some d ∧ st' = st.foundDesc path (res.alt.getD path) d ∧
      r = ⟨res.alt.getD path, .desc d⟩)

theorem checkGoModule_ok {P : Program} {W : World} {st st' : State} {path : Path} {r : Found}
    (he : checkGoModule P W st path = (st', .ok r)) :
    W.module?.isSome ∧ ((∃ rest, gogoRest path = some rest ∧ checkWellKnown P st rest = (st', .ok r)) ∨
    (gogoRest path = none ∧ ∃ res, importFromGoModule W st.alts path = some res ∧ FromModule W st path res st' r)) := by
  unfold checkGoModule at he
  cases hm : W.module? with
  | none => simp [hm] at he
  | some m =>
    refine ⟨rfl, ?_⟩
    simp only [hm] at he
    cases hg : gogoRest path with
    | some rest =>
      simp only [hg] at he
      exact .inl ⟨rest, rfl, he⟩
    | none =>
      refine .inr ⟨rfl, ?_⟩
      simp only [hg] at he
      cases hi : importFromGoModule W st.alts path with
      | none => simp [hi] at he
      | some res =>
        refine ⟨res, rfl, ?_⟩
        simp only [hi] at he
        cases hs : res.source with
        | some f =>
          simp only [hs] at he
          cases hd : W.disk f with
          | none => simp [hd] at he
          | some t =>
            simp only [hd, Prod.mk.injEq, Except.ok.injEq] at he
            exact .inl ⟨f, t, hs, hd, he.1.symm, he.2.symm⟩
        | none =>
          simp only [hs] at he
          cases hb : (st.uriOf (res.alt.getD path)).bind st.synthetic with
          | some t =>
            simp only [hb, Prod.mk.injEq, Except.ok.injEq] at he
            exact .inr (.inl ⟨hs, t, hb, he.1.symm, he.2.symm⟩)
          | none =>
            simp only [hb] at he
            cases hd : W.generated (path.getLast?.getD []) res.package.dir with
            | none => simp [hd] at he
            | some d =>
              simp only [hd, Prod.mk.injEq, Except.ok.injEq] at he
              exact .inr (.inr ⟨hs, hb, d, hd, he.1.symm, he.2.symm⟩)

theorem checkGoModule_error {P : Program} {W : World} {st st' : State} {path : Path} {e : Err}
    (he : checkGoModule P W st path = (st', .error e)) : st' = st := by
  unfold checkGoModule at he
  cases hm : W.module? with
  | none => simp only [hm, Prod.mk.injEq] at he; exact he.1.symm
  | some m =>
    simp only [hm] at he
    cases hg : gogoRest path with
    | some rest =>
      simp only [hg] at he
      exact (checkWellKnown_error he).1
    | none =>
      simp only [hg] at he
      cases hi : importFromGoModule W st.alts path with
      | none => simp only [hi, Prod.mk.injEq] at he; exact he.1.symm
      | some res =>
        simp only [hi] at he
        cases hs : res.source with
        | some f =>
          simp only [hs] at he
          cases hd : W.disk f with
          | none => simp only [hd, Prod.mk.injEq] at he; exact he.1.symm
          | some t => simp [hd] at he
        | none =>
          simp only [hs] at he
          cases hb : (st.uriOf (res.alt.getD path)).bind st.synthetic with
          | some t => simp [hb] at he
          | none =>
            simp only [hb] at he
            cases hd : W.generated (path.getLast?.getD []) res.package.dir with
            | none => simp only [hd, Prod.mk.injEq] at he; exact he.1.symm
            | some d => simp [hd] at he

theorem findGogo_ok {P : Program} {W : World} {st st' : State} {path : Path} {r : Found}
    (he : findGogo P W st path = (st', .ok r)) : checkGoModule P W st gogoPath = (st', .ok r) := by
  unfold findGogo at he
  split at he
  · cases hc : checkGoModule P W st gogoPath with
    | mk s x =>
      cases x with
      | ok r' => simpa [hc] using he
      | error e => simp [hc] at he
  · simp at he

theorem findModule_ok {P : Program} {W : World} {st st' : State} {path : Path} {r : Found} (hw : wellKnown path = false)
    (he : findModule P W st path = (st', .ok r)) :
    checkGoModule P W st path = (st', .ok r) ∨ checkGoModule P W st gogoPath = (st', .ok r) := by
  unfold findModule at he
  cases hc : checkGoModule P W st path with
  | mk s x =>
    cases x with
    | ok r' => left; simpa [hc] using he
    | error e =>
      obtain rfl := checkGoModule_error hc
      right
      cases e <;> simp only [hc, hw, Bool.false_eq_true, if_false] at he
      · exact findGogo_ok he
      · exact findGogo_ok he
      · simp at he
      · simp at he

/-- The ways in which a file is found. -/
theorem findLocked_ok {P : Program} {W : World} {st st' : State} {path : Path} {r : Found}
    (he : findLocked P W st path = (st', .ok r)) :
    checkWellKnown P st path = (st', .ok r) ∨
    (wellKnown path = false ∧ ((isSynthetic st path = false ∧ st' = st ∧ checkFS W st path = .ok r) ∨
      checkGoModule P W st path = (st', .ok r) ∨ checkGoModule P W st gogoPath = (st', .ok r))) := by
  unfold findLocked at he
  cases hc : checkWellKnown P st path with
  | mk s x =>
    cases x with
    | ok r' => left; simpa [hc] using he
    | error e =>
      obtain ⟨rfl, h1, h2⟩ := checkWellKnown_error hc
      right
      rcases h2 with rfl | rfl
      · have hw := h1.mp rfl
        refine ⟨hw, ?_⟩
        simp only [hc] at he
        split at he
        · exact .inr (findModule_ok hw he)
        · rename_i hs
          cases hf : checkFS W s path with
          | ok r' =>
            left
            simp only [hf, Prod.mk.injEq, Except.ok.injEq] at he
            exact ⟨by simpa using hs, he.1.symm, by rw [he.2]⟩
          | error e =>
            cases e with
            | notExist =>
              simp only [hf] at he
              exact .inr (findModule_ok hw he)
            | _ => simp [hf] at he
      · simp [hc] at he

theorem findLocked_error {P : Program} {W : World} {st st' : State} {path : Path} {e : Err}
    (he : findLocked P W st path = (st', .error e)) : st' = st := by
  have hg : ∀ s s' e, findGogo P W s path = (s', .error e) → s' = s := by
    intro s s' e h
    unfold findGogo at h
    split at h
    · cases hc : checkGoModule P W s gogoPath with
      | mk s1 x =>
        cases x with
        | ok r => simp [hc] at h
        | error e' =>
          simp only [hc, Prod.mk.injEq] at h
          rw [← h.1]
          exact checkGoModule_error hc
    · simp only [Prod.mk.injEq] at h; exact h.1.symm
  have hm : ∀ s s' e, findModule P W s path = (s', .error e) → s' = s := by
    intro s s' e h
    unfold findModule at h
    cases hc : checkGoModule P W s path with
    | mk s1 x =>
      cases x with
      | ok r => simp [hc] at h
      | error e' =>
        obtain rfl := checkGoModule_error hc
        have key : ∀ h : (if wellKnown path = true then
            match checkGlobalCache P s1 path with
            | (st, .ok r) => (st, .ok r)
            | (st, .error .notExist) => findGogo P W st path
            | (st, .error e) => (st, .error e)
          else findGogo P W s1 path) = (s', .error e), s' = s1 := by
          intro h
          split at h
          · cases hcc : checkGlobalCache P s1 path with
            | mk s2 y =>
              cases y with
              | ok r => simp [hcc] at h
              | error e2 =>
                obtain ⟨rfl, rfl⟩ := checkGlobalCache_error hcc
                simp only [hcc, Prod.mk.injEq] at h
                exact h.1.symm
          · exact hg _ _ _ h
        cases e' with
        | notExist => simp only [hc] at h; exact key h
        | noModule => simp only [hc] at h; exact key h
        | notRegistered => simp only [hc, Prod.mk.injEq] at h; exact h.1.symm
        | other => simp only [hc, Prod.mk.injEq] at h; exact h.1.symm
  unfold findLocked at he
  cases hc : checkWellKnown P st path with
  | mk s x =>
    cases x with
    | ok r' => simp [hc] at he
    | error e' =>
      obtain ⟨rfl, h1, h2⟩ := checkWellKnown_error hc
      rcases h2 with rfl | rfl
      · simp only [hc] at he
        split at he
        · exact hm _ _ _ he
        · cases hf : checkFS W s path with
          | ok r' => simp [hf] at he
          | error e =>
            cases e with
            | notExist =>
              simp only [hf] at he
              exact hm _ _ _ he
            | _ => simp only [hf, Prod.mk.injEq] at he; exact he.1.symm
      · simp only [hc, Prod.mk.injEq] at he; exact he.1.symm

/-! ## Clean paths -/

theorem cleanAux_plain (rooted : Bool) (acc l : List Str) (h : ∀ part ∈ l, plain part) :
    cleanAux rooted acc l = acc.reverse ++ l := by
  induction l generalizing acc with
  | nil => simp [cleanAux]
  | cons part rest ih =>
    obtain ⟨h1, h2, h3⟩ := h part (by simp)
    unfold cleanAux
    rw [if_neg (by simp [h1, h2]), if_neg h3, ih _ fun x hx => h x (List.mem_cons_of_mem _ hx)]
    simp

theorem joinPath_plain (a b : Path) (ha : ∀ part ∈ a, plain part) (hb : ∀ part ∈ b, plain part) : joinPath a b = a ++ b := by
  unfold joinPath
  rw [cleanAux_plain _ _ _ fun x hx => (List.mem_append.mp hx).elim (ha x) (hb x)]
  rfl

theorem joinFile_plain (a : File) (b : Path) (ha : ∀ part ∈ a, plain part) (hb : ∀ part ∈ b, plain part) : joinFile a b = a ++ b := by
  unfold joinFile
  rw [cleanAux_plain _ _ _ fun x hx => (List.mem_append.mp hx).elim (ha x) (hb x)]
  rfl

theorem rel_append (base rest : List Str) : rel base (base ++ rest) = rest := by
  induction base with
  | nil => cases rest <;> simp [rel]
  | cons b bs ih => simp [rel, ih]

theorem isLocal_plain {p : Path} (h0 : p ≠ []) (h : ∀ part ∈ p, plain part) : isLocal p = true := by
  cases p with
  | nil => exact absurd rfl h0
  | cons head rest =>
    obtain ⟨h1, -, h3⟩ := h head (by simp)
    simp only [isLocal, cleanAux_plain false [] _ h]
    simp [h1, h3]

/-! ### Paths with `..` -/

theorem walk_cons (dir : File) (part : Str) (rest : List Str) :
    walk dir (part :: rest) =
      walk (if part = [] ∨ part = ['.'] then dir else if part = ['.', '.'] then dir.dropLast else dir ++ [part]) rest := rfl

theorem walk_append (dir : File) (a b : List Str) : walk dir (a ++ b) = walk (walk dir a) b := List.foldl_append

theorem walk_plain (dir : File) (p : List Str) (h : ∀ part ∈ p, plain part) : walk dir p = dir ++ p := by
  induction p generalizing dir with
  | nil => simp [walk]
  | cons part rest ih =>
    obtain ⟨h1, h2, h3⟩ := h part (by simp)
    rw [walk_cons, if_neg (by simp [h1, h2]), if_neg h3, ih _ fun y hy => h y (by simp [hy])]
    simp

theorem cleanAux_rooted (acc l : List Str) (h : ∀ part ∈ acc, part ≠ ['.', '.']) :
    cleanAux true acc l = walk acc.reverse l := by
  induction l generalizing acc with
  | nil => simp [cleanAux, walk]
  | cons part rest ih =>
    rw [walk_cons]
    unfold cleanAux
    by_cases h1 : part = [] ∨ part = ['.']
    · rw [if_pos h1, if_pos h1]; exact ih acc h
    · rw [if_neg h1, if_neg h1]
      by_cases h2 : part = ['.', '.']
      · rw [if_pos h2, if_pos h2]
        cases acc with
        | nil => simpa using ih [] (by simp)
        | cons a acc' =>
          simp only [if_neg (h a (by simp)), List.reverse_cons, List.dropLast_concat]
          exact ih acc' fun y hy => h y (by simp [hy])
      · rw [if_neg h2, if_neg h2, ih (part :: acc) (by
          intro y hy
          rcases List.mem_cons.mp hy with rfl | hy
          · exact h2
          · exact h y hy)]
        simp

/-- Names below some `..`. -/
def Normal (l : List Str) : Prop := ∃ k names, l = List.replicate k ['.', '.'] ++ names ∧ ∀ part ∈ names, plain part

theorem cleanAux_relative (l : List Str) : ∀ (k : Nat) (names : List Str), (∀ part ∈ names, plain part) →
    Normal (cleanAux false (names.reverse ++ List.replicate k ['.', '.']) l) ∧
    ∀ dir, walk dir (cleanAux false (names.reverse ++ List.replicate k ['.', '.']) l) =
      walk (walk dir (List.replicate k ['.', '.'] ++ names)) l := by
  induction l with
  | nil =>
    intro k names hn
    have e : cleanAux false (names.reverse ++ List.replicate k ['.', '.']) [] = List.replicate k ['.', '.'] ++ names := by
      simp [cleanAux]
    rw [e]
    exact ⟨⟨k, names, rfl, hn⟩, fun dir => rfl⟩
  | cons part rest ih =>
    intro k names hn
    by_cases h1 : part = [] ∨ part = ['.']
    · have e : cleanAux false (names.reverse ++ List.replicate k ['.', '.']) (part :: rest) =
          cleanAux false (names.reverse ++ List.replicate k ['.', '.']) rest := by
        rw [cleanAux.eq_def]; simp only []; rw [if_pos h1]
      rw [e]
      refine ⟨(ih k names hn).1, fun dir => ?_⟩
      rw [(ih k names hn).2, walk_cons, if_pos h1]
    · by_cases h2 : part = ['.', '.']
      · rcases List.eq_nil_or_concat names with rfl | ⟨init, last, hl⟩
        · have e : cleanAux false (([] : List Str).reverse ++ List.replicate k ['.', '.']) (part :: rest) =
              cleanAux false (([] : List Str).reverse ++ List.replicate (k + 1) ['.', '.']) rest := by
            rw [cleanAux.eq_def]; simp only []; rw [if_neg h1, if_pos h2]
            cases k with
            | zero => simp [h2]
            | succ j => simp [h2, List.replicate_succ]
          rw [e]
          refine ⟨(ih (k + 1) [] hn).1, fun dir => ?_⟩
          rw [(ih (k + 1) [] hn).2, List.replicate_succ', List.append_nil, List.append_nil, walk_append, walk_cons, walk_cons, h2]
          rfl
        · rw [List.concat_eq_append] at hl
          subst hl
          obtain ⟨p1, p2, p3⟩ := hn last (by simp)
          have hi : ∀ part ∈ init, plain part := fun y hy => hn y (by simp [hy])
          have e : cleanAux false ((init ++ [last]).reverse ++ List.replicate k ['.', '.']) (part :: rest) =
              cleanAux false (init.reverse ++ List.replicate k ['.', '.']) rest := by
            rw [cleanAux.eq_def]; simp only []; rw [if_neg h1, if_pos h2]
            simp [p3]
          rw [e]
          refine ⟨(ih k init hi).1, fun dir => ?_⟩
          rw [(ih k init hi).2, walk_cons, if_neg h1, if_pos h2, ← List.append_assoc, walk_append _ _ [last],
            walk_plain _ [last] fun y hy => hn y (by simp_all), List.dropLast_concat]
      · have hp : plain part := ⟨fun h => h1 (.inl h), fun h => h1 (.inr h), h2⟩
        have hi : ∀ y ∈ names ++ [part], plain y := by
          intro y hy
          rcases List.mem_append.mp hy with hy | hy
          · exact hn y hy
          · simp only [List.mem_singleton] at hy; exact hy ▸ hp
        have e : cleanAux false (names.reverse ++ List.replicate k ['.', '.']) (part :: rest) =
            cleanAux false ((names ++ [part]).reverse ++ List.replicate k ['.', '.']) rest := by
          rw [cleanAux.eq_def]; simp only []; rw [if_neg h1, if_neg h2]
          simp
        rw [e]
        refine ⟨(ih k _ hi).1, fun dir => ?_⟩
        rw [(ih k _ hi).2, walk_cons, if_neg h1, if_neg h2, ← List.append_assoc, walk_append _ _ [part],
          walk_plain _ [part] (by simpa using hp)]

theorem walk_up (dir up : File) : walk (dir ++ up) (List.replicate up.length ['.', '.']) = dir := by
  induction h : up.length generalizing up with
  | zero =>
    rw [List.length_eq_zero_iff] at h
    simp [h, walk]
  | succ n ih =>
    rcases List.eq_nil_or_concat up with rfl | ⟨init, last, rfl⟩
    · simp at h
    · rw [List.concat_eq_append] at h ⊢
      have : walk (dir ++ (init ++ [last])) (List.replicate (n + 1) ['.', '.']) = walk (dir ++ init) (List.replicate n ['.', '.']) := by
        rw [List.replicate_succ, walk_cons, if_neg (by decide), if_pos rfl, ← List.append_assoc, List.dropLast_concat]
      rw [this]
      exact ih init (by simpa using h)

theorem proto_plain {filename : Str} (h : kwProto.isSuffixOf filename = true) : plain filename := by
  have hl : 6 ≤ filename.length := by
    have := (List.isSuffixOf_iff_suffix.mp h).length_le
    simpa [kwProto] using this
  refine ⟨?_, ?_, ?_⟩ <;> (rintro rfl; simp at hl)

end Verif.FindFile
