import Verif.Lemmas.FindFile

/-!
# Lemmas on histories of lookups
-/
namespace Verif.FindFile

/-! ## Results belong to documents -/

theorem foundSource_registered {st : State} (h : Registered st) {path : Path} {f : File} {b : Bool} (hp : wellKnown path = false) :
    Registered (st.foundSource path f b) :=
  (h.assign (.inr ⟨⟨f, rfl⟩, hp⟩)).congr rfl rfl rfl

theorem checkGoModule_located {P : Program} {W : World} {st st' : State} {path : Path} {r : Found} (h : Registered st)
    (hw : wellKnown path = false) (he : checkGoModule P W st path = (st', .ok r)) :
    (Closed W → Located W st' r) ∧ Registered st' := by
  obtain ⟨-, ⟨rest, -, h1⟩ | ⟨-, res, hi, hf⟩⟩ := checkGoModule_ok he
  · exact ⟨fun _ => (checkWellKnown_ok h h1).2.2.1, (checkWellKnown_ok (W := W) h h1).2.2.2⟩
  · obtain ⟨q, filename, -, -, -, -, hq, hs⟩ := importFromGoModule_some hi
    rcases hf with ⟨f, t, h1, h2, rfl, rfl⟩ | ⟨h1, t, h2, rfl, rfl⟩ | ⟨h1, h2, d, h3, rfl, rfl⟩
    · refine ⟨fun hc => ⟨.file f, by simp [State.foundSource], ?_⟩, foundSource_registered h hw⟩
      rcases hs with ⟨h3, -⟩ | ⟨h3, -⟩
      · rw [h1, Option.some.injEq] at h3
        subst h3
        simp [shown, hc q _ _ hq, h2]
      · rw [h1] at h3; cases h3
    · refine ⟨fun _ => ?_, h⟩
      obtain ⟨u, hu, ht⟩ := Option.bind_eq_some_iff.mp h2
      obtain ⟨p, rfl⟩ := h.keys u t ht
      exact ⟨_, hu, ht⟩
    · exact ⟨fun _ => ⟨_, assign_uriOf _ _ _, rfl⟩, (h.assign (.inl rfl)).congr rfl rfl rfl⟩

theorem find_none (P : Program) (W : World) (st : State) (path : Path) : find P W st path none = findLocked P W st path := by
  unfold find
  cases h : findLocked P W st path with
  | mk s x => cases x <;> simp

theorem findLocked_located {P : Program} {W : World} {st st' : State} {path : Path} {r : Found} (h : Registered st) (hc : Closed W)
    (he : findLocked P W st path = (st', .ok r)) : Located W st' r := by
  rcases findLocked_ok he with h1 | ⟨hw, ⟨-, rfl, h1⟩ | h1 | h1⟩
  · exact (checkWellKnown_ok h h1).2.2.1
  · exact (checkFS_ok h1).2
  · exact (checkGoModule_located h hw h1).1 hc
  · exact (checkGoModule_located h (by decide) h1).1 hc

theorem findLocked_registered {P : Program} {W : World} {st : State} {path : Path} (h : Registered st) :
    Registered (findLocked P W st path).1 := by
  cases he : findLocked P W st path with
  | mk st' x =>
    cases x with
    | error e => obtain rfl := findLocked_error he; exact h
    | ok r =>
      rcases findLocked_ok he with h1 | ⟨hw, ⟨-, rfl, h1⟩ | h1 | h1⟩
      · exact (checkWellKnown_ok (W := W) h h1).2.2.2
      · exact h
      · exact (checkGoModule_located h hw h1).2
      · exact (checkGoModule_located h (by decide) h1).2

theorem canonical_registered {W : World} {st : State} {importing f : File} (h : Registered st)
    (hn : ∀ name, (canonical W st importing f).2 = some name → wellKnown name = false) :
    Registered (canonical W st importing f).1 := by
  have key : ∀ name origin, wellKnown name = false →
      Registered { st.assign (.file f) name with originOf := upd st.originOf (.file f) (some origin) } :=
    fun name origin hw => (h.assign (.inr ⟨⟨f, rfl⟩, hw⟩)).congr rfl rfl rfl
  unfold canonical at hn ⊢
  cases ho : st.originOf (.file importing) with
  | none => exact h
  | some o =>
    cases o with
    | localGoModule =>
      simp only [ho] at hn ⊢
      cases hg : goPackageOf W f with
      | none => exact h
      | some package => simp only [hg] at hn; exact key _ _ (hn _ rfl)
    | goModuleCache => simp only [ho] at hn ⊢; exact key _ _ (hn _ rfl)
    | _ => exact h

theorem translate_registered {W : World} {st : State} {path importing : Path} (h : Registered st)
    (hn : ∀ name, (translate W st path importing).2 = some name → wellKnown name = false ∨ (st.uriOf path).isSome) :
    Registered (translate W st path importing).1 := by
  unfold translate at hn ⊢
  split
  · exact h
  rename_i hu
  split
  · rename_i filename himp
    simp only [hu, Bool.false_eq_true, if_false, himp, or_false] at hn
    split
    · rename_i hl
      simp only [hl, if_true] at hn
      cases hf : firstFile W (candidates W path filename) with
      | none => exact h
      | some f => simp only [hf] at hn ⊢; exact canonical_registered h hn
    · exact h
  · exact h

theorem find_registered {P : Program} {W : World} {st : State} {path : Path} {whence : Option Path} (h : Registered st)
    (hn : NoGoogle W st (.find path whence)) : Registered (find P W st path whence).1 := by
  unfold find
  cases he : findLocked P W st path with
  | mk s x =>
    have hs : Registered s := by have := findLocked_registered (P := P) (W := W) (path := path) h; rwa [he] at this
    cases x with
    | ok r => exact hs
    | error e =>
      obtain rfl := findLocked_error he
      cases whence with
      | none => exact hs
      | some importing =>
        have ht := translate_registered hs fun name he => (hn name he).imp_left wellKnown_false.mpr
        cases htr : translate W s path importing with
        | mk s1 y =>
          rw [htr] at ht
          have hf : ∀ q, Registered (findLocked P W s1 q).1 := fun q => findLocked_registered ht
          cases y with
          | some translated =>
            simp only [htr]
            have := hf translated
            cases hq : findLocked P W s1 translated with
            | mk s2 z => rw [hq] at this; cases z <;> exact this
          | none =>
            simp only [htr]
            cases hr : reverseLookup W s1 path importing with
            | none => exact ht
            | some rev =>
              simp only []
              have := hf rev
              cases hq : findLocked P W s1 rev with
              | mk s2 z => rw [hq] at this; cases z <;> exact this

theorem checkIncomplete_registered (linked : Path → Option Text) (order : List Uri) (st : State) (h : Registered st) :
    Registered (checkIncomplete linked order st).1 := by
  induction order generalizing st with
  | nil => exact h
  | cons u rest ih =>
    unfold checkIncomplete
    split
    · rename_i p path hp hs
      cases hl : linked path with
      | none => exact ih _ h
      | some src => exact ih _ (h.fill hp)
    · exact ih _ h

theorem step_registered {P : Program} {W : World} {st : State} {op : Op} (h : Registered st) (hn : NoGoogle W st op) :
    Registered (step P W st op) := by
  have del : ∀ p, wellKnown p = false → ∀ s : State, Registered s → Registered { s with uriOf := upd s.uriOf p none } := by
    intro p hp s hs
    have hne : ∀ q, wellKnown q = true → q ≠ p := by rintro q hq rfl; rw [hp] at hq; cases hq
    exact ⟨hs.keys, fun q t hq ht => by simpa [upd_other _ _ (hne q hq)] using hs.known q t hq ht,
      fun q r hr => ⟨(hs.own q r hr).1, fun hq => by simpa [upd_other _ _ (hne q hq)] using (hs.own q r hr).2 hq⟩, hs.files⟩
  cases op with
  | find path whence => exact find_registered h hn
  | incomplete order linked => exact checkIncomplete_registered _ _ _ h
  | create f p origin => exact (h.assign (.inr ⟨⟨f, rfl⟩, wellKnown_false.mpr hn⟩)).congr rfl rfl rfl
  | move f p =>
    have h1 := h.assign (u := .file f) (.inr ⟨⟨f, rfl⟩, wellKnown_false.mpr hn⟩)
    simp only [step]
    cases hp : st.pathOf (.file f) with
    | none => exact h1
    | some old =>
      simp only
      split
      · exact h
      · exact del old (h.files f old hp) _ h1
  | delete f =>
    have hw : wellKnown ((st.pathOf (.file f)).getD []) = false := by
      cases hp : st.pathOf (.file f) with
      | none => rfl
      | some p => exact h.files f p hp
    have h1 := del _ hw st h
    refine ⟨h1.keys, h1.known, fun q r hr => h1.own q r ?_, fun g q hq => ?_⟩
    · simpa [step, upd] using hr
    · by_cases hg : g = f
      · subst hg; simp [step] at hq
      · exact h.files g q (by simpa [step, upd, hg] using hq)

theorem run_registered {P : Program} {st : State} {hist : List (World × Op)} (h : Registered st) (hn : NoGoogleRun P st hist) :
    Registered (run P st hist) := by
  induction hist generalizing st with
  | nil => exact h
  | cons x rest ih => exact ih (step_registered h hn.1) hn.2

/-! ## The same again -/

/-- The synthetic documents are found by their paths, and for those from generated code there is no proto file. -/
structure Settled (W : World) (st : State) : Prop where
  keys : ∀ u t, st.synthetic u = some t → ∃ p, u = .proto p ∧ (st.pathOf u).isSome
  own : ∀ p q, st.pathOf (.proto p) = some q → q = p ∧ st.uriOf p = some (.proto p)
  noSource : ∀ p q, st.pathOf (.proto p) = some q → wellKnown p = false →
    ∃ dir name pkg, p = dir ++ [name] ∧ W.findPackage dir = some pkg ∧ W.disk (pkg.dir ++ [name]) = none

theorem Settled.empty (W : World) : Settled W State.empty :=
  ⟨by simp [State.empty], by simp [State.empty], by simp [State.empty]⟩

theorem Settled.known {W : World} {st : State} (h : Settled W st) {p : Path} {t : Text} (hs : st.synthetic (.proto p) = some t) :
    st.uriOf p = some (.proto p) := by
  obtain ⟨_, -, hp⟩ := h.keys _ _ hs
  obtain ⟨q, hq⟩ := Option.isSome_iff_exists.mp hp
  exact (h.own _ _ hq).2

/-- The path of the result, if there is no proto file, in a package. -/
theorem resolved_direct {W : World} {alts : List (Path × Path)} {path : Path} {res : ModuleImport} (hW : Sane W)
    (hi : Imported W alts path res) (hs : res.source = none) (hw : wellKnown path = false) (hg : gogoRest path = none) :
    let resolved := res.alt.getD path
    (∀ alts', importFromGoModule W alts' resolved = some ⟨res.package, none, none⟩) ∧ resolved.getLast? = path.getLast? ∧
      wellKnown resolved = false ∧ gogoRest resolved = none := by
  obtain ⟨q, filename, hn, h0, hf, hv, hq, h1⟩ := hi
  rcases h1 with h1 | ⟨-, hd, h1⟩
  · rw [hs] at h1; cases h1.1
  clear hs
  rcases h1 with ⟨ha, rfl⟩ | ⟨-, ha, e, -, hee⟩
  · simp only [ha, Option.getD_none]
    refine ⟨fun alts' => ?_, trivial, hw, hg⟩
    rw [hn, importFromGoModule_direct h0 hf hv hq]
    simp [moduleImport, hd]
  · obtain ⟨v1, v2, v3, v4⟩ := hW.valid q _ hq
    have hj : joinPath q [filename] = q ++ [filename] :=
      joinPath_plain _ _ v4 (by simpa using proto_plain hf)
    simp only [ha, Option.getD_some, hj]
    refine ⟨fun alts' => ?_, ?_, ?_, ?_⟩
    · rw [importFromGoModule_direct v2 hf v1 hq]
      simp [moduleImport, hd]
    · rw [hn]; simp
    · cases q with
      | nil => exact absurd rfl v2
      | cons a b =>
        have hk' : a ≠ kwGoogle := fun hk => v3 (by rw [hk]; rfl)
        cases b <;> simp [wellKnown, hk']
    · have := hW.alternative e _ q _ hee hq
      unfold gogoRest
      split
      · rename_i a b c d rest heq
        rw [if_neg]
        rintro ⟨rfl, rfl, rfl⟩
        apply this
        match q, heq with
        | [], heq => cases heq
        | [_], heq => cases heq
        | [_, _], heq => cases heq
        | x :: y :: z :: rest', heq =>
          simp only [List.cons_append, List.cons.injEq] at heq
          obtain ⟨rfl, rfl, rfl, -⟩ := heq
          exact ⟨rest', rfl⟩
      · rfl

theorem findLocked_module {P : Program} {W : World} {st st' : State} {path : Path} {r : Found} (hw : wellKnown path = false)
    (hs : isSynthetic st path = true) (he : checkGoModule P W st path = (st', .ok r)) :
    findLocked P W st path = (st', .ok r) := by
  simp [findLocked, checkWellKnown, hw, hs, findModule, he]

theorem again_module {P : Program} {W : World} {st st' : State} {path : Path} {r : Found} (h : Settled W st) (hW : Sane W)
    (hc : Closed W) (hl : Small W) (hw : wellKnown path = false) (hg : gogoRest path = none)
    (he : checkGoModule P W st path = (st', .ok r)) : ∃ st'', findLocked P W st' r.resolved = (st'', .ok r) := by
  obtain ⟨hm, ⟨rest, h1, -⟩ | ⟨-, res, hi, hf⟩⟩ := checkGoModule_ok he
  · rw [hg] at h1; cases h1
  obtain ⟨m, hm⟩ := Option.isSome_iff_exists.mp hm
  have himp := importFromGoModule_some hi
  rcases hf with ⟨f, t, h1, h2, rfl, rfl⟩ | ⟨h1, t, h2, rfl, rfl⟩ | ⟨h1, h2, d, h3, rfl, rfl⟩
  · obtain ⟨q, filename, -, -, -, -, hq, ⟨hf, -⟩ | ⟨hf, -⟩⟩ := himp
    · rw [h1, Option.some.injEq] at hf
      subst hf
      have ht : ¬ largeFile < t.length := Nat.not_lt.mpr (hl q _ _ _ hq h2)
      have hu : (st.foundSource path (res.package.dir ++ [filename]) res.package.isLocal).uriOf path =
          some (.file (res.package.dir ++ [filename])) := by simp [State.foundSource]
      refine ⟨st.foundSource path (res.package.dir ++ [filename]) res.package.isLocal, ?_⟩
      unfold findLocked
      simp only [checkWellKnown, hw, isSynthetic, hu, checkFS, Option.bind_some, World.read, hc q _ _ hq, h2, Option.none_or, ht,
        Bool.false_eq_true, if_false]
    · rw [h1] at hf; cases hf
  · obtain ⟨i1, i2, i3, i4⟩ := resolved_direct hW himp h1 hw hg
    obtain ⟨u, hu, hu'⟩ := Option.bind_eq_some_iff.mp h2
    obtain ⟨p, rfl, -⟩ := h.keys u t hu'
    refine ⟨st', findLocked_module i3 (by simp [isSynthetic, hu]) ?_⟩
    unfold checkGoModule
    simp only [hm, i4, i1, Option.getD_none, h2]
  · obtain ⟨i1, i2, i3, i4⟩ := resolved_direct hW himp h1 hw hg
    generalize hR : res.alt.getD path = R at *
    refine ⟨(st.foundDesc path R d).foundDesc R R d, findLocked_module i3 (by simp [isSynthetic, State.foundDesc]) ?_⟩
    have hb : ((st.foundDesc path R d).uriOf R).bind (st.foundDesc path R d).synthetic = none := by
      simp only [State.foundDesc, assign_uriOf, Option.bind_some, assign_synthetic]
      cases hs : st.synthetic (.proto R) with
      | none => rfl
      | some t =>
        rw [h.known hs] at h2
        simp [hs] at h2
    unfold checkGoModule
    simp only [hm, i4, i1, Option.getD_none, hb, i2, h3]
    rfl

theorem again_locked {P : Program} {W : World} {st st' : State} {path : Path} {r : Found} (h : Settled W st) (hW : Sane W)
    (hc : Closed W) (hl : Small W) (he : findLocked P W st path = (st', .ok r)) :
    ∃ st'', findLocked P W st' r.resolved = (st'', .ok r) := by
  have wk : ∀ q, checkWellKnown P st q = (st', .ok r) → ∃ st'', findLocked P W st' r.resolved = (st'', .ok r) := by
    intro q h1
    unfold checkWellKnown at h1
    split at h1
    · rename_i hq
      unfold checkGlobalCache at h1
      cases hr : P.registry q with
      | none => simp [hr] at h1
      | some d =>
        simp only [hr] at h1
        cases hs : st.synthetic (.proto q) with
        | some src =>
          simp only [hs, Prod.mk.injEq, Except.ok.injEq] at h1
          obtain ⟨rfl, rfl⟩ := h1
          exact ⟨st, by simp [findLocked, checkWellKnown, hq, checkGlobalCache, hr, hs]⟩
        | none =>
          simp only [hs] at h1
          cases hp : P.print d with
          | none =>
            simp only [hp, Prod.mk.injEq, Except.ok.injEq] at h1
            obtain ⟨rfl, rfl⟩ := h1
            exact ⟨_, by simp [findLocked, checkWellKnown, hq, checkGlobalCache, hr, hs, hp]; rfl⟩
          | some src =>
            simp only [hp, Prod.mk.injEq, Except.ok.injEq] at h1
            obtain ⟨rfl, rfl⟩ := h1
            exact ⟨_, by simp [findLocked, checkWellKnown, hq, checkGlobalCache, hr]; rfl⟩
    · simp at h1
  rcases findLocked_ok he with h1 | ⟨hw, ⟨h1, rfl, h2⟩ | h1 | h1⟩
  · exact wk _ h1
  · refine ⟨st', ?_⟩
    rw [(checkFS_ok h2).1]
    simp [findLocked, checkWellKnown, hw, h1, h2]
  · cases hg : gogoRest path with
    | some rest =>
      obtain ⟨-, ⟨rest', -, h2⟩ | ⟨h2, -⟩⟩ := checkGoModule_ok h1
      · exact wk _ h2
      · rw [hg] at h2; cases h2
    | none => exact again_module h hW hc hl hw hg h1
  · exact again_module h hW hc hl (by decide) (by decide) h1

theorem checkGlobalCache_settled {P : Program} {W : World} {st : State} {path : Path} (h : Settled W st) (hw : wellKnown path = true) :
    Settled W (checkGlobalCache P st path).1 := by
  have h1 : Settled W (st.assign (.proto path) path) := by
    refine ⟨fun u t hu => ?_, fun p q hq => ?_, fun p q hq hp => ?_⟩
    · obtain ⟨p, rfl, hp⟩ := h.keys u t hu
      refine ⟨p, rfl, ?_⟩
      by_cases e : p = path
      · subst e; simp [State.assign]
      · simpa [State.assign, upd, e] using hp
    · by_cases e : p = path
      · subst e
        simp only [State.assign, upd_same, Option.some.injEq] at hq ⊢
        exact ⟨hq.symm, trivial⟩
      · simpa [State.assign, upd, e] using h.own p q (by simpa [State.assign, upd, e] using hq)
    · have e : p ≠ path := by rintro rfl; rw [hp] at hw; cases hw
      exact h.noSource p q (by simpa [State.assign, upd, e] using hq) hp
  unfold checkGlobalCache
  cases hr : P.registry path with
  | none => exact h
  | some d =>
    simp only
    cases hs : st.synthetic (.proto path) with
    | some src => exact h
    | none =>
      simp only
      cases hp : P.print d with
      | none => exact h1
      | some src =>
        refine ⟨fun u t hu => ?_, h1.own, h1.noSource⟩
        by_cases e : u = .proto path
        · subst e; exact ⟨path, rfl, by simp [State.assign]⟩
        · exact h1.keys u t (by simpa [upd, e] using hu)

theorem checkGoModule_settled {P : Program} {W : World} {st : State} {path : Path} (hW : Sane W) (h : Settled W st)
    (hw : wellKnown path = false) : Settled W (checkGoModule P W st path).1 := by
  cases he : checkGoModule P W st path with
  | mk st' x =>
    cases x with
    | error e => obtain rfl := checkGoModule_error he; exact h
    | ok r =>
      obtain ⟨-, ⟨rest, -, h1⟩ | ⟨hg, res, hi, hf⟩⟩ := checkGoModule_ok he
      · unfold checkWellKnown at h1
        split at h1
        · rename_i hr
          have := checkGlobalCache_settled (P := P) h hr
          rwa [h1] at this
        · simp at h1
      · have himp := importFromGoModule_some hi
        rcases hf with ⟨f, t, h1, h2, rfl, rfl⟩ | ⟨h1, t, h2, rfl, rfl⟩ | ⟨h1, h2, d, h3, rfl, rfl⟩
        · have hno : st.pathOf (.proto path) = none := by
            cases hp : st.pathOf (.proto path) with
            | none => rfl
            | some q =>
              obtain ⟨dir, name, pkg, rfl, h4, h5⟩ := h.noSource _ _ hp hw
              obtain ⟨_, filename, hn, h6, h7, -⟩ := himp
              have hname : name = filename := by simpa using hn
              subst hname
              obtain ⟨v1, v2, -, -⟩ := hW.valid dir pkg h4
              rw [importFromGoModule_direct v2 h7 v1 h4, Option.some.injEq] at hi
              rw [← hi] at h1
              simp [moduleImport, h5] at h1
          refine ⟨fun u t hu => ?_, fun p q hq => ?_, fun p q hq hp => ?_⟩
          · obtain ⟨p, rfl, hp⟩ := h.keys u t hu
            exact ⟨p, rfl, by simpa [State.foundSource, State.assign, upd] using hp⟩
          · have hq' : st.pathOf (.proto p) = some q := by simpa [State.foundSource, State.assign, upd] using hq
            have e : p ≠ path := by rintro rfl; rw [hno] at hq'; cases hq'
            simpa [State.foundSource, State.assign, upd, e] using h.own p q hq'
          · exact h.noSource p q (by simpa [State.foundSource, State.assign, upd] using hq) hp
        · exact h
        · obtain ⟨i1, i2, i3, i4⟩ := resolved_direct hW himp h1 hw hg
          generalize hR : res.alt.getD path = R at *
          refine ⟨fun u t hu => ?_, fun p q hq => ?_, fun p q hq hp => ?_⟩
          · obtain ⟨p, rfl, hp⟩ := h.keys u t hu
            refine ⟨p, rfl, ?_⟩
            by_cases e : p = R
            · subst e; simp [State.foundDesc, State.assign]
            · simpa [State.foundDesc, State.assign, upd, e] using hp
          · by_cases e : p = R
            · subst e
              simp only [State.foundDesc, State.assign, upd_same, Option.some.injEq] at hq ⊢
              exact ⟨hq.symm, trivial⟩
            · simpa [State.foundDesc, State.assign, upd, e] using h.own p q (by simpa [State.foundDesc, State.assign, upd, e] using hq)
          · by_cases e : p = R
            · subst e
              obtain ⟨q', filename, hn, -, -, -, hq', h5⟩ := importFromGoModule_some (i1 [])
              rcases h5 with ⟨h5, -⟩ | ⟨-, h5, ⟨-, rfl⟩ | ⟨-, h6, -⟩⟩
              · cases h5
              · exact ⟨_, filename, _, hn, hq', h5⟩
              · cases h6
            · exact h.noSource p q (by simpa [State.foundDesc, State.assign, upd, e] using hq) hp

theorem findLocked_settled {P : Program} {W : World} {st : State} {path : Path} (hW : Sane W) (h : Settled W st) :
    Settled W (findLocked P W st path).1 := by
  cases he : findLocked P W st path with
  | mk st' x =>
    cases x with
    | error e => obtain rfl := findLocked_error he; exact h
    | ok r =>
      rcases findLocked_ok he with h1 | ⟨hw, ⟨-, rfl, h1⟩ | h1 | h1⟩
      · unfold checkWellKnown at h1
        split at h1
        · rename_i hr
          have := checkGlobalCache_settled (P := P) h hr
          rwa [h1] at this
        · simp at h1
      · exact h
      · have := checkGoModule_settled (P := P) hW h hw
        rwa [h1] at this
      · have := checkGoModule_settled (P := P) hW h (path := gogoPath) (by decide)
        rwa [h1] at this

theorem checkIncomplete_settled {W : World} (linked : Path → Option Text) (order : List Uri) (st : State) (h : Settled W st) :
    Settled W (checkIncomplete linked order st).1 := by
  induction order generalizing st with
  | nil => exact h
  | cons u rest ih =>
    unfold checkIncomplete
    split
    · rename_i p path hp hs
      cases hl : linked path with
      | none => exact ih _ h
      | some src =>
        refine ih _ ⟨fun v t hv => ?_, h.own, h.noSource⟩
        by_cases e : v = .proto p
        · subst e; exact ⟨p, rfl, by simp [hp]⟩
        · exact h.keys v t (by simpa [upd, e] using hv)
    · exact ih _ h

theorem run_settled {P : Program} {W : World} {st : State} {hist : List (World × Op)} (hW : Sane W) (h : Settled W st)
    (hh : ∀ x ∈ hist, x.1 = W ∧ Lookup x.2) : Settled W (run P st hist) := by
  induction hist generalizing st with
  | nil => exact h
  | cons x rest ih =>
    obtain ⟨W', op⟩ := x
    obtain ⟨rfl, hl⟩ := hh _ (List.mem_cons_self ..)
    refine ih ?_ fun y hy => hh y (List.mem_cons_of_mem _ hy)
    cases hl with
    | find path => simp only [step, find_none]; exact findLocked_settled hW h
    | incomplete order linked => exact checkIncomplete_settled _ _ _ h

/-! ## Files linked into the program -/

theorem wellKnown_append {dir : Path} {name : Str} (h0 : dir ≠ []) (h : dir.head? ≠ some kwGoogle) :
    wellKnown (dir ++ [name]) = false := by
  cases dir with
  | nil => exact absurd rfl h0
  | cons a b =>
    have hk : a ≠ kwGoogle := fun hk => h (by rw [hk]; rfl)
    cases b <;> simp [wellKnown, hk]

theorem gogoRest_append {dir : Path} {name : Str} (h : ¬ [kwGithub, kwGogo, kwGoogleapis] <+: dir) :
    gogoRest (dir ++ [name]) = none := by
  unfold gogoRest
  split
  · rename_i a b c d rest heq
    rw [if_neg]
    rintro ⟨rfl, rfl, rfl⟩
    apply h
    match dir, heq with
    | [], heq => cases heq
    | [_], heq => cases heq
    | [_, _], heq => cases heq
    | x :: y :: z :: rest', heq =>
      simp only [List.cons_append, List.cons.injEq] at heq
      obtain ⟨rfl, rfl, rfl, -⟩ := heq
      exact ⟨rest', rfl⟩
  · rfl

/-- The synthetic documents of files that are linked in have their text. -/
structure Known (P : Program) (st : State) : Prop where
  own : ∀ p q, st.pathOf (.proto p) = some q → q = p
  text : ∀ p d t, wellKnown p = true → P.registry p = some d → P.print d = some t →
    ((st.pathOf (.proto p)).isSome ∨ (st.synthetic (.proto p)).isSome) → st.synthetic (.proto p) = some t

theorem Known.empty {P : Program} : Known P State.empty := ⟨by simp [State.empty], by simp [State.empty]⟩

theorem Known.congr {P : Program} {st st' : State} (h : Known P st) (h1 : st'.synthetic = st.synthetic)
    (h2 : ∀ p, st'.pathOf (.proto p) = st.pathOf (.proto p)) : Known P st' :=
  ⟨fun p q hq => h.own p q (h2 p ▸ hq), fun p d t a b c e => by rw [h1]; exact h.text p d t a b c (by rwa [h1, h2] at e)⟩

theorem Known.assignFile {P : Program} {st : State} (h : Known P st) (f : File) (p : Path) (o : Uri → Option Origin) :
    Known P { st.assign (.file f) p with originOf := o } :=
  h.congr rfl fun p => by simp [State.assign, upd]

theorem checkGlobalCache_known {P : Program} {st : State} {path : Path} (h : Known P st) : Known P (checkGlobalCache P st path).1 := by
  unfold checkGlobalCache
  cases hr : P.registry path with
  | none => exact h
  | some d =>
    simp only
    cases hs : st.synthetic (.proto path) with
    | some src => exact h
    | none =>
      simp only
      have own : ∀ p q, (st.assign (.proto path) path).pathOf (.proto p) = some q → q = p := by
        intro p q hq
        by_cases e : p = path
        · subst e; simpa [State.assign] using hq.symm
        · exact h.own p q (by simpa [State.assign, upd, e] using hq)
      cases hp : P.print d with
      | none =>
        refine ⟨own, fun p d' t a b c e => ?_⟩
        by_cases hpp : p = path
        · subst hpp
          rw [hr, Option.some.injEq] at b
          subst b
          rw [hp] at c; cases c
        · exact h.text p d' t a b c (by simpa [State.assign, upd, hpp] using e)
      | some src =>
        refine ⟨own, fun p d' t a b c e => ?_⟩
        by_cases hpp : p = path
        · subst hpp
          rw [hr, Option.some.injEq] at b
          subst b
          rw [hp, Option.some.injEq] at c
          simp [c]
        · simpa [State.assign, upd, hpp] using h.text p d' t a b c (by simpa [State.assign, upd, hpp] using e)

theorem checkWellKnown_known {P : Program} {st : State} {path : Path} (h : Known P st) : Known P (checkWellKnown P st path).1 := by
  unfold checkWellKnown
  split
  · exact checkGlobalCache_known h
  · exact h

theorem checkGoModule_known {P : Program} {W : World} {st : State} {path : Path} (hW : Sane W) (h : Known P st)
    (hw : wellKnown path = false) : Known P (checkGoModule P W st path).1 := by
  cases he : checkGoModule P W st path with
  | mk st' x =>
    cases x with
    | error e => obtain rfl := checkGoModule_error he; exact h
    | ok r =>
      obtain ⟨-, ⟨rest, -, h1⟩ | ⟨hg, res, hi, hf⟩⟩ := checkGoModule_ok he
      · have := checkWellKnown_known (path := rest) h
        rwa [h1] at this
      · have himp := importFromGoModule_some hi
        rcases hf with ⟨f, t, h1, h2, rfl, rfl⟩ | ⟨h1, t, h2, rfl, rfl⟩ | ⟨h1, h2, d, h3, rfl, rfl⟩
        · exact h.assignFile _ _ _
        · exact h
        · obtain ⟨-, -, i3, -⟩ := resolved_direct hW himp h1 hw hg
          generalize res.alt.getD path = R at *
          refine ⟨fun p q hq => ?_, fun p d' t a b c e => ?_⟩
          · by_cases hp : p = R
            · subst hp; simpa [State.foundDesc, State.assign] using hq.symm
            · exact h.own p q (by simpa [State.foundDesc, State.assign, upd, hp] using hq)
          · have hp : p ≠ R := by rintro rfl; rw [i3] at a; cases a
            exact h.text p d' t a b c (by simpa [State.foundDesc, State.assign, upd, hp] using e)

theorem findLocked_known {P : Program} {W : World} {st : State} {path : Path} (hW : Sane W) (h : Known P st) :
    Known P (findLocked P W st path).1 := by
  cases he : findLocked P W st path with
  | mk st' x =>
    cases x with
    | error e => obtain rfl := findLocked_error he; exact h
    | ok r =>
      rcases findLocked_ok he with h1 | ⟨hw, ⟨-, rfl, h1⟩ | h1 | h1⟩
      · have := checkWellKnown_known (path := path) h
        rwa [h1] at this
      · exact h
      · have := checkGoModule_known (P := P) hW h hw
        rwa [h1] at this
      · have := checkGoModule_known (P := P) hW h (path := gogoPath) (by decide)
        rwa [h1] at this

theorem canonical_known {P : Program} {W : World} {st : State} {importing f : File} (h : Known P st) :
    Known P (canonical W st importing f).1 := by
  unfold canonical
  cases ho : st.originOf (.file importing) with
  | none => exact h
  | some o =>
    cases o with
    | localGoModule =>
      simp only
      cases hg : goPackageOf W f with
      | none => exact h
      | some package => exact h.assignFile _ _ _
    | goModuleCache => exact h.assignFile _ _ _
    | _ => exact h

theorem translate_known {P : Program} {W : World} {st : State} {path importing : Path} (h : Known P st) :
    Known P (translate W st path importing).1 := by
  unfold translate
  split
  · exact h
  split
  · split
    · cases hf : firstFile W (candidates W path _) with
      | none => exact h
      | some f => exact canonical_known h
    · exact h
  · exact h

theorem find_known {P : Program} {W : World} {st : State} {path : Path} {whence : Option Path} (hW : Sane W) (h : Known P st) :
    Known P (find P W st path whence).1 := by
  unfold find
  cases he : findLocked P W st path with
  | mk s x =>
    have hs : Known P s := by have := findLocked_known (P := P) (path := path) hW h; rwa [he] at this
    cases x with
    | ok r => exact hs
    | error e =>
      cases whence with
      | none => exact hs
      | some importing =>
        have ht := translate_known (W := W) (path := path) (importing := importing) hs
        cases htr : translate W s path importing with
        | mk s1 y =>
          rw [htr] at ht
          have hf : ∀ q, Known P (findLocked P W s1 q).1 := fun q => findLocked_known hW ht
          cases y with
          | some translated =>
            simp only [htr]
            have := hf translated
            cases hq : findLocked P W s1 translated with
            | mk s2 z => rw [hq] at this; cases z <;> exact this
          | none =>
            simp only [htr]
            cases hr : reverseLookup W s1 path importing with
            | none => exact ht
            | some rev =>
              simp only []
              have := hf rev
              cases hq : findLocked P W s1 rev with
              | mk s2 z => rw [hq] at this; cases z <;> exact this

theorem checkIncomplete_known {P : Program} (linked : Path → Option Text) (order : List Uri) (st : State) (h : Known P st) :
    Known P (checkIncomplete linked order st).1 := by
  induction order generalizing st with
  | nil => exact h
  | cons u rest ih =>
    unfold checkIncomplete
    split
    · rename_i p path hp hs
      cases hl : linked path with
      | none => exact ih _ h
      | some src =>
        refine ih _ ⟨h.own, fun q d t a b c e => ?_⟩
        by_cases hq : q = p
        · subst hq
          have := h.text q d t a b c (.inl (by simp [hp]))
          rw [hs] at this; cases this
        · simpa [upd, hq] using h.text q d t a b c (by simpa [upd, hq] using e)
    · exact ih _ h

theorem run_known {P : Program} {st : State} {hist : List (World × Op)} (hW : ∀ x ∈ hist, Sane x.1) (h : Known P st) :
    Known P (run P st hist) := by
  induction hist generalizing st with
  | nil => exact h
  | cons x rest ih =>
    obtain ⟨W, op⟩ := x
    refine ih (fun y hy => hW y (List.mem_cons_of_mem _ hy)) ?_
    cases op with
    | find path whence => exact find_known (hW _ (List.mem_cons_self ..)) h
    | incomplete order linked => exact checkIncomplete_known _ _ _ h
    | create f p origin => exact h.assignFile _ _ _
    | move f p =>
      simp only [step]
      cases hp : st.pathOf (.file f) with
      | none => exact h.assignFile f p st.originOf
      | some old =>
        simp only
        split
        · exact h
        · exact (h.assignFile f p st.originOf).congr rfl fun _ => rfl
    | delete f => exact h.congr rfl fun p => by simp [step, upd]

/-! ## Synthetic documents -/

/-- The text of a document after a compilation. -/
def fill (linked : Path → Option Text) (st : State) (u : Uri) : Option Text :=
  match u with
  | .file _ => st.synthetic u
  | .proto _ => (st.synthetic u).or ((st.pathOf u).bind linked)

theorem checkIncomplete_spec (linked : Path → Option Text) (order : List Uri) (ho : order.Nodup) (st : State) :
    let out := checkIncomplete linked order st
    (∀ u, out.1.synthetic u = if u ∈ order then fill linked st u else st.synthetic u) ∧
    out.1.uriOf = st.uriOf ∧ out.1.pathOf = st.pathOf ∧
    out.2 = (order.filter fun u => (st.synthetic u).isNone && (fill linked st u).isSome).filterMap st.pathOf := by
  induction order generalizing st with
  | nil => simp [checkIncomplete]
  | cons u rest ih =>
    rw [List.nodup_cons] at ho
    obtain ⟨hu, ho⟩ := ho
    have same : fill linked st u = st.synthetic u → checkIncomplete linked (u :: rest) st = checkIncomplete linked rest st →
        (let out := checkIncomplete linked (u :: rest) st
        (∀ v, out.1.synthetic v = if v ∈ u :: rest then fill linked st v else st.synthetic v) ∧
        out.1.uriOf = st.uriOf ∧ out.1.pathOf = st.pathOf ∧
        out.2 = ((u :: rest).filter fun u => (st.synthetic u).isNone && (fill linked st u).isSome).filterMap st.pathOf) := by
      intro hf he
      obtain ⟨h1, h2, h3, h4⟩ := ih ho st
      simp only [he]
      refine ⟨fun v => ?_, h2, h3, ?_⟩
      · rw [h1 v]
        by_cases hv : v = u
        · subst hv; simp [hu, hf]
        · simp [hv]
      · rw [h4, List.filter_cons_of_neg]
        rw [hf]
        cases st.synthetic u <;> simp
    cases u with
    | file f =>
      refine same (by simp [fill]) ?_
      rw [checkIncomplete.eq_def]
    | proto p =>
      cases hs : st.synthetic (.proto p) with
      | some t =>
        refine same (by simp [fill, hs]) ?_
        rw [checkIncomplete.eq_def]
        simp [hs]
      | none =>
        cases hp : st.pathOf (.proto p) with
        | none =>
          refine same (by simp [fill, hs, hp]) ?_
          rw [checkIncomplete.eq_def]
          simp [hp, hs]
        | some path =>
          cases hl : linked path with
          | none =>
            refine same (by simp [fill, hs, hp, hl]) ?_
            rw [checkIncomplete.eq_def]
            simp only [hp, hs, hl]
          | some src =>
            have he : checkIncomplete linked (.proto p :: rest) st =
                ((checkIncomplete linked rest { st with synthetic := upd st.synthetic (.proto p) (some src) }).1,
                  path :: (checkIncomplete linked rest { st with synthetic := upd st.synthetic (.proto p) (some src) }).2) := by
              rw [checkIncomplete.eq_def]
              simp only [hp, hs, hl]
            obtain ⟨h1, h2, h3, h4⟩ := ih ho { st with synthetic := upd st.synthetic (.proto p) (some src) }
            simp only [he]
            have hf : ∀ v, v ≠ .proto p → fill linked { st with synthetic := upd st.synthetic (.proto p) (some src) } v = fill linked st v := by
              intro v hv
              cases v <;> simp [fill, upd, hv] at hv ⊢
            refine ⟨fun v => ?_, h2, h3, ?_⟩
            · rw [h1 v]
              by_cases hv : v = .proto p
              · subst hv; simp [hu, fill, hs, hp, hl]
              · simp [hv, hf v hv, upd]
            · rw [h4, List.filter_cons_of_pos (by simp [fill, hs, hp, hl]), List.filterMap_cons, hp]
              simp only [List.cons.injEq, true_and]
              congr 1
              apply List.filter_congr
              intro v hv
              have hne : v ≠ .proto p := fun e => hu (e ▸ hv)
              rw [hf v hne]
              simp [upd, hne]

end Verif.FindFile
