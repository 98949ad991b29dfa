import Verif.Model.Qualify
import Verif.Lemmas.Dotted

/-!
# C19: type references written by the descriptor printer denote the referenced type
-/
namespace Verif.Qualify

/-- The text of a scope in the loop: every component is followed by a dot. -/
def scopeText (sc : List Str) : Str := if sc = [] then [] else dotted sc ++ ['.']

theorem scopeText_prefix {c q : List Str} (hc : Wf c) (hq : Wf q) (h0 : c ≠ []) :
    scopeText c <+: dotted q ↔ ∃ r, r ≠ [] ∧ q = c ++ r := by
  simp only [scopeText, if_neg h0]
  constructor
  · rintro ⟨x, hx⟩
    have hq0 : q ≠ [] := by
      rintro rfl
      simp [dotted, joinWith] at hx
    refine ⟨splitOn '.' x, splitOn_ne_nil _ _, ?_⟩
    have := splitOn_append '.' (dotted c) x
    rw [splitOn_join '.' c h0 (fun w hw => (hc w hw).2)] at this
    rw [← this, ← splitOn_join '.' q hq0 (fun w hw => (hq w hw).2)]
    congr 1
    simp only [dotted] at hx
    rw [← hx]; simp
  · rintro ⟨r, hr, rfl⟩
    rw [dotted_append _ _ h0 hr]
    exact ⟨dotted r, by simp⟩

theorem scopeText_drop {c r : List Str} (h0 : c ≠ []) (hr : r ≠ []) :
    (dotted (c ++ r)).drop (scopeText c).length = dotted r := by
  rw [dotted_append _ _ h0 hr]
  simp only [scopeText, if_neg h0]
  have : dotted c ++ '.' :: dotted r = (dotted c ++ ['.']) ++ dotted r := by simp
  rw [this, List.drop_left]

theorem outer_scopeText {c : List Str} {n : Str} (hw : Wf (c ++ [n])) :
    outer (scopeText (c ++ [n])) = scopeText c := by
  have hn : '.' ∉ n := (hw n (by simp)).2
  have e : (c ++ [n]) ≠ [] := by simp
  simp only [scopeText, if_neg e, outer, List.dropLast_concat]
  by_cases hc : c = []
  · subst hc
    simp [dotted, joinWith, lastIndexChar_none _ _ hn]
  · rw [dotted_append _ _ hc (by simp), if_neg hc]
    simp only [dotted, joinWith]
    rw [lastIndexChar_append _ _ _ hn]
    simp only []
    have : joinWith '.' c ++ '.' :: n ++ ['.'] = (joinWith '.' c ++ ['.']) ++ (n ++ ['.']) := by simp
    rw [this, List.take_left' (by simp)]

theorem scopeText_inj {c d : List Str} (hc : Wf c) (hd : Wf d) (h : scopeText c = scopeText d) :
    c = d := by
  unfold scopeText at h
  split at h <;> split at h
  · simp_all
  · simp at h
  · simp at h
  · exact dotted_inj hc hd (by simpa using h)

/-- What `qualifyElementName` may return, in terms of components: `nm` is the fully-qualified
name `q` without the enclosing scope `c`; `c` is a part of the current scope `sc` that
contains the whole package `pk` (or nothing was cut), at least `required` components of the
current scope are not cut, and no longer such scope could be cut. -/
structure Short (pk sc q : List Str) (required : Int) (c nm : List Str) : Prop where
  whole : q = c ++ nm
  nonempty : nm ≠ []
  enclosing : c <+: sc
  beyond : c = [] ∨ pk <+: c
  kept : c = [] ∨ required ≤ (sc.length : Int) - c.length
  shortest : ∀ d e, q = d ++ e → e ≠ [] → d <+: sc → pk <+: d →
    required ≤ (sc.length : Int) - d.length → d.length ≤ c.length

theorem loop_spec {pk q : List Str} (hpk : Wf pk) (hq : Wf q) (hq0 : q ≠ []) (sc0 : List Str)
    (required : Int) : ∀ (fuel : Nat) (sc : List Str) (count : Int), Wf sc → pk <+: sc →
    sc <+: sc0 → count = (sc0.length : Int) - sc.length →
    (∀ d e, q = d ++ e → e ≠ [] → d <+: sc0 → sc.length < d.length →
      ¬ required ≤ (sc0.length : Int) - d.length) → sc.length < fuel →
    ∃ c nm, loop (dotted pk) (dotted q) required fuel (scopeText sc) count = some (dotted nm) ∧
      Short pk sc0 q required c nm := by
  intro fuel
  induction fuel with
  | zero => intro _ _ _ _ _ _ _ h; omega
  | succ fuel ih =>
    intro sc count hw hpre hsc hcount hlong hfuel
    unfold loop
    by_cases h0 : sc = []
    · subst h0
      simp only [scopeText, if_pos]
      refine ⟨[], q, rfl, by simp, hq0, List.nil_prefix, .inl rfl, .inl rfl, ?_⟩
      intro d e he hne hd _ hr
      by_cases hl : 0 < d.length
      · exact absurd hr (hlong d e he hne hd (by simpa using hl))
      · simpa using hl
    · have ht0 : scopeText sc ≠ [] := by simp [scopeText, h0]
      rw [if_neg ht0]
      by_cases hp : (scopeText sc).isPrefixOf (dotted q) = true ∧ required ≤ count
      · rw [if_pos hp]
        obtain ⟨r, hr, rfl⟩ := (scopeText_prefix hw hq h0).mp (List.isPrefixOf_iff_prefix.mp hp.1)
        rw [scopeText_drop h0 hr]
        refine ⟨sc, r, rfl, rfl, hr, hsc, .inr hpre, .inr (by omega), ?_⟩
        intro d e he hne hd _ hreq
        by_cases hl : sc.length < d.length
        · exact absurd hreq (hlong d e he hne hd hl)
        · omega
      · rw [if_neg hp]
        -- no scope of this length can be cut
        have hnot : ∀ d e, q = d ++ e → e ≠ [] → d <+: sc0 → sc.length ≤ d.length →
            ¬ required ≤ (sc0.length : Int) - d.length := by
          intro d e he hne hd hl hreq
          by_cases hl2 : sc.length < d.length
          · exact hlong d e he hne hd hl2 hreq
          · have hlen : d.length = sc.length := by omega
            have hds : d = sc := by
              rw [List.prefix_iff_eq_take.mp hd, List.prefix_iff_eq_take.mp hsc, hlen]
            subst hds
            exact hp ⟨List.isPrefixOf_iff_prefix.mpr ((scopeText_prefix hw hq h0).mpr ⟨e, hne, he⟩),
              by omega⟩
        by_cases hb : scopeText sc = dotted pk ++ ['.']
        · rw [if_pos hb]
          refine ⟨[], q, rfl, by simp, hq0, List.nil_prefix, .inl rfl, .inl rfl, ?_⟩
          intro d e he hne hd hpd hreq
          have hs : sc = pk := by
            refine dotted_inj hw hpk ?_
            simp only [scopeText, if_neg h0] at hb
            simpa using hb
          exact absurd hreq (hnot d e he hne hd (hs ▸ hpd.length_le))
        · rw [if_neg hb]
          obtain ⟨ps, n, rfl⟩ : ∃ ps n, sc = ps ++ [n] :=
            ⟨_, _, (List.dropLast_concat_getLast h0).symm⟩
          rw [outer_scopeText hw]
          refine ih ps (count + 1) (Wf.append.mp hw).1 ?_ ((List.prefix_append _ _).trans hsc) ?_ ?_ ?_
          · rcases List.prefix_concat_iff.mp hpre with e | h
            · exfalso
              refine hb ?_
              have hpk0 : pk ≠ [] := by rw [e]; simp
              rw [← e]
              simp [scopeText, hpk0]
            · exact h
          · simp at hcount ⊢; omega
          · intro d e he hne hd hl
            refine hnot d e he hne hd ?_
            simp; omega
          · simp at hfuel; omega

theorem stripDot_dotted {q : List Str} (hq : Wf q) (h0 : q ≠ []) :
    stripDot (dotted q) = some (dotted q) ∧ stripDot ('.' :: dotted q) = some (dotted q) := by
  refine ⟨?_, by simp [stripDot]⟩
  obtain ⟨a, t, rfl⟩ := List.exists_cons_of_ne_nil h0
  obtain ⟨ha, hd⟩ := hq a (by simp)
  obtain ⟨c, s, rfl⟩ := List.exists_cons_of_ne_nil ha
  have hc : c ≠ '.' := fun e => hd (by simp [e])
  cases t with
  | nil => simp [dotted, joinWith, stripDot, hc]
  | cons y ys => simp [dotted, joinWith, stripDot, hc]

theorem dotted_getLast {c : List Str} (hc : Wf c) (h0 : c ≠ []) : (dotted c).getLast? ≠ some '.' := by
  obtain ⟨ps, n, rfl⟩ : ∃ ps n, c = ps ++ [n] := ⟨_, _, (List.dropLast_concat_getLast h0).symm⟩
  obtain ⟨hn, hd⟩ := hc n (by simp)
  have key : n.getLast? ≠ some '.' := by
    intro h
    exact hd (List.mem_of_getLast? h)
  by_cases hp : ps = []
  · subst hp; simpa [dotted, joinWith] using key
  · rw [dotted_append _ _ hp (by simp)]
    simp only [dotted, joinWith]
    rw [List.getLast?_append]
    intro h
    cases hg : n.getLast? with
    | none => simp at hg; exact hn hg
    | some x =>
      rw [List.getLast?_cons, hg] at h
      simp at h
      exact key (by rw [hg, h])

/-- The scope that counts: the given one, or the package if `required` is negative. -/
def effScope (pk sc : List Str) (required : Int) : List Str := if required < 0 then pk else sc

/-- **C19** (all names, packages, scopes and all values of `required`; the name may or may not
have a leading dot): the printed name is the fully-qualified name without an enclosing scope
`c` of the current scope. `c` contains the whole package of the file, and it is the longest
scope that may be cut. -/
theorem C19_enclosing_scope (pk sc q : List Str) (required : Int) (hpk : Wf pk) (hsc : Wf sc)
    (hq : Wf q) (hq0 : q ≠ []) (hpre : pk <+: sc) (fqn : Str)
    (hfqn : fqn = dotted q ∨ fqn = '.' :: dotted q) :
    ∃ c nm, qualifyElementName false (dotted pk) (dotted sc) fqn required = some (dotted nm) ∧
      Short pk (effScope pk sc required) q required c nm := by
  have hs : stripDot fqn = some (dotted q) := by
    rcases hfqn with rfl | rfl
    · exact (stripDot_dotted hq hq0).1
    · exact (stripDot_dotted hq hq0).2
  simp only [qualifyElementName, hs, Bool.false_eq_true, if_false]
  have len_le : ∀ c : List Str, Wf c → c.length ≤ (scopeText c).length := by
    intro c hc
    by_cases h0 : c = []
    · subst h0; simp
    · have := length_le_dotted hc
      simp only [scopeText, if_neg h0, List.length_append, List.length_singleton]; omega
  by_cases hr : required < 0
  · simp only [startScope, hr, if_pos, effScope]
    by_cases hp0 : pk = []
    · subst hp0
      refine ⟨[], q, ?_, by simp, hq0, List.nil_prefix, .inl rfl, .inl rfl, ?_⟩
      · obtain ⟨a, t, rfl⟩ := List.exists_cons_of_ne_nil hq0
        obtain ⟨ha, hd⟩ := hq a (by simp)
        obtain ⟨c, s, rfl⟩ := List.exists_cons_of_ne_nil ha
        have hc : ¬ '.' = c := fun e => hd (List.mem_cons.mpr (.inl e))
        have : ∃ x, dotted ((c :: s) :: t) = c :: x := by
          cases t with
          | nil => exact ⟨s, by simp [dotted, joinWith]⟩
          | cons y ys => exact ⟨_, by simp [dotted, joinWith]; rfl⟩
        obtain ⟨x, hx⟩ := this
        rw [hx]
        simp [dotted, joinWith, loop, hc]
      · intro d e _ _ hd _ _
        simpa using hd.length_le
    · have e : dotted pk ++ ['.'] = scopeText pk := by simp [scopeText, hp0]
      rw [e]
      exact loop_spec hpk hq hq0 pk required _ pk 0 hpk (List.prefix_refl _) (List.prefix_refl _)
        (by omega) (fun d e _ _ hd hl => absurd hd.length_le (by omega))
        (by have := len_le pk hpk; omega)
  · have e : startScope (dotted pk) (dotted sc) required = scopeText sc := by
      unfold startScope
      rw [if_neg hr]
      by_cases h0 : sc = []
      · subst h0; simp [scopeText, dotted, joinWith]
      · have hne : dotted sc ≠ [] := fun h => h0 ((dotted_eq_nil hsc).mp h)
        rw [if_pos ⟨hne, dotted_getLast hsc h0⟩]
        simp [scopeText, h0]
    rw [e]
    simp only [effScope, if_neg hr]
    exact loop_spec hpk hq hq0 sc required _ sc 0 hsc hpre (List.prefix_refl _)
      (by omega) (fun d e _ _ hd hl => absurd hd.length_le (by omega))
      (by have := len_le sc hsc; omega)

/-- C19 (names of options of a message): the scope of the message itself is never cut off; the longest scope around it that
contains the package is. -/
theorem C19_option_name (pk sc q : List Str) (hpk : Wf pk) (hsc : Wf sc) (hq : Wf q) (hq0 : q ≠ []) (hpre : pk <+: sc) :
    ∃ c nm, qualifyMessageOptionName false (dotted pk) (dotted sc) (dotted q) = some (dotted nm) ∧ q = c ++ nm ∧ nm ≠ [] ∧
      (c = [] ∨ pk <+: c ∧ c <+: sc ∧ c ≠ sc) ∧
      ∀ d e, q = d ++ e → e ≠ [] → pk <+: d → d <+: sc → d ≠ sc → d.length ≤ c.length := by
  obtain ⟨c, nm, h, hs⟩ := C19_enclosing_scope pk sc q 1 hpk hsc hq hq0 hpre (dotted q) (.inl rfl)
  rw [show effScope pk sc 1 = sc from rfl] at hs
  refine ⟨c, nm, h, hs.whole, hs.nonempty, ?_, ?_⟩
  · by_cases hc : c = []
    · exact .inl hc
    · refine .inr ⟨hs.beyond.resolve_left hc, hs.enclosing, ?_⟩
      rintro rfl
      have := hs.kept.resolve_left hc
      omega
  · intro d e h1 h2 h3 h4 h5
    refine hs.shortest d e h1 h2 h4 h3 ?_
    have hl := h4.length_le
    have : d.length ≠ sc.length := fun e => h5 (h4.eq_of_length e)
    omega

/-- C19 (names of extensions in message literals): only the package is cut off. -/
theorem C19_literal_name (pk sc q : List Str) (hpk : Wf pk) (hsc : Wf sc) (hq : Wf q) (hq0 : q ≠ []) (hpre : pk <+: sc) :
    (∀ nm, nm ≠ [] → q = pk ++ nm →
      qualifyExtensionLiteralName false (dotted pk) (dotted sc) (dotted q) = some (dotted nm)) ∧
    ((∀ nm, nm ≠ [] → q ≠ pk ++ nm) →
      qualifyExtensionLiteralName false (dotted pk) (dotted sc) (dotted q) = some (dotted q)) := by
  obtain ⟨c, nm, h, hs⟩ := C19_enclosing_scope pk sc q (-1) hpk hsc hq hq0 hpre (dotted q) (.inl rfl)
  rw [show effScope pk sc (-1) = pk from rfl] at hs
  constructor
  · intro nm' h1 h2
    have hlen := hs.shortest pk nm' h2 h1 (List.prefix_refl _) (List.prefix_refl _) (by omega)
    have hc : c = pk := hs.enclosing.eq_of_length (by have := hs.enclosing.length_le; omega)
    have : nm = nm' := by
      have := hs.whole.symm.trans h2
      rw [hc] at this
      exact List.append_cancel_left this
    rw [← this]
    exact h
  · intro hno
    have hc : c = [] := by
      rcases hs.beyond with e | e
      · exact e
      · have : c = pk := hs.enclosing.eq_of_length (by have := e.length_le; have := hs.enclosing.length_le; omega)
        exact absurd (this ▸ hs.whole) (hno nm hs.nonempty)
    have := hs.whole
    rw [hc, List.nil_append] at this
    unfold qualifyExtensionLiteralName
    rw [h, this]

/-- C19 with the option `ForceFullyQualifiedNames`: the name is printed with a leading dot. -/
theorem C19_forced (pkg scope : Str) (q : List Str) (required : Int) (hq : Wf q) (hq0 : q ≠ [])
    (fqn : Str) (hfqn : fqn = dotted q ∨ fqn = '.' :: dotted q) :
    qualifyElementName true pkg scope fqn required = some ('.' :: dotted q) := by
  have hs : stripDot fqn = some (dotted q) := by
    rcases hfqn with rfl | rfl
    · exact (stripDot_dotted hq hq0).1
    · exact (stripDot_dotted hq hq0).2
  simp [qualifyElementName, hs]

/-- **C19**: a printed type reference denotes the referenced type, under the lookup rules of
protobuf.

Partial: no definition in an inner scope may have the same first name, see
`C19_shadowed_violated`. -/
theorem C19_denotes_partial (defs : List Str → Prop) (pk sc q : List Str) (hpk : Wf pk)
    (hsc : Wf sc) (hq : Wf q) (hq0 : q ≠ []) (hpre : pk <+: sc)
    (hclosed : ∀ a b, a ≠ [] → defs (a ++ b) → defs a) (hdef : defs q)
    (hshadow : ∀ c nm s, q = c ++ nm → nm ≠ [] → c <+: sc → s <+: sc → c.length < s.length → ¬ defs (s ++ nm.take 1)) :
    ∃ nm, qualifyName false (dotted pk) (dotted sc) (dotted q) = some (dotted nm) ∧
      Denotes defs sc nm q := by
  obtain ⟨c, nm, h, hs⟩ := C19_enclosing_scope pk sc q 0 hpk hsc hq hq0 hpre (dotted q) (.inl rfl)
  refine ⟨nm, h, c, by simpa [effScope] using hs.enclosing, ?_, ?_, hs.whole, hdef⟩
  · refine hclosed _ (nm.drop 1) ?_ ?_
    · have := hs.nonempty
      cases nm with
      | nil => exact absurd rfl this
      | cons => simp
    · rw [List.append_assoc, List.take_append_drop, ← hs.whole]
      exact hdef
  · exact fun s h1 h2 => hshadow c nm s hs.whole hs.nonempty
      (by simpa [effScope] using hs.enclosing) h1 h2

/-- The hypotheses of `C19_denotes_partial` are satisfiable: message `p.M` with a field of type
`p.A`. -/
example : ∃ nm, qualifyName false "p".toList "p.M".toList "p.A".toList = some (dotted nm) ∧
    Denotes (fun x => x ∈ [["p".toList], ["p".toList, "A".toList], ["p".toList, "M".toList]])
      ["p".toList, "M".toList] nm ["p".toList, "A".toList] := by
  refine C19_denotes_partial _ ["p".toList] ["p".toList, "M".toList] ["p".toList, "A".toList]
    (by unfold Wf; decide) (by unfold Wf; decide) (by unfold Wf; decide) (by decide) (by decide)
    ?_ (by decide) ?_
  · intro a b ha h
    match a, b with
    | [], _ => exact absurd rfl ha
    | [x], [] => simpa using h
    | [x], [y] => simp at h ⊢; rcases h with h | h <;> simp [h.1]
    | [x], _ :: _ :: _ => simp at h
    | [x, y], [] => simpa using h
    | [x, y], _ :: _ => simp at h
    | _ :: _ :: _ :: _, _ => simp at h
  · intro c nm s hq hn hc hs hl hd
    match c, s with
    | [], [] => simp at hl
    | [], [x] => simp at hq; subst hq; simp at hs hd
    | [], [x, y] => simp at hq; subst hq; simp at hd
    | _, _ :: _ :: _ :: _ => simpa using hs.length_le
    | [a], [x, y] => simp at hq; rw [← hq.2] at hd; simp at hd
    | [a], [x] => simp at hl
    | _ :: _ :: _, [x] => simp at hl
    | _ :: _ :: _, [x, y] => simp at hl; omega
    | _ :: _, [] => simp at hl

/-- C19 is violated by shadowing: inside message `p.M`, a field of type `p.A` is printed as
`A`, although that denotes the nested `p.M.A`. -/
theorem C19_shadowed_violated :
    ∃ (defs : List Str → Prop) (pk sc q other nm : List Str), pk <+: sc ∧ defs q ∧ q ≠ other ∧
      qualifyName false (dotted pk) (dotted sc) (dotted q) = some (dotted nm) ∧
      Denotes defs sc nm other := by
  refine ⟨fun x => x ∈ [["p".toList, "A".toList], ["p".toList, "M".toList, "A".toList]],
    ["p".toList], ["p".toList, "M".toList], ["p".toList, "A".toList],
    ["p".toList, "M".toList, "A".toList], ["A".toList], by decide, by decide, by decide, by decide,
    ["p".toList, "M".toList], by decide, by decide, ?_, by decide, by decide⟩
  intro s hs hl
  have := hs.length_le
  simp at this hl
  omega

example : qualifyName false "p.q".toList "p.q.M.N".toList "p.q.M.T".toList = some "T".toList ∧
    qualifyMessageOptionName false "p.q".toList "p.q.M".toList "p.q.M.opt".toList
      = some "M.opt".toList ∧
    qualifyExtensionLiteralName false "p.q".toList "p.q.M".toList ".p.q.M.opt".toList
      = some "M.opt".toList ∧
    qualifyName false "p.q".toList "p.q.M".toList "p.T".toList = some "p.T".toList := by decide

example : Wf ["p".toList, "q".toList] ∧ ["p".toList, "q".toList] <+: ["p".toList, "q".toList, "M".toList] := by
  unfold Wf; decide

end Verif.Qualify
