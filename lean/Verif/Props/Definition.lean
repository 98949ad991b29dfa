import Verif.Lemmas.Definition
import Verif.Props.PathSearch
import Verif.Props.References
import Verif.Props.Hover
import Verif.Model.Compile
/-!
# C98: go to definition leads to the declaration
-/
namespace Verif.Definition
open Verif.PathSearch (Schema Sort' Name Node Typed Denotes Placed Supported Lit)

variable {D P ρ υ : Type}

/-- **C98** (declaration): for a descriptor of the last result of its file, the location is the name of the declaration with the full name
of the descriptor, in the file that declares it. -/
theorem C98_declaration (I : Descs D P) (c : Cache D P ρ υ) (hc : Single c) (src : Source υ ρ) (R : Res D P ρ) (own : D → Prop)
    (hb : Built I src R own) (hl : Last c src.path R) (hu : c.uri src.path = some src.uri) (d : D) (hp : I.parent d = some src.path)
    (hk : Known I src own d) (s : Sort') (r : ρ) (hr : (I.schema.fullName d, s, r) ∈ src.decls) :
    definitionOf I c d = .ok (src.uri, r) := by
  unfold definitionOf
  simp only [hp, find_last hc hl, findDefinition_known hb hk hr, location, hu]

/-- **C98** (cursor): with the cursor on an identifier, the answer is one location: that of the name of the declaration that the identifier
stands for, in whatever file. (Partial: for the identifiers for which the lookup of C72 is proved, and if no compilation ends between the
two lookups, see `C98_race_violated`; the file with the declaration must be linked, see `C98_unlinked_violated`.) -/
theorem C98_cursor_partial (I : Descs D P) (hT : Typed I.schema) (hX : ∀ n d, I.schema.literalExtension n = some d → I.schema.sort d = .field)
    (file : Node) (hf : file.shape = .file) (path : List Node) (d : D) (h : Denotes I.schema path d) (hpl : Placed I.schema path)
    (hs : Supported I.schema d path) (c : Cache D P ρ υ) (hc : Single c) (src : Source υ ρ) (R : Res D P ρ) (own : D → Prop)
    (hb : Built I src R own) (hl : Last c src.path R) (hu : c.uri src.path = some src.uri) (hp : I.parent d = some src.path)
    (hk : Known I src own d) (s : Sort') (r : ρ) (hr : (I.schema.fullName d, s, r) ∈ src.decls) (packages : List (υ × ρ)) :
    definition I c packages (PathSearch.search I.schema file path.reverse) = .ok [(src.uri, r)] := by
  rw [PathSearch.C72_denotes_partial I.schema hT hX file hf path d h hpl hs]
  unfold definition
  simp only [C98_declaration I c hc src R own hb hl hu d hp hk s r hr]

/-- **C98** (imports): with the cursor on an import, the answer is the imported file. -/
theorem C98_import (I : Descs D P) (hT : Typed I.schema) (file i : Node) (name : Name) (hi : i.shape = .imp name false) (d : D)
    (hd : I.schema.imports I.schema.root name = some d) (hs : I.schema.sort d = .file) (c : Cache D P ρ υ) (hc : Single c) (src : Source υ ρ)
    (R : Res D P ρ) (own : D → Prop) (hb : Built I src R own) (hl : Last c src.path R) (hu : c.uri src.path = some src.uri)
    (hp : I.parent d = some src.path) (packages : List (υ × ρ)) :
    definition I c packages (PathSearch.search I.schema file [i]) = .ok [(src.uri, src.whole)] := by
  have := PathSearch.C72_import_partial I.schema hT file i name false hi
  rw [this, if_neg (by simp), hd]
  unfold definition
  simp only [definitionOf, hp, find_last hc hl, findDefinition, hs, hb.file, reference, hb.filename, location, hu]

/-- At and below a package statement the lookup finds nothing. -/
theorem search_package (S : Schema D) (file pkg : Node) (hp : pkg.shape = .stop) (below : List Node)
    (hb : ∀ n ∈ below, ∃ name, n.shape = .ident name ∨ n.shape = .compoundIdent name) :
    PathSearch.search S file (pkg :: below) = .nothing := by
  have key : ∀ (ns : List Node) (es : List (PathSearch.Entry D)), (∀ n ∈ ns, ∃ name, n.shape = .ident name ∨ n.shape = .compoundIdent name) →
      PathSearch.climb S es (ns ++ [pkg] ++ [file]) = .nothing := by
    intro ns
    induction ns with
    | nil => intro es _; simp [PathSearch.climb, hp]
    | cons n ns ih =>
      intro es h
      obtain ⟨name, hn⟩ := h n (by simp)
      have := PathSearch.climb_push S file n (ns ++ [pkg]) es (by rcases hn with hn | hn <;> simp [hn, PathSearch.pushed])
      rw [List.cons_append, List.cons_append, this]
      exact ih _ fun m hm => h m (List.mem_cons_of_mem _ hm)
  unfold PathSearch.search
  rw [if_neg (by simp), List.reverse_cons, key below.reverse [] (by simpa using hb)]

/-- **C98** (packages): with the cursor on a part of the name in the package statement, the answer is the package statements of all files
with this package, or (if it is not the last part) with a package below the one that the name up to the cursor denotes: the parts of this
name in the statement. -/
theorem C98_package (I : Descs D P) (c : Cache D P ρ Str) (file pkg : Node) (hp : pkg.shape = .stop) (below : List Node)
    (hb : ∀ n ∈ below, ∃ name, n.shape = .ident name ∨ n.shape = .compoundIdent name) (decls : List Hover.Decl) (parts : List Hover.Ident)
    (hd : Hover.PackageIs decls parts) (hinc : (parts.map (·.tok)).Pairwise (· < ·)) (i : Nat) (part : Hover.Ident) (hi : parts[i]? = some part)
    (name : Str) (hname : Hover.PrefixName parts (i + 1) name) (files : Str → Bool → List References.File)
    (hv : ∀ b, ∀ f ∈ files name b, References.Valid f) (rng : Nat → Nat → ρ) :
    ∃ locs, definition I c (packageLocations part.tok decls files rng) (PathSearch.search I.schema file (pkg :: below)) = .ok locs ∧
      ∀ u r, (u, r) ∈ locs ↔ ∃ f ∈ files name (decide (i + 1 ≠ parts.length)), ∃ l : References.Loc,
        References.Declares name (decide (i + 1 ≠ parts.length)) f l ∧ u = l.uri ∧ r = rng l.decl l.parts := by
  refine ⟨_, by rw [search_package I.schema file pkg hp below hb]; rfl, fun u r => ?_⟩
  unfold packageLocations
  rw [(Hover.C95_package decls parts hd hinc i part hi name hname).2]
  simp only [List.mem_map]
  obtain ⟨locs, h1, h2⟩ := References.C61_package_all [] (files name (decide (i + 1 ≠ parts.length))) name (decide (i + 1 ≠ parts.length)) (hv _)
  have e : locs = References.packageRefs (files name (decide (i + 1 ≠ parts.length))) name (decide (i + 1 ≠ parts.length)) :=
    (Option.some.inj h1).symm
  rw [← e]
  constructor
  · rintro ⟨l, hl, he⟩
    obtain ⟨f, hf, hdl⟩ := (h2 l).1 hl
    simp only [Prod.mk.injEq] at he
    exact ⟨f, hf, l, hdl, he.1.symm, he.2.symm⟩
  · rintro ⟨f, hf, l, hdl, rfl, rfl⟩
    exact ⟨l, (h2 l).2 ⟨f, hf, hdl⟩, rfl⟩

/-- **C98** (nothing): at a scalar type the request fails; at an unfinished import, with the cursor outside of a package statement, the
answer is empty. -/
theorem C98_nothing (I : Descs D P) (hT : Typed I.schema) (c : Cache D P ρ Str) (file : Node) :
    (file.shape = .file → ∀ ps n i d packages, PathSearch.Decl I.schema (n :: ps) d → Placed I.schema (n :: ps) → PathSearch.TypeIn n i →
      PathSearch.Identifier i → I.schema.kind d = .scalar →
      definition I c packages (PathSearch.search I.schema file (i :: n :: ps).reverse) = .error) ∧
    (∀ (i : Node) name, i.shape = .imp name true → ∀ decls parts, Hover.PackageIs decls parts → ∀ tok : Nat, (∀ p ∈ parts, p.tok ≠ tok) →
      ∀ files rng, definition I c (packageLocations tok decls files rng) (PathSearch.search I.schema file [i]) = .ok []) := by
  refine ⟨fun hf ps n i d packages h hp hn hi hk => ?_, fun i name hi decls parts hd tok ht files rng => ?_⟩
  · rw [PathSearch.C72_scalar_partial I.schema hT file hf ps n i d h hp hn hi hk]
    rfl
  · have := PathSearch.C72_import_partial I.schema hT file i name true hi
    rw [this, if_pos rfl]
    simp only [definition, packageLocations, (Hover.C95_package_none decls parts hd tok ht).2]

/-- **C98** (no guessing): whatever the states of the cache are, a location that is returned for a descriptor that a result owns is in
the file of the descriptor, and it is the name of a declaration of this file or the whole file. Nothing is returned if there is no source,
no URI or no result. -/
theorem C98_sound (I : Descs D P) (c : Cache D P ρ υ) (d : D) (u : υ) (r : ρ) (h : definitionOf I c d = .ok (u, r)) :
    ∃ path R, I.parent d = some path ∧ ((path, R) ∈ c.partials ∨ (path, some R) ∈ c.results) ∧ c.uri R.filename = some u ∧
      ((I.schema.sort d = .file ∧ R.file = .node r) ∨ ∃ p, R.name (declSort (I.schema.sort d)) p = some (.node r) ∧
        (I.proto d = some p ∨ I.proto d = none ∧ (I.proto (I.schema.descriptor d) = some p ∧ I.schema.isExtension d = true ∨
          ∃ d', R.byName (I.schema.fullName d) = some d' ∧ I.proto d' = some p))) := by
  unfold definitionOf at h
  cases hp : I.parent d with
  | none => simp [hp] at h
  | some path =>
    simp only [hp] at h
    cases hR : findResultOrPartial c path with
    | error => simp [hR] at h
    | panic => simp [hR] at h
    | ok R =>
      simp only [hR] at h
      have hmem : (path, R) ∈ c.partials ∨ (path, some R) ∈ c.results := by
        unfold findResultOrPartial Assoc.get at hR
        cases hf : c.partials.find? fun e => decide (e.1 = path) with
        | some e =>
          rw [hf] at hR
          simp only [Option.map_some, Out.ok.injEq] at hR
          have h1 := List.mem_of_find?_eq_some hf
          have h2 := List.find?_some hf
          simp only [decide_eq_true_eq] at h2
          left
          rw [← h2, ← hR]
          exact h1
        | none =>
          rw [hf] at hR
          simp only [Option.map_none, findResult] at hR
          right
          split at hR
          · cases hR
          · cases hR
          · rename_i q r' hf
            have h1 := List.mem_of_find?_eq_some hf
            have h2 := List.find?_some hf
            simp only [decide_eq_true_eq] at h2
            simp only [Out.ok.injEq] at hR
            rw [← h2, ← hR]
            exact h1
      have hloc : ∀ o : Out (Str × ρ), location c o = .ok (u, r) → ∃ f, o = .ok (f, r) ∧ c.uri f = some u := by
        intro o ho
        unfold location at ho
        split at ho
        · cases ho
        · cases ho
        · rename_i f r'
          split at ho
          · cases ho
          · rename_i u' hu
            simp only [Out.ok.injEq, Prod.mk.injEq] at ho
            exact ⟨f, by rw [ho.2], by rw [hu, ho.1]⟩
      obtain ⟨f, hd, hu⟩ := hloc _ h
      have href : ∀ n : NameNode ρ, reference R n = .ok (f, r) → f = R.filename ∧ n = .node r := by
        intro n hn
        cases n with
        | node r' =>
          simp only [reference, Out.ok.injEq, Prod.mk.injEq] at hn
          exact ⟨hn.1.symm, by rw [hn.2]⟩
        | noSource => cases hn
      have hby : ∀ k o, byProto R k o = .ok (f, r) → ∃ p, o = some p ∧ R.name k p = some (.node r) ∧ f = R.filename := by
        intro k o ho
        unfold byProto at ho
        split at ho
        · cases ho
        · rename_i p
          split at ho
          · cases ho
          · rename_i n hn
            obtain ⟨h1, h2⟩ := href n ho
            exact ⟨p, rfl, by rw [hn, h2], h1⟩
      have hfn : ∀ k, byFullName I R k d = .ok (f, r) → ∃ p d', R.byName (I.schema.fullName d) = some d' ∧ I.proto d' = some p ∧
          R.name k p = some (.node r) ∧ f = R.filename := by
        intro k ho
        unfold byFullName at ho
        split at ho
        · cases ho
        · rename_i d' hd'
          obtain ⟨p, h1, h2, h3⟩ := hby _ _ ho
          exact ⟨p, d', hd', h1, h2, h3⟩
      refine ⟨path, R, rfl, hmem, ?_⟩
      have direct : ∀ k, k = declSort (I.schema.sort d) → byProto R k (I.proto d) = .ok (f, r) → c.uri R.filename = some u ∧
          ((I.schema.sort d = .file ∧ R.file = .node r) ∨ ∃ p, R.name (declSort (I.schema.sort d)) p = some (.node r) ∧
            (I.proto d = some p ∨ I.proto d = none ∧ (I.proto (I.schema.descriptor d) = some p ∧ I.schema.isExtension d = true ∨
              ∃ d', R.byName (I.schema.fullName d) = some d' ∧ I.proto d' = some p))) := by
        intro k hk ho
        obtain ⟨p, h1, h2, h3⟩ := hby _ _ ho
        exact ⟨h3 ▸ hu, .inr ⟨p, hk ▸ h2, .inl h1⟩⟩
      have named : ∀ k, k = declSort (I.schema.sort d) → I.proto d = none → byFullName I R k d = .ok (f, r) → c.uri R.filename = some u ∧
          ((I.schema.sort d = .file ∧ R.file = .node r) ∨ ∃ p, R.name (declSort (I.schema.sort d)) p = some (.node r) ∧
            (I.proto d = some p ∨ I.proto d = none ∧ (I.proto (I.schema.descriptor d) = some p ∧ I.schema.isExtension d = true ∨
              ∃ d', R.byName (I.schema.fullName d) = some d' ∧ I.proto d' = some p))) := by
        intro k hk hn ho
        obtain ⟨p, d', h1, h2, h3, h4⟩ := hfn _ ho
        exact ⟨h4 ▸ hu, .inr ⟨p, hk ▸ h3, .inr ⟨hn, .inr ⟨d', h1, h2⟩⟩⟩⟩
      have field : declSort (I.schema.sort d) = .field →
          (if I.schema.isExtension d = false then
            match I.proto d with
            | some p => byProto R .field (some p)
            | none => byFullName I R .field d
          else
            match I.proto d with
            | some p => byProto R .field (some p)
            | none => if I.schema.sort d = .extension then byProto R .field (I.proto (I.schema.descriptor d)) else .error) = .ok (f, r) →
          c.uri R.filename = some u ∧
          ((I.schema.sort d = .file ∧ R.file = .node r) ∨ ∃ p, R.name (declSort (I.schema.sort d)) p = some (.node r) ∧
            (I.proto d = some p ∨ I.proto d = none ∧ (I.proto (I.schema.descriptor d) = some p ∧ I.schema.isExtension d = true ∨
              ∃ d', R.byName (I.schema.fullName d) = some d' ∧ I.proto d' = some p))) := by
        intro hds ho
        split at ho
        · split at ho
          · rename_i p hpp
            exact direct _ hds.symm (hpp ▸ ho)
          · rename_i hpp
            exact named _ hds.symm hpp ho
        · rename_i hx
          split at ho
          · rename_i p hpp
            exact direct _ hds.symm (hpp ▸ ho)
          · rename_i hpp
            split at ho
            · obtain ⟨p, h1, h2, h3⟩ := hby _ _ ho
              exact ⟨h3 ▸ hu, .inr ⟨p, hds ▸ h2, .inr ⟨hpp, .inl ⟨h1, by simpa using hx⟩⟩⟩⟩
            · cases ho
      unfold findDefinition at hd
      cases hs : I.schema.sort d <;> simp only [hs] at hd direct named field ⊢
      · obtain ⟨h1, h2⟩ := href _ hd
        exact ⟨h1 ▸ hu, .inl ⟨trivial, h2⟩⟩
      · exact direct _ rfl hd
      · exact field rfl hd
      · exact field rfl hd
      · exact direct _ rfl hd
      · cases hpp : I.proto d with
        | some p =>
          rw [hpp] at hd direct
          exact direct _ rfl hd
        | none =>
          rw [hpp] at hd named
          exact named _ rfl rfl hd
      · exact direct _ rfl hd
      · exact direct _ rfl hd
      · exact direct _ rfl hd

/-- C98. The lookup of a definition does not panic, but returns an error, if it cannot be done: the file of the descriptor is stored as a
placeholder only if it is stored as a partial result as well, and the node of the descriptor is known to each stored result of its file. -/
theorem C98_no_panic (I : Descs D P) (c : Cache D P ρ υ) (d : D)
    (hph : ∀ path, I.parent d = some path → (path, none) ∈ c.results → ∃ R, (path, R) ∈ c.partials)
    (hn : ∀ path R, I.parent d = some path → ((path, R) ∈ c.partials ∨ (path, some R) ∈ c.results) →
      ∃ p, I.proto d = some p ∧ R.name (declSort (I.schema.sort d)) p ≠ none) :
    definitionOf I c d ≠ .panic := by
  intro h
  unfold definitionOf at h
  cases hp : I.parent d with
  | none => simp [hp] at h
  | some path =>
    simp only [hp] at h
    have hfind : findResultOrPartial c path ≠ .panic ∧ ∀ R, findResultOrPartial c path = .ok R →
        (path, R) ∈ c.partials ∨ (path, some R) ∈ c.results := by
      unfold findResultOrPartial Assoc.get
      cases hf : c.partials.find? fun e => decide (e.1 = path) with
      | some e =>
        have h1 := List.mem_of_find?_eq_some hf
        have h2 := List.find?_some hf
        simp only [decide_eq_true_eq] at h2
        refine ⟨by simp, fun R hR => .inl ?_⟩
        simp only [Option.map_some, Out.ok.injEq] at hR
        rw [← h2, ← hR]
        exact h1
      | none =>
        simp only [Option.map_none, findResult]
        refine ⟨fun hR => ?_, fun R hR => .inr ?_⟩
        · split at hR
          · cases hR
          · rename_i q hq
            have h1 := List.mem_of_find?_eq_some hq
            have h2 := List.find?_some hq
            simp only [decide_eq_true_eq] at h2
            subst h2
            obtain ⟨R, hR⟩ := hph _ hp h1
            have := List.find?_eq_none.1 hf _ hR
            simp at this
          · cases hR
        · split at hR
          · cases hR
          · cases hR
          · rename_i q r' hq
            have h1 := List.mem_of_find?_eq_some hq
            have h2 := List.find?_some hq
            simp only [decide_eq_true_eq] at h2
            simp only [Out.ok.injEq] at hR
            rw [← h2, ← hR]
            exact h1
    cases hR : findResultOrPartial c path with
    | error => simp [hR] at h
    | panic => exact hfind.1 hR
    | ok R =>
      simp only [hR] at h
      obtain ⟨p, hpd, hnm⟩ := hn path R hp (hfind.2 R hR)
      have hloc : ∀ o : Out (Str × ρ), location c o = .panic → o = .panic := by
        intro o ho
        unfold location at ho
        split at ho
        · rfl
        · cases ho
        · split at ho <;> cases ho
      have href : ∀ n : NameNode ρ, reference R n ≠ .panic := by
        intro n hn
        cases n <;> cases hn
      have hby : byProto R (declSort (I.schema.sort d)) (some p) ≠ .panic := by
        intro ho
        unfold byProto at ho
        split at ho
        · cases ‹some p = none›
        · rename_i q hq
          cases hq
          split at ho
          · exact hnm ‹_›
          · exact href _ ho
      have hd := hloc _ h
      unfold findDefinition at hd
      cases hs : I.schema.sort d <;> simp only [hs, hpd] at hd hby
      all_goals first
        | exact href _ hd
        | exact hby hd
        | (split at hd <;> exact hby hd)

/-! ## Violations and examples -/

namespace Demo
open PathSearch.Demo

/-- The schema of C72, with distinct full names. -/
def schema : Schema Nat :=
  { PathSearch.demo with fullName := fun d => if d = 18 then ['p', '.', 'T'] else ['p', '.', Char.ofNat (97 + d)] }

theorem typed : Typed schema :=
  have t := PathSearch.demo_typed
  ⟨t.root, t.messages, t.enums, t.extensions, t.services, t.fields, t.notExtension, t.oneofs, t.values, t.methods, t.message, t.enum, t.mapValue,
    t.input, t.output, t.optionPart, t.anyType, t.findExtendee⟩

/-- All descriptors are wrappers and belong to one file. -/
def descs : Descs Nat Nat := ⟨schema, fun d => some d, fun _ => some ['f']⟩

def ids : List Nat := (List.range 24).map (· + 1)

/-- The ranges are the numbers of the descriptors. -/
def source : Source Nat Nat := ⟨['f'], 7, ids.map fun d => (schema.fullName d, declSort (schema.sort d), d), 99⟩

def res : Res Nat Nat Nat :=
  ⟨fun k p => if p ∈ ids ∧ k = declSort (schema.sort p) then some (.node p) else none, fun n => ids.find? fun d => schema.fullName d == n, .node 99, ['f']⟩

theorem built : Built descs source res (· ∈ ids) where
  decl {d} h := ⟨d, d, rfl, List.mem_map.2 ⟨d, h, rfl⟩, by simp [res, h, descs]⟩
  named {n s r} h := by
    obtain ⟨d, hd, he⟩ := List.mem_map.1 h
    simp only [Prod.mk.injEq] at he
    obtain ⟨rfl, _, _⟩ := he
    exact (by decide +kernel : ∀ d ∈ ids, ∃ d', res.byName (schema.fullName d) = some d' ∧ d' ∈ ids ∧ schema.fullName d' = schema.fullName d) d hd
  unique {n s r s' r'} h h' := by
    obtain ⟨d, hd, he⟩ := List.mem_map.1 h
    obtain ⟨d', hd', he'⟩ := List.mem_map.1 h'
    simp only [Prod.mk.injEq] at he he'
    have := (by decide +kernel : ∀ d ∈ ids, ∀ d' ∈ ids, schema.fullName d' = schema.fullName d → d' = d) d hd d' hd' (by rw [he.1, he'.1])
    subst this
    exact ⟨by rw [← he'.2.1, he.2.1], by rw [← he'.2.2, he.2.2]⟩
  file := rfl
  filename := rfl

/-- The file is linked, and another one is a placeholder. -/
def cache : Cache Nat Nat Nat Nat := ⟨[], [(['g'], none), (['f'], some res)], fun p => if p = ['f'] then some 7 else none⟩

theorem single : Single cache := by unfold Single; decide
theorem last : Last cache source.path res := .inr ⟨fun _ => by simp [cache], by simp [cache, source]⟩

/-- The descriptors of the file, in a cache with a placeholder for another file. -/
example (d : Nat) (h : d ∈ ids) : definitionOf descs cache d ≠ .panic :=
  C98_no_panic descs cache d (fun path hp hm => by cases hp; simp [cache] at hm) fun path R hp hm => by
    have : R = res := by
      cases hp
      rcases hm with hm | hm
      · cases hm
      · simpa [cache] using hm
    subst this
    exact ⟨d, rfl, by simp [res, h, descs]⟩

/-- The type `T` at the output of `Get`. -/
example (packages : List (Nat × Nat)) :
    definition descs cache packages (PathSearch.search schema file [s, rpc, out, outType]) = .ok [(7, 18)] :=
  C98_cursor_partial descs typed (fun _ _ h => by cases h) file rfl [outType, out, rpc, s] 18
    (.rpcOutput (d := 8) (.rpc (.service rfl rfl) rfl rfl rfl) rfl rfl rfl (by decide) trivial) ⟨⟨⟨⟨trivial, trivial⟩, trivial⟩, trivial⟩, trivial⟩ trivial
    cache single source res (· ∈ ids) built last rfl rfl (.own (by decide) (by decide)) .message 18 (by decide +kernel) packages

/-- Besides: 40 is the field 2 as one of the options that are built in, 41 the type descriptor of the extension 24. -/
def builtinDescs : Descs Nat Nat where
  schema := { schema with
    isExtension := fun d => decide (d = 41)
    descriptor := fun _ => 24
    fullName := fun d => schema.fullName (if d = 40 then 2 else if d = 41 then 24 else d)
    sort := fun d => if d = 40 then .field else if d = 41 then .extension else schema.sort d }
  proto d := if d ≥ 40 then none else some d
  parent _ := some ['f']

theorem builtin_built : Built builtinDescs source res (· ∈ ids) where
  decl {d} h := ⟨d, d, (by decide +kernel : ∀ d ∈ ids, builtinDescs.proto d = some d ∧
    (builtinDescs.schema.fullName d, declSort (builtinDescs.schema.sort d), d) ∈ source.decls ∧
    res.name (declSort (builtinDescs.schema.sort d)) d = some (.node d)) d h⟩
  named {n s r} h := by
    obtain ⟨d, h1, h2, h3⟩ := built.named h
    refine ⟨d, h1, h2, ?_⟩
    rw [← h3]
    exact (by decide +kernel : ∀ d ∈ ids, builtinDescs.schema.fullName d = schema.fullName d) d h2
  unique := built.unique
  file := rfl
  filename := rfl

example : definitionOf builtinDescs cache 40 = .ok (7, 2) ∧ definitionOf builtinDescs cache 41 = .ok (7, 24) :=
  ⟨C98_declaration builtinDescs cache single source res _ builtin_built last rfl 40 rfl
      (.builtin (.inl (by decide)) rfl ⟨2, by decide +kernel⟩) .field 2 (by decide +kernel),
    C98_declaration builtinDescs cache single source res _ builtin_built last rfl 41 rfl
      (.extension (by decide) (by decide) rfl (by decide) rfl rfl) .field 24 (by decide +kernel)⟩

/-- With the cursor on `import "g";`. -/
def importDescs : Descs Nat Nat := ⟨{ schema with sort := fun d => if d = 25 then .file else schema.sort d }, fun d => some d, fun _ => some ['f']⟩

example : definition importDescs cache [] (PathSearch.search importDescs.schema file [⟨110, 1, 3, .imp ['g'] false⟩]) = .ok [(7, 99)] := by
  decide +kernel

/-- The first part of the name in `package a.b;`, in a file beside one with `package a.c;`: the `a` in both. -/
example : definition descs (ρ := Nat × Nat) (υ := Str) ⟨[], [], fun _ => none⟩
    (packageLocations 1 [.package (some (.compound [⟨['a'], 1⟩, ⟨['b'], 3⟩]))]
      (fun _ _ => [⟨some ['f'], true, [(0, [['a'], ['b']])]⟩, ⟨some ['g'], true, [(2, [['a'], ['c']])]⟩]) fun d n => (d, n))
    (PathSearch.search schema file [⟨120, 0, 4, .stop⟩, ⟨121, 1, 3, .compoundIdent ['a', '.', 'b']⟩, ⟨122, 1, 1, .ident ['a']⟩]) =
      .ok [(['f'], (0, 1)), (['g'], (2, 1))] := by
  decide +kernel

/-- At a scalar type; outside of package names. -/
example : definition descs cache [(3, 4)] (PathSearch.search schema file [m, fi, fiType]) = .error := by
  decide +kernel

/-- The same file after a change: the declarations are there, but they have other protos. -/
def newRes : Res Nat Nat Nat := ⟨fun k p => if p ≥ 100 then res.name k (p - 100) else none, fun n => (res.byName n).map (· + 100), .node 99, ['f']⟩

end Demo

/-- **C98** fails if a compilation ends between the two lookups: the lock is released in between, and the descriptor that the first one has
found is not a descriptor of the new result, in which its proto is unknown; the request panics. Both before and after the compilation the
answer would be the same location. -/
theorem C98_race_violated : ∃ (I : Descs Nat Nat) (before after : Cache Nat Nat Nat Nat) (file : Node) (path : List Node) (node : Nat) (d d' : Nat),
    Single before ∧ Single after ∧ PathSearch.search I.schema file path = .found d node ∧
    definition I before [] (.found d node) = .ok [(7, 18)] ∧
    (I.schema.fullName d' = I.schema.fullName d ∧ I.parent d' = I.parent d ∧ definition I after [] (.found d' node) = .ok [(7, 18)]) ∧
    definition I after [] (.found d node) = .panic :=
  ⟨⟨{ Demo.schema with
        sort := fun d => if d ≥ 100 then Demo.schema.sort (d - 100) else Demo.schema.sort d
        fullName := fun d => if d ≥ 100 then Demo.schema.fullName (d - 100) else Demo.schema.fullName d }, fun d => some d, fun _ => some ['f']⟩,
    Demo.cache, ⟨[], [(['f'], some Demo.newRes)], fun p => if p = ['f'] then some 7 else none⟩, PathSearch.Demo.file,
    [PathSearch.Demo.s, PathSearch.Demo.rpc, PathSearch.Demo.out, PathSearch.Demo.outType], 34, 18, 118,
    Demo.single, by unfold Single; decide, by decide +kernel, by decide +kernel, by decide +kernel, by decide +kernel⟩

/-- The cache after a sequence of compilations (C63); results are numbered, `path` are the paths. -/
def cacheOf (s : Compile.St) (res : Nat → Res D P ρ) (path : Nat → Str) (uri : Str → Option υ) : Cache D P ρ υ :=
  ⟨s.part.map fun e => (path e.1, res e.2), s.results.map fun e => (path e.path, e.res.map res), uri⟩

/-- **C98** fails if the file with the declaration has errors that keep it from being linked: after a compilation that only parses the file
`a`, the request panics for everything that is declared in `a`, also in the file `b`, whose result is still the one that refers to `a`. -/
theorem C98_unlinked_violated : ∃ (evs : List Compile.Ev) (a b : Nat), Compile.findParse (Compile.run evs) a = some (.unl 2) ∧
    Compile.findParse (Compile.run evs) b = some (.linked 1) ∧
    ∀ (I : Descs D P) (res : Nat → Res D P ρ) (path : Nat → Str) (uri : Str → Option υ) (d : D), path a ≠ path b → I.parent d = some (path a) →
      definitionOf I (cacheOf (Compile.run evs) res path uri) d = .panic := by
  refine ⟨[.done [(0, 0), (1, 1)] [] [], .done [] [] [(0, 2)]], 0, 1, by decide, by decide, fun I res path uri d hne hp => ?_⟩
  unfold definitionOf
  have h : Compile.run [.done [(0, 0), (1, 1)] [] [], .done [] [] [(0, 2)]] = ⟨[⟨0, none⟩, ⟨1, some 1⟩], [], [(0, 2)], [(0, 2), (1, 1)]⟩ := by rfl
  simp only [hp, h, cacheOf, findResultOrPartial, Assoc.get, findResult, List.map_cons, List.map_nil, List.find?_nil, Option.map_none, List.find?_cons,
    decide_true]

end Verif.Definition
