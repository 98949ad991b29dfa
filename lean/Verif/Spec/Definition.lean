import Verif.Model.Definition
/-!
# Specification for C98: the declaration of what stands at the cursor
-/
namespace Verif.Definition
open Verif.PathSearch (Schema Sort' Name)

/-- A source file: its path, its URI, the full names of its declarations with their sorts and the ranges of the names, and the range of
the whole file. -/
structure Source (υ ρ : Type) where
  path : Str
  uri : υ
  decls : List (Name × Sort' × ρ)
  whole : ρ

/-- The sort of the declaration of a descriptor: extensions are declared as fields. -/
def declSort (s : Sort') : Sort' := if s = .extension then .field else s

variable {D P ρ υ : Type}

/-- The result `R` has been made by compiling the source `src`; `own` are its descriptors (as pointers). -/
structure Built (I : Descs D P) (src : Source υ ρ) (R : Res D P ρ) (own : D → Prop) : Prop where
  /-- The descriptors of the result are wrappers, and belong to declarations with their names. -/
  decl : ∀ {d}, own d → ∃ p r, I.proto d = some p ∧ (I.schema.fullName d, declSort (I.schema.sort d), r) ∈ src.decls ∧
    R.name (declSort (I.schema.sort d)) p = some (.node r)
  /-- Each declaration has a descriptor with its name. -/
  named : ∀ {n s r}, (n, s, r) ∈ src.decls → ∃ d, R.byName n = some d ∧ own d ∧ I.schema.fullName d = n
  /-- Full names are distinct. -/
  unique : ∀ {n s r s' r'}, (n, s, r) ∈ src.decls → (n, s', r') ∈ src.decls → s' = s ∧ r' = r
  file : R.file = .node src.whole
  filename : R.filename = src.path

/-- The descriptors for which the request is specified: those of a result; the type descriptors of its extensions; and
fields and enum values of the options that are built in, with the name of a declaration. -/
inductive Known (I : Descs D P) (src : Source υ ρ) (own : D → Prop) (d : D) : Prop
  | own (h : own d) (hs : I.schema.sort d ≠ .file)
  | extension (hs : I.schema.sort d = .extension) (hx : I.schema.isExtension d = true) (hp : I.proto d = none) (h : own (I.schema.descriptor d))
    (hn : I.schema.fullName (I.schema.descriptor d) = I.schema.fullName d)
    (hds : declSort (I.schema.sort (I.schema.descriptor d)) = .field)
  | builtin (hs : I.schema.sort d = .field ∧ I.schema.isExtension d = false ∨ I.schema.sort d = .enumValue) (hp : I.proto d = none)
    (hn : ∃ r, (I.schema.fullName d, I.schema.sort d, r) ∈ src.decls)

/-- The cache has `R` as the last result for the file `path`: the one that is only partially linked, if the last compilation has not fully
linked it. -/
def Last (c : Cache D P ρ υ) (path : Str) (R : Res D P ρ) : Prop :=
  (path, R) ∈ c.partials ∨ (∀ R', (path, R') ∉ c.partials) ∧ (path, some R) ∈ c.results

/-- Each file has at most one entry (C63). -/
def Single (c : Cache D P ρ υ) : Prop := (c.partials.map (·.1)).Nodup ∧ (c.results.map (·.1)).Nodup

end Verif.Definition
