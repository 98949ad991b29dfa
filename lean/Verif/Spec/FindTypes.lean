import Verif.Model.FindTypes

/-!
# Specification: declarations of a workspace by prefix
-/
namespace Verif.FindTypes

/-- The files of a workspace as far as they could be linked: the results, with a partially
linked result in place of a result that is only a placeholder. -/
def Cache.files (c : Cache) : List File :=
  c.results.filterMap (fun f =>
    match f.placeholder with
    | false => some f
    | true => c.partials f.path)

/-- The declarations of a file with property `keep` whose full names begin with `pre`. -/
def File.withPrefix (f : File) (keep : Decl → Bool) (pre : Str) : List Decl :=
  f.decls.filter (fun d => keep d && decide (pre <+: d.fullName))

/-- What is assumed of the external `FindDescriptorsByPrefix`, called with the filter `keep`: it
returns; what it returns is part of the declarations that match; if the context is not
cancelled, it returns all of them and no error. -/
structure LibOk (keep : Decl → Bool) (search : Bool → File → Str → List Decl → Bool → Prop) :
    Prop where
  total : ∀ b f pre, ∃ ds failed, search b f pre ds failed
  sound : ∀ b f pre ds failed, search b f pre ds failed →
    List.Sublist ds (f.withPrefix keep pre)
  complete : ∀ f pre ds failed, search false f pre ds failed →
    failed = false ∧ ds = f.withPrefix keep pre

/-- A library that meets the assumptions: it looks at everything, and gives up with an error and
without result if the context is cancelled. -/
def lib (keep : Decl → Bool) : Bool → File → Str → List Decl → Bool → Prop :=
  fun cancelled f pre ds failed =>
    failed = cancelled ∧ ds = if cancelled then [] else f.withPrefix keep pre

end Verif.FindTypes
