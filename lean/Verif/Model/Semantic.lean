import Verif.Util.Sort

/-!
# Semantic tokens: encoding

Models `/repo/pkg/lsp/semantic.go`.
-/
namespace Verif.Semantic

/-- `semanticItem`, `/repo/pkg/lsp/semantic.go:79-91`, without the fields that are
not sent to the editor (`lang`, `node`, `path`). -/
structure Item where
  line : UInt32
  start : UInt32
  len : UInt32
  typ : UInt32
  mods : UInt32
deriving DecidableEq, Repr

/-- The zero value of `semanticItem` (`var last semanticItem`, line 983). -/
def Item.zero : Item := ⟨0, 0, 0, 0, 0⟩

/-- The comparison given to `sort.Slice`, `/repo/pkg/lsp/semantic.go:205-210`. -/
def less (a b : Item) : Bool :=
  if a.line ≠ b.line then decide (a.line < b.line) else decide (a.start < b.start)

/-- The loop of `semanticItems.Data`, `/repo/pkg/lsp/semantic.go:984-1000`, from
index `j` on. `last` is the loop variable of the same name. Writes to `x[j..j+4]`
are modelled as appending five words. The arithmetic is that of `uint32`. -/
def dataLoop (j : Nat) (last : Item) : List Item → List UInt32
  | [] => []
  | item :: rest =>
    let x0 := if j = 0 then item.line else item.line - last.line
    let x1 := if j > 0 ∧ x0 = 0 then item.start - last.start else item.start
    x0 :: x1 :: item.len :: item.typ :: item.mods :: dataLoop (j + 5) item rest

/-- `semanticItems.Data`, `/repo/pkg/lsp/semantic.go:978-1002`. -/
def data (items : List Item) : List UInt32 := dataLoop 0 Item.zero items

end Verif.Semantic
