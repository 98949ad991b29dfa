import Verif.Model.CursorPath

/-!
# What a cursor and a selection refer to

`At` says which nodes the walker reaches and along which path, independently of
any list of visited nodes. `Covers` says, in terms of the reading order of positions,
when a cursor is inside a node: not before its first character, and before the end
of the token that closes it.
-/
namespace Verif.CursorPath

/-- Reading order of positions. -/
def Pos.lt (a b : Pos) : Prop := a.line < b.line ∨ (a.line = b.line ∧ a.char < b.char)
/-- Reading order, or the same position. -/
def Pos.le (a b : Pos) : Prop := a.lt b ∨ a = b

instance (a b : Pos) : Decidable (a.lt b) := by unfold Pos.lt; infer_instance
instance (a b : Pos) : Decidable (a.le b) := by unfold Pos.le; infer_instance

/-- The node reached from a node along the child numbers `path`, and the number of path
steps to it, if the walker enters every node on the way and `below` holds for each of
its ancestors. -/
inductive At (below : Info → Prop) : Node → List Nat → Nat → Info → Prop
  | here (i kids) : At below (.mk i true kids) [] 0 i
  | kid (i kids k steps n path len j) : below i → kids[k]? = some (steps, n) →
      At below n path len j → At below (.mk i true kids) (k :: path) (steps + len) j

/-- The kinds of nodes a cursor can be attributed to. -/
def Addressable : Kind → Prop
  | .file | .group | .mapField | .other => False
  | _ => True

instance (k : Kind) : Decidable (Addressable k) := by
  unfold Addressable; split <;> infer_instance

/-- The token that closes a node: the semicolon of a simple declaration, the closing
brace, bracket or parenthesis of a block, either of them for an rpc. -/
def closing (i : Info) : Option Close :=
  match i.kind with
  | .importK | .syntaxK | .enumValue | .option | .field | .package => i.semicolon
  | .message | .enum | .service | .messageLiteral | .compactOptions | .rpcType => i.close
  | .rpc => match i.semicolon with
    | some s => some s
    | none => i.close
  | .extend => if i.incomplete then none else i.close
  | _ => none

/-- A cursor is before the end of a node closed by `c`. A node without a closing token, or
with one that is not in the text, extends to the end of the node, the end included. -/
def BeforeEnd (i : Info) (c : Option Close) (p : Pos) : Prop :=
  match c with
  | some c => if c.virtual then p.le i.stop else p.lt c.stop
  | none => p.le i.stop

instance (i : Info) (c : Option Close) (p : Pos) : Decidable (BeforeEnd i c p) := by
  unfold BeforeEnd
  cases c with
  | none => simp only; infer_instance
  | some c => simp only; split <;> infer_instance

/-- A cursor is inside a node. -/
def Covers (i : Info) (p : Pos) : Prop := i.start.le p ∧ BeforeEnd i (closing i) p

instance (i : Info) (p : Pos) : Decidable (Covers i p) := by
  unfold Covers; infer_instance

/-- The paths that describe the place of the cursor: those to the nodes it is inside of,
and those to the name of a message field at whose separator it is. -/
def Candidate (root : Node) (p : Pos) (f : Found) : Prop :=
  ∃ i len, At (fun _ => True) root f.path len i ∧
    ((f.name = false ∧ f.len = len + 1 ∧ Addressable i.kind ∧ Covers i p)
      ∨ (f.name = true ∧ f.len = len + 2 ∧ i.kind = .messageField ∧ i.sepHit = true))

/-- Document order of paths: an ancestor comes before its descendants, an earlier child
before a later one. -/
def before : List Nat → List Nat → Bool
  | _, [] => false
  | [], _ :: _ => true
  | a :: as, b :: bs => decide (a < b) || (a == b && before as bs)

/-- The kinds of nodes that the refactorings of fields look for. -/
def FieldLike (k : Kind) : Prop := k = .message ∨ k = .group ∨ k = .field ∨ k = .mapField

/-- The nodes of the kinds `wanted` that are reached through nodes of the kinds `through`. -/
def RecordedAs (through wanted : Kind → Prop) (root : Node) (f : Found) : Prop :=
  ∃ i len, At (fun j => through j.kind) root f.path len i ∧ wanted i.kind ∧ f.name = false ∧ f.len = len + 1

/-- The nodes a visitor records. -/
def Recorded (v : Kind → Visit) (root : Node) (f : Found) : Prop :=
  ∃ i len, At (fun j => v j.kind ≠ .skip) root f.path len i ∧ v i.kind = .record ∧
    f.name = false ∧ f.len = len + 1

end Verif.CursorPath
