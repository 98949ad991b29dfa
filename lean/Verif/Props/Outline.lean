import Verif.Lemmas.Outline

/-!
# C81: the outline of a document
-/
namespace Verif.Outline

/-- C81 (part): whatever the syntax tree, the outline lists declarations of the file only, each at most as often as it is declared, below
what it is declared in, and in the order of the file. -/
theorem C81_only (decls : List Decl) (symbols : List Symbol) (h : documentSymbols (some (some decls)) = some symbols) :
    (shown [] symbols).Sublist (declared [] none decls) := by
  cases h
  exact fileSymbols_sublist [] decls

/-- C81, partial: the outline lists everything that is declared. Missing: files with oneofs or groups (`C81_oneof_violated`,
`C81_group_violated`). -/
theorem C81_all_partial (decls : List Decl) (hg : Grammatical .file decls) (hf : Flat decls) (symbols : List Symbol)
    (h : documentSymbols (some (some decls)) = some symbols) : shown [] symbols = declared [] none decls := by
  cases h
  exact fileSymbols_eq [] decls hg hf

/-- C81 (part): the range of a symbol contains the name that is selected and the ranges of the symbols below; all are inside the file. -/
theorem C81_nested (file : Info) (decls : List Decl) (hv : file.Valid) (hl : Laid file decls) (symbols : List Symbol)
    (h : documentSymbols (some (some decls)) = some symbols) : Nested (toRange file) symbols := by
  cases h
  exact fileSymbols_nested hv hl

/-- C81 (part): the ranges are those of the declarations; lines and columns begin with 0 instead of 1. -/
theorem C81_range (i : Info) (h : i.Valid) :
    toRange i = ⟨⟨i.start.line - 1, i.start.col - 1⟩, ⟨i.stop.line - 1, i.stop.col - 1⟩⟩ := by
  simp [toRange, toPosition, uint32OfPred_valid h.1.1, uint32OfPred_valid h.1.2, uint32OfPred_valid h.2.1, uint32OfPred_valid h.2.2]

/-- C81 (part): without a result of the compiler there is an error, without syntax tree an empty outline. -/
theorem C81_missing : documentSymbols none = none ∧ documentSymbols (some none) = some [] := ⟨rfl, rfl⟩

/-! ## Examples -/

/-- A node in one line. -/
def at_ (line a b : Nat) : Info := ⟨⟨line, a⟩, ⟨line, b⟩⟩

/-- A file with a message `M` (with a field, a map, a message, an enum and an extension), an extension, and a service. -/
def demo : List Decl :=
  [.other (at_ 1 1 18),
   .message ⟨⟨3, 1⟩, ⟨13, 2⟩⟩ ⟨['M'], at_ 3 9 10⟩
    [.field (at_ 4 3 18) ⟨['a'], at_ 4 10 11⟩ ['i', 'n', 't'] false,
     .field (at_ 5 3 9) ⟨[], at_ 5 9 9⟩ ['f'] true,
     .mapField (at_ 6 3 30) ⟨['m'], at_ 6 20 21⟩ ['k'] ['v'],
     .message (at_ 7 3 20) ⟨['N'], at_ 7 11 12⟩ [.field (at_ 7 14 18) ⟨['b'], at_ 7 15 16⟩ ['M'] false],
     .enum ⟨⟨8, 3⟩, ⟨10, 4⟩⟩ ⟨['E'], at_ 8 8 9⟩ [.enumValue (at_ 9 5 11) ⟨['Z'], at_ 9 5 6⟩],
     .extend ⟨⟨11, 3⟩, ⟨12, 4⟩⟩ ['O'] [.field (at_ 11 20 30) ⟨['x'], at_ 11 25 26⟩ ['s'] false]],
   .extend ⟨⟨14, 1⟩, ⟨16, 2⟩⟩ ['M'] [.field (at_ 15 3 20) ⟨['y'], at_ 15 10 11⟩ ['t'] false],
   .service ⟨⟨17, 1⟩, ⟨19, 2⟩⟩ ⟨['S'], at_ 17 9 10⟩
    [.rpc (at_ 18 3 40) ⟨['R'], at_ 18 7 8⟩ false true, .other (at_ 18 41 42)]]

theorem demo_grammatical : Grammatical .file demo := by simp [demo, Grammatical, Fits]

theorem demo_flat : Flat demo := by simp [demo, Flat, FlatOne]

theorem demo_laid : Laid ⟨⟨1, 1⟩, ⟨20, 1⟩⟩ demo := by
  have hin : ∀ i o : Info, decide (((1 ≤ i.start.line ∧ i.start.line ≤ 4294967296) ∧ 1 ≤ i.start.col ∧ i.start.col ≤ 4294967296) ∧
      ((1 ≤ i.stop.line ∧ i.stop.line ≤ 4294967296) ∧ 1 ≤ i.stop.col ∧ i.stop.col ≤ 4294967296) ∧
      (o.start.line < i.start.line ∨ (o.start.line = i.start.line ∧ o.start.col ≤ i.start.col)) ∧
      (i.stop.line < o.stop.line ∨ (i.stop.line = o.stop.line ∧ i.stop.col ≤ o.stop.col))) = true → i.In o := by
    intro i o h
    have h := of_decide_eq_true h
    exact ⟨h.1, h.2.1, h.2.2.1, h.2.2.2⟩
  simp only [demo, Laid, LaidOne, and_true]
  repeat' apply And.intro
  all_goals exact hin _ _ (by decide)

example : Nested ⟨⟨0, 0⟩, ⟨19, 0⟩⟩ (fileSymbols demo) := C81_nested ⟨⟨1, 1⟩, ⟨20, 1⟩⟩ demo
  (by simp [Info.Valid, SrcPos.Valid]) demo_laid _ rfl

example : (declared [] none demo).map (fun i => (i.path, i.name)) =
    [([], ['M']), ([['M']], ['a']), ([['M']], ['m']), ([['M']], ['N']), ([['M'], ['N']], ['b']), ([['M']], ['E']),
      ([['M'], ['E']], ['Z']), ([['M']], ['x']), ([], ['y']), ([], ['S']), ([['S']], ['R'])] := by decide

example : shown [] (fileSymbols demo) = declared [] none demo := C81_all_partial demo demo_grammatical demo_flat _ rfl

/-- C81 fails for oneofs: their fields are not in the outline. -/
theorem C81_oneof_violated : ∃ decls, Grammatical .file decls ∧ Laid ⟨⟨1, 1⟩, ⟨6, 1⟩⟩ decls ∧
    (declared [] none decls).map (·.name) = [['M'], ['a']] ∧ (shown [] (fileSymbols decls)).map (·.name) = [['M']] := by
  refine ⟨[.message ⟨⟨1, 1⟩, ⟨5, 2⟩⟩ ⟨['M'], at_ 1 9 10⟩
    [.oneof ⟨⟨2, 3⟩, ⟨4, 4⟩⟩ ⟨['o'], at_ 2 9 10⟩ [.field (at_ 3 5 15) ⟨['a'], at_ 3 11 12⟩ ['t'] false]]], ?_, ?_, by decide, by decide⟩
  · simp [Grammatical, Fits]
  · simp only [Laid, LaidOne, and_true]
    repeat' apply And.intro
    all_goals constructor <;> simp [at_, SrcPos.Valid, SrcPos.before]

/-- C81 fails for groups: neither they nor what they declare is in the outline. -/
theorem C81_group_violated : ∃ decls, Grammatical .file decls ∧ Laid ⟨⟨1, 1⟩, ⟨6, 1⟩⟩ decls ∧
    (declared [] none decls).map (·.name) = [['M'], ['G'], ['a']] ∧ (shown [] (fileSymbols decls)).map (·.name) = [['M']] := by
  refine ⟨[.message ⟨⟨1, 1⟩, ⟨5, 2⟩⟩ ⟨['M'], at_ 1 9 10⟩
    [.group ⟨⟨2, 3⟩, ⟨4, 4⟩⟩ ⟨['G'], at_ 2 9 10⟩ [.field (at_ 3 5 15) ⟨['a'], at_ 3 11 12⟩ ['t'] false]]], ?_, ?_, by decide, by decide⟩
  · simp [Grammatical, Fits]
  · simp only [Laid, LaidOne, and_true]
    repeat' apply And.intro
    all_goals constructor <;> simp [at_, SrcPos.Valid, SrcPos.before]

end Verif.Outline
