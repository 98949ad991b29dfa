import Verif.Lemmas.FormatKeeps
import Verif.Lemmas.FormatColumns
/-! The rule for columns, for comments. -/
namespace Verif.Formatter
open Verif.Lexer Verif.Comment
open Verif.FormatWriter (St)
open Verif.ColumnFormat (Field Elem)

variable {b : Bool} {cfg : Cfg}

/-- What the comments of the cells of a field say. -/
def fieldTold (x : Field) : List (List Str) :=
  said x.ctx ++ (said x.typeName ++ (said x.fieldName ++ (said x.equalsTag ++ said x.lineEnd)))

theorem said_nil : said [] = [] := rfl

theorem said_blank {w : Str} (h : Blank w) (s : Str) : said (w ++ s) = said s := by unfold said; rw [comments_blank h]

theorem said_idle {s t : Str} (h : (lexFrom .idle s).2 = .idle) : said (s ++ t) = said s ++ said t := by
  rw [said_append (by rw [h]; trivial), h]; rfl

theorem blank_columns (n : Nat) : Blank (ColumnFormat.spaces n) := BlockComment.blank_spaces n

theorem said_spaces {s : Str} (h : Clean (lexFrom .idle s).2) {n : Nat} (hn : s ≠ [] → 1 ≤ n) (r : Str) :
    said (s ++ (ColumnFormat.spaces n ++ r)) = said s ++ said r := by
  by_cases hs : s = []
  · subst hs
    rw [List.nil_append, said_blank (blank_columns n), said_nil, List.nil_append]
  · have hn := hn hs
    obtain ⟨m, rfl⟩ : ∃ m, n = m + 1 := ⟨n - 1, by omega⟩
    rw [said_append h.outside]
    have : ColumnFormat.spaces (m + 1) ++ r = ' ' :: (ColumnFormat.spaces m ++ r) := rfl
    rw [this, allComments_space (.inl h) (by decide), comments_blank (blank_columns m)]
    rfl

theorem said_hard {s : Str} (h : Clean (lexFrom .idle s).2) {c : Char} (hc : hardChar c = true) (r : Str) :
    said (s ++ c :: r) = said s ++ said (c :: r) := by
  rw [said_append h.outside, allComments_hard h hc]; rfl

theorem strip_said (x : Field) : said (ColumnFormat.strip x).lineEnd = said x.lineEnd := by
  unfold ColumnFormat.strip
  split
  · rename_i t he
    rw [he]
    exact (said_blank (BlockComment.blank_spaces 1) t).symm
  · rfl

theorem said_writeField {x : Field} {ts : List Str} (h : FieldLexes x ts) (t n q : Nat) :
    said (ColumnFormat.writeField t n q (ColumnFormat.strip x)) = fieldTold x := by
  obtain ⟨t0, t1, t2, t3, t4, rfl, h0, h1, h2, h3, h4, h5⟩ := h
  obtain ⟨e1, e2, e3, e4, _⟩ := ColumnFormat.strip_parts x
  have s1 := strip_said x
  unfold ColumnFormat.writeField
  rw [e1, e2, e3, e4]
  have fin : ∀ z : Str, said (x.equalsTag ++ z) = said x.equalsTag ++ said x.lineEnd →
      said (x.ctx ++ x.typeName ++ ColumnFormat.spaces (t - x.typeName.length + ColumnFormat.gap x.typeName) ++
        x.fieldName ++ ColumnFormat.spaces (n - x.fieldName.length + ColumnFormat.gap x.fieldName) ++ x.equalsTag ++ z) =
        fieldTold x := by
    intro z hz
    simp only [List.append_assoc]
    rw [said_idle (by rw [h0]), said_spaces h1.2 (gap_pos _), said_spaces h2.2 (gap_pos _), hz]
    rfl
  split
  · rename_i r hr
    rw [hr] at s1 ⊢
    refine fin _ ?_
    rw [said_hard h3.2 (by decide), s1]
  · refine fin _ ?_
    rw [said_spaces h3.2 (gap_pos _), s1]

theorem said_fields {xs : List Field} (h : ∀ x ∈ xs, ∃ ts, FieldLexes x ts) (t n q : Nat) :
    said ((xs.map ColumnFormat.strip).flatMap (ColumnFormat.writeField t n q)) = xs.flatMap fieldTold := by
  induction xs with
  | nil => rfl
  | cons x xs ih =>
    obtain ⟨ts, hx⟩ := h x List.mem_cons_self
    rw [List.map_cons, List.flatMap_cons, List.flatMap_cons, said_idle (by rw [(lex_writeField hx t n q).1]),
      said_writeField hx, ih (fun y hy => h y (List.mem_cons_of_mem _ hy))]

theorem forall2_of_mem (xs : List Field) (h : ∀ x ∈ xs, ∃ ts, FieldLexes x ts) : ∃ nss, List.Forall₂ FieldLexes xs nss := by
  induction xs with
  | nil => exact ⟨[], .nil⟩
  | cons x xs ih =>
    obtain ⟨ts, hx⟩ := h x List.mem_cons_self
    obtain ⟨nss, hr⟩ := ih (fun y hy => h y (List.mem_cons_of_mem _ hy))
    exact ⟨ts :: nss, .cons hx hr⟩

theorem said_blocks (bs : List (List Field)) (h : ∀ x ∈ bs.flatten, ∃ ts, FieldLexes x ts) :
    said (bs.flatMap ColumnFormat.writeBlock) = bs.flatten.flatMap fieldTold := by
  induction bs with
  | nil => rfl
  | cons x bs ih =>
    have h1 : ∀ y ∈ x, ∃ ts, FieldLexes y ts := fun y hy => h y (by rw [List.flatten_cons]; exact List.mem_append_left _ hy)
    have h2 : ∀ y ∈ bs.flatten, ∃ ts, FieldLexes y ts :=
      fun y hy => h y (by rw [List.flatten_cons]; exact List.mem_append_right _ hy)
    obtain ⟨nss, hn⟩ := forall2_of_mem x h1
    have e1 : lexFrom .idle (ColumnFormat.writeBlock x) = (nss.flatten, .idle) := lex_fields hn _ _ _
    have e2 : said (ColumnFormat.writeBlock x) = x.flatMap fieldTold := said_fields h1 _ _ _
    rw [List.flatMap_cons, List.flatten_cons, List.flatMap_append, said_idle (by rw [e1]), e2, ih h2]

/-- The cells of an element. -/
def CellsKeep (b : Bool) (w : F → F × Field) (cs : List (List Str)) : Prop :=
  ∀ c, Fine b c .idle → Fine b (w c).1 .idle ∧ (w c).1.w.out = [] ∧ (w c).1.w.last = '\n' ∧ (∃ ts, FieldLexes (w c).2 ts) ∧
    fieldTold (w c).2 = said c.w.out ++ cs

/-- An element of a container. -/
def WriterKeep (b : Bool) (e : Elem) (w : Writer) (cs : List (List Str)) : Prop :=
  match w with
  | .node w => e.kind = none ∧ Keeps b w .idle cs .idle
  | .whole w => e.kind ≠ none ∧ e.incomplete = true ∧ Keeps b w .idle cs .idle ∧ ∃ ts, ts ≠ [] ∧ Emits b w .idle ts .idle
  | .cells outer w => e.kind ≠ none ∧ Keeps b outer .idle [] .idle ∧ CellsKeep b w cs

/-- All elements in cells. -/
theorem groupLoop_keeps (ws : List Writer) : ∀ (tss : List (List (List Str))) (f c : F) (fs : List Field),
    List.Forall₂ (fun w ts => ∃ outer u, w = Writer.cells outer u ∧ Keeps b outer .idle [] .idle ∧ CellsKeep b u ts) ws tss →
    ws ≠ [] → Fine b f .idle → Fine b c .idle →
    ∃ f' c' new, groupLoop ws f c fs = (f', c', fs ++ new) ∧ Fine b f' .idle ∧ said f'.w.out = said f.w.out ∧ Fine b c' .idle ∧
      c'.w.out = [] ∧ c'.w.last = '\n' ∧ new ≠ [] ∧ (∀ x ∈ new, ∃ ts, FieldLexes x ts) ∧
      new.flatMap fieldTold = said c.w.out ++ tss.flatten := by
  induction ws with
  | nil => intro tss f c fs _ h; exact absurd rfl h
  | cons w ws ih =>
    intro tss f c fs h _ hf hc
    cases h with
    | cons hw hr =>
      rename_i ts tss
      obtain ⟨outer, u, rfl, ho, hu⟩ := hw
      obtain ⟨c1, c2, c3, c4, c5⟩ := hu c hc
      obtain ⟨hf', hf2⟩ := ho f hf
      rw [List.append_nil] at hf2
      by_cases hws : ws = []
      · subst hws
        cases hr
        exact ⟨outer f, (u c).1, [(u c).2], rfl, hf', hf2, c1, c2, c3, by simp, by simpa using c4, by simp [c5]⟩
      · obtain ⟨f', c', new, e, g1, g2, g3, g4, g5, _, g6, g7⟩ := ih tss (outer f) (u c).1 (fs ++ [(u c).2]) hr hws hf' c1
        refine ⟨f', c', (u c).2 :: new, ?_, g1, by rw [g2, hf2], g3, g4, g5, by simp, ?_, ?_⟩
        · show groupLoop ws (outer f) (u c).1 (fs ++ [(u c).2]) = _
          rw [e]; simp
        · intro x hx
          rcases List.mem_cons.1 hx with rfl | hx
          · exact c4
          · exact g6 x hx
        · rw [List.flatMap_cons, c5, g7, c2, said_nil]; simp

theorem said_merge {f c : F} (hf : Fine b f .idle) (text : Str) : said (merge f c text).w.out = said f.w.out ++ said text := by
  obtain ⟨ts, hf⟩ := hf
  show said (f.w.out ++ text) = _
  exact said_idle hf.mode

theorem fine_save {f : F} {k : K} (h : Fine b f k) : Fine b (save f) .idle := by
  obtain ⟨ts, h⟩ := h; exact ⟨[], good_save h⟩

/-- The text of a group. -/
theorem fine_cells {f' c' : F} {new : List Field} (h1 : Fine b f' .idle) (h2 : Fine b c' .idle) (h3 : c'.w.out = [])
    (h4 : c'.w.last = '\n') (hne : new ≠ []) (h5 : ∀ x ∈ new, ∃ ts, FieldLexes x ts) :
    Fine b (merge f' c' (c'.w.out ++ (ColumnFormat.blocks cfg.far new).flatMap ColumnFormat.writeBlock)) .idle ∧
    said (merge f' c' (c'.w.out ++ (ColumnFormat.blocks cfg.far new).flatMap ColumnFormat.writeBlock)).w.out =
      said f'.w.out ++ new.flatMap fieldTold := by
  have hb := (ColumnFormat.C48_blocks cfg.far new).1
  obtain ⟨nss, h5'⟩ := forall2_of_mem new h5
  refine ⟨?_, ?_⟩
  · obtain ⟨tf, h1⟩ := h1
    obtain ⟨tc, h2⟩ := h2
    have : Good b c' [] .idle := by
      have e := h2.lexed
      rw [h3] at e
      have e : ([] : List Str) = tc := e
      rw [e]; exact h2
    exact ⟨_, good_cells h1 this h3 h4 hne h5' rfl⟩
  · rw [said_merge h1, h3, List.nil_append, said_blocks _ (by rw [hb]; exact h5), hb]

/-- A group without nodes of other kinds. -/
theorem keeps_writeGroup (ws : List Writer) (tss : List (List (List Str))) (es : List Elem)
    (h : List.Forall₂ (fun (p : Elem × Writer) ts => WriterKeep b p.1 p.2 ts) (es.zip ws) tss) (hlen : es.length = ws.length)
    (hnone : (∃ e ∈ es, e.kind = none) → es.length = 1) (hinc : ∀ e ∈ es.tail, e.incomplete = false) (hne : es ≠ []) :
    Keeps b (writeGroup cfg ws) .idle tss.flatten .idle := by
  cases es with
  | nil => exact absurd rfl hne
  | cons e es =>
    cases ws with
    | nil => cases hlen
    | cons w ws =>
      rw [List.zip_cons_cons] at h
      cases h with
      | cons hw hr =>
        rename_i ts tss
        have hlen' : es.length = ws.length := by simpa using hlen
        -- the other elements are in cells
        have hrest : (∃ x ∈ e :: es, x.kind = none) ∨
            List.Forall₂ (fun w ts => ∃ outer u, w = Writer.cells outer u ∧ Keeps b outer .idle [] .idle ∧ CellsKeep b u ts) ws tss := by
          clear hw hne hlen
          by_cases hk : ∃ x ∈ e :: es, x.kind = none
          · exact .inl hk
          · right
            have hk' : ∀ x ∈ es, x.kind ≠ none := fun x hx e0 => hk ⟨x, List.mem_cons_of_mem _ hx, e0⟩
            have hinc' : ∀ x ∈ es, x.incomplete = false := hinc
            clear hk hinc hnone
            induction es generalizing ws tss with
            | nil =>
              cases ws with
              | nil => cases hr; exact .nil
              | cons _ _ => cases hlen'
            | cons x es ih =>
              cases ws with
              | nil => cases hlen'
              | cons w ws =>
                rw [List.zip_cons_cons] at hr
                cases hr with
                | cons hw hr =>
                  refine .cons ?_ (ih (ws := ws) (hr := hr) (hlen' := by simpa using hlen')
                    (hk' := fun y hy => hk' y (List.mem_cons_of_mem _ hy))
                    (hinc' := fun y hy => hinc' y (List.mem_cons_of_mem _ hy)))
                  cases w with
                  | node w => exact absurd hw.1 (hk' x List.mem_cons_self)
                  | whole w => exact absurd hw.2.1 (by rw [hinc' x List.mem_cons_self]; simp)
                  | cells outer u => exact ⟨outer, u, rfl, hw.2.1, hw.2.2⟩
        have hnode : e.kind ≠ none →
            List.Forall₂ (fun w ts => ∃ outer u, w = Writer.cells outer u ∧ Keeps b outer .idle [] .idle ∧ CellsKeep b u ts) ws tss := by
          intro hk0
          refine hrest.resolve_left ?_
          rintro ⟨x, hx, hk⟩
          have h1 := hnone ⟨x, hx, hk⟩
          have hes : es = [] := by simpa using h1
          subst hes
          simp only [List.mem_singleton] at hx
          subst hx
          exact hk0 hk
        cases w with
        | node w =>
          have h1 := hnone ⟨e, List.mem_cons_self, hw.1⟩
          have hes : es = [] := by simpa using h1
          subst hes
          have : ws = [] := by simpa using hlen'.symm
          subst this
          cases hr
          have := hw.2
          rw [List.flatten_cons, List.flatten_nil, List.append_nil]
          exact this
        | whole w =>
          obtain ⟨hk0, _, hw, tks, hts, hem⟩ := hw
          have hcells := hnode hk0
          intro f hf
          have hg : writeGroup cfg (Writer.whole w :: ws) f = (fun r : F × F × List Field => merge r.1 r.2.1 (r.2.1.w.out ++
            (ColumnFormat.blocks cfg.far r.2.2).flatMap ColumnFormat.writeBlock)) (groupLoop ws f (w (save f)) []) := by
            unfold writeGroup
            cases ws <;> rfl
          rw [hg, List.flatten_cons]
          obtain ⟨hc, hcs⟩ := hw _ (fine_save hf)
          have hcs : said (w (save f)).w.out = ts := hcs
          by_cases hws : ws = []
          · subst hws
            cases hcells
            obtain ⟨tf, hf0⟩ := hf
            have hc := hem _ _ (good_save hf0)
            rw [List.nil_append] at hc
            have hout : (w (save f)).w.out ≠ [] := by
              intro e0
              have := hc.lexed
              rw [e0] at this
              exact hts this.symm
            have e1 : (fun r : F × F × List Field => merge r.1 r.2.1 (r.2.1.w.out ++
                (ColumnFormat.blocks cfg.far r.2.2).flatMap ColumnFormat.writeBlock)) (groupLoop [] f (w (save f)) []) =
                merge f (w (save f)) (w (save f)).w.out := by
              show merge f (w (save f)) ((w (save f)).w.out ++ []) = _
              rw [List.append_nil]
            rw [e1, List.flatten_nil, List.append_nil]
            refine ⟨⟨_, good_merge (ts := tks) hf0 hc.ok hc.flag ?_ (hc.last.resolve_left hout)⟩, by rw [said_merge ⟨tf, hf0⟩, hcs]⟩
            · have h1 := hc.lexed
              have h2 := hc.mode
              rw [h2] at h1
              simp only [done, List.append_nil] at h1
              exact Prod.ext h1 h2
          · obtain ⟨f', c', new, e, g1, g2, g3, g4, g5, g6, g7, g8⟩ := groupLoop_keeps ws tss f (w (save f)) [] hcells hws hf hc
            rw [e]
            obtain ⟨q1, q2⟩ := fine_cells (cfg := cfg) g1 g3 g4 g5 g6 g7
            exact ⟨q1, by simp only [List.nil_append]; rw [q2, g2, g8, hcs]⟩
        | cells outer u =>
          obtain ⟨hk0, ho, hu⟩ := hw
          have hcells := hnode hk0
          intro f hf
          obtain ⟨f', c', new, e, g1, g2, g3, g4, g5, g6, g7, g8⟩ := groupLoop_keeps (Writer.cells outer u :: ws) (ts :: tss) f (save f) []
            (.cons ⟨outer, u, rfl, ho, hu⟩ hcells) (by simp) hf (fine_save hf)
          have hg : writeGroup cfg (Writer.cells outer u :: ws) f = (fun r : F × F × List Field => merge r.1 r.2.1 (r.2.1.w.out ++
            (ColumnFormat.blocks cfg.far r.2.2).flatMap ColumnFormat.writeBlock)) (groupLoop (Writer.cells outer u :: ws) f (save f) []) := by
            unfold writeGroup
            cases ws <;> rfl
          rw [hg, e]
          obtain ⟨q1, q2⟩ := fine_cells (cfg := cfg) g1 g3 g4 g5 g6 g7
          have e0 : said (save f).w.out = [] := rfl
          exact ⟨q1, by simp only [List.nil_append]; rw [q2, g2, g8, e0, List.nil_append]⟩

/-! ### All groups -/

theorem keeps_foldl {α : Type} (step : F → α → F) (cs : α → List (List Str)) (as : List α)
    (h : ∀ a ∈ as, Keeps b (fun f => step f a) .idle (cs a) .idle) :
    Keeps b (fun f => as.foldl step f) .idle (as.flatMap cs) .idle := by
  induction as with
  | nil => exact Keeps.id _
  | cons a as ih =>
    rw [List.flatMap_cons]
    exact (h a List.mem_cons_self).comp (ih (fun x hx => h x (List.mem_cons_of_mem _ hx)))

theorem pick_keep (es : List (Elem × Writer)) (tss : List (List (List Str))) (g : List Elem)
    (h : ∀ e ∈ g, ∃ w, (es[e.node]?).map Prod.snd = some w ∧ WriterKeep b e w ((tss[e.node]?).getD [])) :
    g.length = (pick es g).length ∧
    List.Forall₂ (fun (p : Elem × Writer) ts => WriterKeep b p.1 p.2 ts) (g.zip (pick es g)) (g.map fun e => (tss[e.node]?).getD []) := by
  induction g with
  | nil => exact ⟨rfl, .nil⟩
  | cons e g ih =>
    obtain ⟨w, h1, h2⟩ := h e List.mem_cons_self
    have hp : pick es (e :: g) = w :: pick es g := by
      unfold pick
      rw [List.filterMap_cons, h1]
    obtain ⟨i1, i2⟩ := ih (fun x hx => h x (List.mem_cons_of_mem _ hx))
    rw [hp]
    exact ⟨by simp [i1], .cons h2 i2⟩

theorem writerKeep_node {e : Elem} {w : Writer} {ts : List (List Str)} (i : Nat) (h : WriterKeep b e w ts) :
    WriterKeep b { e with node := i } w ts := by
  cases w <;> exact h

theorem zip_keep (es : List (Elem × Writer)) (tss : List (List (List Str)))
    (h : List.Forall₂ (fun (p : Elem × Writer) ts => WriterKeep b p.1 p.2 ts) es tss) :
    ∀ (all : List (Elem × Writer)) (allT : List (List (List Str))) (k : Nat), (∀ i, all[k + i]? = es[i]?) → (∀ i, allT[k + i]? = tss[i]?) →
    (∀ e ∈ (es.zipIdx k).map (fun p => ({ p.1.1 with node := p.2 } : Elem)),
      ∃ w, (all[e.node]?).map Prod.snd = some w ∧ WriterKeep b e w ((allT[e.node]?).getD [])) ∧
    ((es.zipIdx k).map (fun p => ({ p.1.1 with node := p.2 } : Elem))).flatMap (fun e => (allT[e.node]?).getD []) = tss.flatten := by
  induction h with
  | nil => intro all allT k _ _; exact ⟨(by intro e he; cases he), rfl⟩
  | cons hp hr ih =>
    rename_i p ts es tss
    intro all allT k h1 h2
    have a0 : all[k]? = some p := by simpa using h1 0
    have t0 : allT[k]? = some ts := by simpa using h2 0
    obtain ⟨i1, i2⟩ := ih all allT (k + 1) (fun i => by rw [Nat.add_assoc, Nat.add_comm 1 i]; simpa using h1 (i + 1))
      (fun i => by rw [Nat.add_assoc, Nat.add_comm 1 i]; simpa using h2 (i + 1))
    rw [List.zipIdx_cons, List.map_cons]
    refine ⟨?_, ?_⟩
    · intro e he
      rcases List.mem_cons.1 he with rfl | he
      · refine ⟨p.2, by simp [a0], ?_⟩
        simp only [t0, Option.getD_some]
        exact writerKeep_node k hp
      · exact i1 e he
    · rw [List.flatMap_cons, i2, List.flatten_cons]
      simp [t0]

/-- The rule for columns. -/
theorem keeps_columns {es : List (Elem × Writer)} {tss : List (List (List Str))}
    (h : List.Forall₂ (fun (p : Elem × Writer) ts => WriterKeep b p.1 p.2 ts) es tss) :
    Keeps b (columns cfg es) .idle tss.flatten .idle := by
  obtain ⟨h1, h2⟩ := zip_keep es tss h es tss 0 (by simp) (by simp)
  have hg := ColumnFormat.C48_groups ((es.zipIdx 0).map (fun p => ({ p.1.1 with node := p.2 } : Elem)))
  have := keeps_foldl (b := b) (fun f g => writeGroup cfg (pick es g) f)
    (fun g => (g.map fun e => (tss[e.node]?).getD []).flatten)
    (ColumnFormat.groups ((es.zipIdx 0).map (fun p => ({ p.1.1 with node := p.2 } : Elem)))) ?_
  · refine (this.told ?_).fn (fun f => rfl)
    rw [← h2]
    conv => rhs; rw [← hg.1]
    generalize ColumnFormat.groups _ = gs
    clear this h1 h2 hg
    induction gs with
    | nil => rfl
    | cons g gs ih => rw [List.flatMap_cons, ih, List.flatten_cons, List.flatMap_append, List.flatMap_def (l := g)]
  · intro g hgm
    have hmem : ∀ e ∈ g, e ∈ (es.zipIdx 0).map (fun p => ({ p.1.1 with node := p.2 } : Elem)) := by
      intro e he
      rw [← hg.1]
      exact List.mem_flatten.2 ⟨g, hgm, he⟩
    obtain ⟨p1, p2⟩ := pick_keep es tss g (fun e he => h1 e (hmem e he))
    exact keeps_writeGroup (pick es g) _ g p2 p1 (ColumnFormat.C48_kinds _ g hgm).2 (ColumnFormat.C48_incomplete _ g hgm)
      (hg.2 g hgm)

end Verif.Formatter
