import Verif.Lemmas.CsvParse
import Verif.Lemmas.Exact
/-
What the grammar of the csv example can match.
-/
namespace Takenoco
open Spec Csv

/-! ### Characters -/

theorem next_form {s : Bytes} {ch : Char} {n : Nat} (h : NextChar s ch n) (hc : ch ≠ '�') : ∃ s', s = utf8 ch ++ s' ∧ n = (utf8 ch).length := by
  cases h with
  | char ch r => exact ⟨r, rfl, rfl⟩
  | bad => exact absurd rfl hc

theorem cellEnd_sound {ch : Char} (h : CellEnd ch) : ch ≠ '�' := by
  rw [cellEnd_mem] at h
  simp only [List.mem_cons, List.not_mem_nil, or_false] at h
  rcases h with rfl | rfl | rfl | rfl | rfl | rfl <;> decide

theorem blank_runs {s wa ra wb rb : Bytes} {S : Char → Prop} {a b : List Char} (h : CharRun S s wa a ra) (h' : CharRun S s wb b rb) : ra = rb := by
  induction h generalizing wb b with
  | stop h =>
    cases h' with
    | stop => rfl
    | next h1 h2 _ => exact absurd h2 (h _ _ h1)
  | next h1 h2 _ ih =>
    cases h' with
    | stop h => exact absurd h2 (h _ _ h1)
    | next h3 _ h5 =>
      obtain ⟨rfl, rfl⟩ := nextChar_unique h1 h3
      exact ih h5

theorem trimmed_exists (t : List Char) : ∃ v, TrimmedText t v := by
  have split : ∀ t : List Char, ∃ a u, t = a ++ u ∧ (∀ ch ∈ a, Blank ch) ∧ ∀ ch, u.head? = some ch → ¬ Blank ch := fun t => by
    refine ⟨t.takeWhile (fun ch => decide (Blank ch)), t.dropWhile (fun ch => decide (Blank ch)),
      (List.takeWhile_append_dropWhile ..).symm, fun ch hc => ?_, fun ch hc => ?_⟩
    · simpa using List.all_eq_true.1 List.all_takeWhile ch hc
    · have := List.head?_dropWhile_not (fun ch => decide (Blank ch)) t
      rw [hc] at this
      simpa using this
  obtain ⟨a, u, rfl, h1, h2⟩ := split t
  obtain ⟨b, v, h3, h4, h5⟩ := split u.reverse
  have hu : u = v.reverse ++ b.reverse := by rw [← List.reverse_append, ← h3, List.reverse_reverse]
  refine ⟨v.reverse, ⟨a, b.reverse, h1, by simpa using h4, by rw [hu]; simp⟩, fun ch hc => h2 ch ?_, fun ch hc => h5 ch ?_⟩
  · rw [hu, List.head?_append, hc]; rfl
  · simpa using hc

section
variable {env : Env} {n : Nat} {X : Bytes → Panic → Prop}

theorem charTerminal_stops {p : Sem} {cls : String} {S : Char → Prop} (h : CharTerminal p cls S) : StopsAt [den env (.prim p)] (NotNext S) :=
  .one fun c pre s hc hu ch n hn hS => by
    rw [den_prim, (h c hc.le).1 ch n (by rw [hc.drop]; exact hn) hS] at hu
    cases hu

theorem seqS_stops (v : Bytes) : StopsAt [den env (.prim (seqS v))] (fun s => ¬ v <+: s) := .one fun c pre s hc hu hp => by
  obtain ⟨r, rfl⟩ := hp
  obtain ⟨c', h1, _⟩ := seqS_hits (env := env) pre v r c hc
  rw [h1] at hu; cases hu

theorem endS_stops : StopsAt [den env (.prim endS)] (fun s => s ≠ []) := .one fun c pre s hc hu hs => by
  subst hs
  obtain ⟨c', h1, _⟩ := endS_hits (env := env) pre c hc
  rw [h1] at hu; cases hu

theorem errorP_stops (msg : String) : StopsAt [den env (.prim (errorP msg))] (fun _ => False) := .one fun c pre s hc hu => by
  rw [den_prim, errorP_eq] at hu; cases hu

/-- One character of a set. -/
def CharMatch (S : Char → Prop) : Match := fun w rest l => ∃ ch, S ch ∧ NextChar (w ++ rest) ch w.length ∧ Text (utf8 ch) l

theorem charMatch_ne {S : Char → Prop} {w rest : Bytes} {l : List Ast} (h : CharMatch S w rest l) : w ≠ [] := by
  obtain ⟨ch, _, h, _⟩ := h
  exact span_ne_nil (span_single h)

theorem repeated_chars {S : Char → Prop} {m : Nat} {w rest : Bytes} {l : List Ast} (h : Repeated (CharMatch S) m w rest l) :
    ∃ t, t.length = m ∧ Span rest w t ∧ (∀ ch ∈ t, S ch) ∧ Texts l (t.map utf8) := by
  induction h with
  | zero => exact ⟨[], rfl, .nil, by simp, .nil⟩
  | succ h _ ih =>
    obtain ⟨ch, h1, h2, h3⟩ := h
    obtain ⟨t, rfl, h4, h5, h6⟩ := ih
    refine ⟨ch :: t, rfl, .cons h2 h4, ?_, texts_append h3 h6⟩
    intro x hx
    rcases List.mem_cons.1 hx with rfl | hx
    · exact h1
    · exact h5 x hx

variable (hX : Grows X)
include hX

theorem csvSp_takes : Admits n X (fun w rest l => l = [] ∧ NotNext LineBlank rest ∧ ∃ b, Span rest w b ∧ ∀ ch ∈ b, LineBlank ch) (den env sp) :=
  (erased_takes (star_takes (gs := [.prim whitespaceNoLineBreak]) hX (charTerminal_stops C18_whitespaceNoLineBreak)
    (SeqTakes.single (charTerminal_takes C18_whitespaceNoLineBreak)) fun w rest l h => charMatch_ne h)).mono fun w rest l h => by
    obtain ⟨rfl, _, h1, m, h2⟩ := h
    obtain ⟨t, _, h3, h4, _⟩ := repeated_chars h2
    exact ⟨rfl, h1, t, h3, h4⟩

theorem csvSp_stops : StopsAt [den env sp] (fun _ => False) :=
  trans_stops (star_stops (gs := [.prim whitespaceNoLineBreak]) hX (fun _ => SeqTakes.single (charTerminal_takes C18_whitespaceNoLineBreak))
    fun _ _ _ h => charMatch_ne h)

omit hX in
theorem quote_takes : Admits n X (fun w _ l => w = utf8 '"' ∧ l = []) (den env (Gram.erased (.prim (seqS (b! "\""))))) :=
  (erased_takes (seqS_takes _)).mono fun w rest l ⟨h1, _, h2, _⟩ => ⟨by rw [h2, quote_utf8], h1⟩

omit hX in
theorem quote_stops : StopsAt [den env (Gram.erased (.prim (seqS (b! "\""))))] (NotNext (· = '"')) :=
  (trans_stops (seqS_stops _)).mono fun s h ch n hn hc => by
    subst hc
    obtain ⟨s', rfl, _⟩ := next_form hn (by decide)
    rw [quote_utf8] at h
    exact h (List.prefix_append _ _)

/-! ### Quoted cells -/

omit hX in
theorem quotedChar_takes : Admits n X (fun w rest l => w = utf8 '"' ++ utf8 '"' ∧ l = [] ∨ CharMatch (· ≠ '"') w rest l) (den env quotedChar) :=
  first_takes (gs := [Gram.erased (.prim (seqS (b! "\"\""))), .prim (charClassN [b! "\""])]) (by simp) fun g hg => by
    simp only [List.mem_cons, List.not_mem_nil, or_false] at hg
    rcases hg with rfl | rfl
    · exact (erased_takes (seqS_takes _)).mono fun w rest l ⟨h1, _, h2, _⟩ => .inl ⟨by rw [h2, pair_utf8], h1⟩
    · refine charClassN_takes.mono fun w rest l ⟨ch, h1, h2, h3⟩ => .inr ⟨ch, fun hc => ?_, h1, h3⟩
      subst hc
      obtain ⟨s', h4, _⟩ := next_form h1 (by decide)
      refine h2 (b! "\"") (by simp) ?_
      rw [h4, quote_utf8]
      exact List.prefix_append _ _

/-- A single quote, or nothing. -/
def BodyStop (s : Bytes) : Prop := s = [] ∨ ∃ s', s = utf8 '"' ++ s' ∧ NotNext (· = '"') s'

omit hX in
theorem quotedChar_stops : StopsAt [den env quotedChar] BodyStop := stopsAt_of fun pre s h => by
  have hs : s ≠ [] := fun e => h (.inl e)
  obtain ⟨ch, n, hn⟩ := nextChar_total hs
  by_cases hc : ch = '"'
  · subst hc
    obtain ⟨s', rfl, _⟩ := next_form hn (by decide)
    by_cases h' : NotNext (· = '"') s'
    · exact absurd (.inr ⟨s', rfl, h'⟩) h
    · obtain ⟨ch, m, h1, rfl⟩ : ∃ ch m, NextChar s' ch m ∧ ch = '"' := by
        apply Classical.byContradiction
        intro hn
        exact h' fun ch m h1 h2 => hn ⟨ch, m, h1, h2⟩
      obtain ⟨s'', rfl, _⟩ := next_form h1 (by decide)
      exact ⟨_, s'', _, by simp, pair_hits pre s''⟩
  · have hm := nextChar_le hn
    have e : (s.take n).length = n := by simp; omega
    exact ⟨s.take n, s.drop n, _, by simp, char_hits (by rw [e]; simpa using hn) hc pre⟩

omit hX in
theorem chars_body {m : Nat} {w rest : Bytes} {l : List Ast}
    (h : Repeated (fun w rest l => w = utf8 '"' ++ utf8 '"' ∧ l = [] ∨ CharMatch (· ≠ '"') w rest l) m w rest l) :
    ∃ t v, QuotedBody t v ∧ Span rest w t ∧ Texts l (v.map utf8) := by
  induction h with
  | zero => exact ⟨[], [], .nil, .nil, .nil⟩
  | succ h _ ih =>
    obtain ⟨t, v, h1, h2, h3⟩ := ih
    rcases h with ⟨rfl, rfl⟩ | ⟨ch, h4, h5, h6⟩
    · refine ⟨_, v, .pair h1, ?_, h3⟩
      rw [List.append_assoc]
      exact .cons (.char _ _) (.cons (.char _ _) h2)
    · exact ⟨_, _, .char h4 h1, .cons h5 h2, texts_append h6 h3⟩

theorem body_takes : Admits n X (fun w rest l => BodyStop rest ∧ ∃ t v, QuotedBody t v ∧ Span rest w t ∧ Texts l (v.map utf8)) (den env (Gram.star [quotedChar])) := by
  refine (star_takes (gs := [quotedChar]) hX quotedChar_stops (SeqTakes.single quotedChar_takes) fun w rest l h => ?_).mono
    fun w rest l ⟨h1, m, h2⟩ => ⟨h1, chars_body h2⟩
  rcases h with ⟨rfl, _⟩ | h
  · decide
  · exact charMatch_ne h

theorem body_stops : StopsAt [den env (Gram.star [quotedChar])] (fun _ => False) :=
  star_stops (gs := [quotedChar]) hX (fun n => SeqTakes.single quotedChar_takes) fun w rest l h => by
    rcases h with ⟨rfl, _⟩ | h
    · decide
    · exact charMatch_ne h

/-- The end of a quoted part. -/
def closing : Gram := .first [Gram.erased (.prim (seqS (b! "\""))), .flatGroup [.prim endS, .prim (errorP "Unexpected EOF")]]

theorem closing_takes : Admits n X (fun w _ l => w = utf8 '"' ∧ l = []) (den env closing) :=
  first_takes (by simp) fun g hg => by
    simp only [List.mem_cons, List.not_mem_nil, or_false] at hg
    rcases hg with rfl | rfl
    · exact quote_takes
    · refine (flat_takes (gs := [.prim endS, .prim (errorP "Unexpected EOF")])
        (SeqTakes.step hX endS_takes (SeqTakes.single (errorP_takes (Q := fun _ _ _ => False) _)))).mono fun w rest l h => ?_
      obtain ⟨_, _, _, _, _, _, _, h⟩ := h
      exact h.elim

omit hX in
theorem closing_stops : StopsAt [den env closing] (fun s => NotNext (· = '"') s ∧ s ≠ []) :=
  (first_two_stops quote_stops (flat_stops (gs := [.prim endS, .prim (errorP "Unexpected EOF")])
    (.cons endS_stops (fun n => endS_takes (X := fun _ _ => False)) (errorP_stops _)))).mono fun s ⟨h1, h2⟩ => ⟨h1, by
      rcases h2 with h2 | ⟨_, _, _, _, _, h2⟩
      · exact h2
      · exact h2.elim⟩

/-- A quoted part with blanks around it. -/
def ChunkMatch : Match := fun w rest l => ∃ a t v b, Span rest w (a ++ '"' :: t ++ '"' :: b) ∧ (∀ ch ∈ a, LineBlank ch) ∧ QuotedBody t v ∧
  (∀ ch ∈ b, LineBlank ch) ∧ (b = [] → NotNext (· = '"') rest) ∧ NotNext LineBlank rest ∧ Texts l (v.map utf8)

theorem chunk_takes : Admits n X ChunkMatch (den env quotedChunk) := by
  refine (flat_takes (gs := [sp, Gram.erased (.prim (seqS (b! "\""))), Gram.star [quotedChar], closing, sp])
    (SeqTakes.step hX (csvSp_takes hX) (SeqTakes.step hX quote_takes (SeqTakes.step hX (body_takes hX)
      (SeqTakes.step hX (closing_takes hX) (SeqTakes.single (csvSp_takes hX))))))).mono fun w rest l h => ?_
  obtain ⟨wa, _, _, _, rfl, rfl, ⟨rfl, _, a, ha, ha'⟩, _, _, _, _, rfl, rfl, ⟨rfl, rfl⟩, wt, _, lt, _, rfl, rfl, ⟨hE, t, v, ht, ht', hl⟩,
    _, wb, _, _, rfl, rfl, ⟨rfl, rfl⟩, rfl, hb, b, hb', hb''⟩ := h
  refine ⟨a, t, v, b, ?_, ha', ht, hb'', ?_, hb, by simpa using hl⟩
  · have h1 := span_append ht' (Span.cons (w₁ := utf8 '"') (.char _ _) hb')
    have h2 := span_append ha (Span.cons (w₁ := utf8 '"') (.char _ _) h1)
    simpa using h2
  · rintro rfl
    cases hb'
    rcases hE with hE | ⟨s', hE, h⟩
    · exact absurd hE (by simp [utf8])
    · simp only [List.append_nil] at hE
      rw [List.append_cancel_left hE]
      exact h

/-- Blanks, and then no quote. -/
def NoQuote (s : Bytes) : Prop := ∃ w rest b, s = w ++ rest ∧ Span rest w b ∧ (∀ ch ∈ b, LineBlank ch) ∧ NotNext LineBlank rest ∧ NotNext (· = '"') rest

theorem chunk_stops : StopsAt [den env quotedChunk] NoQuote := by
  refine flat_stops (gs := [sp, Gram.erased (.prim (seqS (b! "\""))), Gram.star [quotedChar], closing, sp]) ?_
  refine StopsAt.mono (.cons (csvSp_stops hX) (fun n => csvSp_takes hX) (.cons quote_stops (fun n => quote_takes (X := X))
    (.cons (body_stops hX) (fun n => body_takes hX) (.cons closing_stops (fun n => closing_takes hX) (csvSp_stops hX))))) fun s h => ?_
  rcases h with h | ⟨w, rest, l, rfl, ⟨_, h1, b, h2, h3⟩, h | ⟨_, _, _, _, _, h⟩⟩
  · exact h.elim
  · exact ⟨w, rest, b, rfl, h2, h3, h1, h⟩
  · rcases h with h | ⟨_, rest, _, _, ⟨h4, _⟩, ⟨h5, h6⟩ | ⟨_, _, _, _, _, h⟩⟩
    · exact h.elim
    · rcases h4 with h4 | ⟨s', rfl, _⟩
      · exact absurd h4 h6
      · exact absurd rfl (h5 '"' _ (.char _ _))
    · exact h.elim

omit hX in
theorem chunkMatch_ne {w rest : Bytes} {l : List Ast} (h : ChunkMatch w rest l) : w ≠ [] := by
  obtain ⟨a, t, v, b, h, _⟩ := h
  cases a <;> exact span_ne_nil h

omit hX in
theorem chunks_quoted {m : Nat} {w rest : Bytes} {l : List Ast} (h : Repeated ChunkMatch (m + 1) w rest l) :
    ∃ t v, Span rest w t ∧ QuotedCell t v ∧ Texts l (v.map utf8) ∧ (NotNext LineBlank (w ++ rest) → ∃ u, t = '"' :: u) := by
  induction m generalizing w l with
  | zero =>
    cases h with
    | succ h h' =>
      cases h'
      obtain ⟨a, t, v, b, h1, h2, h3, h4, h5, h6, h7⟩ := h
      refine ⟨_, v, by simpa using h1, .last h2 h3 h4, by simpa using h7, fun hn => ?_⟩
      cases a with
      | nil => exact ⟨t ++ '"' :: b, by simp⟩
      | cons ch a =>
        obtain ⟨k, hk⟩ := span_next h1
        exact absurd (h2 ch (by simp)) (hn ch k (by simpa using hk))
  | succ m ih =>
    cases h with
    | @succ _ w₁ w₂ _ l₁ l₂ h h' =>
      obtain ⟨a, t, v, b, h1, h2, h3, h4, h5, h6, h7⟩ := h
      obtain ⟨t', v', g1, g2, g3, g4⟩ := ih h'
      obtain ⟨u, rfl⟩ := g4 h6
      have hb : b ≠ [] := fun e => by
        obtain ⟨k, hk⟩ := span_next g1
        exact h5 e '"' k hk rfl
      refine ⟨(a ++ '"' :: t ++ '"' :: b) ++ '"' :: u, v ++ v', span_append h1 g1, ?_, by rw [List.map_append]; exact texts_append h7 g3, fun hn => ?_⟩
      · have := QuotedCell.more h2 h3 h4 hb g2
        simpa using this
      · cases a with
        | nil => exact ⟨t ++ '"' :: b ++ '"' :: u, by simp⟩
        | cons ch a =>
          obtain ⟨k, hk⟩ := span_next h1
          exact absurd (h2 ch (by simp)) (hn ch k (by simpa using hk))

theorem quotedCell_takes : Admits n X (fun w rest l => ∃ t v, Span rest w t ∧ QuotedCell t v ∧ CellAst v l) (den env quotedCell) := by
  refine trans_takes (by simp) (plus_takes (gs := [quotedChunk]) hX (chunk_stops hX) (SeqTakes.single (chunk_takes hX)) fun w rest l h => chunkMatch_ne h)
    fun c w rest l h => ?_
  obtain ⟨_, m, h⟩ := h
  obtain ⟨t, v, h1, h2, h3, _⟩ := chunks_quoted h
  simp only [List.map, denTr_fn, applyTrs, concat_texts h3]
  refine ⟨t, v, h1, h2, _, rfl, ?_⟩
  rw [flatten_utf8]; cases l <;> rfl

theorem quotedCell_stops : StopsAt [den env quotedCell] NoQuote :=
  trans_stops (plus_stops (gs := [quotedChunk]) hX (fun _ => SeqTakes.single (chunk_takes hX)) (fun _ _ _ h => chunkMatch_ne h) (chunk_stops hX))

/-! ### Cells, rows, tables -/

theorem cell_takes : Admits n X (fun w rest l => ∃ t v, Span rest w t ∧ (∀ ch ∈ t, ¬ CellEnd ch) ∧ TrimmedText t v ∧ CellAst v l) (den env cell) := by
  have h1 : Admits n X (CharMatch (¬ CellEnd ·)) (den env (.prim (charClassN cellBreakCharacters))) :=
    charClassN_takes.mono fun w rest l ⟨ch, h1, h2, h3⟩ => ⟨ch, fun hc => by
      obtain ⟨s', h4, _⟩ := next_form h1 (cellEnd_sound hc)
      refine h2 (utf8 ch) ?_ (by rw [h4]; exact List.prefix_append _ _)
      rw [cellBreaks_utf8]
      exact List.mem_map_of_mem (cellEnd_mem.1 hc), h1, h3⟩
  refine trans_takes (by simp) (star_takes (gs := [.prim (charClassN cellBreakCharacters)]) hX stopsAt_any (SeqTakes.single h1) fun w rest l h => charMatch_ne h)
    fun c w rest l h => ?_
  obtain ⟨_, m, h⟩ := h
  obtain ⟨t, _, h2, h3, h4⟩ := repeated_chars h
  obtain ⟨v, hv⟩ := trimmed_exists t
  have hs : (summary l .string (.str (t.map utf8).flatten)).val = .str (t.map utf8).flatten := by cases l <;> rfl
  simp only [List.map, denTr_fn, applyTrs, trim, afterConcat, concat_texts h4, hs, asStr]
  refine ⟨t, v, h2, h3, hv, _, rfl, ?_⟩
  rw [flatten_utf8, trimBoth_text hv]

/-- A cell. -/
def CellMatch : Match := fun w rest l => ∃ t v, Span rest w t ∧ CellText t v ∧ CellAst v l

theorem anyCell_takes : Admits n X CellMatch (den env (.first [quotedCell, cell])) :=
  (first_two_takes (quotedCell_takes hX) (quotedCell_stops hX) (cell_takes hX)).mono fun w rest l h => by
    rcases h with ⟨t, v, h1, h2, h3⟩ | ⟨⟨w', rest', b, h1, h2, h3, h4, h5⟩, t, v, g1, g2, g3, g4⟩
    · exact ⟨t, v, h1, .quoted h2, h3⟩
    · refine ⟨t, v, g1, .plain g2 (fun a u ha he => ?_) g3, g4⟩
      subst he
      obtain ⟨w₁, w₂, rfl, i1, i2⟩ := span_split g1
      obtain ⟨w₃, rfl, i3⟩ := span_char i2 (by decide)
      have r1 := span_run h2 h3 h4
      have r2 := span_run i1 ha (by rw [List.append_assoc]; exact notNext_char (by decide))
      rw [← h1] at r1
      rw [← List.append_assoc] at r2
      have := blank_runs r1 r2
      rw [this, List.append_assoc] at h5
      exact h5 '"' _ (.char _ _) rfl

omit hX in
theorem comma_takes : Admits n X (fun w _ l => w = utf8 ',' ∧ l = []) (den env (Gram.erased (.prim (seqS (b! ","))))) :=
  (erased_takes (seqS_takes _)).mono fun w rest l ⟨h1, _, h2, _⟩ => ⟨by rw [h2, comma_utf8], h1⟩

/-- A row. -/
def RowMatch : Match := fun w rest l => ∃ t r, Span rest w t ∧ RowText t r ∧ RowAst r l

omit hX in
theorem cells_row {m : Nat} {w₁ w₂ rest : Bytes} {l₁ l₂ : List Ast} {s : Bytes} (hs : s = w₂ ++ rest)
    (h : Repeated (Then CellMatch fun w _ l => w = utf8 ',' ∧ l = []) m w₁ s l₁) (h' : CellMatch w₂ rest l₂) :
    ∃ t r, Span rest (w₁ ++ w₂) t ∧ RowText t r ∧ Strings (l₁ ++ l₂) (r.map utf8s) := by
  induction h with
  | zero =>
    obtain ⟨t, v, h1, h2, a, rfl, h3⟩ := h'
    exact ⟨t, [v], h1, .last h2, .cons h3 .nil⟩
  | succ h _ ih =>
    obtain ⟨t, r, h1, h2, h3⟩ := ih hs
    subst hs
    obtain ⟨w, _, l, _, rfl, rfl, ⟨t', v, g1, g2, a, rfl, g3⟩, rfl, rfl⟩ := h
    refine ⟨t' ++ ',' :: t, v :: r, ?_, .more g2 h2, .cons g3 h3⟩
    have := span_append (w₁ := w) (by simpa using g1) (Span.cons (w₁ := utf8 ',') (.char _ _) h1)
    simpa using this

theorem line_takes : Admits n X RowMatch (den env line) := by
  refine trans_takes (by simp) (flat_takes (gs := [Gram.star [.first [quotedCell, cell], Gram.erased (.prim (seqS (b! ",")))], .first [quotedCell, cell]])
    (SeqTakes.step hX (star_takes (gs := [.first [quotedCell, cell], Gram.erased (.prim (seqS (b! ",")))]) hX stopsAt_any
      (SeqTakes.step hX (anyCell_takes hX) (SeqTakes.single (comma_takes))) fun w rest l h => ?_) (SeqTakes.single (anyCell_takes hX)))) fun c w rest l h => ?_
  · obtain ⟨_, _, _, _, rfl, _, _, rfl, _⟩ := h
    simp [utf8]
  · obtain ⟨w₁, w₂, l₁, l₂, rfl, rfl, ⟨_, m, h1⟩, h2⟩ := h
    obtain ⟨t, r, h3, h4, h5⟩ := cells_row rfl h1 h2
    simp only [List.map, denTr_fn, applyTrs, lineTransform, cellValues_of h5]
    exact ⟨t, r, h3, h4, _, rfl, rfl⟩

/-- Line breaks. -/
def BreaksMatch : Match := fun w rest l => l = [] ∧ NotNext LineEnd rest ∧ ∃ bs, bs ≠ [] ∧ Span rest w bs ∧ ∀ ch ∈ bs, LineEnd ch

theorem breaks_takes : Admits n X BreaksMatch (den env (Gram.erased (Gram.plus [.prim lineBreak]))) :=
  (erased_takes (plus_takes (gs := [.prim lineBreak]) hX (charTerminal_stops C18_lineBreak) (SeqTakes.single (charTerminal_takes C18_lineBreak))
    fun w rest l h => charMatch_ne h)).mono fun w rest l h => by
    obtain ⟨rfl, _, h1, m, h2⟩ := h
    obtain ⟨t, ht, h3, h4, _⟩ := repeated_chars h2
    exact ⟨rfl, h1, t, (fun e => by rw [e] at ht; cases ht), h3, h4⟩

omit hX in
theorem rows_table {m : Nat} {w₁ w₂ : Bytes} {l₁ l₂ : List Ast}
    (h : Repeated (Then RowMatch BreaksMatch) m w₁ w₂ l₁) (h' : RowMatch w₂ [] l₂) :
    ∃ t rows, Span [] (w₁ ++ w₂) t ∧ TableText t rows ∧ RowsAst rows (l₁ ++ l₂) := by
  induction h with
  | zero =>
    obtain ⟨t, r, h1, h2, a, rfl, h3⟩ := h'
    exact ⟨t, [r], h1, .last h2, .cons h3 .nil⟩
  | succ h _ ih =>
    obtain ⟨t, rows, h1, h2, h3⟩ := ih h'
    obtain ⟨w, w', l, _, rfl, rfl, ⟨t', r, g1, g2, a, rfl, g3⟩, rfl, g4, bs, g5, g6, g7⟩ := h
    refine ⟨t' ++ bs ++ t, r :: rows, ?_, .more g2 g5 g7 (fun ch hc => ?_) h2, .cons g3 h3⟩
    · have h4 := span_append (w₁ := w') (by simpa using g6) h1
      have h5 := span_append (w₁ := w) (by simpa using g1) h4
      simpa using h5
    · cases t with
      | nil => cases hc
      | cons x t =>
        cases hc
        obtain ⟨k, hk⟩ := span_next h1
        exact g4 ch k (by simpa using hk)

theorem document_takes : Admits n X (fun w rest l => rest = [] ∧ ∃ t rows a, Reads w t ∧ TableText t rows ∧ l = [a] ∧
    a.val = .strss (dropTrailingBlank (utf8Table rows))) (den env document) := by
  refine trans_takes (by simp) (flat_takes (gs := [Gram.star [line, Gram.erased (Gram.plus [.prim lineBreak])], line, .prim endS])
    (SeqTakes.step hX (star_takes (gs := [line, Gram.erased (Gram.plus [.prim lineBreak])]) hX stopsAt_any
      (SeqTakes.step hX (line_takes hX) (SeqTakes.single (breaks_takes hX))) fun w rest l h => ?_)
      (SeqTakes.step hX (line_takes hX) (SeqTakes.single endS_takes)))) fun c w rest l h => ?_
  · obtain ⟨w₁, w₂, _, _, rfl, _, _, _, _, bs, h1, h2, _⟩ := h
    cases bs with
    | nil => exact absurd rfl h1
    | cons b bs => simp [span_ne_nil h2]
  · obtain ⟨w₁, _, l₁, _, rfl, rfl, ⟨_, m, h1⟩, w₂, _, l₂, _, rfl, rfl, h2, rfl, rfl, rfl⟩ := h
    simp only [List.append_nil] at h1 h2
    obtain ⟨t, rows, h3, h4, h5⟩ := rows_table h1 h2
    simp only [List.append_nil, List.map, denTr_fn, applyTrs, documentTransform, lineValues_rows h5]
    exact ⟨trivial, t, rows, _, span_reads.1 h3, h4, rfl, rfl⟩

end
end Takenoco
