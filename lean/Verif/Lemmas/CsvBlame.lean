import Verif.Lemmas.Blame
import Verif.Lemmas.CsvExact
import Verif.Lemmas.FormulaBlame
import Verif.Props.Local
import Verif.Spec.CsvErrors
/-
Where the csv example reports errors, and what it has read when it just does not match.
-/
namespace Takenoco
open Spec Csv

/-! ### A quote behind the text -/

theorem next_snoc {s : Bytes} {ch : Char} {k : Nat} (h : NextChar s ch k) : NextChar (s ++ [0x22]) ch k := by
  cases h with
  | char ch r => rw [List.append_assoc]; exact .char ch _
  | bad h1 h2 =>
    refine .bad (by simp) fun ch r he => ?_
    rcases List.eq_nil_or_concat r with rfl | ⟨r', x, rfl⟩
    · obtain ⟨b, bs, h3, _, h4⟩ := utf8_shape ch
      rw [List.append_nil, h3] at he
      cases s with
      | nil => exact h1 rfl
      | cons a s =>
        simp only [List.cons_append, List.cons.injEq] at he
        have := h4 0x22 (by rw [← he.2]; simp)
        revert this; decide
    · rw [List.concat_eq_append, ← List.append_assoc] at he
      exact h2 ch r' (List.append_inj_left' he rfl)

theorem notNext_snoc {S : Char → Prop} {s : Bytes} (hs : s ≠ []) (h : NotNext S s) : NotNext S (s ++ [0x22]) := fun ch n hn => by
  obtain ⟨ch', n', h'⟩ := nextChar_total hs
  obtain ⟨rfl, _⟩ := nextChar_unique hn (next_snoc h')
  exact h ch n' h'

theorem span_snoc {rest w : Bytes} {t : List Char} (h : Span rest w t) : Span (rest ++ [0x22]) w t := by
  induction h with
  | nil => exact .nil
  | cons h1 _ ih => exact .cons (by simpa using next_snoc h1) ih

theorem repeated_snoc {Q : Match} {m : Nat} {w rest : Bytes} {l : List Ast} (hr : rest ≠ [])
    (hQ : ∀ w rest l, rest ≠ [] → Q w rest l → Q w (rest ++ [0x22]) l) (h : Repeated Q m w rest l) : Repeated Q m w (rest ++ [0x22]) l := by
  induction h with
  | zero => exact .zero
  | succ h _ ih =>
    have := hQ _ _ _ (by simp [hr]) h
    exact .succ (by simpa using this) (ih hr)

theorem chunkMatch_snoc {w rest : Bytes} {l : List Ast} (hr : rest ≠ []) (h : ChunkMatch w rest l) : ChunkMatch w (rest ++ [0x22]) l := by
  obtain ⟨a, t, v, b, h1, h2, h3, h4, h5, h6, h7⟩ := h
  exact ⟨a, t, v, b, span_snoc h1, h2, h3, h4, fun hb => notNext_snoc hr (h5 hb), notNext_snoc hr h6, h7⟩

theorem cellMatch_snoc {w rest : Bytes} {l : List Ast} (h : CellMatch w rest l) : CellMatch w (rest ++ [0x22]) l :=
  let ⟨t, v, h1, h2, h3⟩ := h
  ⟨t, v, span_snoc h1, h2, h3⟩

theorem rowMatch_snoc {w rest : Bytes} {l : List Ast} (h : RowMatch w rest l) : RowMatch w (rest ++ [0x22]) l :=
  let ⟨t, v, h1, h2, h3⟩ := h
  ⟨t, v, span_snoc h1, h2, h3⟩

theorem breaksMatch_snoc {w rest : Bytes} {l : List Ast} (hr : rest ≠ []) (h : BreaksMatch w rest l) : BreaksMatch w (rest ++ [0x22]) l :=
  let ⟨h1, h2, bs, h3, h4, h5⟩ := h
  ⟨h1, notNext_snoc hr h2, bs, h3, span_snoc h4, h5⟩

/-- The text ends inside a quoted part: with one more quote it is a match. -/
def CutOff (Q : Match) : Blame := fun u v e => v = [] ∧ u ≠ [] ∧ e = some (.msg "Unexpected EOF") ∧ ∃ l, Q (u ++ [0x22]) [] l

theorem utf8_quote : utf8 '"' = [0x22] := by cbv

section
variable {env : Env} {n : Nat} {X : Bytes → Panic → Prop} {u v : Bytes} {e : Option Err}

theorem charClassN_blames {cc : List Bytes} : Blames n NoBlame (den env (.prim (charClassN cc))) := blames_of_eq fun c pre s hc o e ho => by
  by_cases h : s = [] ∨ ∃ x ∈ cc, x <+: s
  · rw [charClassN_misses h c hc] at ho; cases ho
  · have hne : s ≠ [] := fun e => h (.inl e)
    obtain ⟨ch, m, hch⟩ := nextChar_total hne
    have hm := nextChar_width hch
    have e : m = (s.take m).length := by simp; omega
    have hs' : s = s.take m ++ s.drop m := by simp
    have hno : ∀ x ∈ cc, ¬ x <+: s.take m ++ s.drop m := fun x hx hp => h (.inr ⟨x, hx, by rwa [← hs'] at hp⟩)
    have := charClassN_hits (env := env) (cc := cc) (pre := pre) (w := s.take m) (rest := s.drop m) (ch := ch) (by rw [← e, ← hs']; exact hch)
      hno c (by rw [← hs']; exact hc)
    obtain ⟨c', h1, _⟩ := this
    rw [h1] at ho; cases ho

theorem seqS_blames {x : Bytes} : Blames n NoBlame (den env (.prim (seqS x))) := blames_of_eq fun c pre s hc o e ho => by
  rw [den_prim, seqS_eq] at ho
  split at ho <;> cases ho

theorem quote_blames : Blames n NoBlame (den env (Gram.erased (.prim (seqS (b! "\""))))) := erased_blames (X := fun _ _ => False) (seqS_takes _) seqS_blames

theorem closing_blames : Blames n (fun u v e => u = [] ∧ v = [] ∧ e = some (.msg "Unexpected EOF")) (den env closing) := by
  refine first_blames fun g hg => ?_
  simp only [List.mem_cons, List.not_mem_nil, or_false] at hg
  rcases hg with rfl | rfl
  · exact quote_blames.mono fun _ _ _ h => h.elim
  · refine (flat_blames (gs := [.prim endS, .prim (errorP "Unexpected EOF")])
      (SeqBlames.step (X := fun _ _ => False) endS_takes endS_blames (SeqBlames.single (errorP_blames _)))).mono fun u v e h => ?_
    rcases h with h | ⟨w, u', l, rfl, ⟨rfl, h1, _⟩, rfl, rfl⟩
    · exact h.elim
    · exact ⟨rfl, by simpa using h1, rfl⟩

variable (hX : Grows X)
include hX

theorem csvSp_blames : Blames n NoBlame (den env sp) :=
  erased_blames (star_takes (gs := [.prim whitespaceNoLineBreak]) hX (charTerminal_stops C18_whitespaceNoLineBreak)
      (SeqTakes.single (charTerminal_takes C18_whitespaceNoLineBreak)) fun w rest l h => charMatch_ne h)
    ((star_blames (gs := [.prim whitespaceNoLineBreak]) hX (SeqTakes.single (charTerminal_takes C18_whitespaceNoLineBreak)) (fun w rest l h => charMatch_ne h)
      (SeqBlames.single (charTerminal_blames C18_whitespaceNoLineBreak))).mono fun u v e h => after_none h)

theorem body_blames : Blames n NoBlame (den env (Gram.star [quotedChar])) := by
  have h : Blames n NoBlame (den env quotedChar) := first_blames fun g hg => by
    simp only [List.mem_cons, List.not_mem_nil, or_false] at hg
    rcases hg with rfl | rfl
    · exact erased_blames (X := X) (seqS_takes _) seqS_blames
    · exact charClassN_blames
  refine (star_blames (gs := [quotedChar]) hX (SeqTakes.single quotedChar_takes) (fun w rest l h => ?_) (SeqBlames.single h)).mono fun u v e h => after_none h
  rcases h with ⟨rfl, _⟩ | h
  · decide
  · exact charMatch_ne h

theorem chunk_blames : Blames n (CutOff ChunkMatch) (den env quotedChunk) := by
  refine (flat_blames (gs := [sp, Gram.erased (.prim (seqS (b! "\""))), Gram.star [quotedChar], closing, sp])
    (SeqBlames.step (csvSp_takes hX) (csvSp_blames hX) (SeqBlames.step (X := X) quote_takes quote_blames (SeqBlames.step (body_takes hX) (body_blames hX)
      (SeqBlames.step (closing_takes hX) closing_blames (SeqBlames.single (csvSp_blames hX))))))).mono fun u v e h => ?_
  rcases h with h | ⟨wa, _, _, rfl, ⟨rfl, _, a, ha, ha'⟩, h | ⟨_, _, _, rfl, ⟨rfl, rfl⟩, h | ⟨wt, _, lt, rfl, ⟨_, t, v', ht, ht', hl⟩, ⟨rfl, rfl, rfl⟩ | h⟩⟩⟩
  · exact h.elim
  · exact h.elim
  · exact h.elim
  · refine ⟨rfl, by simp [utf8_quote], rfl, lt, a, t, v', [], ?_, ha', ht, by simp, fun _ => notNext_nil, notNext_nil, hl⟩
    simp only [List.append_nil] at ha ht'
    have h1 := span_append (w₂ := [0x22]) (by simpa using span_snoc ht') (span_single (rest := []) (w := [0x22]) (ch := '"') (.char '"' []))
    have h2 := span_append (rest := []) (w₂ := utf8 '"' ++ (wt ++ [0x22])) (by simpa using span_snoc ha) (Span.cons (w₁ := utf8 '"') (.char _ _) h1)
    simpa using h2
  · exact absurd h after_none

/-- A quoted cell. -/
def QuotedMatch : Match := fun w rest l => ∃ t v, Span rest w t ∧ QuotedCell t v ∧ CellAst v l

theorem quotedCell_blames : Blames n (CutOff QuotedMatch) (den env quotedCell) := by
  have hk : ∀ w rest l, ChunkMatch w rest l → w ≠ [] := fun w rest l h => chunkMatch_ne h
  refine trans_blames (plus_takes (gs := [quotedChunk]) hX (chunk_stops hX) (SeqTakes.single (chunk_takes hX)) hk)
    ((repeat_blames (t := qtyOneOrMoreTimes) (gs := [quotedChunk]) hX (SeqTakes.single (chunk_takes hX)) (fun _ => hk) (SeqBlames.single (chunk_blames hX))).mono fun u v e h => ?_)
    fun c w rest l l' e h ha => ?_
  · obtain ⟨w, u, l, rfl, ⟨m, h1⟩, rfl, h2, rfl, l', h3⟩ := h
    have h4 := repeated_snoc (by simpa using h2) (fun _ _ _ hr h => chunkMatch_snoc hr h) h1
    rw [List.append_nil] at h4
    have h5 : Repeated ChunkMatch (m + 1) (w ++ (u ++ [0x22])) [] (l ++ l') := by
      clear h1
      generalize hr : u ++ [0x22] = r at *
      clear hr
      induction h4 with
      | zero => simpa using Repeated.succ (w₂ := []) (by simpa using h3) (.zero (Q := ChunkMatch) (rest := []))
      | @succ m w₁ w₂ rest a b g1 _ ih =>
        have := Repeated.succ (Q := ChunkMatch) (w₁ := w₁) (rest := []) (by simpa using g1) (ih h3)
        simpa using this
    obtain ⟨t, v, h6, h7, h8, _⟩ := chunks_quoted h5
    exact ⟨rfl, by simp [h2], rfl, [{ Ast.zero with val := .str (utf8s v) }], t, v, by simpa using h6, h7, _, rfl, rfl⟩
  · obtain ⟨_, m, h⟩ := h
    obtain ⟨t, v, h1, h2, h3, _⟩ := chunks_quoted h
    simp [List.map, denTr_fn, applyTrs, concat_texts h3] at ha

theorem cell_blames : Blames n NoBlame (den env cell) := by
  have h1 : Admits n X (CharMatch fun _ => True) (den env (.prim (charClassN cellBreakCharacters))) :=
    charClassN_takes.mono fun w rest l ⟨ch, h1, h2, h3⟩ => ⟨ch, trivial, h1, h3⟩
  refine trans_blames (star_takes (gs := [.prim (charClassN cellBreakCharacters)]) hX stopsAt_any (SeqTakes.single h1) fun w rest l h => charMatch_ne h)
    ((star_blames (gs := [.prim (charClassN cellBreakCharacters)]) hX (SeqTakes.single h1) (fun w rest l h => charMatch_ne h)
      (SeqBlames.single charClassN_blames)).mono fun u v e h => after_none h) fun c w rest l l' e h ha => ?_
  obtain ⟨_, m, h⟩ := h
  obtain ⟨t, _, h2, h3, h4⟩ := repeated_chars h
  have hs : (summary l .string (.str (t.map utf8).flatten)).val = .str (t.map utf8).flatten := by cases l <;> rfl
  simp [List.map, denTr_fn, applyTrs, trim, afterConcat, concat_texts h4, hs, asStr] at ha

theorem anyCell_blames : Blames n (CutOff CellMatch) (den env (.first [quotedCell, cell])) :=
  first_blames fun g hg => by
    simp only [List.mem_cons, List.not_mem_nil, or_false] at hg
    rcases hg with rfl | rfl
    · exact (quotedCell_blames hX).mono fun u v e ⟨h1, h2, h3, l, t, v', h4, h5, h6⟩ => ⟨h1, h2, h3, l, t, v', h4, .quoted h5, h6⟩
    · exact (cell_blames hX).mono fun _ _ _ h => h.elim

omit hX in
theorem comma_blames : Blames n NoBlame (den env (Gram.erased (.prim (seqS (b! ","))))) := erased_blames (X := fun _ _ => False) (seqS_takes _) seqS_blames

omit hX in
theorem lineTransform_silent {c : Ctx} {l l' : List Ast} {e : Err} (h : lineTransform c l = .ok (l', some e)) : False := by
  unfold lineTransform at h
  cases hc : cellValues l <;> simp [hc] at h

omit hX in
theorem documentTransform_silent {c : Ctx} {l l' : List Ast} {e : Err} (h : documentTransform c l = .ok (l', some e)) : False := by
  unfold documentTransform at h
  cases hc : lineValues l <;> simp [hc] at h

theorem line_blames : Blames n (CutOff RowMatch) (den env line) := by
  have hne : ∀ w rest l, Then CellMatch (fun w _ l => w = utf8 ',' ∧ l = []) w rest l → w ≠ [] := fun w rest l h => by
    obtain ⟨_, _, _, _, rfl, _, _, rfl, _⟩ := h
    simp [utf8]
  have hseq : SeqTakes n X (Then CellMatch fun w _ l => w = utf8 ',' ∧ l = []) ([.first [quotedCell, cell], Gram.erased (.prim (seqS (b! ",")))].map (den env)) :=
    SeqTakes.step hX (anyCell_takes hX) (SeqTakes.single comma_takes)
  have hstar := star_takes (gs := [.first [quotedCell, cell], Gram.erased (.prim (seqS (b! ",")))]) hX stopsAt_any hseq hne
  have hb := star_blames (gs := [.first [quotedCell, cell], Gram.erased (.prim (seqS (b! ",")))]) hX hseq hne
    (SeqBlames.step (anyCell_takes hX) (anyCell_blames hX) (SeqBlames.single comma_blames))
  have key : ∀ {m w u l}, Repeated (Then CellMatch fun w _ l => w = utf8 ',' ∧ l = []) m w (u ++ []) l → u ≠ [] → (∃ l, CellMatch (u ++ [0x22]) [] l) →
      ∃ l, RowMatch (w ++ u ++ [0x22]) [] l := by
    rintro m w u l h1 h2 ⟨l', h3⟩
    have h4 := repeated_snoc (by simpa using h2) (fun w rest l hr h => by
      obtain ⟨w₁, w₂, a, b, rfl, rfl, h5, h6⟩ := h
      exact ⟨w₁, w₂, a, b, rfl, rfl, by simpa using cellMatch_snoc h5, h6⟩) h1
    obtain ⟨t, r, h5, h6, _⟩ := cells_row (w₂ := u ++ [0x22]) (rest := []) (by simp) h4 h3
    exact ⟨[{ Ast.zero with val := .strs (r.map utf8s) }], t, r, by simpa using h5, h6, _, rfl, rfl⟩
  refine trans_blames (flat_takes (gs := [Gram.star [.first [quotedCell, cell], Gram.erased (.prim (seqS (b! ",")))], .first [quotedCell, cell]])
      (SeqTakes.step hX hstar (SeqTakes.single (anyCell_takes hX))))
    ((flat_blames (gs := [Gram.star [.first [quotedCell, cell], Gram.erased (.prim (seqS (b! ",")))], .first [quotedCell, cell]])
      (SeqBlames.step hstar hb (SeqBlames.single (anyCell_blames hX)))).mono fun u v e h => ?_)
    fun c w rest l l' e h ha => ?_
  · rcases h with ⟨w, u, l, rfl, ⟨m, h1⟩, ⟨rfl, h2, rfl, h3⟩ | h⟩ | ⟨w, u, l, rfl, ⟨_, m, h1⟩, rfl, h2, rfl, h3⟩
    · exact ⟨rfl, by simp [h2], rfl, key h1 h2 h3⟩
    · exact absurd h after_none
    · exact ⟨rfl, by simp [h2], rfl, key h1 h2 h3⟩
  · simp only [List.map, denTr_fn, applyTrs] at ha
    cases hl : lineTransform c l with
    | ok r =>
      obtain ⟨x, _ | y⟩ := r
      · rw [hl] at ha; cases ha
      · exact (lineTransform_silent hl).elim
    | panic x => rw [hl] at ha; cases ha
    | timeout => rw [hl] at ha; cases ha

theorem document_blames : Blames n (CutOff fun w _ _ => ∃ t rows, Reads w t ∧ TableText t rows) (den env document) := by
  have hne : ∀ w rest l, Then RowMatch BreaksMatch w rest l → w ≠ [] := fun w rest l h => by
    obtain ⟨w₁, w₂, _, _, rfl, _, _, _, _, bs, h1, h2, _⟩ := h
    cases bs with
    | nil => exact absurd rfl h1
    | cons b bs => simp [span_ne_nil h2]
  have hseq : SeqTakes n X (Then RowMatch BreaksMatch) ([line, Gram.erased (Gram.plus [.prim lineBreak])].map (den env)) :=
    SeqTakes.step hX (line_takes hX) (SeqTakes.single (breaks_takes hX))
  have hstar := star_takes (gs := [line, Gram.erased (Gram.plus [.prim lineBreak])]) hX stopsAt_any hseq hne
  have hbr : Blames n NoBlame (den env (Gram.erased (Gram.plus [.prim lineBreak]))) :=
    erased_blames (plus_takes (gs := [.prim lineBreak]) hX (charTerminal_stops C18_lineBreak) (SeqTakes.single (charTerminal_takes C18_lineBreak))
        fun w rest l h => charMatch_ne h)
      ((repeat_blames (t := qtyOneOrMoreTimes) (gs := [.prim lineBreak]) hX (SeqTakes.single (charTerminal_takes C18_lineBreak)) (fun _ w rest l h => charMatch_ne h)
        (SeqBlames.single (charTerminal_blames C18_lineBreak))).mono fun u v e h => after_none h)
  have hb := star_blames (gs := [line, Gram.erased (Gram.plus [.prim lineBreak])]) hX hseq hne
    (SeqBlames.step (line_takes hX) (line_blames hX) (SeqBlames.single hbr))
  have key : ∀ {m w u l}, Repeated (Then RowMatch BreaksMatch) m w (u ++ []) l → u ≠ [] → (∃ l, RowMatch (u ++ [0x22]) [] l) →
      ∃ t rows, Reads (w ++ u ++ [0x22]) t ∧ TableText t rows := by
    rintro m w u l h1 h2 ⟨l', h3⟩
    have h4 := repeated_snoc (by simpa using h2) (fun w rest l hr h => by
      obtain ⟨w₁, w₂, a, b, rfl, rfl, h5, h6⟩ := h
      exact ⟨w₁, w₂, a, b, rfl, rfl, by simpa using rowMatch_snoc h5, breaksMatch_snoc hr h6⟩) h1
    obtain ⟨t, rows, h5, h6, _⟩ := rows_table (w₂ := u ++ [0x22]) (by simpa using h4) h3
    exact ⟨t, rows, span_reads.1 (by simpa using h5), h6⟩
  refine trans_blames (flat_takes (gs := [Gram.star [line, Gram.erased (Gram.plus [.prim lineBreak])], line, .prim endS])
      (SeqTakes.step hX hstar (SeqTakes.step hX (line_takes hX) (SeqTakes.single endS_takes))))
    ((flat_blames (gs := [Gram.star [line, Gram.erased (Gram.plus [.prim lineBreak])], line, .prim endS])
      (SeqBlames.step hstar hb (SeqBlames.step (line_takes hX) (line_blames hX) (SeqBlames.single endS_blames)))).mono fun u v e h => ?_)
    fun c w rest l l' e h ha => ?_
  · rcases h with ⟨w, u, l, rfl, ⟨m, h1⟩, ⟨rfl, h2, rfl, h3⟩ | h⟩ | ⟨w, u, l, rfl, ⟨_, m, h1⟩, ⟨rfl, h2, rfl, h3⟩ | h⟩
    · exact ⟨rfl, by simp [h2], rfl, [], key h1 h2 h3⟩
    · exact absurd h after_none
    · exact ⟨rfl, by simp [h2], rfl, [], key h1 h2 h3⟩
    · exact absurd h after_none
  · simp only [List.map, denTr_fn, applyTrs] at ha
    cases hl : documentTransform c l with
    | ok r =>
      obtain ⟨x, _ | y⟩ := r
      · rw [hl] at ha; cases ha
      · exact (documentTransform_silent hl).elim
    | panic x => rw [hl] at ha; cases ha
    | timeout => rw [hl] at ha; cases ha

end

/-! ### Repetition with a separator -/

theorem den_sameEnd {env : Env} (he : ∀ x, LocalGram (env x)) {g : Gram} (hg : LocalGram g) {c c' : Ctx} (h : SamePlace c c') :
    SameEnd c c' (Outcome.of (den env g c)) (Outcome.of (den env g c')) := by
  have key : ∀ n, SameEnd c c' (Outcome.of (run env n g c)) (Outcome.of (run env n g c')) := fun n =>
    local_sameEnd (localGram_local he hg n) h
  have ht : ∀ {r : Out PRes}, Outcome.of r = .timedOut ↔ r = .timeout := fun {r} => by
    cases r with
    | ok r => obtain ⟨o, _ | e⟩ := r <;> simp [Outcome.of] <;> split <;> simp
    | panic x => simp [Outcome.of]
    | timeout => simp [Outcome.of]
  by_cases h1 : den env g c = .timeout
  · by_cases h2 : den env g c' = .timeout
    · rw [h1, h2]; exact .timedOut
    · obtain ⟨N, hN⟩ := run_of_den rfl h2
      have h3 : run env N g c = .timeout := Classical.byContradiction fun h3 => by
        rw [den_of_run h3] at h1; exact h3 h1
      have := key N
      rw [h3, hN N (Nat.le_refl _), ht.2 rfl] at this
      cases hr : Outcome.of (den env g c') <;> rw [hr] at this <;> cases this
      exact absurd (ht.1 hr) h2
  · obtain ⟨N, hN⟩ := run_of_den rfl h1
    by_cases h2 : den env g c' = .timeout
    · have h3 : run env N g c' = .timeout := Classical.byContradiction fun h3 => by
        rw [den_of_run h3] at h2; exact h3 h2
      have := key N
      rw [h3, hN N (Nat.le_refl _), ht.2 rfl] at this
      cases hr : Outcome.of (den env g c) <;> rw [hr] at this <;> cases this
      exact absurd (ht.1 hr) h1
    · obtain ⟨M, hM⟩ := run_of_den rfl h2
      have := key (max N M)
      rwa [hN _ (Nat.le_max_left ..), hM _ (Nat.le_max_right ..)] at this

theorem Admits.both {n : Nat} {X : Bytes → Panic → Prop} {Q R : Match} {p : Sem} (h1 : Admits n X Q p) (h2 : Admits n X R p) :
    Admits n X (fun w rest l => Q w rest l ∧ R w rest l) p := fun c pre s hc hs => by
  have g1 := h1 c pre s hc hs
  have g2 := h2 c pre s hc hs
  generalize Outcome.of (p c) = r at g1 g2
  cases r with
  | matched c' =>
    obtain ⟨w, rest, rfl, h3⟩ := g1
    obtain ⟨w', rest', he, h4⟩ := g2
    have hl : w.length = w'.length := by have := h3.at_.pos; rw [h4.at_.pos] at this; simp at this; omega
    obtain ⟨rfl, rfl⟩ := List.append_inj he hl
    refine ⟨w, rest, rfl, h3.at_, h3.slice, h3.tag, ?_⟩
    obtain ⟨l, hl, h5⟩ := h3.stack
    obtain ⟨l', hl', h6⟩ := h4.stack
    rw [hl] at hl'
    cases List.append_cancel_left hl'
    exact ⟨l, hl, h5, h6⟩
  | unmatched => trivial
  | failed _ _ => trivial
  | panicked x => exact g1
  | timedOut => exact g1

section
variable {env : Env} {n : Nat} {X : Bytes → Panic → Prop} {Q R : Match} {E : Bytes → Prop} {a b : Gram}

/-- A repetition of `a`, `b` and then `a`: behind it there is no `b`. The last `a` of the repetition, which no `b` follows, and the `a`
behind it are the same text, as `a` is local. -/
theorem sep_takes (hX : Grows X) (he : ∀ x, LocalGram (env x)) (hl : LocalGram a) (ha : ∀ n, Admits n X Q (den env a)) (hb : ∀ n, Admits n X R (den env b))
    (hsa : StopsAt [den env a] (fun _ => False)) (hsb : StopsAt [den env b] E) (hk : ∀ w rest l, Then Q R w rest l → w ≠ []) :
    SeqTakes n X (fun w rest l => Then (fun w rest l => ∃ m, Repeated (Then Q R) m w rest l) Q w rest l ∧ E rest) [den env (Gram.star [a, b]), den env a] :=
  fun c pre s hc hs => by
  have hseq : ∀ n, SeqTakes n X (Then Q R) ([a, b].map (den env)) := fun n => SeqTakes.step hX (ha n) (SeqTakes.single (hb n))
  obtain ⟨r, h1, h2⟩ := SeqTakes.step hX ((star_takes (gs := [a, b]) hX stopsAt_any (hseq n) hk).mono fun w rest l h => h.2) (SeqTakes.single (ha n)) c pre s hc hs
  refine ⟨r, h1, ?_⟩
  cases r with
  | unmatched => trivial
  | failed _ _ => trivial
  | panicked x => exact h2
  | timedOut => exact h2
  | matched c2 =>
    obtain ⟨w, rest, rfl, h3⟩ := h2
    refine ⟨w, rest, rfl, h3.mono fun l hq => ⟨hq, ?_⟩⟩
    cases h1 with
    | stop _ hne => exact absurd rfl (hne c2)
    | @step _ _ _ c1 _ g1 g2 =>
      cases g2 with
      | stop _ hne => exact absurd rfl (hne c2)
      | @step _ _ _ c2' _ g2 g3 =>
        cases g3
        obtain ⟨r, k1, k2⟩ := reps_takes (t := qtyZeroOrMoreTimes) hX stopsAt_any (hseq n) (fun _ => hk) ((w ++ rest).length) 0 _ pre (w ++ rest)
          (.inl ⟨by decide, Nat.le_refl _⟩) (hc.enter ":base:Repeat") hs
        have hr : r ≠ .timedOut := fun h => by subst h; exact k2
        have k3 := den_repeat_outcome k1 hr
        have k4 : r = .matched c1 := k3.symm.trans g1
        subst k4
        obtain ⟨i, c', k5, k6⟩ := k1
        rcases k6 with ⟨k6, _⟩ | ⟨_, r', k7, k8, ⟨rfl, k9⟩ | ⟨_, k9⟩⟩
        · simp [qtyZeroOrMoreTimes] at k6
        · obtain ⟨w₁, rest₁, l₁, hw, k10, k11⟩ := reps_reached k5 (hseq n) (hc.enter ":base:Repeat") hs
          unfold repEnd at k9
          rw [if_pos (by simp [qtyZeroOrMoreTimes])] at k9
          cases k9
          cases k7 with
          | stop h _ => exact (hsa _ _ _ k10 (.stop h (fun _ h => by cases h))).elim
          | step h h' =>
            have same := den_sameEnd he hl (c := c') (c' := { c' with qty := 0 + i }) ⟨rfl, rfl, rfl, rfl, rfl⟩
            rw [h, g2] at same
            cases same with
            | matched _ same _ _ =>
              have k12 := ha rest₁.length _ _ _ k10 (Nat.le_refl _)
              rw [h] at k12
              obtain ⟨w₂, rest₂, rfl, k13⟩ := k12
              have k14 := hsb _ _ _ k13.at_ (by
                cases h' with
                | stop h'' hn => exact .stop h'' hn
                | step _ h'' => cases h'')
              have hp := same.pos
              rw [h3.at_.pos, k13.at_.pos] at hp
              rw [← List.append_assoc] at hw
              obtain ⟨_, rfl⟩ := List.append_inj hw (by simp at hp ⊢; omega)
              exact k14
        · exact absurd k9.symm (k8 c1)

end

/-! ### What is in front of a failure without a cause -/

theorem chunks_end {m : Nat} {w rest : Bytes} {l : List Ast} (h : Repeated ChunkMatch (m + 1) w rest l) : NotNext LineBlank rest := by
  induction m generalizing w l with
  | zero =>
    cases h with
    | succ h h' =>
      cases h'
      obtain ⟨a, t, v, b, _, _, _, _, _, h6, _⟩ := h
      exact h6
  | succ m ih => cases h with | succ _ h' => exact ih h'

/-- A quoted cell, with its blanks, or a cell that goes to the end of the text, a comma or a line break. -/
def CellBound : Match := fun w rest _ => (∃ t v, Span rest w t ∧ QuotedCell t v ∧ NotNext LineBlank rest ∧ NotNext (· = '"') rest) ∨ NotNext (¬ CellEnd ·) rest

section
variable {env : Env} {n : Nat} {X : Bytes → Panic → Prop} (hX : Grows X)
include hX

theorem anyCell_bound : Admits n X CellBound (den env (.first [quotedCell, cell])) := by
  have h1 : Admits n X (fun w rest _ => ∃ t v, Span rest w t ∧ QuotedCell t v ∧ NotNext LineBlank rest ∧ NotNext (· = '"') rest) (den env quotedCell) := by
    refine trans_takes (by simp) (plus_takes (gs := [quotedChunk]) hX (chunk_stops hX) (SeqTakes.single (chunk_takes hX)) fun w rest l h => chunkMatch_ne h)
      fun c w rest l h => ?_
    obtain ⟨hE, m, h⟩ := h
    obtain ⟨t, v, h1, h2, h3, _⟩ := chunks_quoted h
    simp only [List.map, denTr_fn, applyTrs, concat_texts h3]
    refine ⟨t, v, h1, h2, chunks_end h, ?_⟩
    obtain ⟨w', rest', b, rfl, g1, g2, g3, g4⟩ := hE
    cases b with
    | nil => cases g1; exact g4
    | cons x b =>
      obtain ⟨k, hk⟩ := span_next g1
      exact absurd (g2 x (by simp)) (chunks_end h x k hk)
  have h2 : Admits n X (fun _ rest _ => NotNext (¬ CellEnd ·) rest) (den env cell) := by
    have hs : StopsAt [den env (.prim (charClassN cellBreakCharacters))] (NotNext (¬ CellEnd ·)) := .one fun c pre s hc hu ch m hm hn => by
      have hl := nextChar_le hm
      have e : (s.take m).length = m := by simp; omega
      have := charClassN_hits (env := env) (cc := cellBreakCharacters) (pre := pre) (w := s.take m) (rest := s.drop m) (ch := ch) (by rw [e]; simpa using hm)
        (fun x hx hp => by
          rw [cellBreaks_utf8] at hx
          obtain ⟨ch', h3, rfl⟩ := List.mem_map.1 hx
          obtain ⟨r, hr⟩ := hp
          rw [List.take_append_drop] at hr
          obtain ⟨rfl, _⟩ := nextChar_unique hm (by rw [← hr]; exact .char ch' r)
          exact hn (cellEnd_mem.2 h3)) c (by simpa using hc)
      obtain ⟨c', h3, _⟩ := this
      rw [h3] at hu; cases hu
    have h1 : Admits n X (CharMatch fun _ => True) (den env (.prim (charClassN cellBreakCharacters))) :=
      charClassN_takes.mono fun w rest l ⟨ch, h1, h2, h3⟩ => ⟨ch, trivial, h1, h3⟩
    refine trans_takes (by simp) (star_takes (gs := [.prim (charClassN cellBreakCharacters)]) hX hs (SeqTakes.single h1) fun w rest l h => charMatch_ne h)
      fun c w rest l h => ?_
    obtain ⟨hE, m, h⟩ := h
    obtain ⟨t, _, h2, h3, h4⟩ := repeated_chars h
    have hs : (summary l .string (.str (t.map utf8).flatten)).val = .str (t.map utf8).flatten := by cases l <;> rfl
    simp only [List.map, denTr_fn, applyTrs, trim, afterConcat, concat_texts h4, hs, asStr]
    exact hE
  exact (first_two_takes h1 stopsAt_any h2).mono fun w rest l h => h.imp id And.right

theorem anyCell_stops : StopsAt [den env (.first [quotedCell, cell])] (fun _ => False) := by
  have h1 : ∀ n, Admits n X (CharMatch fun _ => True) (den env (.prim (charClassN cellBreakCharacters))) := fun n =>
    charClassN_takes.mono fun w rest l ⟨ch, h1, h2, h3⟩ => ⟨ch, trivial, h1, h3⟩
  exact first_stops (g := cell) (by simp) (trans_stops (star_stops (gs := [.prim (charClassN cellBreakCharacters)]) hX (fun n => SeqTakes.single (h1 n))
    fun w rest l h => charMatch_ne h))

omit hX in
theorem comma_stops : StopsAt [den env (Gram.erased (.prim (seqS (b! ","))))] (NotNext (· = ',')) :=
  (trans_stops (seqS_stops _)).mono fun s h ch n hn hc => by
    subst hc
    obtain ⟨s', rfl, _⟩ := next_form hn (by decide)
    rw [comma_utf8] at h
    exact h (List.prefix_append _ _)

theorem line_stops : StopsAt [den env line] (fun _ => False) := by
  refine trans_stops (flat_stops (gs := [Gram.star [.first [quotedCell, cell], Gram.erased (.prim (seqS (b! ",")))], .first [quotedCell, cell]]) ?_)
  have hne : ∀ w rest l, Then CellMatch (fun w _ l => w = utf8 ',' ∧ l = []) w rest l → w ≠ [] := fun w rest l h => by
    obtain ⟨_, _, _, _, rfl, _, _, rfl, _⟩ := h
    simp [utf8]
  have hseq : ∀ n, SeqTakes n X (Then CellMatch fun w _ l => w = utf8 ',' ∧ l = []) ([.first [quotedCell, cell], Gram.erased (.prim (seqS (b! ",")))].map (den env)) :=
    fun n => SeqTakes.step hX (anyCell_takes hX) (SeqTakes.single comma_takes)
  refine (StopsAt.cons (star_stops (gs := [.first [quotedCell, cell], Gram.erased (.prim (seqS (b! ",")))]) hX hseq hne)
    (fun n => star_takes (gs := [.first [quotedCell, cell], Gram.erased (.prim (seqS (b! ",")))]) hX stopsAt_any (hseq n) hne) (anyCell_stops hX)).mono fun s h => ?_
  rcases h with h | ⟨_, _, _, _, _, h⟩
  · exact h
  · exact h

/-- The row that `line` matches, and what is behind it. -/
def RowBound : Match := fun w rest _ => NotNext (· = ',') rest ∧
  ((∃ t, Span rest w t ∧ (∀ ch u, Junk ch → BrokenRow (t ++ ch :: u)) ∧ NotNext LineBlank rest ∧ NotNext (· = '"') rest) ∨ NotNext (¬ CellEnd ·) rest)

omit hX in
theorem cells_broken {m : Nat} {w₁ w₂ rest : Bytes} {l : List Ast} {q v : List Char} {s : Bytes} (hs : s = w₂ ++ rest)
    (h : Repeated (Then CellMatch fun w _ l => w = utf8 ',' ∧ l = []) m w₁ s l) (h1 : Span rest w₂ q) (h2 : QuotedCell q v) :
    ∃ t, Span rest (w₁ ++ w₂) t ∧ ∀ ch u, Junk ch → BrokenRow (t ++ ch :: u) := by
  induction h with
  | zero => exact ⟨q, h1, fun ch u hj => .here h2 hj⟩
  | succ h _ ih =>
    obtain ⟨t, h3, h4⟩ := ih hs
    subst hs
    obtain ⟨w, _, l, _, rfl, rfl, ⟨t', v, g1, g2, _⟩, rfl, rfl⟩ := h
    have := span_append (w₁ := w) (by simpa using g1) (Span.cons (w₁ := utf8 ',') (.char _ _) h3)
    refine ⟨t' ++ ',' :: t, by simpa using this, fun ch u hj => ?_⟩
    have := BrokenRow.more g2 (h4 ch u hj)
    simpa using this

theorem line_bound (he : ∀ x, LocalGram (env x)) : Admits n X RowBound (den env line) := by
  have hloc : LocalGram (.first [quotedCell, cell]) := by
    localgram [Csv.quotedCell, Csv.cell, Csv.quotedChunk, Csv.quotedChar, Csv.sp]
  have hcell : ∀ n, Admits n X (fun w rest l => CellMatch w rest l ∧ CellBound w rest l) (den env (.first [quotedCell, cell])) :=
    fun n => (anyCell_takes hX).both (anyCell_bound hX)
  have hweak : ∀ {m w rest l}, Repeated (Then (fun w rest l => CellMatch w rest l ∧ CellBound w rest l) fun w _ l => w = utf8 ',' ∧ l = []) m w rest l →
      Repeated (Then CellMatch fun w _ l => w = utf8 ',' ∧ l = []) m w rest l := fun h => by
    induction h with
    | zero => exact .zero
    | succ h _ ih =>
      obtain ⟨w₁, w₂, a, b, rfl, rfl, h5, h6⟩ := h
      exact .succ ⟨w₁, w₂, a, b, rfl, rfl, h5.1, h6⟩ ih
  refine trans_takes (by simp) (flat_takes (gs := [Gram.star [.first [quotedCell, cell], Gram.erased (.prim (seqS (b! ",")))], .first [quotedCell, cell]])
    (sep_takes hX he hloc hcell (fun n => comma_takes) (anyCell_stops hX) comma_stops fun w rest l h => ?_)) fun c w rest l h => ?_
  · obtain ⟨_, _, _, _, rfl, _, _, rfl, _⟩ := h
    simp [utf8]
  · obtain ⟨⟨w₁, w₂, l₁, l₂, rfl, rfl, ⟨m, h1⟩, h2, h2'⟩, h0⟩ := h
    obtain ⟨t, r, h3, h4, h5⟩ := cells_row rfl (hweak h1) h2
    simp only [List.map, denTr_fn, applyTrs, lineTransform, cellValues_of h5]
    refine ⟨h0, ?_⟩
    rcases h2' with ⟨q, v, h6, h7, h8⟩ | h6
    · obtain ⟨t', h9, h10⟩ := cells_broken rfl (hweak h1) h6 h7
      exact .inl ⟨t', h9, h10, h8⟩
    · exact .inr h6

omit hX in
theorem rows_broken {m : Nat} {w₁ w₂ s : Bytes} {l₁ : List Ast} {t : List Char}
    (h : Repeated (Then RowMatch BreaksMatch) m w₁ s l₁) (hs : s = w₂) (h1 : Span [] w₂ t) (h2 : BrokenRow t) :
    ∃ t', Span [] (w₁ ++ w₂) t' ∧ BrokenTable t' := by
  induction h with
  | zero => exact ⟨t, h1, .here h2⟩
  | succ h _ ih =>
    obtain ⟨u, i1, i2⟩ := ih hs
    subst hs
    obtain ⟨w, w', l, _, rfl, rfl, ⟨t', r, g1, g2, a, rfl, g3⟩, rfl, g4, bs, g5, g6, g7⟩ := h
    refine ⟨t' ++ bs ++ u, ?_, .more g2 g5 g7 (fun ch hc => ?_) i2⟩
    · have h4 := span_append (w₁ := w') (by simpa using g6) i1
      have h5 := span_append (w₁ := w) (by simpa using g1) h4
      simpa using h5
    · cases u with
      | nil => cases hc
      | cons x u =>
        cases hc
        obtain ⟨k, hk⟩ := span_next i1
        exact g4 ch k (by simpa using hk)

omit hX in
theorem seq_step_unmatched {p : Sem} {ps : List Sem} {c : Ctx} (h : Spec.Seq (p :: ps) c .unmatched) (hp : Outcome.of (p c) ≠ .unmatched) :
    ∃ c', Outcome.of (p c) = .matched c' ∧ Spec.Seq ps c' .unmatched := by
  cases h with
  | stop h _ => exact absurd h hp
  | step h h' => exact ⟨_, h, h'⟩

theorem document_stops (he : ∀ x, LocalGram (env x)) : StopsAt [den env document] (fun s => ∃ t, Reads s t ∧ BrokenTable t) := by
  refine trans_stops (flat_stops (gs := [Gram.star [line, Gram.erased (Gram.plus [.prim lineBreak])], line, .prim endS]) ?_)
  have hloc : LocalGram line := by localgram [Csv.line, Csv.quotedCell, Csv.cell, Csv.quotedChunk, Csv.quotedChar, Csv.sp]
  have hline : ∀ n, Admits n X (fun w rest l => RowMatch w rest l ∧ RowBound w rest l) (den env line) :=
    fun n => (line_takes hX).both (line_bound hX he)
  have hbs : StopsAt [den env (Gram.erased (Gram.plus [.prim lineBreak]))] (NotNext LineEnd) :=
    trans_stops (plus_stops (gs := [.prim lineBreak]) hX (fun _ => SeqTakes.single (charTerminal_takes C18_lineBreak)) (fun _ _ _ h => charMatch_ne h)
      (charTerminal_stops C18_lineBreak))
  have hne : ∀ w rest l, Then (fun w rest l => RowMatch w rest l ∧ RowBound w rest l) BreaksMatch w rest l → w ≠ [] := fun w rest l h => by
    obtain ⟨w₁, w₂, _, _, rfl, _, _, _, _, bs, h1, h2, _⟩ := h
    cases bs with
    | nil => exact absurd rfl h1
    | cons b bs => simp [span_ne_nil h2]
  have hweak : ∀ {m w rest l}, Repeated (Then (fun w rest l => RowMatch w rest l ∧ RowBound w rest l) BreaksMatch) m w rest l →
      Repeated (Then RowMatch BreaksMatch) m w rest l := fun h => by
    induction h with
    | zero => exact .zero
    | succ h _ ih =>
      obtain ⟨w₁, w₂, a, b, rfl, rfl, h5, h6⟩ := h
      exact .succ ⟨w₁, w₂, a, b, rfl, rfl, h5.1, h6⟩ ih
  intro c pre s hc hu
  obtain ⟨r, h1, h2⟩ := sep_takes (n := s.length) hX he hloc hline (fun n => breaks_takes hX) (line_stops hX) hbs hne c pre s hc (Nat.le_refl _)
  have hseq : ∀ n, SeqTakes n X (Then (fun w rest l => RowMatch w rest l ∧ RowBound w rest l) BreaksMatch) ([line, Gram.erased (Gram.plus [.prim lineBreak])].map (den env)) :=
    fun n => SeqTakes.step hX (hline n) (SeqTakes.single (breaks_takes hX))
  obtain ⟨c1, g1, hu⟩ := seq_step_unmatched hu fun h => star_stops (gs := [line, Gram.erased (Gram.plus [.prim lineBreak])]) hX hseq hne _ _ _ hc (.stop h (fun _ h => by cases h))
  obtain ⟨w₀, rest₀, h0, hre⟩ : Fine X (fun w rest l => ∃ m, Repeated (Then (fun w rest l => RowMatch w rest l ∧ RowBound w rest l) BreaksMatch) m w rest l) c pre s (.matched c1) := by
    have := (star_takes (gs := [line, Gram.erased (Gram.plus [.prim lineBreak])]) hX stopsAt_any (hseq s.length) hne) c pre s hc (Nat.le_refl _)
    rw [g1] at this
    obtain ⟨w, rest, h3, h4⟩ := this
    exact ⟨w, rest, h3, h4.mono fun l h => h.2⟩
  obtain ⟨c2, g2, hu⟩ := seq_step_unmatched hu fun h => line_stops hX _ _ _ hre.at_ (.stop h (fun _ h => by cases h))
  have := h1.det (.step g1 (.step g2 .done))
  subst this
  obtain ⟨w, rest, rfl, h3⟩ := h2
  have hr : rest ≠ [] := endS_stops (env := env) _ _ _ h3.at_ hu
  obtain ⟨l, _, ⟨w₁, w₂, l₁, l₂, rfl, rfl, ⟨m, k1⟩, ⟨_, k4, k5⟩⟩, k6⟩ := h3.stack
  have hcell : NotNext CellEnd rest := fun ch n hn hE => by
    rcases hE with hE | hE
    · exact k4 ch n hn hE
    · exact k6 ch n hn hE
  rcases k5 with ⟨t, k2, k3, k9, k10⟩ | k9
  · obtain ⟨u, hu'⟩ := span_total rest
    cases u with
    | nil => cases hu'; exact absurd rfl hr
    | cons ch u =>
      obtain ⟨k, hk⟩ := span_next hu'
      rw [List.append_nil] at hk
      obtain ⟨t', i1, i2⟩ := rows_broken (hweak k1) rfl (span_append (by simpa using k2) hu') (k3 ch u ⟨k9 ch k hk, hcell ch k hk, k10 ch k hk⟩)
      exact ⟨t', span_reads.1 (by simpa using i1), i2⟩
  · obtain ⟨ch, n, hn⟩ := nextChar_total hr
    exact absurd (hcell ch n hn) (k9 ch n hn)

end

/-! ### Broken tables are refused -/

theorem brokenRow_snoc {t : List Char} {x : Char} (h : BrokenRow t) : BrokenRow (t ++ [x]) := by
  induction h with
  | here h1 h2 => rw [List.append_assoc]; exact .here h1 h2
  | more h1 _ ih => rw [List.append_assoc]; exact .more h1 ih

theorem brokenRow_ne {t : List Char} (h : BrokenRow t) : t ≠ [] := by cases h <;> simp

theorem brokenTable_ne {t : List Char} (h : BrokenTable t) : t ≠ [] := by
  cases h with
  | here h => exact brokenRow_ne h
  | more _ h _ _ _ => simp [h]

theorem brokenTable_snoc {t : List Char} {x : Char} (h : BrokenTable t) : BrokenTable (t ++ [x]) := by
  induction h with
  | here h => exact .here (brokenRow_snoc h)
  | @more t bs u r h1 h2 h3 h4 h5 ih =>
    rw [List.append_assoc]
    refine .more h1 h2 h3 (fun ch hc => h4 ch ?_) ih
    cases u with
    | nil => exact absurd rfl (brokenTable_ne h5)
    | cons y u => exact hc

section
variable {env : Env}

theorem broken_iter {t : List Char} (h : BrokenRow t) {s : Bytes} (hw : Span [] s t) (pre : Bytes) :
    ∃ n w₁ w₂ rest q v r Q, s = w₁ ++ (w₂ ++ rest) ∧ QuotedCell q v ∧ Span rest w₂ q ∧ rest ≠ [] ∧ NotNext (fun ch => ¬ Junk ch) rest ∧
      Iter [den env (.first [quotedCell, cell]), den env (Gram.erased (.prim (seqS (b! ","))))] n pre w₁ (w₂ ++ rest) Q ∧
      ∀ l, Q l → Strings l r := by
  induction h generalizing pre s with
  | @here q v ch u h1 h2 =>
    obtain ⟨w, rest, rfl, g1, g2⟩ := span_split hw
    rw [List.append_nil] at g1
    have hj : NotNext (fun ch => ¬ Junk ch) rest := fun ch' k hk hn => by
      obtain ⟨k', hk'⟩ := span_next g2
      rw [List.append_nil] at hk'
      exact hn ((nextChar_unique hk hk').1 ▸ h2)
    refine ⟨0, [], w, rest, q, v, [], _, rfl, h1, g1, span_ne_nil g2, hj, .stop ?_, fun l hl => by subst hl; exact .nil⟩
    refine .tail (first_hits (.here (quotedCell_hits h1 g1 (fun ch k hk hc => hj ch k hk fun j => j.2.2 hc) (fun ch k hk hc => hj ch k hk fun j => j.1 hc) pre)))
      (.head (erased_misses (seqS_misses ?_)))
    rw [comma_utf8]; exact notNext_prefix fun ch k hk hc => hj ch k hk fun j => j.2.1 (.inl hc)
  | @more t v u h _ ih =>
    obtain ⟨w1, w2, rfl, g1, g2⟩ := span_split hw
    obtain ⟨w2, rfl, g3⟩ := span_char g2 (by decide)
    obtain ⟨n, w₁, w₂, rest, q, x, r, Q, rfl, h0, h1, h2, h3, h4, h5⟩ := ih g3 (pre ++ (w1 ++ utf8 ','))
    refine ⟨n + 1, (w1 ++ utf8 ',') ++ w₁, w₂, rest, q, x, utf8s v :: r, Both (CellAst v) Q, by simp, h0, h1, h2, h3, ?_, ?_⟩
    · refine .next ((SeqHits.cons (anyCell_hits h (by simpa using g1) ?_ pre) (.single (comma_hits _ _))).mono fun l hl => ?_) h4
      · exact .inr ⟨',', _, rfl, .inl rfl⟩
      · obtain ⟨a, b, rfl, ha, rfl⟩ := hl
        simpa using ha
    · rintro l ⟨a, b, rfl, ⟨x, rfl, hx⟩, hb⟩
      exact .cons hx (h5 b hb)

/-- The row in front of what does not belong there. -/
theorem brokenRow_hits {t : List Char} (h : BrokenRow t) {s : Bytes} (hw : Span [] s t) (pre : Bytes) :
    ∃ w rest, s = w ++ rest ∧ rest ≠ [] ∧ NotNext LineEnd rest ∧ Hits (den env line) pre w rest (fun _ => True) := by
  obtain ⟨n, w₁, w₂, rest, q, v, r, Q, rfl, h0, h1, h2, h3, h4, h5⟩ := broken_iter (env := env) h hw pre
  refine ⟨w₁ ++ w₂, rest, by simp, h2, fun ch k hk hc => h3 ch k hk fun j => j.2.1 (.inr hc), ?_⟩
  refine trans_hits (by simp) (flat_hits (gs := [Gram.star [.first [quotedCell, cell], Gram.erased (.prim (seqS (b! ",")))], .first [quotedCell, cell]])
    (.cons (star_hits (gs := [.first [quotedCell, cell], Gram.erased (.prim (seqS (b! ",")))]) h4)
      (.single (first_hits (.here (quotedCell_hits h0 h1 (fun ch k hk hc => h3 ch k hk fun j => j.2.2 hc) (fun ch k hk hc => h3 ch k hk fun j => j.1 hc) _)))))) fun c l hl => ?_
  obtain ⟨a, b, rfl, ha, x, rfl, hx⟩ := hl
  have := cellValues_of (strings_append (h5 a ha) (.cons hx .nil))
  simp only [List.map, denTr_fn, applyTrs, lineTransform, this]
  exact ⟨_, rfl, trivial⟩

theorem brokenTable_iter {t : List Char} (h : BrokenTable t) {s : Bytes} (hs : Span [] s t) (pre : Bytes) :
    ∃ n w₁ w₂ rest Q, s = w₁ ++ (w₂ ++ rest) ∧ rest ≠ [] ∧ Iter [den env line, den env (Gram.erased (Gram.plus [.prim lineBreak]))] n pre w₁ (w₂ ++ rest) Q ∧
      Hits (den env line) (pre ++ w₁) w₂ rest (fun _ => True) := by
  induction h generalizing pre s with
  | @here t h =>
    obtain ⟨w, rest, rfl, h1, h2, h3⟩ := brokenRow_hits (env := env) h hs pre
    refine ⟨0, [], w, rest, _, rfl, h1, .stop ?_, by simpa using h3⟩
    exact SeqMisses.tail h3 (ps := [den env (Gram.erased (Gram.plus [.prim lineBreak]))])
      (.head (erased_misses (plus_misses (gs := [.prim lineBreak]) (.head (charTerminal_misses C18_lineBreak h2)))))
  | @more t bs u r h hne hb hu _ ih =>
    obtain ⟨w1, w3, rfl, g1, g3⟩ := span_split hs
    obtain ⟨w1, w2, rfl, g1, g2⟩ := span_split g1
    obtain ⟨n, w₁, w₂, rest, Q, rfl, h0, h1, h2⟩ := ih g3 (pre ++ (w1 ++ w2))
    refine ⟨n + 1, (w1 ++ w2) ++ w₁, w₂, rest, Both (RowAst r) Q, by simp, h0, ?_, by simpa using h2⟩
    simp only [List.append_nil] at g1 g2
    refine .next ((SeqHits.cons (line_hits h (by simpa using g1) ?_ pre) (.single (breaks_hits hne hb (by simpa using g2) ?_ _))).mono fun l hl => ?_) h1
    · cases bs with
      | nil => exact absurd rfl hne
      | cons b bs =>
        obtain ⟨w4, rfl, _⟩ := span_char g2 (lineEnd_sound (hb b (by simp)))
        rw [List.append_assoc]
        exact .inr ⟨b, _, rfl, hb b (by simp)⟩
    · have := notNext_span g3 hu notNext_nil
      simpa using this
    · obtain ⟨a, b, rfl, ha, rfl⟩ := hl
      simpa using ha

theorem document_misses {t : List Char} (h : BrokenTable t) {s : Bytes} (hs : Reads s t) : Misses (den env document) [] s := by
  obtain ⟨n, w₁, w₂, rest, Q, rfl, h0, h1, h2⟩ := brokenTable_iter (env := env) h (span_reads.2 hs) []
  exact trans_misses (flat_misses (gs := [Gram.star [line, Gram.erased (Gram.plus [.prim lineBreak])], line, .prim endS])
    (.tail (star_hits (gs := [line, Gram.erased (Gram.plus [.prim lineBreak])]) h1) (.tail h2 (.head (endS_misses h0)))))

end
end Takenoco
