import Verif.Lemmas.CsvCalls
import Verif.Spec.Cost
/-
C87: how many parser calls `csv.Parse` needs.
-/
namespace Takenoco
open Spec Trace

/-! ### C87: the number of parser calls of the CSV parser is linear -/

/-- **C87.** However the CSV grammar is built under tracers, parsing `s` makes at most `103 n + 109` parser calls if `s` has `n` bytes:
also for texts that are not CSV. -/
theorem C87_csv (tenv : TEnv) (tg : TGram) (htg : tg.plain = Csv.document) (N : Nat) (s : Bytes) (log : Log) :
    callCount (tg.run tenv N (newStrCtx s) log).2.events ≤ callCount log.events + (103 * s.length + 109) := by
  obtain ⟨k, h1, r, -, h2⟩ := costed_pays (document_costed (str := s)) tenv N tg htg (newStrCtx s) ⟨rfl, rfl, Nat.zero_le _⟩ log
  have := document_cost (Nat.zero_le _) h2
  omega

/-- C87. The same for each line: the calls for a line that ends at `y` are at most `49 (y - x) + 51`, although every last cell is parsed
twice. -/
theorem C87_line (tenv : TEnv) (tg : TGram) (htg : tg.plain = Csv.line) (N : Nat) (c : Ctx) (hc : c.status = .matched) (hp : c.pos ≤ c.str.length)
    (log : Log) (o : Ctx) (ho : (tg.run tenv N c log).1 = .ok (o, none)) (hm : o.status = .matched) :
    c.pos ≤ o.pos ∧ callCount (tg.run tenv N c log).2.events + 49 * c.pos ≤ callCount log.events + (49 * o.pos + 51) := by
  have hl : Costed c.str Csv.line := by
    have := document_costed (str := c.str)
    generalize hg : Csv.document = g at this
    cases this with
    | trans h =>
      obtain ⟨rfl, -⟩ := Gram.trans.inj hg
      cases h with
      | flatGroup h => exact h _ (by simp)
    | _ => cases hg
  obtain ⟨k, h1, r, h2, h3⟩ := costed_pays hl tenv N tg htg c ⟨rfl, hc, hp⟩ log
  rw [ho] at h2
  cases r with
  | hit y =>
    obtain ⟨o', h4, -, -, h5⟩ := h2
    cases h4
    have h6 := line_lin _ _ _ hp h3
    have h7 := cost_hit_le h3 _ hp rfl
    simp only [CostIn] at h6
    omega
  | miss => obtain ⟨o', h4, h5⟩ := h2; cases h4; rw [hm] at h5; cases h5
  | abort => have := h2 _ _ rfl; rw [fixStatus_none, hm] at this; cases this

/-! ### Cases -/

/-- The CSV grammar with a tracer around everything. -/
def tracedCsv (i : Info) : TGram :=
  let sp : TGram := .trans (some i) (.repeat (some i) qtyZeroOrMoreTimes [.prim (some i) none whitespaceNoLineBreak]) [.fn erase]
  let sq (w : Bytes) : TGram := .trans (some i) (.prim (some i) none (seqS w)) [.fn erase]
  let quotedChar : TGram := .first (some i) [sq (b! "\"\""), .prim (some i) none (charClassN [b! "\""])]
  let quotedCell : TGram := .trans (some i) (.repeat (some i) qtyOneOrMoreTimes [.flatGroup (some i) [sp, sq (b! "\""),
    .repeat (some i) qtyZeroOrMoreTimes [quotedChar],
    .first (some i) [sq (b! "\""), .flatGroup (some i) [.prim (some i) none endS, .prim (some i) none (errorP "Unexpected EOF")]], sp]]) [.fn concat]
  let cell : TGram := .trans (some i) (.repeat (some i) qtyZeroOrMoreTimes [.prim (some i) none (charClassN Csv.cellBreakCharacters)]) [.fn trim]
  let one : TGram := .first (some i) [quotedCell, cell]
  let line : TGram := .trans (some i) (.flatGroup (some i) [.repeat (some i) qtyZeroOrMoreTimes [one, sq (b! ",")], one]) [.fn Csv.lineTransform]
  .trans (some i) (.flatGroup (some i) [.repeat (some i) qtyZeroOrMoreTimes [line,
    .trans (some i) (.repeat (some i) qtyOneOrMoreTimes [.prim (some i) none lineBreak]) [.fn erase]], line, .prim (some i) none endS]) [.fn Csv.documentTransform]

example (i : Info) : (tracedCsv i).plain = Csv.document := by
  simp [tracedCsv, TGram.plain, plainList, plainTrs, TTr.plain, Csv.document, Csv.line, Csv.quotedCell, Csv.quotedChunk, Csv.quotedChar,
    Csv.cell, Csv.sp, Gram.erased, Gram.star, Gram.plus]

/-- `a, "b"` is parsed with 171 calls; the bound is 727. -/
example : callCount ((tracedCsv ⟨0, "", 0, ""⟩).run (fun _ _ => tracedCsv ⟨0, "", 0, ""⟩) 40 (newStrCtx (b! "a, \"b\"")) ⟨0, []⟩).2.events = 171 := by
  decide +kernel

/-- The empty text needs 65 calls; the bound is 109. -/
example : callCount ((tracedCsv ⟨0, "", 0, ""⟩).run (fun _ _ => tracedCsv ⟨0, "", 0, ""⟩) 40 (newStrCtx []) ⟨0, []⟩).2.events = 65 := by
  decide +kernel

end Takenoco
