import Verif.Model.Examples.Message
import Verif.Spec.Message
import Verif.Props.Position
import Verif.Props.FormulaBlame
import Verif.Props.CsvErrors
import Verif.Lemmas.Marshal
/-
C88: the texts of the error messages, and the names of the constants.
-/
namespace Takenoco
open Spec

/-! ### C88: names -/

/-- **C88.** The constants of `AstType` have different names, and no other value has one of these names. -/
theorem C88_astType (t : AstType) (n : Nat) : astTypeString n = astTypeString t.code ↔ n = t.code := by
  constructor
  · intro h
    by_cases hn : n < 12
    · revert t
      have : ∀ n < 12, ∀ t : AstType, astTypeString n = astTypeString t.code → n = t.code := by
        intro n hn t; cases t <;> revert n <;> decide
      exact fun t h => this n hn t h
    · have : astTypeString n = "Unknown" := by
        obtain ⟨k, rfl⟩ : ∃ k, n = k + 12 := ⟨n - 12, by omega⟩
        rfl
      rw [this] at h
      exact absurd h (by cases t <;> decide)
  · rintro rfl; rfl

/-- C88. The name is the second part of the name of the constant, `AstType_Nil` and so on in the order of declaration. -/
theorem C88_names : (List.range 12).map astTypeString =
      ["Nil", "Rune", "Int", "Uint", "Float", "Bool", "String", "AstCons", "ListOfAst", "ListOfAny", "Function", "Any"] ∧
    [AstType.nil, .rune, .int, .uint, .float, .bool, .string, .astCons, .listOfAst, .listOfAny, .function, .any].map AstType.code = List.range 12 ∧
    [Status.matched, .unmatched, .error].map Status.code = [0, 1, 2] ∧ [0, 1, 2].map matchStatusString = ["Matched", "Unmatched", "Error"] := by decide

/-- C88. Everything else is "Unknown". -/
theorem C88_unknown (n : Nat) : astTypeString n = "Unknown" ↔ ∀ t : AstType, n ≠ t.code := by
  constructor
  · intro h t ht
    subst ht
    cases t <;> revert h <;> decide
  · intro h
    by_cases hn : n < 12
    · exfalso
      have : ∀ n < 12, ∃ t ∈ [AstType.nil, .rune, .int, .uint, .float, .bool, .string, .astCons, .listOfAst, .listOfAny, .function, .any], n = t.code := by decide
      obtain ⟨t, -, ht⟩ := this n hn
      exact h t ht
    · obtain ⟨k, rfl⟩ : ∃ k, n = k + 12 := ⟨n - 12, by omega⟩
      rfl

/-- **C88.** The same for `MatchStatusType`. -/
theorem C88_status (t : Status) (n : Int) : (matchStatusString n = matchStatusString t.code ↔ n = t.code) ∧
    (matchStatusString n = "Unknown" ↔ n < 0 ∨ 2 < n) := by
  unfold matchStatusString
  constructor
  · cases t <;> simp only [Status.code] <;> split <;> try split
    all_goals (try split)
    all_goals (subst_vars; simp_all)
  · split
    · subst_vars; simp
    · split
      · subst_vars; simp
      · split
        · subst_vars; simp
        · simp; omega

/-! ### C88: messages -/

theorem goString_eq (t : String) : goString t = utf8s t.toList := by
  unfold goString utf8s
  congr 1
  funext c
  exact encode_char c

theorem report_of {s why : Bytes} {p : LineAndCol} {e : Option Err} {k : Nat} (hp : getLineAndCol s k 4 = .ok p)
    (he : cause e = some why) : ∃ m, errorText e p = some m ∧ Report s k why m := by
  obtain ⟨hk, -, -⟩ := position_of hp
  obtain ⟨ls, last, hl, -⟩ := C40_lines_exist (s.take k)
  obtain ⟨rest, tail, h1, h2, h3⟩ := C40_rest_exists (s.drop k)
  have h4 := C40_position s k 4 ls last rest tail hk hl h1 h2 h3
  rw [show ((4 : Nat) : Int) = 4 from rfl, hp] at h4
  cases h4
  refine ⟨_, by unfold errorText; rw [he]; rfl, hk, ls, last, rest, tail, hl, h1, h2, h3, ?_⟩
  have e1 : (s!"\n --> Line {ls.length + 1}, Col {last.length + 1}\n").toList =
      "\n --> Line ".toList ++ (toString (ls.length + 1)).toList ++ ", Col ".toList ++ (toString (last.length + 1)).toList ++ "\n".toList := by
    simp only [← String.toList_append]
    rfl
  rw [e1]
  simp only [goString_eq, formatInt_eq, utf8s_append, List.append_assoc]
  rfl

theorem quote_digits {t w : Bytes} (h : TooLarge w t) : quote t = some (b! "\"" ++ t ++ b! "\"") := by
  obtain ⟨sg, d, b, k, -, h1, h2, -, -, -, rfl⟩ := h
  have hd : ∀ {u : Bytes} {n : Nat}, Numeral 10 u n → u.all (fun b => 0x20 ≤ b && b < 0x7f && b != 0x22 && b != 0x5c) = true := by
    have hdig : ∀ {b : UInt8} {v : Nat}, DigitOf 10 b v → (0x20 ≤ b && b < 0x7f && b != 0x22 && b != 0x5c) = true := by
      rintro b v ⟨hv, h | h⟩
      · have : ∀ v < 10, ∀ b ∈ lowerDigits[v]?, (0x20 ≤ b && b < 0x7f && b != 0x22 && b != 0x5c) = true := by decide
        exact this v hv b h
      · have : ∀ v < 10, ∀ b ∈ upperDigits[v]?, (0x20 ≤ b && b < 0x7f && b != 0x22 && b != 0x5c) = true := by decide
        exact this v hv b h
    intro u n hu
    induction hu with
    | digit h => simpa using hdig h
    | snoc _ h ih => rw [List.all_append, ih]; simpa using hdig h
  unfold quote
  rw [if_pos]
  rw [List.all_append, hd h2.value, Bool.and_true]
  rcases h1 with rfl | rfl | rfl <;> decide

/-- What `Reported` errors say. -/
theorem message_of {s : Bytes} {o : Option Err} {p : LineAndCol} (h : Reported s o p) : ∃ m, errorText o p = some m ∧
    ((o ≠ none ∧ ∃ why, Reason why (s.take p.position) ∧ Report s p.position why m) ∨
     (o = none ∧ (∃ u v x, s = u ++ v ∧ v ≠ [] ∧ Spelled u x) ∧ Report s 0 (b! "Parse failed") m)) := by
  obtain ⟨h1, h2, h3, h4⟩ := h
  cases o with
  | none =>
    obtain ⟨-, -, h5, h6⟩ := h4 rfl
    rw [h5] at h2
    obtain ⟨m, h7, h8⟩ := report_of (e := none) h2 rfl
    exact ⟨m, h7, .inr ⟨rfl, h6, h8⟩⟩
  | some e =>
    have h5 := h3 e rfl
    have : ∃ why, e.text = some why ∧ Reason why (s.take p.position) := by
      generalize s.take p.position = u at h5
      have h6 := h5
      cases h5 with
      | value => exact ⟨_, rfl, .value h6⟩
      | operand => exact ⟨_, rfl, .operand h6⟩
      | group => exact ⟨_, rfl, .group h6⟩
      | range h7 h8 =>
        refine ⟨_, ?_, .range h6⟩
        simp only [Err.text, numErrorText, quote_digits h8, Option.map_some]
        simp [goString, encodeRune]
    obtain ⟨why, h6, h7⟩ := this
    obtain ⟨m, h8, h9⟩ := report_of (e := some e) h2 h6
    exact ⟨m, h8, .inl ⟨by simp, why, h7, h9⟩⟩

/-- **C88.** The text of an error of `formula.Parse`: the reason, the line and the column in decimal, and the picture of the place. -/
theorem C88_formula (s : Bytes) (n : Nat) (o : Option Err) (p : LineAndCol) (h : Formula.parse n s = .ok (.failed o p)) :
    ∃ m, errorText o p = some m ∧ ((∃ pos why, Reason why (s.take pos) ∧ Report s pos why m) ∨
      ((∃ u v x, s = u ++ v ∧ v ≠ [] ∧ Spelled u x) ∧ Report s 0 (b! "Parse failed") m)) := by
  obtain ⟨m, h1, ⟨-, why, h2⟩ | ⟨-, h2⟩⟩ := message_of (C72_formula s n o p h)
  · exact ⟨m, h1, .inl ⟨_, why, h2⟩⟩
  · exact ⟨m, h1, .inr h2⟩

/-- **C88.** The same for `torpn.Parse`. -/
theorem C88_torpn (s : Bytes) (n : Nat) (o : Option Err) (p : LineAndCol) (h : ToRpn.parse n s = .ok (.failed o p)) :
    ∃ m, errorText o p = some m ∧ ((∃ pos why, Reason why (s.take pos) ∧ Report s pos why m) ∨
      ((∃ u v x, s = u ++ v ∧ v ≠ [] ∧ Spelled u x) ∧ Report s 0 (b! "Parse failed") m)) := by
  obtain ⟨m, h1, ⟨-, why, h2⟩ | ⟨-, h2⟩⟩ := message_of (C72_torpn s n o p h)
  · exact ⟨m, h1, .inl ⟨_, why, h2⟩⟩
  · exact ⟨m, h1, .inr h2⟩

/-- **C88.** The text of an error of `csv.Parse`. -/
theorem C88_csv (s : Bytes) (n : Nat) (o : Option Err) (p : LineAndCol) (h : Csv.parse n s = .ok (.failed o p)) :
    ∃ m, errorText o p = some m ∧ ((IsTable (s ++ [0x22]) ∧ Report s s.length (b! "Unexpected EOF") m) ∨
      ((∃ t, Reads s t ∧ BrokenTable t) ∧ Report s 0 (b! "Parse failed") m)) := by
  rcases C73_report s n o p h with ⟨rfl, h1, h2, h3⟩ | ⟨rfl, h1, h2, h3, h4⟩
  · obtain ⟨m, h5, h6⟩ := report_of (e := some (.msg "Unexpected EOF")) h2 rfl
    exact ⟨m, h5, .inl ⟨h3, h6⟩⟩
  · have : ∃ k, getLineAndCol s k 4 = .ok p := by
      cases hr : run noEnv n Csv.document (newStrCtx s) with
      | timeout => rw [csv_parse_of hr] at h; cases h
      | panic x => rw [csv_parse_of hr] at h; cases h
      | ok oe =>
        obtain ⟨c, e⟩ := oe
        rw [csv_parse_of hr] at h
        simp only [Out.bind, Csv.finish] at h
        refine ⟨c.pos, ?_⟩
        have fin : (do let q ← getLineAndCol s c.pos 4; return Formula.ParseRes.failed (α := List (List Bytes)) e q) = .ok (.failed none p) → getLineAndCol s c.pos 4 = .ok p := by
          intro h
          cases hg : getLineAndCol s c.pos 4 with
          | ok q => rw [hg] at h; cases h; rfl
          | panic x => rw [hg] at h; cases h
          | timeout => rw [hg] at h; cases h
        cases e with
        | some e => exact fin h
        | none =>
          simp only at h
          split at h
          · exfalso
            cases ha : goGet c.stack 0 with
            | ok a => cases hb : Csv.asStrss a.val <;> simp [bind, Out.bind, ha, hb, pure] at h
            | panic x => rw [ha] at h; cases h
            | timeout => rw [ha] at h; cases h
          · exact fin h
    obtain ⟨k, hk⟩ := this
    have hk' : k = 0 := by rw [← (position_of hk).2.1]; exact h1
    subst hk'
    obtain ⟨m, h5, h6⟩ := report_of (e := none) hk rfl
    exact ⟨m, h5, .inr ⟨h4, h6⟩⟩

/-! ### Cases -/

/-- The text of the error. -/
private def said {α : Type} : Out (Formula.ParseRes α) → Option Bytes
  | .ok (.failed o p) => errorText o p
  | _ => none

example : said (Formula.parse 99 (b! "1 +\n 2 * ;")) =
    some (b! "Error in the expression after the binary operator\n --> Line 2, Col 6\n   | 1 +\n > |  2 * ;\n   |      ^^^^") := by cbv
example : said (Formula.parse 99 (b! "9_223_372_036_854_775_808")) =
    some (b! "strconv.ParseInt: parsing \"9223372036854775808\": value out of range\n --> Line 1, Col 26\n > | 9_223_372_036_854_775_808\n   |                          ^^^^") := by cbv
example : said (Csv.parse 99 (b! "a,\"b")) = some (b! "Unexpected EOF\n --> Line 1, Col 5\n > | a,\"b\n   |     ^^^^") := by cbv
example : astTypeString AstType.listOfAst.code = "ListOfAst" := rfl

#print axioms C88_astType
#print axioms C88_names
#print axioms C88_unknown
#print axioms C88_status
#print axioms C88_formula
#print axioms C88_torpn
#print axioms C88_csv

end Takenoco
