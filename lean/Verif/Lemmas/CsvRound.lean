import Verif.Lemmas.CsvParse
import Verif.Props.FormulaParse
/-
From the grammar of the csv example to `csv.Parse`, and what `csv.ToCsv` writes.
-/
namespace Takenoco
open Spec

theorem isBlankRow_iff (r : List Bytes) : Csv.isBlankRow r = true ↔ r = [] ∨ r = [[]] := by
  simp [Csv.isBlankRow]

theorem dropTrailingBlank_eq {kept blank : List (List Bytes)} (h1 : ∀ r ∈ blank, r = [] ∨ r = [[]])
    (h2 : ∀ r, kept.getLast? = some r → ¬ (r = [] ∨ r = [[]])) : Csv.dropTrailingBlank (kept ++ blank) = kept := by
  unfold Csv.dropTrailingBlank
  rw [List.reverse_append, List.dropWhile_append_of_pos fun r hr => (isBlankRow_iff r).2 (h1 r (by simpa using hr))]
  rcases List.eq_nil_or_concat kept with rfl | ⟨k, r, rfl⟩
  · rfl
  · rw [List.concat_eq_append] at h2 ⊢
    rw [List.reverse_append, List.reverse_singleton, List.singleton_append,
      List.dropWhile_cons_of_neg fun h => h2 r (by simp) ((isBlankRow_iff r).1 h)]
    simp

theorem utf8s_eq_nil {t : List Char} (h : utf8s t = []) : t = [] := by
  cases t with
  | nil => rfl
  | cons ch t =>
    have := utf8_length_pos ch
    have h' := congrArg List.length h
    rw [utf8s_cons, List.length_append, List.length_nil] at h'
    omega

theorem csv_hits_run {s : Bytes} {t : List (List Bytes)}
    (h : Hits (den noEnv Csv.document) [] s [] (fun l => ∃ a, l = [a] ∧ a.val = .strss t)) :
    ∃ N, ∀ n, N ≤ n → Csv.parse n s = .ok (.value t) := by
  obtain ⟨c', h1, h2⟩ := h (newStrCtx s) (by simpa using newStrCtx_at s)
  obtain ⟨l, h3, a, rfl, h4⟩ := h2.stack
  obtain ⟨N, hN⟩ := run_of_den (outcome_matched h1) (by simp)
  refine ⟨N, fun n hn => ?_⟩
  have : run noEnv n Csv.document (newStrCtx s) = _ := hN n hn
  have h6 : c'.stack = [a] := by rw [h3]; rfl
  simp [Csv.parse, this, Csv.finish, h2.at_.ok, h6, goGet, h4, Csv.asStrss]

theorem rowText_ne {t : List Char} {r : List (List Char)} (h : RowText t r) : r ≠ [] := by
  cases h <;> simp

theorem tableText_rows {t : List Char} {rows : List (List (List Char))} (h : TableText t rows) : ∀ r ∈ rows, r ≠ [] := by
  induction h with
  | last h => intro r hr; rw [List.mem_singleton.1 hr]; exact rowText_ne h
  | more h _ _ _ _ ih =>
    intro r hr
    rcases List.mem_cons.1 hr with rfl | hr
    · exact rowText_ne h
    · exact ih r hr

/-! ### The round trip -/

theorem containsSub_prefix {x s : Bytes} (h : x <+: s) : Csv.containsSub x s = true := by
  cases s with
  | nil => simpa [Csv.containsSub] using h
  | cons b s => simp [Csv.containsSub, h]

theorem containsSub_skip {b : UInt8} {x cs s : Bytes} (hb : contByte b = false) (hcs : ∀ c ∈ cs, contByte c = true) :
    Csv.containsSub (b :: x) (cs ++ s) = Csv.containsSub (b :: x) s := by
  induction cs with
  | nil => rfl
  | cons c cs ih =>
    have : ((b :: x).isPrefixOf (c :: (cs ++ s))) = false := by
      rw [List.isPrefixOf_cons_cons, Bool.and_eq_false_iff]
      left
      rw [beq_eq_false_iff_ne]
      rintro rfl
      rw [hcs b (by simp)] at hb; cases hb
    rw [List.cons_append, Csv.containsSub, this, Bool.false_or]
    exact ih fun c hc => hcs c (by simp [hc])

/-- A character occurs in a text iff its bytes occur in the bytes of the text. -/
theorem containsSub_text (ch : Char) (t : List Char) : Csv.containsSub (utf8 ch) (utf8s t) = true ↔ ch ∈ t := by
  obtain ⟨b, bs, e, hb, _⟩ := utf8_shape ch
  induction t with
  | nil => rw [utf8s_nil, Csv.containsSub, e]; simp
  | cons d t ih =>
    by_cases hd : ch = d
    · subst hd
      simp only [List.mem_cons, true_or, iff_true]
      exact containsSub_prefix (by rw [utf8s_cons]; exact List.prefix_append _ _)
    · obtain ⟨c, cs, e', _, hcs⟩ := utf8_shape d
      have h1 : (utf8 ch).isPrefixOf (utf8s (d :: t)) = false := by
        rw [← Bool.not_eq_true, List.isPrefixOf_iff_prefix, utf8s_cons]
        exact fun h => hd (utf8_prefix h)
      have h2 : utf8s (d :: t) = c :: (cs ++ utf8s t) := by rw [utf8s_cons, e']; rfl
      rw [h2] at h1 ⊢
      rw [Csv.containsSub, h1, Bool.false_or, e, containsSub_skip hb hcs, ← e, ih]
      simp [hd]

theorem needsQuote_text (t : List Char) : Csv.needsQuote (utf8s t) = true ↔ ∃ ch ∈ t, CellEnd ch := by
  have e1 : b! "," = utf8 ',' := by decide
  have e2 : ([0x0a] : Bytes) = utf8 '\n' := by decide
  have e3 : ([0x0b] : Bytes) = utf8 '\x0b' := by decide
  have e4 : ([0x0c] : Bytes) = utf8 '\x0c' := by decide
  have e5 : ([0x0d] : Bytes) = utf8 '\r' := by decide
  have e6 : ([0xc2, 0x85] : Bytes) = utf8 '\u0085' := by decide
  unfold Csv.needsQuote
  rw [e1, e2, e3, e4, e5, e6]
  simp only [Bool.or_eq_true, containsSub_text, cellEnd_mem]
  constructor
  · rintro (((((h | h) | h) | h) | h) | h) <;> exact ⟨_, h, by simp⟩
  · rintro ⟨ch, h, hc⟩
    simp only [List.mem_cons, List.not_mem_nil, or_false] at hc
    rcases hc with rfl | rfl | rfl | rfl | rfl | rfl <;> simp [h]

theorem quote_free {t : List Char} (h : '"' ∉ t) : (0x22 : UInt8) ∉ utf8s t := by
  induction t with
  | nil => simp [utf8s_nil]
  | cons ch t ih =>
    rw [utf8s_cons, List.mem_append]
    rintro (hm | hm)
    · obtain ⟨b, bs, e, _, hbs⟩ := utf8_shape ch
      rw [e, List.mem_cons] at hm
      rcases hm with rfl | hm
      · have : '"' = ch := utf8_prefix (rest := []) (by rw [List.append_nil, e]; exact ⟨bs, rfl⟩)
        exact h (by rw [this]; exact List.mem_cons_self)
      · exact absurd (hbs _ hm) (by decide)
    · exact ih (fun hm => h (by simp [hm])) hm

theorem replaceAll_none {b : UInt8} {x s : Bytes} (h : b ∉ s) : replaceAll b x s = s := by
  unfold replaceAll
  induction s with
  | nil => rfl
  | cons c s ih =>
    simp only [List.mem_cons, not_or] at h
    rw [List.flatMap_cons, ih h.2]
    simp [Ne.symm h.1]

theorem quotedBody_self {t : List Char} (h : '"' ∉ t) : QuotedBody t t := by
  induction t with
  | nil => exact .nil
  | cons ch t ih =>
    simp only [List.mem_cons, not_or] at h
    exact .char (Ne.symm h.1) (ih h.2)

theorem csvCell_text {v : List Char} (h : Survives v) :
    ∃ t, Csv.csvCell (utf8s v) = utf8s t ∧ CellText t v ∧ (t = [] ↔ v = []) ∧ ∀ ch, t.head? = some ch → ¬ CellEnd ch := by
  unfold Csv.csvCell
  by_cases hq : ∃ ch ∈ v, CellEnd ch
  · rw [if_pos ((needsQuote_text v).2 hq)]
    refine ⟨[] ++ '"' :: v ++ '"' :: [], ?_, .quoted (.last (by simp) (quotedBody_self h.quote) (by simp)), ?_, ?_⟩
    · rw [replaceAll_none (quote_free h.quote)]
      simp only [List.nil_append, List.cons_append, utf8s_cons, utf8s_append, utf8s_nil, quote_utf8, List.append_assoc, List.append_nil]
    · obtain ⟨ch, hc, _⟩ := hq
      refine ⟨fun h => by simp at h, ?_⟩
      rintro rfl; cases hc
    · intro ch hc
      cases hc; decide
  · rw [if_neg fun hn => hq ((needsQuote_text v).1 hn)]
    have hall : ∀ ch ∈ v, ¬ CellEnd ch := fun ch hc he => hq ⟨ch, hc, he⟩
    refine ⟨v, rfl, .plain hall ?_ (h.trimmed.resolve_left hq), Iff.rfl, fun ch hc => hall ch (List.mem_of_mem_head? hc)⟩
    rintro a u _ rfl
    exact h.quote (by simp)

theorem toCsvRow_text {r : List (List Char)} (hne : r ≠ []) (h : ∀ v ∈ r, Survives v) :
    ∃ t, Csv.toCsvRow (r.map utf8s) = utf8s t ∧ RowText t r ∧ (r ≠ [[]] → ∃ ch, t.head? = some ch ∧ ¬ LineEnd ch) := by
  induction r with
  | nil => exact absurd rfl hne
  | cons v r ih =>
    obtain ⟨t, h1, h2, h3, h4⟩ := csvCell_text (h v (by simp))
    cases r with
    | nil =>
      refine ⟨t, h1, .last h2, fun hr => ?_⟩
      cases t with
      | nil => exact absurd (by rw [h3.1 rfl]) hr
      | cons ch t => exact ⟨ch, rfl, fun he => h4 ch rfl (.inr he)⟩
    | cons v' r =>
      obtain ⟨u, h5, h6, _⟩ := ih (by simp) fun w hw => h w (by simp [hw])
      refine ⟨t ++ ',' :: u, ?_, .more h2 h6, fun _ => ?_⟩
      · have : Csv.toCsvRow ((v :: v' :: r).map utf8s) = Csv.csvCell (utf8s v) ++ b! "," ++ Csv.toCsvRow ((v' :: r).map utf8s) := rfl
        rw [this, h1, h5, comma_utf8, utf8s_append, utf8s_cons, List.append_assoc]
      · cases t with
        | nil => exact ⟨',', rfl, by decide⟩
        | cons ch t => exact ⟨ch, rfl, fun he => h4 ch rfl (.inr he)⟩

theorem toCsv_text {rows : List (List (List Char))} (hne : rows ≠ [])
    (h : ∀ r ∈ rows, r ≠ [] ∧ r ≠ [[]] ∧ ∀ v ∈ r, Survives v) :
    ∃ t, Csv.toCsv (utf8Table rows) = utf8s t ∧ TableText t rows ∧ ∀ ch, t.head? = some ch → ¬ LineEnd ch := by
  induction rows with
  | nil => exact absurd rfl hne
  | cons r rows ih =>
    obtain ⟨h1, h2, h3⟩ := h r (by simp)
    obtain ⟨t, h4, h5, h6⟩ := toCsvRow_text h1 h3
    obtain ⟨ch, h7, h8⟩ := h6 h2
    cases rows with
    | nil => exact ⟨t, h4, .last h5, fun x hx => by rw [h7] at hx; cases hx; exact h8⟩
    | cons r' rows =>
      obtain ⟨u, h9, h10, h11⟩ := ih (by simp) fun x hx => h x (by simp [hx])
      have e : b! "\n" = utf8s ['\n'] := by decide
      refine ⟨t ++ ['\n'] ++ u, ?_, .more h5 (by simp) (by simp [LineEnd]) h11 h10, fun x hx => ?_⟩
      · have : Csv.toCsv (utf8Table (r :: r' :: rows)) = Csv.toCsvRow (r.map utf8s) ++ b! "\n" ++ Csv.toCsv (utf8Table (r' :: rows)) := rfl
        rw [this, h4, h9, e, utf8s_append, utf8s_append]
      · cases t with
        | nil => cases h7
        | cons d t => cases hx; cases h7; exact h8

end Takenoco
