import Verif.Lemmas.CsvTotal
import Verif.Lemmas.FormulaTokens
import Verif.Lemmas.Span
import Verif.Props.Transformers
import Verif.Spec.Csv
/-
The grammar of the csv example on texts of tables.
-/
namespace Takenoco
open Spec Csv

/-! ### Characters -/

theorem utf8_prefix {x ch : Char} {rest : Bytes} (h : utf8 x <+: utf8 ch ++ rest) : x = ch := by
  obtain ⟨t, ht⟩ := h
  have h1 : NextChar (utf8 ch ++ rest) x (utf8 x).length := by rw [← ht]; exact .char x t
  exact (nextChar_unique h1 (.char ch rest)).1

theorem utf8s_nil : utf8s [] = [] := rfl

theorem quote_utf8 : b! "\"" = utf8 '"' := by decide
theorem comma_utf8 : b! "," = utf8 ',' := by decide
theorem cellBreaks_utf8 : cellBreakCharacters = [',', '\n', '\x0b', '\x0c', '\r', '\u0085'].map utf8 := by decide

instance (ch : Char) : Decidable (LineBlank ch) := by unfold LineBlank; infer_instance
instance (ch : Char) : Decidable (LineEnd ch) := by unfold LineEnd; infer_instance
instance (ch : Char) : Decidable (CellEnd ch) := by unfold CellEnd; infer_instance
instance (ch : Char) : Decidable (Blank ch) := by unfold Blank; infer_instance

theorem cellEnd_mem {ch : Char} : CellEnd ch ↔ ch ∈ [',', '\n', '\x0b', '\x0c', '\r', '\u0085'] := by
  simp [CellEnd, LineEnd]

theorem lineBlank_not_end {ch : Char} (h : LineBlank ch) : ¬ CellEnd ch := by
  unfold LineBlank at h
  simp only [List.mem_cons, List.not_mem_nil, or_false] at h
  rcases h with rfl | rfl | rfl <;> decide

theorem lineBlank_not_quote {ch : Char} (h : LineBlank ch) : ch ≠ '"' := by
  unfold LineBlank at h
  simp only [List.mem_cons, List.not_mem_nil, or_false] at h
  rcases h with rfl | rfl | rfl <;> decide

theorem cellEnd_not_quote {ch : Char} (h : CellEnd ch) : ch ≠ '"' := by
  rw [cellEnd_mem] at h
  simp only [List.mem_cons, List.not_mem_nil, or_false] at h
  rcases h with rfl | rfl | rfl | rfl | rfl | rfl <;> decide

/-- The rest does not start with a character satisfying `S`. -/
def NotNext (S : Char → Prop) (s : Bytes) : Prop := ∀ ch n, NextChar s ch n → ¬ S ch

theorem notNext_nil {S : Char → Prop} : NotNext S [] := fun _ _ h => (nextChar_nil h).elim

theorem notNext_char {S : Char → Prop} {ch : Char} {s : Bytes} (h : ¬ S ch) : NotNext S (utf8 ch ++ s) := fun ch' n hn => by
  rw [← (nextChar_unique (.char ch s) hn).1]; exact h

theorem notNext_text {S : Char → Prop} {t : List Char} {s : Bytes} (h : ∀ ch, t.head? = some ch → ¬ S ch) (hs : NotNext S s) :
    NotNext S (utf8s t ++ s) := by
  cases t with
  | nil => exact hs
  | cons ch t => rw [utf8s_cons, List.append_assoc]; exact notNext_char (h ch rfl)

theorem notNext_prefix {ch : Char} {s : Bytes} (h : NotNext (· = ch) s) : ¬ utf8 ch <+: s := fun ⟨t, ht⟩ =>
  h ch (utf8 ch).length (by rw [← ht]; exact .char ch t) rfl

/-- A run of characters. -/
theorem charRun_text {S : Char → Prop} {t : List Char} {s : Bytes} (ht : ∀ ch ∈ t, S ch) (hs : NotNext S s) :
    CharRun S (utf8s t ++ s) (utf8s t) t s := by
  induction t with
  | nil => exact .stop hs
  | cons ch t ih =>
    have h1 : NextChar (utf8s (ch :: t) ++ s) ch (utf8 ch).length := by
      rw [utf8s_cons, List.append_assoc]; exact .char ch _
    have h2 := CharRun.next h1 (ht ch (by simp)) (w := utf8s t) (t := t) (rest := s) (by
      rw [utf8s_cons, List.append_assoc, List.drop_left]; exact ih fun c hc => ht c (by simp [hc]))
    have e : (utf8s (ch :: t) ++ s).take (utf8 ch).length = utf8 ch := by
      rw [utf8s_cons, List.append_assoc, List.take_left]
    rw [e] at h2; exact h2

theorem next_prefix {x ch : Char} {s : Bytes} {n : Nat} (h : NextChar s ch n) (hp : utf8 x <+: s) : x = ch := by
  obtain ⟨t, rfl⟩ := hp
  exact (nextChar_unique (.char x t) h).1

theorem notNext_span {S : Char → Prop} {t : List Char} {w s : Bytes} (hw : Span s w t) (h : ∀ ch, t.head? = some ch → ¬ S ch) (hs : NotNext S s) :
    NotNext S (w ++ s) := by
  cases t with
  | nil => cases hw; exact hs
  | cons ch t =>
    intro ch' n hn
    obtain ⟨m, hm⟩ := span_next hw
    rw [(nextChar_unique hn hm).1]
    exact h ch rfl

section
variable {env : Env}

theorem csvSp_hits {b : List Char} {w s : Bytes} (hw : Span s w b) (hb : ∀ ch ∈ b, LineBlank ch) (hs : NotNext LineBlank s) (pre : Bytes) :
    Hits (den env sp) pre w s (· = []) :=
  erased_hits (charRun_star C18_whitespaceNoLineBreak (span_run hw hb hs) pre)

theorem quote_hits (pre s : Bytes) : Hits (den env (Gram.erased (.prim (seqS (b! "\""))))) pre (utf8 '"') s (· = []) := by
  rw [quote_utf8]; exact erased_hits (seqS_hits pre _ s)

/-! ### Quoted cells -/

theorem pair_utf8 : b! "\"\"" = utf8 '"' ++ utf8 '"' := by decide

theorem quotedChar_misses {s : Bytes} (pre : Bytes) (hs : NotNext (· = '"') s) : Misses (den env quotedChar) pre (utf8 '"' ++ s) := by
  refine first_misses (by simp) fun g hg => ?_
  simp only [List.mem_cons, List.not_mem_nil, or_false] at hg
  rcases hg with rfl | rfl
  · refine erased_misses (seqS_misses ?_)
    rw [pair_utf8]
    exact fun h => notNext_prefix hs ((List.prefix_append_right_inj _).1 h)
  · exact charClassN_misses (.inr ⟨utf8 '"', by rw [quote_utf8]; simp, List.prefix_append _ _⟩)

theorem pair_hits (pre s : Bytes) : Hits (den env quotedChar) pre (utf8 '"' ++ utf8 '"') s (· = []) := by
  refine first_hits (.here ?_)
  rw [pair_utf8]; exact erased_hits (seqS_hits pre _ _)

theorem char_hits {w s : Bytes} {ch : Char} (h : NextChar (w ++ s) ch w.length) (hch : ch ≠ '"') (pre : Bytes) :
    Hits (den env quotedChar) pre w s (Text (utf8 ch)) := by
  refine first_hits (.there ?_ (.here ?_))
  · refine erased_misses (seqS_misses ?_)
    rw [pair_utf8]
    exact fun hp => hch (next_prefix h ((List.prefix_append _ _).trans hp)).symm
  · exact (charClassN_hits h fun x hx hp => by
      simp only [List.mem_cons, List.not_mem_nil, or_false] at hx
      subst hx
      rw [quote_utf8] at hp
      exact hch (next_prefix h hp).symm).mono fun l hl => hl.text

theorem quotedBody_iter {t v : List Char} (h : QuotedBody t v) {w s : Bytes} (hw : Span (utf8 '"' ++ s) w t) (hs : NotNext (· = '"') s) (pre : Bytes) :
    ∃ n Q, Iter [den env quotedChar] n pre w (utf8 '"' ++ s) Q ∧ ∀ l, Q l → Texts l (v.map utf8) := by
  induction h generalizing pre w with
  | nil =>
    cases hw
    exact ⟨0, _, .stop (.head (quotedChar_misses pre hs)), fun l hl => nil_texts hl⟩
  | @char ch t v hch _ ih =>
    cases hw with
    | @cons a b _ _ g1 g2 =>
      obtain ⟨n, Q, h1, h2⟩ := ih g2 (pre ++ a)
      refine ⟨n + 1, _, .next (.single (char_hits g1 hch pre)) h1, fun l hl => ?_⟩
      obtain ⟨a, b, rfl, h3, h4⟩ := hl
      exact texts_append h3 (h2 b h4)
  | @pair t v _ ih =>
    obtain ⟨w₁, rfl, g1⟩ := span_char hw (by decide)
    obtain ⟨w₂, rfl, g2⟩ := span_char g1 (by decide)
    obtain ⟨n, Q, h1, h2⟩ := ih g2 (pre ++ (utf8 '"' ++ utf8 '"'))
    rw [← List.append_assoc]
    refine ⟨n + 1, _, .next (.single (pair_hits pre _)) h1, fun l hl => ?_⟩
    obtain ⟨a, b, rfl, rfl, h4⟩ := hl
    exact h2 b h4

theorem span_quoted {s w : Bytes} {a t b : List Char} (h : Span s w (a ++ '"' :: t ++ '"' :: b)) :
    ∃ wa wt wb, w = wa ++ (utf8 '"' ++ (wt ++ (utf8 '"' ++ wb))) ∧ Span (utf8 '"' ++ (wt ++ (utf8 '"' ++ (wb ++ s)))) wa a ∧
      Span (utf8 '"' ++ (wb ++ s)) wt t ∧ Span s wb b := by
  obtain ⟨w1, w2, rfl, h1, h2⟩ := span_split h
  obtain ⟨wb, rfl, h5⟩ := span_char h2 (by decide)
  obtain ⟨wa, w3, rfl, h3, h4⟩ := span_split h1
  obtain ⟨wt, rfl, h6⟩ := span_char h4 (by decide)
  exact ⟨wa, wt, wb, by simp, by simpa using h3, by simpa using h6, h5⟩

theorem quotedChunk_hits {a t v b : List Char} {w s : Bytes} (hw : Span s w (a ++ '"' :: t ++ '"' :: b))
    (ha : ∀ ch ∈ a, LineBlank ch) (ht : QuotedBody t v) (hb : ∀ ch ∈ b, LineBlank ch)
    (h1 : b = [] → NotNext (· = '"') s) (h2 : NotNext LineBlank s) (pre : Bytes) :
    Hits (den env quotedChunk) pre w s (Texts · (v.map utf8)) := by
  obtain ⟨wa, wt, wb, rfl, ga, gt, gb⟩ := span_quoted hw
  have h1 : NotNext (· = '"') (wb ++ s) := by
    cases b with
    | nil => cases gb; exact h1 rfl
    | cons c b =>
      intro ch n hn
      obtain ⟨m, hm⟩ := span_next gb
      rw [(nextChar_unique hn hm).1]
      exact lineBlank_not_quote (hb c (by simp))
  obtain ⟨n, Q, h3, h4⟩ := quotedBody_iter (env := env) ht gt h1 (pre ++ wa ++ utf8 '"')
  have hb' : ¬ LineBlank '"' := by decide
  refine (flat_hits (gs := [sp, Gram.erased (.prim (seqS (b! "\""))), Gram.star [quotedChar], .first [_, _], sp])
    (.cons (csvSp_hits (by simpa using ga) ha (by rw [List.append_assoc]; exact notNext_char hb') pre)
      (.cons (quote_hits _ _) (.cons (star_hits (gs := [quotedChar]) (by rw [List.append_assoc (utf8 '"')]; exact h3))
        (.cons (first_hits (.here (quote_hits _ _))) (.single (csvSp_hits gb hb h2 _))))))).mono fun l hl => ?_
  obtain ⟨_, _, rfl, rfl, _, _, rfl, rfl, x, _, rfl, hx, _, _, rfl, rfl, rfl⟩ := hl
  simpa using h4 x hx

theorem quotedChunk_misses {a : List Char} {w s : Bytes} (hw : Span s w a) (ha : ∀ ch ∈ a, LineBlank ch) (h1 : NotNext (· = '"') s)
    (h2 : NotNext LineBlank s) (pre : Bytes) : Misses (den env quotedChunk) pre (w ++ s) :=
  flat_misses (gs := [sp, Gram.erased (.prim (seqS (b! "\""))), Gram.star [quotedChar], .first [_, _], sp])
    (.tail (csvSp_hits hw ha h2 pre) (.head (erased_misses (seqS_misses (by rw [quote_utf8]; exact notNext_prefix h1)))))

/-- After a cell: a comma, a line break or nothing. -/
def CellStop (s : Bytes) : Prop := s = [] ∨ ∃ ch s', s = utf8 ch ++ s' ∧ CellEnd ch

theorem CellStop.notBlank {s : Bytes} (h : CellStop s) : NotNext LineBlank s := by
  rcases h with rfl | ⟨ch, s', rfl, hc⟩
  · exact notNext_nil
  · exact notNext_char fun hb => lineBlank_not_end hb hc

theorem CellStop.notQuote {s : Bytes} (h : CellStop s) : NotNext (· = '"') s := by
  rcases h with rfl | ⟨ch, s', rfl, hc⟩
  · exact notNext_nil
  · exact notNext_char fun hb => cellEnd_not_quote hc hb

theorem quotedCell_iter {t v : List Char} (h : QuotedCell t v) {w s : Bytes} (hw : Span s w t) (hq : NotNext (· = '"') s) (hn : NotNext LineBlank s)
    (pre : Bytes) :
    ∃ n Q, Iter [den env quotedChunk] (n + 1) pre w s Q ∧ ∀ l, Q l → Texts l (v.map utf8) := by
  induction h generalizing pre w with
  | @last a t v b ha ht hb =>
    have h2 := Iter.stop (ps := [den env quotedChunk]) (pre := pre ++ w) (rest := s)
      (.head (by simpa using quotedChunk_misses (env := env) (a := []) .nil (by simp) hq hn _))
    have := Iter.next (.single (by simpa using quotedChunk_hits (env := env) hw ha ht hb (fun _ => hq) hn pre)) h2
    rw [List.append_nil] at this
    refine ⟨0, _, this, fun l hl => ?_⟩
    obtain ⟨x, y, rfl, hx, rfl⟩ := hl
    simpa using hx
  | @more a t v b u x ha ht hb hne _ ih =>
    have e : a ++ '"' :: t ++ '"' :: (b ++ '"' :: u) = (a ++ '"' :: t ++ '"' :: b) ++ '"' :: u := by simp
    rw [e] at hw
    obtain ⟨w1, w2, rfl, g1, g2⟩ := span_split hw
    obtain ⟨n, Q, h1, h2⟩ := ih g2 (pre ++ w1)
    have h4 : NotNext LineBlank (w2 ++ s) := by
      obtain ⟨w3, rfl, _⟩ := span_char g2 (by decide)
      rw [List.append_assoc]
      exact notNext_char (by decide)
    refine ⟨n + 1, _, .next (.single (quotedChunk_hits g1 ha ht hb (fun h => absurd h hne) h4 pre)) h1, fun l hl => ?_⟩
    obtain ⟨x, y, rfl, hx, hy⟩ := hl
    rw [List.map_append]
    exact texts_append hx (h2 y hy)

/-- One AST with this string. -/
def CellAst (v : List Char) (l : List Ast) : Prop := ∃ a, l = [a] ∧ a.val = .str (utf8s v)

theorem flatten_utf8 (v : List Char) : (v.map utf8).flatten = utf8s v := by
  unfold utf8s; rw [List.flatMap_def]

theorem quotedCell_hits {t v : List Char} (h : QuotedCell t v) {w s : Bytes} (hw : Span s w t) (hq : NotNext (· = '"') s) (hn : NotNext LineBlank s)
    (pre : Bytes) :
    Hits (den env quotedCell) pre w s (CellAst v) := by
  obtain ⟨n, Q, h1, h2⟩ := quotedCell_iter (env := env) h hw hq hn pre
  refine trans_hits (by simp) (plus_hits (gs := [quotedChunk]) h1) fun c l hl => ?_
  simp only [List.map, denTr_fn, applyTrs, concat_texts (h2 l hl)]
  refine ⟨_, rfl, _, rfl, ?_⟩
  rw [flatten_utf8]; cases l <;> rfl

/-! ### Unquoted cells -/

theorem blank_split (t : List Char) : ∃ a u, t = a ++ u ∧ (∀ ch ∈ a, LineBlank ch) ∧ ∀ ch, u.head? = some ch → ¬ LineBlank ch := by
  refine ⟨t.takeWhile (fun ch => decide (LineBlank ch)), t.dropWhile (fun ch => decide (LineBlank ch)),
    (List.takeWhile_append_dropWhile ..).symm, fun ch hc => ?_, fun ch hc => ?_⟩
  · simpa using List.all_eq_true.1 List.all_takeWhile ch hc
  · have := List.head?_dropWhile_not (fun ch => decide (LineBlank ch)) t
    rw [hc] at this
    simpa using this

theorem quotedCell_misses {t : List Char} (h : ∀ a u, (∀ ch ∈ a, LineBlank ch) → t ≠ a ++ '"' :: u) {w s : Bytes} (hw : Span s w t)
    (h1 : NotNext (· = '"') s) (h2 : NotNext LineBlank s) (pre : Bytes) : Misses (den env quotedCell) pre (w ++ s) := by
  obtain ⟨a, u, rfl, ha, hd⟩ := blank_split t
  obtain ⟨w1, w2, rfl, g1, g2⟩ := span_split hw
  refine trans_misses (plus_misses (gs := [quotedChunk]) (.head ?_))
  rw [List.append_assoc]
  refine quotedChunk_misses g1 ha (notNext_span g2 (fun ch hc he => ?_) h1) (notNext_span g2 hd h2) pre
  cases u with
  | nil => cases hc
  | cons x u => cases hc; subst he; exact h a u ha rfl

theorem plain_iter {t : List Char} (h : ∀ ch ∈ t, ¬ CellEnd ch) {w s : Bytes} (hw : Span s w t) (hs : CellStop s) (pre : Bytes) :
    ∃ Q, Iter [den env (.prim (charClassN cellBreakCharacters))] t.length pre w s Q ∧ ∀ l, Q l → Texts l (t.map utf8) := by
  induction hw generalizing pre with
  | nil =>
    refine ⟨_, .stop (.head (charClassN_misses ?_)), fun l hl => nil_texts hl⟩
    rcases hs with rfl | ⟨ch, s', rfl, hc⟩
    · exact .inl rfl
    · refine .inr ⟨utf8 ch, ?_, List.prefix_append _ _⟩
      rw [cellBreaks_utf8]
      exact List.mem_map_of_mem (cellEnd_mem.1 hc)
  | @cons a b ch t g1 _ ih =>
    obtain ⟨Q, h1, h2⟩ := ih (fun c hc => h c (by simp [hc])) (pre ++ a)
    refine ⟨_, .next (.single (charClassN_hits g1 fun x hx hp => ?_)) h1, fun l hl => ?_⟩
    · rw [cellBreaks_utf8] at hx
      obtain ⟨y, hy, rfl⟩ := List.mem_map.1 hx
      rw [next_prefix g1 hp] at hy
      exact h ch (by simp) (cellEnd_mem.2 hy)
    · obtain ⟨x, y, rfl, h3, h4⟩ := hl
      exact texts_append h3.text (h2 y h4)

/-! ### Trimming -/

/-- A continuation byte. -/
def contByte (b : UInt8) : Bool := decide (0x80 ≤ b.toNat ∧ b.toNat < 0xc0)

theorem utf8_shape (ch : Char) : ∃ b bs, utf8 ch = b :: bs ∧ contByte b = false ∧ ∀ x ∈ bs, contByte x = true := by
  have hc : ∀ b : UInt8, contByte b = decide (0x80 ≤ b.toNat ∧ b.toNat < 0xc0) := fun _ => rfl
  simp only [hc]
  rw [← encode_char]
  have hs := char_scalar ch
  unfold isScalar at hs
  unfold encodeRune
  generalize ch.toNat = v at *
  have cont : ∀ x, x < 64 → decide (0x80 ≤ (0x80 + x).toUInt8.toNat ∧ (0x80 + x).toUInt8.toNat < 0xc0) = true := by
    intro x hx
    rw [toUInt8_toNat, Nat.mod_eq_of_lt (by omega)]
    simp; omega
  split
  · refine ⟨_, _, rfl, ?_, by simp⟩
    rw [toUInt8_toNat, Nat.mod_eq_of_lt (by omega), decide_eq_false_iff_not]; omega
  split
  · refine ⟨_, _, rfl, ?_, ?_⟩
    · rw [toUInt8_toNat, Nat.mod_eq_of_lt (by omega), decide_eq_false_iff_not]; omega
    · simp only [List.mem_cons, List.not_mem_nil, or_false]
      rintro b rfl; exact cont _ (by omega)
  rw [if_pos (show isScalar v from hs)]
  split
  · refine ⟨_, _, rfl, ?_, ?_⟩
    · rw [toUInt8_toNat, Nat.mod_eq_of_lt (by omega), decide_eq_false_iff_not]; omega
    · simp only [List.mem_cons, List.not_mem_nil, or_false]
      rintro b (rfl | rfl) <;> exact cont _ (by omega)
  · refine ⟨_, _, rfl, ?_, ?_⟩
    · rw [toUInt8_toNat, Nat.mod_eq_of_lt (by omega), decide_eq_false_iff_not]; omega
    · simp only [List.mem_cons, List.not_mem_nil, or_false]
      rintro b (rfl | rfl | rfl) <;> exact cont _ (by omega)

theorem cont_suffix {b c : UInt8} {bs cs x y : Bytes} (hb : contByte b = false) (hbs : ∀ z ∈ bs, contByte z = true)
    (hc : contByte c = false) (hcs : ∀ z ∈ cs, contByte z = true) (h : x ++ b :: bs = y ++ c :: cs) : x = y ∧ b :: bs = c :: cs := by
  have key : ∀ (p q : Bytes) (b c : UInt8) (r s : Bytes), contByte b = false → (∀ z ∈ p, contByte z = true) → contByte c = false →
      (∀ z ∈ q, contByte z = true) → p ++ b :: r = q ++ c :: s → p = q ∧ b = c ∧ r = s := by
    intro p
    induction p with
    | nil =>
      intro q b c r s hb _ hc hq he
      cases q with
      | nil => cases he; exact ⟨rfl, rfl, rfl⟩
      | cons z q => cases he; rw [hq b (by simp)] at hb; cases hb
    | cons z p ih =>
      intro q b c r s hb hp hc hq he
      cases q with
      | nil => cases he; rw [hp z (by simp)] at hc; cases hc
      | cons w q =>
        rw [List.cons_append, List.cons_append] at he
        obtain ⟨rfl, he'⟩ := List.cons.inj he
        obtain ⟨rfl, rfl, rfl⟩ := ih q b c r s hb (fun y hy => hp y (by simp [hy])) hc (fun y hy => hq y (by simp [hy])) he'
        exact ⟨rfl, rfl, rfl⟩
  have := congrArg List.reverse h
  simp only [List.reverse_append, List.reverse_cons, List.append_assoc, List.singleton_append] at this
  obtain ⟨h1, rfl, h2⟩ := key bs.reverse cs.reverse b c x.reverse y.reverse hb (by simpa using hbs) hc (by simpa using hcs) this
  exact ⟨List.reverse_inj.1 h2, by rw [List.reverse_inj.1 h1]⟩

/-- The last character of a text can be read off its bytes. -/
theorem utf8_last {x y : Bytes} {ch d : Char} (h : x ++ utf8 ch = y ++ utf8 d) : x = y ∧ ch = d := by
  obtain ⟨b, bs, e1, h1, h2⟩ := utf8_shape ch
  obtain ⟨c, cs, e2, h3, h4⟩ := utf8_shape d
  have h' := h
  rw [e1, e2] at h'
  obtain ⟨rfl, h5⟩ := cont_suffix h1 h2 h3 h4 h'
  refine ⟨rfl, utf8_prefix (rest := []) ?_⟩
  rw [e1, e2, h5, List.append_nil]
  exact List.prefix_refl _

theorem endsBlank_text {t : List Char} (h : ∀ ch, t.getLast? = some ch → ¬ Blank ch) : ¬ EndsBlank (utf8s t) := by
  rintro ⟨ch, x, hb, he⟩
  induction t using list_rev_ind with
  | nil =>
    have := congrArg List.length he
    have h2 := utf8_length_pos ch
    rw [utf8s_nil, List.length_append, List.length_nil] at this; omega
  | snoc t d _ =>
    rw [utf8s_append, utf8s_single] at he
    rw [(utf8_last he).2] at h
    exact h ch (by simp) hb

theorem startsBlank_text {t : List Char} (h : ∀ ch, t.head? = some ch → ¬ Blank ch) : ¬ StartsBlank (utf8s t) := by
  rintro ⟨ch, x, hb, he⟩
  cases t with
  | nil =>
    have := congrArg List.length he
    have h2 := utf8_length_pos ch
    rw [utf8s_nil, List.length_append, List.length_nil] at this; omega
  | cons d t =>
    have := utf8_prefix (x := ch) (ch := d) (rest := utf8s t) (by rw [← utf8s_cons, he]; exact List.prefix_append _ _)
    subst this
    exact h ch rfl hb

theorem trimmedEnd_unique {s t t' : Bytes} (h : TrimmedEnd s t) (h' : TrimmedEnd s t') : t = t' := by
  obtain ⟨⟨ws, h1, rfl⟩, h2⟩ := h
  obtain ⟨⟨ws', h1', e⟩, h2'⟩ := h'
  induction ws using list_rev_ind generalizing ws' with
  | nil =>
    have := trimmedEnd_self ⟨⟨ws', h1', e⟩, h2'⟩ (by simpa [utf8s_nil] using h2)
    simpa [utf8s_nil] using this.symm
  | snoc ws ch ih =>
    have hb : Blank ch := h1 ch (by simp)
    rcases List.eq_nil_or_concat ws' with rfl | ⟨ws', d, rfl⟩
    · refine absurd ⟨ch, t ++ utf8s ws, hb, ?_⟩ h2'
      rw [utf8s_nil, List.append_nil] at e
      rw [← e, utf8s_append, utf8s_single, List.append_assoc]
    · rw [List.concat_eq_append, utf8s_append, utf8s_append, utf8s_single, utf8s_single, ← List.append_assoc, ← List.append_assoc] at e
      exact ih (fun x hx => h1 x (by simp [hx])) ws' (fun x hx => h1' x (by simp [hx])) (utf8_last e).1

theorem trimBoth_text {t v : List Char} (h : TrimmedText t v) : trimBoth (utf8s t) = utf8s v := by
  obtain ⟨⟨a, b, ha, hb, rfl⟩, h1, h2⟩ := h
  unfold trimBoth
  by_cases hv : v = []
  · subst hv
    have : trimRight (utf8s (a ++ [] ++ b)) = [] := by
      refine trimmedEnd_unique (trimRight_spec _) ⟨⟨a ++ b, ?_, by simp⟩, ?_⟩
      · intro ch hc
        rcases List.mem_append.1 hc with hc | hc
        · exact ha ch hc
        · exact hb ch hc
      · exact endsBlank_text (t := []) (by simp)
    rw [this]; rfl
  · have : trimRight (utf8s (a ++ v ++ b)) = utf8s (a ++ v) := by
      refine trimmedEnd_unique (trimRight_spec _) ⟨⟨b, hb, utf8s_append _ _⟩, endsBlank_text fun ch hc => ?_⟩
      refine h2 ch ?_
      rw [List.getLast?_append] at hc
      cases hl : v.getLast? with
      | none => exact absurd (List.getLast?_eq_none_iff.1 hl) hv
      | some x => rw [hl] at hc; exact hc
    rw [this, utf8s_append]
    exact C23_trimmedStart_unique (trimLeft_spec _) ⟨⟨a, ha, rfl⟩, startsBlank_text h1⟩

/-! ### Cells, rows, tables -/

theorem plain_hits {t v : List Char} (h : ∀ ch ∈ t, ¬ CellEnd ch) (hv : TrimmedText t v) {w s : Bytes} (hw : Span s w t) (hs : CellStop s)
    (pre : Bytes) : Hits (den env cell) pre w s (CellAst v) := by
  obtain ⟨Q, h1, h2⟩ := plain_iter (env := env) h hw hs pre
  refine trans_hits (by simp) (star_hits (gs := [.prim (charClassN cellBreakCharacters)]) h1) fun c l hl => ?_
  have hs : (summary l .string (.str (t.map utf8).flatten)).val = .str (t.map utf8).flatten := by cases l <;> rfl
  simp only [List.map, denTr_fn, applyTrs, trim, afterConcat, concat_texts (h2 l hl), hs, asStr]
  refine ⟨_, rfl, _, rfl, ?_⟩
  rw [flatten_utf8, trimBoth_text hv]

theorem anyCell_hits {t v : List Char} (h : CellText t v) {w s : Bytes} (hw : Span s w t) (hs : CellStop s) (pre : Bytes) :
    Hits (den env (.first [quotedCell, cell])) pre w s (CellAst v) := by
  cases h with
  | plain h1 h2 h3 => exact first_hits (.there (quotedCell_misses h2 hw hs.notQuote hs.notBlank pre) (.here (plain_hits h1 h3 hw hs pre)))
  | quoted h => exact first_hits (.here (quotedCell_hits h hw hs.notQuote hs.notBlank pre))

theorem comma_hits (pre s : Bytes) : Hits (den env (Gram.erased (.prim (seqS (b! ","))))) pre (utf8 ',') s (· = []) := by
  rw [comma_utf8]; exact erased_hits (seqS_hits pre _ s)

/-- After a line: a line break or nothing. -/
def LineStop (s : Bytes) : Prop := s = [] ∨ ∃ ch s', s = utf8 ch ++ s' ∧ LineEnd ch

theorem LineStop.cell {s : Bytes} (h : LineStop s) : CellStop s := by
  rcases h with rfl | ⟨ch, s', rfl, h⟩
  · exact .inl rfl
  · exact .inr ⟨ch, s', rfl, .inr h⟩

theorem LineStop.notComma {s : Bytes} (h : LineStop s) : NotNext (· = ',') s := by
  rcases h with rfl | ⟨ch, s', rfl, h⟩
  · exact notNext_nil
  · refine notNext_char ?_
    unfold LineEnd at h
    simp only [List.mem_cons, List.not_mem_nil, or_false] at h
    rcases h with rfl | rfl | rfl | rfl | rfl <;> decide

theorem row_iter {t : List Char} {r : List (List Char)} (h : RowText t r) {w s : Bytes} (hw : Span s w t) (hs : LineStop s) (pre : Bytes) :
    ∃ n w₁ w₂ t₂ r₁ v Q, w = w₁ ++ w₂ ∧ r = r₁ ++ [v] ∧ CellText t₂ v ∧ Span s w₂ t₂ ∧
      Iter [den env (.first [quotedCell, cell]), den env (Gram.erased (.prim (seqS (b! ","))))] n pre w₁ (w₂ ++ s) Q ∧
      ∀ l, Q l → Strings l (r₁.map utf8s) := by
  induction h generalizing pre w with
  | @last t v h =>
    refine ⟨0, [], w, t, [], v, _, rfl, rfl, h, hw, .stop ?_, fun l hl => by subst hl; exact .nil⟩
    refine .tail (anyCell_hits h hw hs.cell pre) (.head (erased_misses (seqS_misses ?_)))
    rw [comma_utf8]; exact notNext_prefix hs.notComma
  | @more t v u r h _ ih =>
    obtain ⟨w1, w2, rfl, g1, g2⟩ := span_split hw
    obtain ⟨w2, rfl, g3⟩ := span_char g2 (by decide)
    obtain ⟨n, w₁, w₂, t₂, r₁, x, Q, rfl, rfl, h0, h1, h2, h3⟩ := ih g3 (pre ++ (w1 ++ utf8 ','))
    refine ⟨n + 1, (w1 ++ utf8 ',') ++ w₁, w₂, t₂, v :: r₁, x, Both (CellAst v) Q, by simp, rfl, h0, h1, ?_, ?_⟩
    · refine .next ((SeqHits.cons (anyCell_hits h (by simpa using g1) ?_ pre) (.single (comma_hits _ _))).mono fun l hl => ?_) h2
      · exact .inr ⟨',', _, rfl, .inl rfl⟩
      · obtain ⟨a, b, rfl, ha, rfl⟩ := hl
        simpa using ha
    · rintro l ⟨a, b, rfl, ⟨x, rfl, hx⟩, hb⟩
      exact .cons hx (h3 b hb)

/-- One AST with this row. -/
def RowAst (r : List (List Char)) (l : List Ast) : Prop := ∃ a, l = [a] ∧ a.val = .strs (r.map utf8s)

theorem line_hits {t : List Char} {r : List (List Char)} (h : RowText t r) {w s : Bytes} (hw : Span s w t) (hs : LineStop s) (pre : Bytes) :
    Hits (den env line) pre w s (RowAst r) := by
  obtain ⟨n, w₁, w₂, t₂, r₁, v, Q, rfl, rfl, h0, h1, h2, h3⟩ := row_iter (env := env) h hw hs pre
  refine trans_hits (by simp) (flat_hits (gs := [Gram.star [.first [quotedCell, cell], Gram.erased (.prim (seqS (b! ",")))], .first [quotedCell, cell]])
    (.cons (star_hits (gs := [.first [quotedCell, cell], Gram.erased (.prim (seqS (b! ",")))]) h2) (.single (anyCell_hits h0 h1 hs.cell _)))) fun c l hl => ?_
  obtain ⟨a, b, rfl, ha, x, rfl, hx⟩ := hl
  have := cellValues_of (strings_append (h3 a ha) (.cons hx .nil))
  simp only [List.map, denTr_fn, applyTrs, lineTransform, this]
  exact ⟨_, rfl, _, rfl, by simp⟩

theorem breaks_hits {bs : List Char} (hne : bs ≠ []) (hb : ∀ ch ∈ bs, LineEnd ch) {w s : Bytes} (hw : Span s w bs) (hs : NotNext LineEnd s)
    (pre : Bytes) : Hits (den env (Gram.erased (Gram.plus [.prim lineBreak]))) pre w s (· = []) := by
  obtain ⟨Q, h1, _⟩ := charRun_iter (env := env) C18_lineBreak (span_run hw hb hs) pre
  cases bs with
  | nil => exact absurd rfl hne
  | cons b bs => exact erased_hits (plus_hits (gs := [.prim lineBreak]) h1)

/-- ASTs for these rows. -/
inductive RowsAst : List (List (List Char)) → List Ast → Prop where
  | nil : RowsAst [] []
  | cons {r : List (List Char)} {rs : List (List (List Char))} {a : Ast} {l : List Ast} : a.val = .strs (r.map utf8s) → RowsAst rs l →
      RowsAst (r :: rs) (a :: l)

theorem rowsAst_snoc {rs : List (List (List Char))} {l : List Ast} (h : RowsAst rs l) {r : List (List Char)} {a : Ast}
    (ha : a.val = .strs (r.map utf8s)) : RowsAst (rs ++ [r]) (l ++ [a]) := by
  induction h with
  | nil => exact .cons ha .nil
  | cons h _ ih => exact .cons h ih

theorem lineValues_rows {rs : List (List (List Char))} {l : List Ast} (h : RowsAst rs l) : lineValues l = .ok (utf8Table rs) := by
  induction h with
  | nil => rfl
  | cons h _ ih => simp [lineValues, h, asStrs, ih, utf8Table]

theorem lineEnd_sound {ch : Char} (h : LineEnd ch) : ch ≠ '�' := by
  unfold LineEnd at h
  simp only [List.mem_cons, List.not_mem_nil, or_false] at h
  rcases h with rfl | rfl | rfl | rfl | rfl <;> decide

theorem table_iter {t : List Char} {rows : List (List (List Char))} (h : TableText t rows) {s : Bytes} (hs : Span [] s t) (pre : Bytes) :
    ∃ n w₁ w₂ t₂ rs r Q, s = w₁ ++ w₂ ∧ rows = rs ++ [r] ∧ RowText t₂ r ∧ Span [] w₂ t₂ ∧
      Iter [den env line, den env (Gram.erased (Gram.plus [.prim lineBreak]))] n pre w₁ w₂ Q ∧
      ∀ l, Q l → RowsAst rs l := by
  induction h generalizing pre s with
  | @last t r h =>
    refine ⟨0, [], s, t, [], r, _, rfl, rfl, h, hs, .stop ?_, fun l hl => by subst hl; exact .nil⟩
    have := line_hits (env := env) h hs (.inl rfl) pre
    have h2 := SeqMisses.tail this (ps := [den env (Gram.erased (Gram.plus [.prim lineBreak]))])
      (.head (erased_misses (plus_misses (gs := [.prim lineBreak]) (.head (charTerminal_misses C18_lineBreak notNext_nil)))))
    simpa using h2
  | @more t bs u r rs h hne hb hu _ ih =>
    obtain ⟨w1, w3, rfl, g1, g3⟩ := span_split hs
    obtain ⟨w1, w2, rfl, g1, g2⟩ := span_split g1
    obtain ⟨n, w₁, w₂, t₂, rs', r', Q, rfl, rfl, h0, h1, h2, h3⟩ := ih g3 (pre ++ (w1 ++ w2))
    refine ⟨n + 1, (w1 ++ w2) ++ w₁, w₂, t₂, r :: rs', r', Both (RowAst r) Q, by simp, rfl, h0, h1, ?_, ?_⟩
    · simp only [List.append_nil] at g1 g2
      refine .next ((SeqHits.cons (line_hits h (by simpa using g1) ?_ pre) (.single (breaks_hits hne hb g2 ?_ _))).mono fun l hl => ?_) h2
      · cases bs with
        | nil => exact absurd rfl hne
        | cons b bs =>
          obtain ⟨w4, rfl, _⟩ := span_char g2 (lineEnd_sound (hb b (by simp)))
          rw [List.append_assoc]
          exact .inr ⟨b, _, rfl, hb b (by simp)⟩
      · have := notNext_span g3 hu notNext_nil
        simpa using this
      · obtain ⟨a, b, rfl, ha, rfl⟩ := hl
        simpa using ha
    · rintro l ⟨a, b, rfl, ⟨x, rfl, hx⟩, hb⟩
      exact .cons hx (h3 b hb)

theorem document_hits {t : List Char} {rows : List (List (List Char))} (h : TableText t rows) {s : Bytes} (hs : Reads s t) :
    Hits (den env document) [] s [] (fun l => ∃ a, l = [a] ∧ a.val = .strss (dropTrailingBlank (utf8Table rows))) := by
  obtain ⟨n, w₁, w₂, t₂, rs, r, Q, rfl, rfl, h0, h1, h2, h3⟩ := table_iter (env := env) h (span_reads.2 hs) []
  have e : w₁ ++ w₂ = w₁ ++ (w₂ ++ []) := by simp
  rw [e]
  refine trans_hits (by simp) (flat_hits (gs := [Gram.star [line, Gram.erased (Gram.plus [.prim lineBreak])], line, .prim endS])
    (.cons (star_hits (gs := [line, Gram.erased (Gram.plus [.prim lineBreak])]) (by simpa using h2))
      (.cons (line_hits h0 h1 (.inl rfl) _) (.single (endS_hits _))))) fun c l hl => ?_
  obtain ⟨a, b, rfl, ha, _, _, rfl, ⟨x, rfl, hx⟩, rfl⟩ := hl
  have := lineValues_rows (rowsAst_snoc (h3 a ha) hx)
  simp only [List.map, denTr_fn, applyTrs, documentTransform, List.append_nil, this]
  exact ⟨_, rfl, _, rfl, rfl⟩

end
end Takenoco
