import Verif.Lemmas.Unmarshal
import Verif.Lemmas.CsvRound
/-
Helper lemmas for C61: the round trip of structs.
-/
namespace Takenoco
open Spec Csv

theorem keyOf_columnOf {cols : List Bytes} (he : [] ∉ cols) {f : Field} (hc : ∀ k, ColumnOf f k → k ∈ cols) (k : Bytes) :
    KeyOf cols f k ↔ ColumnOf f k := by
  unfold KeyOf ColumnOf
  unfold ColumnOf at hc
  by_cases h : f.tag = []
  · have hn := hc f.name (.inr ⟨h, rfl⟩)
    constructor
    · rintro (⟨h1, _⟩ | ⟨_, _, h3⟩)
      · rw [h] at h1; exact absurd h1 he
      · exact .inr ⟨h, h3⟩
    · rintro (⟨h1, _⟩ | ⟨_, h2⟩)
      · exact absurd h h1
      · exact .inr ⟨by rw [h]; exact he, hn, h2⟩
  · have hn := hc f.tag (.inl ⟨h, rfl⟩)
    constructor
    · rintro (⟨_, h2⟩ | ⟨h1, _⟩)
      · exact .inl ⟨h, h2⟩
      · exact absurd hn h1
    · rintro (⟨_, h2⟩ | ⟨h1, _⟩)
      · exact .inl ⟨hn, h2⟩
      · exact absurd h1 h

theorem source_columnOf {cols : List Bytes} (he : [] ∉ cols) {fields : List Field} (ha : Assignable cols fields)
    (hw : ∀ f ∈ fields, Writable f) {m j : Nat} {f : Field} (hf : fields[m]? = some f) :
    Source cols fields m j ↔ ColumnAt cols (csvColName f) j := by
  have key : ∀ {f}, f ∈ fields → ∀ k, KeyOf cols f k ↔ k = csvColName f := fun {f} hf k => by
    rw [keyOf_columnOf he fun k hk => ha.columns f k hf (hw f hf) hk, columnOf_iff]
  constructor
  · rintro ⟨f', k, h1, h2, h3, _⟩
    rw [hf] at h1; cases h1
    rwa [(key (List.mem_of_getElem? hf) k).1 h2] at h3
  · intro h
    refine ⟨f, _, hf, (key (List.mem_of_getElem? hf) _).2 rfl, h, fun m' f' hlt hf' hk => ?_⟩
    rw [key (List.mem_of_getElem? hf')] at hk
    have := ha.apart m m' f f' _ hf hf' (hw _ (List.mem_of_getElem? hf)) (hw _ (List.mem_of_getElem? hf'))
      ((columnOf_iff _ _).2 rfl) ((columnOf_iff _ _).2 hk)
    omega

theorem shows_reads {fl : Floats} {k : Kind} {v : FieldVal} {t : Bytes} (hg : GoKind k) (h : HasKind k v) (hk : Kept fl k v)
    (hs : Shows fl v t) : CellReads fl k t v := by
  cases hk with
  | string => cases hs; exact .string
  | @int bits i =>
    cases hs
    cases h with
    | int h1 h2 =>
      have : (2 : Int) ^ (bits - 1) ≤ 2 ^ 63 := by
        have := Nat.pow_le_pow_right (n := 2) (by decide) (show bits - 1 ≤ 63 by have := hg.2; omega)
        have e : ((2 ^ (bits - 1) : Nat) : Int) ≤ ((2 ^ 63 : Nat) : Int) := Int.ofNat_le.2 this
        simpa using e
      exact .int (signed_decimal i) (by omega) (by omega) ⟨0, by simp⟩ h1 h2
  | @uint bits n =>
    cases hs
    cases h with
    | uint h1 =>
      have := Nat.pow_le_pow_right (n := 2) (by decide) hg
      have e : utf8s (toString n).toList = decimal n := utf8s_decimal n
      rw [e]
      exact .uint (numeral_decimal n) (by omega) rfl h1
  | float h1 h2 h3 => cases hs; exact h3

theorem structOf_rowOf {fl : Floats} {cols : List Bytes} (he : [] ∉ cols) {fields : List Field} (ha : Assignable cols fields)
    (hw : ∀ f ∈ fields, Writable f ∧ GoKind f.kind) {vals : List FieldVal} (hv : IsStruct fields vals)
    (hk : Pointwise (fun f v => Kept fl f.kind v) fields vals) {row : List Bytes} (hr : RowOf fl cols fields vals row) :
    StructOf fl cols fields row vals := by
  refine ⟨hv.length.symm, fun m f v hf hm => ⟨fun hz => ?_, fun j hs => ?_⟩⟩
  · exfalso
    have hfm := List.mem_of_getElem? hf
    rcases hz with hz | hz
    · obtain ⟨j, hj⟩ := columnAt_exists (ha.columns f _ hfm (hw f hfm).1 ((columnOf_iff f _).2 rfl))
      exact hz j ((source_columnOf he ha (fun f hf => (hw f hf).1) hf).2 hj)
    · exact hz (hw f hfm).1
  · have hfm := List.mem_of_getElem? hf
    have hj := (source_columnOf he ha (fun f hf => (hw f hf).1) hf).1 hs
    have lt : j < row.length := by rw [hr.1]; exact (columnAt_mem hj).2
    refine ⟨row[j], List.getElem?_eq_getElem lt, fun _ => ?_⟩
    have hkv := hk.get hf hm
    obtain ⟨t, ht⟩ : ∃ t, Shows fl v t := by
      generalize f.kind = kd at hkv
      cases hkv
      · exact ⟨_, .string⟩
      · exact ⟨_, .int⟩
      · exact ⟨_, .uint⟩
      · exact ⟨_, .float⟩
    have hfill : Fills fl cols fields vals m j t := ⟨f, v, _, hf, hm, (hw f hfm).1, (columnOf_iff f _).2 rfl, hj, ht⟩
    rcases hr.2 j _ (List.getElem?_eq_getElem lt) with ⟨m', hm'⟩ | ⟨hno, _⟩
    · rw [← (fills_unique ha hfill hm').2]
      exact shows_reads (hw f hfm).2 (hv.get hf hm) hkv ht
    · exact absurd hfill (hno m t)

theorem survives_plain {t : List Char} (h : ∀ ch ∈ t, ch ≠ '"' ∧ ¬ Blank ch) : Survives t := by
  refine ⟨fun hm => (h _ hm).1 rfl, .inr ⟨⟨[], [], by simp, by simp, by simp⟩, fun ch hc => ?_, fun ch hc => ?_⟩⟩
  · exact (h ch (List.mem_of_mem_head? hc)).2
  · exact (h ch (List.mem_of_getLast? hc)).2

theorem digit_plain {ch : Char} (h : ch.isDigit = true) : ch ≠ '"' ∧ ¬ Blank ch := by
  constructor
  · rintro rfl; cases h
  · intro hb
    have : ∀ x ∈ ['\t', '\n', '\x0b', '\x0c', '\r', ' ', '\u0085', '\u00a0'], x.isDigit = false := by decide
    rw [this ch hb] at h; cases h

theorem survives_decimal (n : Nat) : Survives (Nat.repr n).toList := by
  refine survives_plain fun ch hc => digit_plain ?_
  rw [Nat.toList_repr] at hc
  exact Nat.isDigit_of_mem_toDigits (b := 10) (by decide) (by decide) hc

theorem survives_shown {fl : Floats} {k : Kind} {v : FieldVal} {t : Bytes} (hk : Kept fl k v)
    (hs : Shows fl v t) : ∃ u, t = utf8s u ∧ Survives u := by
  cases hk with
  | string h => cases hs; exact ⟨_, rfl, h⟩
  | @int bits i =>
    cases hs
    refine ⟨_, rfl, ?_⟩
    cases i with
    | ofNat n => exact survives_decimal n
    | negSucc n =>
      have : (toString (Int.negSucc n)) = "-" ++ Nat.repr (n + 1) := rfl
      rw [this, String.toList_append]
      refine survives_plain fun ch hc => ?_
      rcases List.mem_append.1 hc with hc | hc
      · have : ch = '-' := by simpa using hc
        subst this
        unfold Blank
        decide
      · refine digit_plain ?_
        rw [Nat.toList_repr] at hc
        exact Nat.isDigit_of_mem_toDigits (b := 10) (by decide) (by decide) hc
  | @uint bits n => cases hs; exact ⟨_, rfl, survives_decimal n⟩
  | float h1 h2 => cases hs; exact ⟨_, h1, h2⟩

theorem rowOf_text {fl : Floats} {cols : List Bytes} {fields : List Field} {vals : List FieldVal}
    (hk : Pointwise (fun f v => Kept fl f.kind v) fields vals) {row : List Bytes} (hr : RowOf fl cols fields vals row) :
    ∃ chars : List (List Char), row = chars.map utf8s ∧ ∀ v ∈ chars, Survives v := by
  have h : ∀ t ∈ row, ∃ u, t = utf8s u ∧ Survives u := fun t ht => by
    obtain ⟨j, hj⟩ := List.mem_iff_getElem?.1 ht
    rcases hr.2 j t hj with ⟨m, f, v, k, h1, h2, _, _, _, h6⟩ | ⟨_, rfl⟩
    · exact survives_shown (hk.get h1 h2) h6
    · exact ⟨[], rfl, survives_plain (by simp)⟩
  clear hr
  induction row with
  | nil => exact ⟨[], rfl, by simp⟩
  | cons t ts ih =>
    obtain ⟨u, rfl, hu⟩ := h t (by simp)
    obtain ⟨us, rfl, hus⟩ := ih fun t ht => h t (by simp [ht])
    exact ⟨u :: us, rfl, by simpa using ⟨hu, hus⟩⟩

theorem table_text {fl : Floats} {cols : List Bytes} {fields : List Field} {rows : List (List FieldVal)}
    {table : List (List Bytes)} (ht : Pointwise (RowOf fl cols fields) rows table)
    (hk : ∀ r ∈ rows, Pointwise (fun f v => Kept fl f.kind v) fields r ∧ ¬ RowOf fl cols fields r [[]]) (hc : cols ≠ []) :
    ∃ chars, table = utf8Table chars ∧ ∀ r ∈ chars, r ≠ [] ∧ r ≠ [[]] ∧ ∀ v ∈ r, Survives v := by
  induction ht with
  | nil => exact ⟨[], rfl, by simp⟩
  | @cons r row _ _ h1 _ ih =>
    obtain ⟨cs, h2, h3⟩ := ih fun r hr => hk r (by simp [hr])
    obtain ⟨us, rfl, hus⟩ := rowOf_text (hk r (by simp)).1 h1
    refine ⟨us :: cs, by rw [h2]; rfl, fun r' hr' => ?_⟩
    rcases List.mem_cons.1 hr' with rfl | hr'
    · refine ⟨?_, ?_, hus⟩
      · rintro rfl
        exact hc (List.eq_nil_of_length_eq_zero h1.1.symm)
      · rintro rfl
        exact (hk r (by simp)).2 h1
    · exact h3 r' hr'

theorem toCsv_cons (r : List Bytes) {rs : List (List Bytes)} (h : rs ≠ []) : toCsv (r :: rs) = toCsv [r] ++ b! "\n" ++ toCsv rs := by
  cases rs with
  | nil => exact absurd rfl h
  | cons a as => rfl

theorem flip_pointwise {α β : Type} {R : α → β → Prop} {l : List β} {l' : List α} (h : Pointwise (fun a b => R b a) l l') : Pointwise R l' l := by
  induction h with
  | nil => exact .nil
  | cons h _ ih => exact .cons h ih

theorem unmarshal_rows (fl : Floats) (order : Nat → List (Bytes × Field) → List (Bytes × Field)) (fields : List Field) {n : Nat} {s : Bytes}
    {header : List Bytes} {rows : List (List Bytes)} (hs : Csv.parse n s = .ok (.value (header :: rows))) (hr : rows ≠ []) :
    unmarshal fl order n (.structs fields) s = unmarshalRows fl order header fields 0 rows >>= fun
      | .error e => .ok (.failed e)
      | .ok vs => .ok (.assigned vs) := by
  rw [unmarshal, hs]
  match rows, hr with
  | r :: rs, _ =>
    simp only [Out.bind_ok]
    congr 1

end Takenoco
