import Verif.Lemmas.MarshalRound
import Verif.Props.CsvParse
/-
C59–C61: structs to csv and back.
-/
namespace Takenoco
open Spec Csv

/-! ### C59: Marshal -/

/-- `Marshal` writes the table of the structs, in whatever order Go iterates over its map. There is no header. -/
theorem C59_marshal (fl : Floats) {order : Nat → List Field → List Field} (hp : ∀ i fs, (order i fs).Perm fs) {cols : List Bytes}
    {fields : List Field} (ha : Assignable cols fields) {rows : List (List FieldVal)} (hr : ∀ r ∈ rows, IsStruct fields r) :
    ∃ table, Pointwise (RowOf fl cols fields) rows table ∧ marshal fl order cols (.structs fields rows) = .ok (.ok (toCsv table)) := by
  obtain ⟨table, h1, h2⟩ := marshalRows_table (fl := fl) hp ha hr 0
  refine ⟨table, h2, ?_⟩
  rw [marshal, h1]
  rfl

/-- There is only one such table. -/
theorem C59_table_unique {fl : Floats} {cols : List Bytes} {fields : List Field} (ha : Assignable cols fields) {rows : List (List FieldVal)}
    {table table' : List (List Bytes)} (h : Pointwise (RowOf fl cols fields) rows table) (h' : Pointwise (RowOf fl cols fields) rows table') :
    table = table' :=
  h.unique h' fun _ _ _ _ a b => rowOf_unique ha a b

/-- The result does not depend on the order. -/
theorem C59_order (fl : Floats) {order order' : Nat → List Field → List Field} (hp : ∀ i fs, (order i fs).Perm fs)
    (hp' : ∀ i fs, (order' i fs).Perm fs) {cols : List Bytes} {fields : List Field} (ha : Assignable cols fields)
    {rows : List (List FieldVal)} (hr : ∀ r ∈ rows, IsStruct fields r) :
    marshal fl order cols (.structs fields rows) = marshal fl order' cols (.structs fields rows) := by
  obtain ⟨t, h1, h2⟩ := C59_marshal fl hp ha hr
  obtain ⟨t', h1', h2'⟩ := C59_marshal fl hp' ha hr
  rw [h2, h2', C59_table_unique ha h1 h1']

/-- Other data is refused. -/
theorem C59_not_structs (fl : Floats) (order : Nat → List Field → List Field) (cols : List Bytes) :
    marshal fl order cols .notSlice = .ok (.error (.msg "Data should be slice of struct")) ∧
    marshal fl order cols .notStructs = .ok (.error (.msg "Data should be slice of struct")) := ⟨rfl, rfl⟩

/-- A field without a column is written to the first column, over what belongs there or under it: the result depends on the order
of iteration, which Go leaves open. -/
theorem C59_missing_column_false (fl : Floats) : ∃ cols fields rows, (fields.map (·.name)).Nodup ∧ cols.Nodup ∧ (∀ r ∈ rows, IsStruct fields r) ∧
    ∃ order order' : Nat → List Field → List Field, (∀ i fs, (order i fs).Perm fs) ∧ (∀ i fs, (order' i fs).Perm fs) ∧
      marshal fl order cols (.structs fields rows) = .ok (.ok (b! "new york")) ∧
      marshal fl order' cols (.structs fields rows) = .ok (.ok (b! "anna")) := by
  refine ⟨[b! "name"], [⟨b! "Name", b! "name", .string, true⟩, ⟨b! "City", b! "city", .string, true⟩],
    [[.str (b! "anna"), .str (b! "new york")]], by decide, by decide, ?_, fun _ fs => fs, fun _ fs => fs.reverse,
    fun _ _ => .refl _, fun _ _ => List.reverse_perm _, ?_, ?_⟩
  · intro r hr
    rw [List.mem_singleton.1 hr]
    exact .cons .string (.cons .string .nil)
  · cbv
  · cbv

/-- Without columns `Marshal` panics if there is anything to write. -/
theorem C59_no_columns_panics (fl : Floats) {order : Nat → List Field → List Field} (hp : ∀ i fs, (order i fs).Perm fs)
    {fields : List Field} (hn : (fields.map (·.name)).Nodup) (hw : ∃ f ∈ fields, Writable f) {r : List FieldVal}
    {rows : List (List FieldVal)} (hr : IsStruct fields r) : marshal fl order [] (.structs fields (r :: rows)) = .panic .index := by
  rw [marshal, marshalRows, List.length_nil, List.replicate_zero,
    marshalFields_noColumns hn hr (fun f hf => (hp 0 fields).mem_iff.1 hf) (by
      obtain ⟨f, h1, h2⟩ := hw
      exact ⟨f, (hp 0 fields).mem_iff.2 h1, h2⟩)]
  rfl

/-! ### C60: Unmarshal -/

/-- `Unmarshal` assigns structs iff each of them is the one that its row says, and no field that is to be assigned is unexported. -/
theorem C60_unmarshal (fl : Floats) {order : Nat → List (Bytes × Field) → List (Bytes × Field)} (hp : ∀ i es, (order i es).Perm es)
    {fields : List Field} (hn : (fields.map (·.name)).Nodup) (hk : ∀ f ∈ fields, GoKind f.kind) {n : Nat} {s : Bytes} {header : List Bytes}
    {rows : List (List Bytes)} (hs : Csv.parse n s = .ok (.value (header :: rows))) (hr : rows ≠ []) (vs : List (List FieldVal)) :
    unmarshal fl order n (.structs fields) s = .ok (.assigned vs) ↔
      Settable header fields ∧ Pointwise (StructOf fl header fields) rows vs := by
  have key := unmarshalRows_structs (fl := fl) hp (header := header) hn hk rows 0 vs
  simp only [ne_eq, hr, not_false_eq_true, forall_const] at key
  rw [← key, unmarshal_rows fl order fields hs hr]
  cases unmarshalRows fl order header fields 0 rows with
  | ok r => cases r <;> simp
  | panic p => simp
  | timeout => simp

/-- How `Unmarshal` ends otherwise: with an error for a cell that does not say a value for its field, or with a panic because a row lacks
a cell or a field that is to be assigned is not exported. -/
theorem C60_otherwise (fl : Floats) {order : Nat → List (Bytes × Field) → List (Bytes × Field)} (hp : ∀ i es, (order i es).Perm es)
    {fields : List Field} (hn : (fields.map (·.name)).Nodup) (hk : ∀ f ∈ fields, GoKind f.kind) {n : Nat} {s : Bytes} {header : List Bytes}
    {rows : List (List Bytes)} (hs : Csv.parse n s = .ok (.value (header :: rows))) (hr : rows ≠ []) :
    (∃ vs, unmarshal fl order n (.structs fields) s = .ok (.assigned vs)) ∨
    (∃ w why, unmarshal fl order n (.structs fields) s = .ok (.failed (.number w why)) ∧ ∃ row ∈ rows, Unreadable fl header fields row w) ∨
    (unmarshal fl order n (.structs fields) s = .panic .index ∧ ∃ row ∈ rows, ∃ m j, Source header fields m j ∧ row.length ≤ j) ∨
    (unmarshal fl order n (.structs fields) s = .panic unexportedPanic ∧ ¬ Settable header fields) := by
  rw [unmarshal_rows fl order fields hs hr]
  have h := unmarshalRows_ends (fl := fl) hp (header := header) hn hk (all := rows) (fun r hr => hr) 0
  revert h
  generalize unmarshalRows fl order header fields 0 rows = x
  intro h
  cases h with
  | done a => exact .inl ⟨a, rfl⟩
  | unreadable u1 u2 => exact .inr (.inl ⟨_, _, rfl, _, u1, u2⟩)
  | short u1 u2 u3 => exact .inr (.inr (.inl ⟨rfl, _, u1, _, _, u2, u3⟩))
  | unexported u1 => exact .inr (.inr (.inr ⟨rfl, u1⟩))

/-- Unreadable cells are errors, if there is no reason to panic. -/
theorem C60_unreadable (fl : Floats) {order : Nat → List (Bytes × Field) → List (Bytes × Field)} (hp : ∀ i es, (order i es).Perm es)
    {fields : List Field} (hn : (fields.map (·.name)).Nodup) (hk : ∀ f ∈ fields, GoKind f.kind) {n : Nat} {s : Bytes} {header : List Bytes}
    {rows : List (List Bytes)} (hs : Csv.parse n s = .ok (.value (header :: rows))) (hset : Settable header fields)
    (hrow : ∀ row ∈ rows, ∀ m j, Source header fields m j → j < row.length)
    (hu : ∃ row ∈ rows, ∃ w, Unreadable fl header fields row w) :
    ∃ w why, unmarshal fl order n (.structs fields) s = .ok (.failed (.number w why)) ∧ ∃ row ∈ rows, Unreadable fl header fields row w := by
  obtain ⟨row, hm, w, hw⟩ := hu
  have hr : rows ≠ [] := List.ne_nil_of_mem hm
  rcases C60_otherwise fl hp hn hk hs hr with ⟨vs, h⟩ | h | ⟨_, r, g1, m, j, g2, g3⟩ | ⟨_, h⟩
  · obtain ⟨_, h2⟩ := (C60_unmarshal fl hp hn hk hs hr vs).1 h
    obtain ⟨i, hi⟩ := List.mem_iff_getElem?.1 hm
    have hlt := (List.getElem?_eq_some_iff.1 hi).1
    have hst := h2.get hi (List.getElem?_eq_getElem (by rw [← h2.length]; exact hlt))
    obtain ⟨m, j, f, h3, h4, h5, h6, h7⟩ := hw
    have hm' : m < (vs[i]'(by rw [← h2.length]; exact hlt)).length := by rw [hst.1]; exact (List.getElem?_eq_some_iff.1 h3).1
    obtain ⟨w', g1, g2⟩ := (hst.2 m f _ h3 (List.getElem?_eq_getElem hm')).2 j h4
    rw [h6] at g1; cases g1
    exact absurd (g2 h5) (h7 _)
  · exact h
  · have := hrow r g1 m j g2; omega
  · exact absurd hset h

/-- A row that lacks a cell makes `Unmarshal` panic, if the cells that exist are readable. -/
theorem C60_short_row_panics (fl : Floats) {order : Nat → List (Bytes × Field) → List (Bytes × Field)} (hp : ∀ i es, (order i es).Perm es)
    {fields : List Field} (hn : (fields.map (·.name)).Nodup) (hk : ∀ f ∈ fields, GoKind f.kind) {n : Nat} {s : Bytes} {header : List Bytes}
    {rows : List (List Bytes)} (hs : Csv.parse n s = .ok (.value (header :: rows))) (hset : Settable header fields)
    (hread : ∀ row ∈ rows, ∀ w, ¬ Unreadable fl header fields row w)
    (hshort : ∃ row ∈ rows, ∃ m j, Source header fields m j ∧ row.length ≤ j) :
    unmarshal fl order n (.structs fields) s = .panic .index := by
  obtain ⟨row, hm, m, j, hs1, hs2⟩ := hshort
  have hr : rows ≠ [] := List.ne_nil_of_mem hm
  rcases C60_otherwise fl hp hn hk hs hr with ⟨vs, h⟩ | ⟨w, _, _, r, g1, g2⟩ | h | ⟨_, h⟩
  · obtain ⟨_, h2⟩ := (C60_unmarshal fl hp hn hk hs hr vs).1 h
    obtain ⟨i, hi⟩ := List.mem_iff_getElem?.1 hm
    have hlt := (List.getElem?_eq_some_iff.1 hi).1
    have hst := h2.get hi (List.getElem?_eq_getElem (by rw [← h2.length]; exact hlt))
    obtain ⟨f, k, h3, _⟩ := id hs1
    have hm' : m < (vs[i]'(by rw [← h2.length]; exact hlt)).length := by rw [hst.1]; exact (List.getElem?_eq_some_iff.1 h3).1
    obtain ⟨w', g1, _⟩ := (hst.2 m f _ h3 (List.getElem?_eq_getElem hm')).2 j hs1
    have := (List.getElem?_eq_some_iff.1 g1).1
    omega
  · exact absurd g2 (hread r g1 w)
  · exact h.1
  · exact absurd hset h

/-- An unexported field with a column makes `Unmarshal` panic, if all cells exist and are readable. -/
theorem C60_unexported_panics (fl : Floats) {order : Nat → List (Bytes × Field) → List (Bytes × Field)} (hp : ∀ i es, (order i es).Perm es)
    {fields : List Field} (hn : (fields.map (·.name)).Nodup) (hk : ∀ f ∈ fields, GoKind f.kind) {n : Nat} {s : Bytes} {header : List Bytes}
    {rows : List (List Bytes)} (hs : Csv.parse n s = .ok (.value (header :: rows))) (hr : rows ≠ []) (hset : ¬ Settable header fields)
    (hread : ∀ row ∈ rows, ∀ w, ¬ Unreadable fl header fields row w)
    (hrow : ∀ row ∈ rows, ∀ m j, Source header fields m j → j < row.length) :
    unmarshal fl order n (.structs fields) s = .panic (.user "reflect: using value obtained using unexported field") := by
  rcases C60_otherwise fl hp hn hk hs hr with ⟨vs, h⟩ | ⟨w, _, _, r, g1, g2⟩ | ⟨_, r, g1, m, j, g2, g3⟩ | h
  · exact absurd ((C60_unmarshal fl hp hn hk hs hr vs).1 h).1 hset
  · exact absurd g2 (hread r g1 w)
  · have := hrow r g1 m j g2; omega
  · exact h.1

/-- With a header only, or nothing at all, `Unmarshal` returns no error and leaves the slice as it is. -/
theorem C60_no_rows (fl : Floats) (order : Nat → List (Bytes × Field) → List (Bytes × Field)) (fields : List Field) {n : Nat} {s : Bytes}
    {table : List (List Bytes)} (hs : Csv.parse n s = .ok (.value table)) (ht : table.length < 2) :
    unmarshal fl order n (.structs fields) s = .ok .unchanged := by
  rw [unmarshal, hs]
  match table, ht with
  | [], _ => rfl
  | [_], _ => rfl

/-- The error of `Parse` is returned. -/
theorem C60_parse_error (fl : Floats) (order : Nat → List (Bytes × Field) → List (Bytes × Field)) (fields : List Field) {n : Nat} {s : Bytes}
    {e : Option Err} {at_ : LineAndCol} (hs : Csv.parse n s = .ok (.failed e at_)) :
    unmarshal fl order n (.structs fields) s = .ok (.failed (.parse e at_)) := by
  rw [unmarshal, hs]; rfl

/-- Wrong out parameters are refused. -/
theorem C60_target (fl : Floats) (order : Nat → List (Bytes × Field) → List (Bytes × Field)) (n : Nat) (s : Bytes) :
    unmarshal fl order n .wrong s = .ok (.failed .target) := rfl

/-- Numbers that do not fit are cut off without an error: 300 becomes 44 in a field of type `int8`. -/
theorem C60_overflow (fl : Floats) {order : Nat → List (Bytes × Field) → List (Bytes × Field)} (hp : ∀ i es, (order i es).Perm es) :
    ∃ N, ∀ n, N ≤ n → unmarshal fl order n (.structs [⟨b! "N", b! "n", .int 8, true⟩]) (b! "n\n300") = .ok (.assigned [[.int 44]]) := by
  obtain ⟨N, hN⟩ := C38_round_trip [["n".toList], ["300".toList]] (by
    intro r hr
    simp only [List.mem_cons, List.not_mem_nil, or_false] at hr
    rcases hr with rfl | rfl
    · exact ⟨by decide, by decide, fun v hv => by rw [List.mem_singleton.1 hv]; exact survives_plain (by unfold Blank; decide)⟩
    · exact ⟨by decide, by decide, fun v hv => by rw [List.mem_singleton.1 hv]; exact survives_plain (by unfold Blank; decide)⟩)
  refine ⟨N, fun n hn => ?_⟩
  have h : Csv.parse n (b! "n\n300") = .ok (.value ([b! "n"] :: [[b! "300"]])) := hN n hn
  rw [unmarshal_rows fl order _ h (by simp), unmarshalRows]
  have e : order 0 (mappingOf [b! "n"] [⟨b! "N", b! "n", .int 8, true⟩] []) = [(b! "n", ⟨b! "N", b! "n", .int 8, true⟩)] :=
    List.perm_singleton.1 (hp 0 _)
  rw [e]
  cbv

/-! ### C61: the round trip -/

/-- What `Marshal` writes below a header, `Unmarshal` reads back. -/
theorem C61_round_trip {fl : Floats} {cols : List (List Char)} (hc : cols ≠ [] ∧ [] ∉ cols ∧ ∀ c ∈ cols, Survives c) {fields : List Field}
    (ha : Assignable (cols.map utf8s) fields) (hf : ∀ f ∈ fields, Writable f ∧ f.exported = true ∧ GoKind f.kind)
    {rows : List (List FieldVal)} (hr : rows ≠ []) (hk : ∀ r ∈ rows, IsStruct fields r ∧ Pointwise (fun f v => Kept fl f.kind v) fields r ∧
      ¬ RowOf fl (cols.map utf8s) fields r [[]]) :
    ∃ N, ∀ n, N ≤ n → ∀ order order', (∀ i fs, (order i fs).Perm fs) → (∀ i es, (order' i es).Perm es) →
      ∃ text, marshal fl order (cols.map utf8s) (.structs fields rows) = .ok (.ok text) ∧
        unmarshal fl order' n (.structs fields) (toCsv [cols.map utf8s] ++ b! "\n" ++ text) = .ok (.assigned rows) := by
  obtain ⟨hc1, hc2, hc3⟩ := hc
  have hc1' : cols.map utf8s ≠ [] := fun h => hc1 (List.map_eq_nil_iff.1 h)
  obtain ⟨table, ht, _⟩ := C59_marshal fl (order := fun _ fs => fs) (fun _ _ => .refl _) ha fun r hr => (hk r hr).1
  obtain ⟨chars, rfl, hch⟩ := table_text ht (fun r hr => (hk r hr).2) hc1'
  obtain ⟨N, hN⟩ := C38_round_trip (cols :: chars) fun r hr => by
    rcases List.mem_cons.1 hr with rfl | hr
    · exact ⟨hc1, fun h => hc2 (by rw [h]; simp), hc3⟩
    · exact hch r hr
  have hne : utf8Table chars ≠ [] := fun h => hr (List.eq_nil_of_length_eq_zero (by rw [ht.length, h]; rfl))
  refine ⟨N, fun n hn order order' hp hp' => ?_⟩
  obtain ⟨table', ht', hm⟩ := C59_marshal fl hp ha fun r hr => (hk r hr).1
  rw [C59_table_unique ha ht' ht] at hm
  refine ⟨_, hm, ?_⟩
  rw [← toCsv_cons _ hne]
  have he : [] ∉ cols.map utf8s := fun h => by
    obtain ⟨c, hc, e⟩ := List.mem_map.1 h
    exact hc2 (utf8s_eq_nil e ▸ hc)
  refine (C60_unmarshal fl hp' ha.names (fun f h => (hf f h).2.2) (hN n hn) hne rows).2 ⟨fun m f j h _ _ => (hf f (List.mem_of_getElem? h)).2.1, ?_⟩
  exact flip_pointwise (ht.mono fun r row hr' h => structOf_rowOf he ha (fun f h => ⟨(hf f h).1, (hf f h).2.2⟩) (hk r hr').1 (hk r hr').2.1 h)

/-! ### Examples -/

/-- Person: a name, an age of 8 bits, and a field of an unsupported type. -/
def person : List Field :=
  [⟨b! "Name", b! "name", .string, true⟩, ⟨b! "Age", [], .uint 8, true⟩, ⟨b! "Born", b! "born", .other, true⟩]

theorem person_assignable : Assignable [b! "Age", b! "x", b! "name"] person := by
  refine ⟨by decide, ?_, ?_⟩
  · intro f k hf hw hk
    rw [columnOf_iff] at hk
    subst hk
    revert f
    unfold Writable
    decide
  · intro m m' f f' k h1 h2 hw hw' hk hk'
    rw [columnOf_iff] at hk hk'
    have l1 := (List.getElem?_eq_some_iff.1 h1).1
    have l2 := (List.getElem?_eq_some_iff.1 h2).1
    simp [person] at l1 l2
    obtain rfl | rfl | rfl : m = 0 ∨ m = 1 ∨ m = 2 := by omega
    all_goals obtain rfl | rfl | rfl : m' = 0 ∨ m' = 1 ∨ m' = 2 := by omega
    all_goals first
      | rfl
      | (simp [person] at h1 h2
         subst h1; subst h2; subst hk
         first | exact absurd hk' (by decide) | exact absurd rfl hw | exact absurd rfl hw')

/-- Two persons, a column that belongs to no field, a cell that has to be quoted. -/
example (fl : Floats) {order : Nat → List Field → List Field} (hp : ∀ i fs, (order i fs).Perm fs) :
    marshal fl order [b! "Age", b! "x", b! "name"]
      (.structs person [[.str (b! "anna"), .uint 30, .other 7], [.str (b! "b,c"), .uint 0, .other 8]]) =
      .ok (.ok (b! "30,,anna\n0,,\"b,c\"")) := by
  rw [C59_order fl hp (order' := fun _ fs => fs) (fun _ _ => .refl _) person_assignable ?_]
  · cbv
  · intro r hr
    simp only [List.mem_cons, List.not_mem_nil, or_false] at hr
    rcases hr with rfl | rfl
    · exact .cons .string (.cons (.uint (by decide)) (.cons .other .nil))
    · exact .cons .string (.cons (.uint (by decide)) (.cons .other .nil))

theorem person_text : ∃ N, ∀ n, N ≤ n → Csv.parse n (b! "Age,zz,name\n30,q,anna") =
    .ok (.value ([b! "Age", b! "zz", b! "name"] :: [[b! "30", b! "q", b! "anna"]])) := by
  obtain ⟨N, hN⟩ := C38_round_trip [["Age".toList, "zz".toList, "name".toList], ["30".toList, "q".toList, "anna".toList]] (by
    intro r hr
    simp only [List.mem_cons, List.not_mem_nil, or_false] at hr
    rcases hr with rfl | rfl <;> refine ⟨by decide, by decide, fun v hv => ?_⟩ <;>
      simp only [List.mem_cons, List.not_mem_nil, or_false] at hv <;>
      rcases hv with rfl | rfl | rfl <;> exact survives_plain (by unfold Blank; decide))
  exact ⟨N, hN⟩

/-- A person: the column without a field is ignored, the field without a column is zero. -/
example (fl : Floats) {order : Nat → List (Bytes × Field) → List (Bytes × Field)} (hp : ∀ i es, (order i es).Perm es) :
    ∃ N, ∀ n, N ≤ n → unmarshal fl order n (.structs person) (b! "Age,zz,name\n30,q,anna") =
      .ok (.assigned [[.str (b! "anna"), .uint 30, .other 0]]) := by
  obtain ⟨N, hN⟩ := person_text
  refine ⟨N, fun n hn => ?_⟩
  have hk : ∀ f ∈ person, GoKind f.kind := by
    intro f hf
    simp only [person, List.mem_cons, List.not_mem_nil, or_false] at hf
    rcases hf with rfl | rfl | rfl <;> simp [GoKind]
  rw [C60_unmarshal fl hp (by decide) hk (hN n hn) (by simp),
    ← C60_unmarshal fl (order := fun _ es => es) (fun _ _ => .refl _) (by decide) hk (hN n hn) (by simp)]
  rw [unmarshal_rows fl _ person (hN n hn) (by simp)]
  cbv

/-- The round trip of two persons. -/
example (fl : Floats) : ∃ N, ∀ n, N ≤ n → ∀ order order', (∀ i fs, (order i fs).Perm fs) → (∀ i es, (order' i es).Perm es) →
    ∃ text, marshal fl order (["Age".toList, "name".toList].map utf8s)
        (.structs [⟨b! "Name", b! "name", .string, true⟩, ⟨b! "Age", [], .int 8, true⟩]
          [[.str (utf8s "anna".toList), .int (-128)], [.str (utf8s " b,c".toList), .int 7]]) = .ok (.ok text) ∧
      unmarshal fl order' n (.structs [⟨b! "Name", b! "name", .string, true⟩, ⟨b! "Age", [], .int 8, true⟩])
        (toCsv [["Age".toList, "name".toList].map utf8s] ++ b! "\n" ++ text) =
        .ok (.assigned [[.str (utf8s "anna".toList), .int (-128)], [.str (utf8s " b,c".toList), .int 7]]) := by
  refine C61_round_trip ⟨by simp, by decide, ?_⟩ ⟨by decide, ?_, ?_⟩ ?_ (by simp) ?_
  · intro v hv
    simp only [List.mem_cons, List.not_mem_nil, or_false] at hv
    rcases hv with rfl | rfl <;> exact survives_plain (by unfold Blank; decide)
  · intro f k hf hw hk
    rw [columnOf_iff] at hk
    subst hk
    revert f
    unfold Writable
    decide
  · intro m m' f f' k h1 h2 _ _ hk hk'
    rw [columnOf_iff] at hk hk'
    have l1 := (List.getElem?_eq_some_iff.1 h1).1
    have l2 := (List.getElem?_eq_some_iff.1 h2).1
    simp at l1 l2
    obtain rfl | rfl : m = 0 ∨ m = 1 := by omega
    all_goals obtain rfl | rfl : m' = 0 ∨ m' = 1 := by omega
    all_goals first
      | rfl
      | (simp at h1 h2
         subst h1; subst h2; subst hk
         exact absurd hk' (by decide))
  · intro f hf
    simp only [List.mem_cons, List.not_mem_nil, or_false] at hf
    rcases hf with rfl | rfl <;> exact ⟨by unfold Writable; decide, rfl, by simp [GoKind]⟩
  · intro r hr
    simp only [List.mem_cons, List.not_mem_nil, or_false] at hr
    rcases hr with rfl | rfl
    · refine ⟨.cons .string (.cons (.int (by decide) (by decide)) .nil),
        .cons (.string (survives_plain (by unfold Blank; decide))) (.cons .int .nil), fun h => absurd h.1 (by decide)⟩
    · refine ⟨.cons .string (.cons (.int (by decide) (by decide)) .nil),
        .cons (.string ⟨by decide, .inl ⟨',', by decide, .inl rfl⟩⟩) (.cons .int .nil), fun h => absurd h.1 (by decide)⟩

#print axioms C59_marshal
#print axioms C60_unmarshal
#print axioms C60_otherwise
#print axioms C61_round_trip

end Takenoco
