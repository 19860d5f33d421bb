import Verif.Spec.Marshal
import Verif.Lemmas.Decimal
/-
Helper lemmas for C59, C60: what the loops over maps do, whatever the order.
-/
namespace Takenoco
open Spec Csv

theorem columnOf_iff (f : Field) (k : Bytes) : ColumnOf f k ↔ k = csvColName f := by
  unfold ColumnOf csvColName
  by_cases h : f.tag = [] <;> simp [h]

theorem columnAt_cons {c k : Bytes} {cs : List Bytes} {j : Nat} :
    ColumnAt (c :: cs) k j ↔ (j = 0 ∧ c = k ∧ k ∉ cs) ∨ ∃ i, j = i + 1 ∧ ColumnAt cs k i := by
  unfold ColumnAt
  cases j with
  | zero =>
    simp only [List.getElem?_cons_zero, Option.some.injEq, true_and, Nat.zero_ne_add_one, false_and, exists_false, or_false]
    refine and_congr_right fun _ => ?_
    rw [List.mem_iff_getElem?, not_exists]
    constructor
    · intro h i
      have := h (i + 1) (by omega)
      rwa [List.getElem?_cons_succ] at this
    · intro h i hi
      obtain ⟨i, rfl⟩ : ∃ i', i = i' + 1 := ⟨i - 1, by omega⟩
      rw [List.getElem?_cons_succ]; exact h i
  | succ j =>
    simp only [List.getElem?_cons_succ, Nat.add_one_ne_zero, false_and, false_or, Nat.add_right_cancel_iff, exists_eq_left']
    refine and_congr_right fun _ => ⟨fun h i hi => ?_, fun h i hi => ?_⟩
    · have := h (i + 1) (by omega)
      rwa [List.getElem?_cons_succ] at this
    · obtain ⟨i, rfl⟩ : ∃ i', i = i' + 1 := ⟨i - 1, by omega⟩
      rw [List.getElem?_cons_succ]; exact h i (by omega)

theorem lastIndex_none (k : Bytes) (cols : List Bytes) (i : Nat) : lastIndex k cols i = none ↔ k ∉ cols := by
  induction cols generalizing i with
  | nil => simp [lastIndex]
  | cons c cs ih =>
    rw [lastIndex, Option.or_eq_none_iff, ih, List.mem_cons, not_or]
    by_cases h : c = k
    · simp [h]
    · simp only [h, if_false, and_true]
      exact ⟨fun h' => ⟨fun e => h e.symm, h'⟩, fun h' => h'.2⟩

theorem lastIndex_some (k : Bytes) (cols : List Bytes) (i n : Nat) :
    lastIndex k cols i = some n ↔ ∃ j, n = i + j ∧ ColumnAt cols k j := by
  induction cols generalizing i n with
  | nil => simp [lastIndex, ColumnAt]
  | cons c cs ih =>
    rw [lastIndex, Option.or_eq_some_iff, ih, lastIndex_none]
    simp only [columnAt_cons]
    constructor
    · rintro (⟨j, rfl, h⟩ | ⟨h1, h2⟩)
      · exact ⟨j + 1, by omega, .inr ⟨j, rfl, h⟩⟩
      · by_cases hc : c = k
        · rw [if_pos hc] at h2; cases h2
          exact ⟨0, rfl, .inl ⟨rfl, hc, h1⟩⟩
        · rw [if_neg hc] at h2; cases h2
    · rintro ⟨j, rfl, ⟨rfl, rfl, h⟩ | ⟨i', rfl, h⟩⟩
      · exact .inr ⟨h, by simp⟩
      · exact .inl ⟨i', by omega, h⟩

theorem lastIndex_at {k : Bytes} {cols : List Bytes} {j : Nat} : lastIndex k cols 0 = some j ↔ ColumnAt cols k j := by
  rw [lastIndex_some]
  simp

theorem columnAt_unique {cols : List Bytes} {k : Bytes} {j j' : Nat} (h : ColumnAt cols k j) (h' : ColumnAt cols k j') : j = j' := by
  rw [← lastIndex_at] at h h'
  rw [h] at h'; cases h'; rfl

theorem columnAt_exists {cols : List Bytes} {k : Bytes} (h : k ∈ cols) : ∃ j, ColumnAt cols k j := by
  cases hl : lastIndex k cols 0 with
  | none => exact absurd h ((lastIndex_none k cols 0).1 hl)
  | some j => exact ⟨j, lastIndex_at.1 hl⟩

theorem columnAt_mem {cols : List Bytes} {k : Bytes} {j : Nat} (h : ColumnAt cols k j) : k ∈ cols ∧ j < cols.length :=
  ⟨List.mem_of_getElem? h.1, (List.getElem?_eq_some_iff.1 h.1).1⟩

/-! ### Pointwise -/

theorem Spec.Pointwise.length {α β : Type} {R : α → β → Prop} {l : List α} {l' : List β} (h : Pointwise R l l') : l.length = l'.length := by
  induction h with
  | nil => rfl
  | cons _ _ ih => simp [ih]

theorem Spec.Pointwise.get {α β : Type} {R : α → β → Prop} {l : List α} {l' : List β} (h : Pointwise R l l') {i : Nat} {a : α} {b : β}
    (ha : l[i]? = some a) (hb : l'[i]? = some b) : R a b := by
  induction h generalizing i with
  | nil => simp at ha
  | cons hr _ ih =>
    cases i with
    | zero => simp at ha hb; subst ha; subst hb; exact hr
    | succ i => simp at ha hb; exact ih ha hb

theorem Spec.Pointwise.mono {α β : Type} {R S : α → β → Prop} {l : List α} {l' : List β} (h : Pointwise R l l')
    (hs : ∀ a b, a ∈ l → R a b → S a b) : Pointwise S l l' := by
  induction h with
  | nil => exact .nil
  | cons hr _ ih => exact .cons (hs _ _ (by simp) hr) (ih fun a b ha => hs a b (by simp [ha]))

theorem Spec.Pointwise.unique {α β : Type} {R : α → β → Prop} {l : List α} {l' l'' : List β} (h : Pointwise R l l')
    (h' : Pointwise R l l'') (hu : ∀ a b b', a ∈ l → R a b → R a b' → b = b') : l' = l'' := by
  induction h generalizing l'' with
  | nil => cases h'; rfl
  | cons hr _ ih =>
    cases h' with
    | cons hr' h'' => rw [hu _ _ _ (by simp) hr hr', ih h'' fun a b b' ha => hu a b b' (by simp [ha])]

/-! ### Fields by name -/

theorem name_unique {fields : List Field} (hn : (fields.map (·.name)).Nodup) {m m' : Nat} {f f' : Field}
    (h : fields[m]? = some f) (h' : fields[m']? = some f') (e : f.name = f'.name) : m = m' := by
  have h1 : (fields.map (·.name))[m]? = some f.name := by rw [List.getElem?_map, h]; rfl
  have h2 : (fields.map (·.name))[m']? = some f.name := by rw [List.getElem?_map, h', e]; rfl
  obtain ⟨l, _⟩ := List.getElem?_eq_some_iff.1 h1
  exact (List.getElem?_inj l hn).1 (h1.trans h2.symm)

theorem fieldByName_at {fields : List Field} (hn : (fields.map (·.name)).Nodup) {vals : List FieldVal} {m : Nat} {f : Field} {v : FieldVal}
    (hf : fields[m]? = some f) (hv : vals[m]? = some v) : fieldByName fields vals f.name = some v := by
  induction fields generalizing vals m with
  | nil => simp at hf
  | cons g gs ih =>
    cases vals with
    | nil => simp at hv
    | cons x xs =>
      rw [List.map_cons, List.nodup_cons] at hn
      unfold fieldByName
      rw [List.zip_cons_cons, List.find?_cons]
      cases m with
      | zero =>
        simp at hf hv
        subst hf; subst hv
        simp
      | succ m =>
        simp only [List.getElem?_cons_succ] at hf hv
        have : g.name ≠ f.name := fun e => hn.1 (e ▸ List.mem_map_of_mem (List.mem_of_getElem? hf))
        have e : (g.name == f.name) = false := by simpa using this
        rw [e]
        exact ih hn.2 hf hv

theorem setByName_get {fields : List Field} (hn : (fields.map (·.name)).Nodup) {vals : List FieldVal} (hl : vals.length = fields.length)
    {m : Nat} {f : Field} (hf : fields[m]? = some f) (v : FieldVal) : setByName f.name v fields vals = vals.set m v := by
  induction fields generalizing vals m with
  | nil => simp at hf
  | cons g gs ih =>
    cases vals with
    | nil => simp at hl
    | cons x xs =>
      rw [List.map_cons, List.nodup_cons] at hn
      rw [setByName]
      cases m with
      | zero =>
        simp at hf
        subst hf
        simp
      | succ m =>
        simp only [List.getElem?_cons_succ] at hf
        have : g.name ≠ f.name := fun e => hn.1 (e ▸ List.mem_map_of_mem (List.mem_of_getElem? hf))
        have e : (g.name == f.name) = false := by simpa using this
        rw [e]
        simp only [Bool.false_eq_true, if_false, List.set_cons_succ]
        rw [ih hn.2 (by simpa using hl) hf]

/-! ### Marshal -/

theorem setAll_get (es : List (Nat × Bytes)) (hn : (es.map (·.1)).Nodup) (buf : List Bytes) :
    (es.foldl (fun b e => b.set e.1 e.2) buf).length = buf.length ∧
    (∀ e ∈ es, e.1 < buf.length → (es.foldl (fun b e => b.set e.1 e.2) buf)[e.1]? = some e.2) ∧
    (∀ j, j ∉ es.map (·.1) → (es.foldl (fun b e => b.set e.1 e.2) buf)[j]? = buf[j]?) := by
  induction es generalizing buf with
  | nil => simp
  | cons e es ih =>
    rw [List.map_cons, List.nodup_cons] at hn
    obtain ⟨h1, h2, h3⟩ := ih hn.2 (buf.set e.1 e.2)
    rw [List.length_set] at h1 h2
    refine ⟨h1, fun e' he' hl => ?_, fun j hj => ?_⟩
    · rcases List.mem_cons.1 he' with rfl | he'
      · rw [List.foldl_cons, h3 _ hn.1, List.getElem?_set_self hl]
      · exact h2 e' he' hl
    · rw [List.map_cons, List.mem_cons, not_or] at hj
      rw [List.foldl_cons, h3 j hj.2, List.getElem?_set_ne (by omega)]

/-- What an iteration of the loop of `Marshal` does: the cell and its text, or nothing. -/
def effect (fl : Floats) (cols : List Bytes) (fields : List Field) (vals : List FieldVal) (f : Field) : Option (Nat × Bytes) :=
  match fieldByName fields vals f.name with
  | none => none
  | some v =>
    match fieldText fl f.kind v with
    | .ok (some t) => some ((lastIndex (csvColName f) cols 0).getD 0, t)
    | _ => none

theorem formatInt_eq (i : Int) : formatInt i = utf8s (toString i).toList := by
  unfold formatInt
  cases i with
  | ofNat n =>
    have : (toString (Int.ofNat n)).toList = (Nat.repr n).toList := rfl
    rw [this, utf8s_decimal, if_neg (by simp)]; rfl
  | negSucc n =>
    have : (toString (Int.negSucc n)) = "-" ++ Nat.repr (n + 1) := rfl
    rw [this, String.toList_append, utf8s_append, utf8s_decimal, if_pos (Int.negSucc_lt_zero n)]; rfl

theorem marshalFields_eq {fl : Floats} {cols : List Bytes} {fields : List Field} {vals : List FieldVal}
    (hv : ∀ f ∈ fields, ∃ v, fieldByName fields vals f.name = some v ∧ HasKind f.kind v) {fs : List Field} (hfs : ∀ f ∈ fs, f ∈ fields)
    (hc : ∀ f ∈ fs, Writable f → csvColName f ∈ cols) {buf : List Bytes} (hb : buf.length = cols.length) :
    marshalFields fl cols fields vals fs buf = .ok ((fs.filterMap (effect fl cols fields vals)).foldl (fun b e => b.set e.1 e.2) buf) := by
  induction fs generalizing buf with
  | nil => rfl
  | cons f fs ih =>
    obtain ⟨v, h1, h2⟩ := hv f (hfs f (by simp))
    have ih' := fun {buf} hb => ih (fun g hg => hfs g (by simp [hg])) (fun g hg => hc g (by simp [hg])) (buf := buf) hb
    have key : marshalField fl cols fields vals f buf = .ok (match effect fl cols fields vals f with
      | none => buf | some e => buf.set e.1 e.2) := by
      unfold marshalField effect
      rw [h1]
      have lt : Writable f → (lastIndex (csvColName f) cols 0).getD 0 < buf.length := fun hw => by
        obtain ⟨j, hj⟩ := columnAt_exists (hc f (by simp) hw)
        rw [lastIndex_at.2 hj, hb]; exact (columnAt_mem hj).2
      unfold Writable at lt
      generalize f.kind = kd at h2 lt ⊢
      cases h2 <;> simp [fieldText] <;> exact lt (by simp)
    rw [marshalFields, key]
    simp only [List.filterMap_cons]
    cases effect fl cols fields vals f with
    | none => exact ih' hb
    | some e => exact ih' (by rw [List.length_set]; exact hb)

theorem effect_iff {fl : Floats} {cols : List Bytes} {fields : List Field} (ha : Assignable cols fields) {vals : List FieldVal}
    (hv : IsStruct fields vals) {m : Nat} {f : Field} (hf : fields[m]? = some f) (j : Nat) (t : Bytes) :
    effect fl cols fields vals f = some (j, t) ↔ Fills fl cols fields vals m j t := by
  obtain ⟨v, hm⟩ : ∃ v, vals[m]? = some v :=
    ⟨_, List.getElem?_eq_getElem (by have := (List.getElem?_eq_some_iff.1 hf).1; have := hv.length; omega)⟩
  have hk : HasKind f.kind v := hv.get hf hm
  have e : Fills fl cols fields vals m j t ↔ Writable f ∧ ColumnAt cols (csvColName f) j ∧ Shows fl v t := by
    unfold Fills
    simp only [columnOf_iff]
    constructor
    · rintro ⟨f', v', k, h1, h2, h3, h4, h5, h6⟩
      rw [hf] at h1; rw [hm] at h2; cases h1; cases h2; subst h4
      exact ⟨h3, h5, h6⟩
    · rintro ⟨h1, h2, h3⟩
      exact ⟨f, v, _, hf, hm, h1, rfl, h2, h3⟩
  have hc : Writable f → ∃ j', ColumnAt cols (csvColName f) j' ∧ lastIndex (csvColName f) cols 0 = some j' := fun hw => by
    obtain ⟨j', hj⟩ := columnAt_exists (ha.columns f _ (List.mem_of_getElem? hf) hw ((columnOf_iff f _).2 rfl))
    exact ⟨j', hj, lastIndex_at.2 hj⟩
  rw [e]
  unfold effect
  rw [fieldByName_at ha.names hf hm]
  unfold Writable at hc ⊢
  generalize f.kind = kd at hk hc ⊢
  cases hk with
  | other => simp [fieldText]
  | string =>
    obtain ⟨j', h1, h2⟩ := hc (by simp)
    simp only [fieldText, h2, Option.getD_some, Option.some.injEq, Prod.mk.injEq]
    exact ⟨fun ⟨a, b⟩ => ⟨by simp, a ▸ h1, b ▸ .string⟩, fun ⟨_, a, b⟩ => ⟨columnAt_unique h1 a, by cases b; rfl⟩⟩
  | int =>
    obtain ⟨j', h1, h2⟩ := hc (by simp)
    simp only [fieldText, h2, Option.getD_some, Option.some.injEq, Prod.mk.injEq, formatInt_eq]
    exact ⟨fun ⟨a, b⟩ => ⟨by simp, a ▸ h1, b ▸ .int⟩, fun ⟨_, a, b⟩ => ⟨columnAt_unique h1 a, by cases b; rfl⟩⟩
  | @uint _ n =>
    obtain ⟨j', h1, h2⟩ := hc (by simp)
    have : formatUint n = utf8s (toString n).toList := (utf8s_decimal n).symm
    simp only [fieldText, h2, Option.getD_some, Option.some.injEq, Prod.mk.injEq, this]
    exact ⟨fun ⟨a, b⟩ => ⟨by simp, a ▸ h1, b ▸ .uint⟩, fun ⟨_, a, b⟩ => ⟨columnAt_unique h1 a, by cases b; rfl⟩⟩
  | float =>
    obtain ⟨j', h1, h2⟩ := hc (by simp)
    simp only [fieldText, h2, Option.getD_some, Option.some.injEq, Prod.mk.injEq]
    exact ⟨fun ⟨a, b⟩ => ⟨by simp, a ▸ h1, b ▸ .float⟩, fun ⟨_, a, b⟩ => ⟨columnAt_unique h1 a, by cases b; rfl⟩⟩

theorem fills_unique {fl : Floats} {cols : List Bytes} {fields : List Field} (ha : Assignable cols fields) {vals : List FieldVal}
    {m m' j : Nat} {t t' : Bytes} (h : Fills fl cols fields vals m j t) (h' : Fills fl cols fields vals m' j t') : m = m' ∧ t = t' := by
  obtain ⟨f, v, k, h1, h2, h3, h4, h5, h6⟩ := h
  obtain ⟨f', v', k', h1', h2', h3', h4', h5', h6'⟩ := h'
  have hk : k = k' := by have := h5.1.symm.trans h5'.1; cases this; rfl
  subst hk
  have hm := ha.apart m m' f f' k h1 h1' h3 h3' h4 h4'
  subst hm
  rw [h2] at h2'; cases h2'
  exact ⟨rfl, by cases h6 <;> cases h6' <;> rfl⟩

theorem marshalFields_row {fl : Floats} {cols : List Bytes} {fields : List Field} (ha : Assignable cols fields) {vals : List FieldVal}
    (hv : IsStruct fields vals) {fs : List Field} (hp : fs.Perm fields) :
    ∃ row, marshalFields fl cols fields vals fs (List.replicate cols.length []) = .ok row ∧ RowOf fl cols fields vals row := by
  have hval : ∀ f ∈ fields, ∃ v, fieldByName fields vals f.name = some v ∧ HasKind f.kind v := fun f hf => by
    obtain ⟨m, hm⟩ := List.mem_iff_getElem?.1 hf
    obtain ⟨v, hv'⟩ : ∃ v, vals[m]? = some v :=
      ⟨_, List.getElem?_eq_getElem (by have := (List.getElem?_eq_some_iff.1 hm).1; have := hv.length; omega)⟩
    exact ⟨v, fieldByName_at ha.names hm hv', hv.get hm hv'⟩
  have e := marshalFields_eq (fl := fl) (cols := cols) hval (fs := fs) (fun f hf => hp.subset hf)
    (fun f hf hw => ha.columns f _ (hp.subset hf) hw ((columnOf_iff f _).2 rfl)) (buf := List.replicate cols.length []) (by simp)
  have hes : (fs.filterMap (effect fl cols fields vals)).Perm (fields.filterMap (effect fl cols fields vals)) := hp.filterMap _
  have hn0 : ((fields.filterMap (effect fl cols fields vals)).map (·.1)).Nodup := by
    rw [List.nodup_iff_pairwise_ne, List.pairwise_map, List.pairwise_filterMap, List.pairwise_iff_getElem]
    intro m m' h1 h2 hlt e1 he1 e2 he2 heq
    have g1 := (effect_iff (fl := fl) ha hv (List.getElem?_eq_getElem h1) e1.1 e1.2).1 he1
    have g2 := (effect_iff (fl := fl) ha hv (List.getElem?_eq_getElem h2) e2.1 e2.2).1 he2
    rw [heq] at g1
    have := (fills_unique ha g1 g2).1
    omega
  have hn : ((fs.filterMap (effect fl cols fields vals)).map (·.1)).Nodup := (hes.map _).nodup_iff.2 hn0
  obtain ⟨g1, g2, g3⟩ := setAll_get _ hn (List.replicate cols.length [])
  rw [List.length_replicate] at g1 g2
  refine ⟨_, e, g1, fun j t hj => ?_⟩
  have memIff : ∀ j t, (j, t) ∈ fs.filterMap (effect fl cols fields vals) ↔ ∃ m, Fills fl cols fields vals m j t := fun j t => by
    rw [hes.mem_iff, List.mem_filterMap]
    constructor
    · rintro ⟨f, hf, he⟩
      obtain ⟨m, hm⟩ := List.mem_iff_getElem?.1 hf
      exact ⟨m, (effect_iff ha hv hm j t).1 he⟩
    · rintro ⟨m, hm⟩
      obtain ⟨f, _, _, hf, _⟩ := id hm
      exact ⟨f, List.mem_of_getElem? hf, (effect_iff ha hv hf j t).2 hm⟩
  have hjl : j < cols.length := by
    have := (List.getElem?_eq_some_iff.1 hj).1
    rw [g1] at this; exact this
  by_cases hx : ∃ t', (j, t') ∈ fs.filterMap (effect fl cols fields vals)
  · obtain ⟨t', ht'⟩ := hx
    have := g2 _ ht' hjl
    rw [hj] at this
    cases this
    exact .inl ((memIff j _).1 ht')
  · right
    refine ⟨fun m t' hm => hx ⟨t', (memIff j t').2 ⟨m, hm⟩⟩, ?_⟩
    have := g3 j fun hmem => by
      obtain ⟨x, hx1, hx2⟩ := List.mem_map.1 hmem
      exact hx ⟨x.2, by rw [← hx2]; exact hx1⟩
    rw [this, List.getElem?_replicate, if_pos hjl] at hj
    cases hj; rfl

theorem rowOf_unique {fl : Floats} {cols : List Bytes} {fields : List Field} (ha : Assignable cols fields) {vals : List FieldVal}
    {row row' : List Bytes} (h : RowOf fl cols fields vals row) (h' : RowOf fl cols fields vals row') : row = row' := by
  apply List.ext_getElem (h.1.trans h'.1.symm)
  intro j h1 h2
  rcases h.2 j _ (List.getElem?_eq_getElem h1) with ⟨m, hm⟩ | ⟨hm, e⟩ <;>
    rcases h'.2 j _ (List.getElem?_eq_getElem h2) with ⟨m', hm'⟩ | ⟨hm', e'⟩
  · exact (fills_unique ha hm hm').2
  · exact absurd hm (hm' _ _)
  · exact absurd hm' (hm _ _)
  · rw [e, e']

theorem marshalRows_table {fl : Floats} {order : Nat → List Field → List Field} (hp : ∀ i fs, (order i fs).Perm fs) {cols : List Bytes}
    {fields : List Field} (ha : Assignable cols fields) {rows : List (List FieldVal)} (hr : ∀ r ∈ rows, IsStruct fields r) (i : Nat) :
    ∃ table, marshalRows fl order cols fields i rows = .ok table ∧ Pointwise (RowOf fl cols fields) rows table := by
  induction rows generalizing i with
  | nil => exact ⟨[], rfl, .nil⟩
  | cons r rs ih =>
    obtain ⟨row, h1, h2⟩ := marshalFields_row (fl := fl) ha (hr r (by simp)) (hp i fields)
    obtain ⟨t, h3, h4⟩ := ih (fun r hr' => hr r (by simp [hr'])) (i + 1)
    refine ⟨row :: t, ?_, .cons h2 h4⟩
    rw [marshalRows, h1]
    show (do let x ← marshalRows fl order cols fields (i + 1) rs; pure (row :: x)) = _
    rw [h3]; rfl

theorem marshalFields_noColumns {fl : Floats} {fields : List Field} (hn : (fields.map (·.name)).Nodup) {vals : List FieldVal}
    (hv : IsStruct fields vals) {fs : List Field} (hfs : ∀ f ∈ fs, f ∈ fields) (hw : ∃ f ∈ fs, Writable f) :
    marshalFields fl [] fields vals fs [] = .panic .index := by
  induction fs with
  | nil => obtain ⟨f, hf, _⟩ := hw; cases hf
  | cons f fs ih =>
    obtain ⟨m, hm⟩ := List.mem_iff_getElem?.1 (hfs f (by simp))
    obtain ⟨v, hv'⟩ : ∃ v, vals[m]? = some v :=
      ⟨_, List.getElem?_eq_getElem (by have := (List.getElem?_eq_some_iff.1 hm).1; have := hv.length; omega)⟩
    have hk := hv.get hm hv'
    rw [marshalFields, marshalField, fieldByName_at hn hm hv']
    by_cases hf : Writable f
    · unfold Writable at hf
      generalize f.kind = kd at hk hf ⊢
      cases hk <;> first | rfl | exact absurd rfl hf
    · have e : f.kind = .other := Classical.not_not.1 hf
      rw [e] at hk ⊢
      cases hk
      refine ih (fun g hg => hfs g (by simp [hg])) ?_
      obtain ⟨g, hg, hgw⟩ := hw
      rcases List.mem_cons.1 hg with rfl | hg
      · exact absurd hgw hf
      · exact ⟨g, hg, hgw⟩

end Takenoco
