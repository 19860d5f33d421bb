import Verif.Lemmas.Marshal
/-
Helper lemmas for C60: the maps of `Unmarshal` and the loop over them.
-/
namespace Takenoco
open Spec Csv

theorem keyOf_unique {header : List Bytes} {f : Field} {k k' : Bytes} (h : KeyOf header f k) (h' : KeyOf header f k') : k = k' := by
  rcases h with ⟨h1, rfl⟩ | ⟨h1, h2, rfl⟩ <;> rcases h' with ⟨h1', rfl⟩ | ⟨h1', h2', rfl⟩ <;> first | rfl | contradiction

theorem keyOf_mem {header : List Bytes} {f : Field} {k : Bytes} (h : KeyOf header f k) : k ∈ header := by
  rcases h with ⟨h1, rfl⟩ | ⟨h1, h2, rfl⟩ <;> assumption

theorem mappingOf_cons (header : List Bytes) (f : Field) (fs : List Field) (m : List (Bytes × Field)) :
    (∃ k, KeyOf header f k ∧ mappingOf header (f :: fs) m = mappingOf header fs (putEntry k f m)) ∨
    ((∀ k, ¬ KeyOf header f k) ∧ mappingOf header (f :: fs) m = mappingOf header fs m) := by
  rw [mappingOf]
  by_cases h1 : f.tag ∈ header
  · exact .inl ⟨f.tag, .inl ⟨h1, rfl⟩, if_pos h1⟩
  · by_cases h2 : f.name ∈ header
    · exact .inl ⟨f.name, .inr ⟨h1, h2, rfl⟩, by rw [if_neg h1, if_pos h2]⟩
    · refine .inr ⟨?_, by rw [if_neg h1, if_neg h2]⟩
      rintro k (⟨h, _⟩ | ⟨_, h, _⟩)
      · exact h1 h
      · exact h2 h

theorem putEntry_keys (k : Bytes) (f : Field) (m : List (Bytes × Field)) :
    ∀ k', k' ∈ (putEntry k f m).map (·.1) ↔ k' = k ∨ k' ∈ m.map (·.1) := by
  intro k'
  induction m with
  | nil => simp [putEntry]
  | cons e es ih =>
    rw [putEntry]
    by_cases h : e.1 = k
    · rw [if_pos h]; simp [h]
    · rw [if_neg h, List.map_cons, List.mem_cons, ih, List.map_cons, List.mem_cons]
      constructor
      · rintro (h | h | h) <;> simp [h]
      · rintro (h | h | h) <;> simp [h]

theorem putEntry_nodup (k : Bytes) (f : Field) {m : List (Bytes × Field)} (h : (m.map (·.1)).Nodup) :
    ((putEntry k f m).map (·.1)).Nodup := by
  induction m with
  | nil => simp [putEntry]
  | cons e es ih =>
    rw [List.map_cons, List.nodup_cons] at h
    rw [putEntry]
    by_cases he : e.1 = k
    · rw [if_pos he, List.map_cons, List.nodup_cons]; exact ⟨he ▸ h.1, h.2⟩
    · rw [if_neg he, List.map_cons, List.nodup_cons, putEntry_keys]
      exact ⟨fun h' => h'.elim he h.1, ih h.2⟩

theorem mem_putEntry (k : Bytes) (f : Field) {m : List (Bytes × Field)} (h : (m.map (·.1)).Nodup) (k' : Bytes) (f' : Field) :
    (k', f') ∈ putEntry k f m ↔ (k' = k ∧ f' = f) ∨ (k' ≠ k ∧ (k', f') ∈ m) := by
  induction m with
  | nil => simp [putEntry]
  | cons e es ih =>
    rw [List.map_cons, List.nodup_cons] at h
    rw [putEntry]
    by_cases he : e.1 = k
    · rw [if_pos he, List.mem_cons, List.mem_cons, Prod.mk.injEq]
      constructor
      · rintro (h' | h')
        · exact .inl h'
        · refine .inr ⟨fun hk => h.1 ?_, .inr h'⟩
          rw [he, ← hk]; exact List.mem_map_of_mem (f := (·.1)) h'
      · rintro (h' | ⟨h1, h' | h'⟩)
        · exact .inl h'
        · rw [← h'] at he; exact absurd he h1
        · exact .inr h'
    · rw [if_neg he, List.mem_cons, List.mem_cons, ih h.2]
      constructor
      · rintro (h' | h' | h')
        · exact .inr ⟨by rw [← h'] at he; exact he, .inl h'⟩
        · exact .inl h'
        · exact .inr ⟨h'.1, .inr h'.2⟩
      · rintro (h' | ⟨h1, h' | h'⟩)
        · exact .inr (.inl h')
        · exact .inl h'
        · exact .inr (.inr ⟨h1, h'⟩)

theorem putEntry_names (k : Bytes) (f : Field) {m : List (Bytes × Field)} (h : (m.map (·.2.name)).Nodup)
    (hf : f.name ∉ m.map (·.2.name)) :
    ((putEntry k f m).map (·.2.name)).Nodup ∧ ∀ n, n ∈ (putEntry k f m).map (·.2.name) → n = f.name ∨ n ∈ m.map (·.2.name) := by
  induction m with
  | nil => simp [putEntry]
  | cons e es ih =>
    rw [List.map_cons, List.nodup_cons] at h
    rw [List.map_cons, List.mem_cons, not_or] at hf
    rw [putEntry]
    by_cases he : e.1 = k
    · rw [if_pos he, List.map_cons, List.nodup_cons]
      refine ⟨⟨hf.2, h.2⟩, fun n hn => ?_⟩
      rcases List.mem_cons.1 hn with rfl | hn
      · exact .inl rfl
      · exact .inr (by simp only [List.map_cons, List.mem_cons]; exact .inr hn)
    · obtain ⟨i1, i2⟩ := ih h.2 hf.2
      rw [if_neg he, List.map_cons, List.nodup_cons]
      refine ⟨⟨fun h' => ?_, i1⟩, fun n hn => ?_⟩
      · rcases i2 _ h' with h' | h'
        · exact hf.1 h'.symm
        · exact h.1 h'
      · rcases List.mem_cons.1 hn with rfl | hn
        · exact .inr (by simp)
        · rcases i2 n hn with h' | h'
          · exact .inl h'
          · exact .inr (by simp only [List.map_cons, List.mem_cons]; exact .inr h')

theorem mem_mappingOf (header : List Bytes) (fs : List Field) {m : List (Bytes × Field)} (h : (m.map (·.1)).Nodup) (k : Bytes) (f : Field) :
    (k, f) ∈ mappingOf header fs m ↔
      (∃ i : Nat, fs[i]? = some f ∧ KeyOf header f k ∧ ∀ (i' : Nat) f', i < i' → fs[i']? = some f' → ¬ KeyOf header f' k) ∨
      ((k, f) ∈ m ∧ ∀ f' ∈ fs, ¬ KeyOf header f' k) := by
  induction fs generalizing m with
  | nil => simp [mappingOf]
  | cons g gs ih =>
    have succ : (∃ i : Nat, gs[i]? = some f ∧ KeyOf header f k ∧ ∀ (i' : Nat) f', i < i' → gs[i']? = some f' → ¬ KeyOf header f' k) →
        (∃ i : Nat, (g :: gs)[i]? = some f ∧ KeyOf header f k ∧ ∀ (i' : Nat) f', i < i' → (g :: gs)[i']? = some f' → ¬ KeyOf header f' k) := by
      rintro ⟨i, h1, h2, h3⟩
      refine ⟨i + 1, by simpa using h1, h2, fun i' f' hi hf' => ?_⟩
      obtain ⟨i', rfl⟩ : ∃ j, i' = j + 1 := ⟨i' - 1, by omega⟩
      exact h3 i' f' (by omega) (by simpa using hf')
    have pred : (∃ i : Nat, (g :: gs)[i]? = some f ∧ KeyOf header f k ∧ ∀ (i' : Nat) f', i < i' → (g :: gs)[i']? = some f' → ¬ KeyOf header f' k) →
        (∃ i : Nat, gs[i]? = some f ∧ KeyOf header f k ∧ ∀ (i' : Nat) f', i < i' → gs[i']? = some f' → ¬ KeyOf header f' k) ∨
        (f = g ∧ KeyOf header g k ∧ ∀ f' ∈ gs, ¬ KeyOf header f' k) := by
      rintro ⟨i, h1, h2, h3⟩
      cases i with
      | zero =>
        simp at h1; subst h1
        refine .inr ⟨rfl, h2, fun f' hf' => ?_⟩
        obtain ⟨i, hi⟩ := List.mem_iff_getElem?.1 hf'
        exact h3 (i + 1) f' (by omega) (by simpa using hi)
      | succ i =>
        refine .inl ⟨i, by simpa using h1, h2, fun i' f' hi hf' => h3 (i' + 1) f' (by omega) (by simpa using hf')⟩
    rcases mappingOf_cons header g gs m with ⟨k0, hk0, e⟩ | ⟨hno, e⟩
    · rw [e, ih (putEntry_nodup k0 g h), mem_putEntry k0 g h]
      constructor
      · rintro (h' | ⟨⟨rfl, rfl⟩ | ⟨h1, h2⟩, h3⟩)
        · exact .inl (succ h')
        · refine .inl ⟨0, rfl, hk0, fun i' f' hi hf' => ?_⟩
          obtain ⟨i', rfl⟩ : ∃ j, i' = j + 1 := ⟨i' - 1, by omega⟩
          exact h3 f' (List.mem_of_getElem? (by simpa using hf'))
        · refine .inr ⟨h2, fun f' hf' => ?_⟩
          rcases List.mem_cons.1 hf' with rfl | hf'
          · exact fun hk => h1 (keyOf_unique hk hk0)
          · exact h3 f' hf'
      · rintro (h' | ⟨h1, h2⟩)
        · rcases pred h' with h' | ⟨rfl, h1, h2⟩
          · exact .inl h'
          · exact .inr ⟨.inl ⟨keyOf_unique h1 hk0, rfl⟩, h2⟩
        · refine .inr ⟨.inr ⟨fun hk => h2 g (by simp) (hk ▸ hk0), h1⟩, fun f' hf' => h2 f' (by simp [hf'])⟩
    · rw [e, ih h]
      constructor
      · rintro (h' | ⟨h1, h2⟩)
        · exact .inl (succ h')
        · refine .inr ⟨h1, fun f' hf' => ?_⟩
          rcases List.mem_cons.1 hf' with rfl | hf'
          · exact hno k
          · exact h2 f' hf'
      · rintro (h' | ⟨h1, h2⟩)
        · rcases pred h' with h' | ⟨rfl, h1, _⟩
          · exact .inl h'
          · exact absurd h1 (hno k)
        · exact .inr ⟨h1, fun f' hf' => h2 f' (by simp [hf'])⟩

theorem mappingOf_names (header : List Bytes) (fs : List Field) {m : List (Bytes × Field)} (hf : (fs.map (·.name)).Nodup)
    (h : (m.map (·.2.name)).Nodup) (hd : ∀ f ∈ fs, f.name ∉ m.map (·.2.name)) : ((mappingOf header fs m).map (·.2.name)).Nodup := by
  induction fs generalizing m with
  | nil => exact h
  | cons g gs ih =>
    rw [List.map_cons, List.nodup_cons] at hf
    rcases mappingOf_cons header g gs m with ⟨k0, hk0, e⟩ | ⟨hno, e⟩ <;> rw [e]
    · obtain ⟨h1, h2⟩ := putEntry_names k0 g h (hd g (by simp))
      refine ih hf.2 h1 fun f hf' hm => ?_
      rcases h2 _ hm with h' | h'
      · exact hf.1 (h' ▸ List.mem_map_of_mem hf')
      · exact hd f (by simp [hf']) h'
    · exact ih hf.2 h fun f hf' => hd f (by simp [hf'])

/-! ### One field -/

theorem bmod_iff {bits : Nat} (hb : 1 ≤ bits) (z i : Int) :
    z.bmod (2 ^ bits) = i ↔ (2 : Int) ^ bits ∣ z - i ∧ -2 ^ (bits - 1) ≤ i ∧ i < 2 ^ (bits - 1) := by
  obtain ⟨b, rfl⟩ : ∃ b, bits = b + 1 := ⟨bits - 1, by omega⟩
  have hp : (0 : Nat) < 2 ^ b := Nat.pos_of_ne_zero (by simp)
  have h2 : (2 : Nat) ^ (b + 1) = 2 * 2 ^ b := by rw [Nat.pow_succ]; omega
  have hi : ((2 : Int) ^ (b + 1)) = ((2 ^ (b + 1) : Nat) : Int) := by simp
  have hi' : ((2 : Int) ^ b) = ((2 ^ b : Nat) : Int) := by simp
  rw [Nat.add_sub_cancel, hi, hi', h2]
  generalize 2 ^ b = p at hp
  have l1 := Int.le_bmod (x := z) (m := 2 * p) (by omega)
  have l2 := Int.bmod_lt (x := z) (m := 2 * p) (by omega)
  have l3 : ((2 * p : Nat) : Int) ∣ z - z.bmod (2 * p) := Int.dvd_self_sub_bmod
  constructor
  · rintro rfl
    exact ⟨l3, by omega, by omega⟩
  · rintro ⟨d, h1, h2⟩
    obtain ⟨a, ha⟩ := d
    obtain ⟨c, hc⟩ := l3
    generalize z.bmod (2 * p) = r at *
    have : i - r = ((2 * p : Nat) : Int) * (c - a) := by rw [Int.mul_sub]; omega
    by_cases hac : c - a = 0
    · rw [hac] at this; omega
    · exfalso
      rcases Int.lt_or_gt_of_ne hac with h | h
      · have : ((2 * p : Nat) : Int) * (c - a) ≤ ((2 * p : Nat) : Int) * (-1) := Int.mul_le_mul_of_nonneg_left (by omega) (by omega)
        omega
      · have : ((2 * p : Nat) : Int) * 1 ≤ ((2 * p : Nat) : Int) * (c - a) := Int.mul_le_mul_of_nonneg_left (by omega) (by omega)
        omega

theorem setVal_iff (f : Field) (x v : FieldVal) : setVal f x = .ok (.ok v) ↔ f.exported = true ∧ x = v := by
  unfold setVal
  by_cases h : f.exported = true <;> simp [h]

theorem fieldSet_iff {fl : Floats} {f : Field} (hk : GoKind f.kind) (w : Bytes) (old v : FieldVal) :
    fieldSet fl f w old = .ok (.ok v) ↔
      (Writable f → f.exported = true ∧ CellReads fl f.kind w v) ∧ (¬ Writable f → v = old) := by
  unfold fieldSet Writable
  generalize f.kind = kd at hk ⊢
  cases kd with
  | string =>
    simp only [setVal_iff, ne_eq, reduceCtorEq, not_false_eq_true, not_true, forall_const, false_implies, and_true]
    exact and_congr_right fun _ => ⟨fun h => h ▸ .string, fun h => by cases h; rfl⟩
  | int bits =>
    simp only [ne_eq, reduceCtorEq, not_false_eq_true, not_true, forall_const, false_implies, and_true]
    have hi := parseInt_iff (base := 10) (by decide) (by decide) w
    cases hp : parseInt w 10 with
    | error e =>
      simp only [Out.ok.injEq, reduceCtorEq, false_iff, not_and]
      rintro - h
      cases h with
      | int h1 h2 h3 => have := (hi _).2 ⟨h1, h2, h3⟩; rw [show ((10 : Nat) : Int) = 10 from rfl, hp] at this; cases this
    | ok z =>
      obtain ⟨g1, g2, g3⟩ := (hi z).1 hp
      simp only [setVal_iff]
      refine and_congr_right fun _ => ⟨?_, fun h => ?_⟩
      · rintro rfl
        obtain ⟨b1, b2, b3⟩ := (bmod_iff hk.1 z _).1 rfl
        exact .int g1 g2 g3 b1 b2 b3
      · cases h with
        | int h1 h2 h3 b1 b2 b3 =>
          have := (hi _).2 ⟨h1, h2, h3⟩
          rw [show ((10 : Nat) : Int) = 10 from rfl, hp] at this
          cases this
          rw [(bmod_iff hk.1 z _).2 ⟨b1, b2, b3⟩]
  | uint bits =>
    simp only [ne_eq, reduceCtorEq, not_false_eq_true, not_true, forall_const, false_implies, and_true]
    have hi := parseUint_iff (base := 10) (by decide) (by decide) w
    cases hp : parseUint w 10 with
    | error e =>
      simp only [Out.ok.injEq, reduceCtorEq, false_iff, not_and]
      rintro - h
      cases h with
      | uint h1 h2 => have := (hi _).2 ⟨h1, h2⟩; rw [show ((10 : Nat) : Int) = 10 from rfl, hp] at this; cases this
    | ok z =>
      obtain ⟨g1, g2⟩ := (hi z).1 hp
      simp only [setVal_iff]
      refine and_congr_right fun _ => ⟨?_, fun h => ?_⟩
      · rintro rfl
        exact .uint g1 g2 (by simp) (Nat.mod_lt _ (Nat.pos_of_ne_zero (by simp)))
      · cases h with
        | uint h1 h2 b1 b2 =>
          have := (hi _).2 ⟨h1, h2⟩
          rw [show ((10 : Nat) : Int) = 10 from rfl, hp] at this
          cases this
          rw [b1, Nat.mod_eq_of_lt b2]
  | float bits =>
    simp only [ne_eq, reduceCtorEq, not_false_eq_true, not_true, forall_const, false_implies, and_true]
    cases hp : fl.parse w with
    | error e =>
      simp only [Out.ok.injEq, reduceCtorEq, false_iff, not_and]
      rintro - h
      cases h with
      | float _ h => rw [hp] at h; cases h
      | float32 h => rw [hp] at h; cases h
    | ok z =>
      simp only [setVal_iff]
      refine and_congr_right fun _ => ⟨?_, fun h => ?_⟩
      · rintro rfl
        by_cases h : bits = 32
        · subst h; rw [if_pos rfl]; exact .float32 hp
        · rw [if_neg h]; exact .float h hp
      · cases h with
        | float hb h => rw [hp] at h; cases h; rw [if_neg hb]
        | float32 h => rw [hp] at h; cases h; rw [if_pos rfl]
  | other =>
    simp only [ne_eq, not_true, false_implies, not_false_eq_true, forall_const, true_and, Out.ok.injEq, Except.ok.injEq]
    exact eq_comm

/-! ### One row -/

/-- The value that a field gets from a row. -/
def Got (fl : Floats) (header row : List Bytes) (k : Bytes) (f : Field) (old v : FieldVal) : Prop :=
  ∃ w, row[(lastIndex k header 0).getD 0]? = some w ∧ fieldSet fl f w old = .ok (.ok v)

theorem unmarshalFields_ok {fl : Floats} {header row : List Bytes} {fields : List Field} (hn : (fields.map (·.name)).Nodup)
    {es : List (Bytes × Field)} (hes : (es.map (·.2.name)).Nodup) (hmem : ∀ e ∈ es, e.2 ∈ fields) {vals : List FieldVal}
    (hl : vals.length = fields.length) (vals' : List FieldVal) :
    unmarshalFields fl header fields row es vals = .ok (.ok vals') ↔
      vals'.length = fields.length ∧ ∀ (m : Nat) f v v', fields[m]? = some f → vals[m]? = some v → vals'[m]? = some v' →
        (∀ k, (k, f) ∈ es → Got fl header row k f v v') ∧ ((∀ k, (k, f) ∉ es) → v' = v) := by
  induction es generalizing vals with
  | nil =>
    simp only [unmarshalFields, Out.ok.injEq, Except.ok.injEq, List.not_mem_nil, false_implies, implies_true, true_and,
      not_false_eq_true, forall_const]
    constructor
    · rintro rfl
      exact ⟨hl, fun m f v v' _ h1 h2 => by rw [h1] at h2; cases h2; rfl⟩
    · rintro ⟨h1, h2⟩
      refine List.ext_getElem (hl.trans h1.symm) fun m g1 g2 => ?_
      exact (h2 m _ _ _ (List.getElem?_eq_getElem (by omega)) (List.getElem?_eq_getElem g1) (List.getElem?_eq_getElem g2)).symm
  | cons e es ih =>
    obtain ⟨k0, f0⟩ := e
    rw [List.map_cons, List.nodup_cons] at hes
    obtain ⟨m0, hm0⟩ := List.mem_iff_getElem?.1 (hmem (k0, f0) (by simp))
    have hm0' : fields[m0]? = some f0 := hm0
    have lt : m0 < vals.length := by rw [hl]; exact (List.getElem?_eq_some_iff.1 hm0).1
    have hv0 : vals[m0]? = some vals[m0] := List.getElem?_eq_getElem lt
    have hnot : ∀ k, (k, f0) ∉ es := fun k hk => hes.1 (List.mem_map.2 ⟨_, hk, rfl⟩)
    rw [unmarshalFields]
    have fail : (∀ v', ¬ Got fl header row k0 f0 vals[m0] v') →
        ¬ (vals'.length = fields.length ∧ ∀ (m : Nat) f v v', fields[m]? = some f → vals[m]? = some v → vals'[m]? = some v' →
        (∀ k, (k, f) ∈ (k0, f0) :: es → Got fl header row k f v v') ∧ ((∀ k, (k, f) ∉ (k0, f0) :: es) → v' = v)) := fun h ⟨h1, h2⟩ =>
      h _ ((h2 m0 f0 _ _ hm0' hv0 (List.getElem?_eq_getElem (by omega : m0 < vals'.length))).1 k0 (by simp))
    cases hw : row[(lastIndex k0 header 0).getD 0]? with
    | none =>
      simp only [reduceCtorEq, false_iff]
      exact fail fun v' ⟨w, h1, _⟩ => by rw [hw] at h1; cases h1
    | some w =>
      simp only [fieldByName_at hn hm0' hv0]
      have fail' : (∀ v, fieldSet fl f0 w vals[m0] ≠ .ok (.ok v)) → ∀ v', ¬ Got fl header row k0 f0 vals[m0] v' := fun h v' ⟨w', h1, h2⟩ => by
        rw [hw] at h1; cases h1; exact h _ h2
      cases hs : fieldSet fl f0 w vals[m0] with
      | panic p =>
        simp only [Out.bind_panic, reduceCtorEq, false_iff]
        exact fail (fail' fun v h => by rw [hs] at h; cases h)
      | timeout =>
        simp only [Out.bind_timeout, reduceCtorEq, false_iff]
        exact fail (fail' fun v h => by rw [hs] at h; cases h)
      | ok r =>
        cases r with
        | error e =>
          show Out.ok (Except.error e) = _ ↔ _
          simp only [Out.ok.injEq, reduceCtorEq, false_iff]
          exact fail (fail' fun v h => by rw [hs] at h; cases h)
        | ok v1 =>
          show unmarshalFields fl header fields row es (setByName f0.name v1 fields vals) = _ ↔ _
          rw [setByName_get hn hl hm0', ih hes.2 (fun e he => hmem e (by simp [he])) (by rw [List.length_set]; exact hl)]
          refine and_congr_right fun hl' => ⟨fun h m f v v' h1 h2 h3 => ?_, fun h m f v v' h1 h2 h3 => ?_⟩
          · by_cases hm : m = m0
            · subst hm
              rw [hm0'] at h1; cases h1
              have e2 := (h m f0 v1 v' hm0' (List.getElem?_set_self lt) h3).2 hnot
              subst e2
              rw [hv0] at h2; cases h2
              refine ⟨fun k hk => ?_, fun hk => absurd (by simp) (hk k0)⟩
              rcases List.mem_cons.1 hk with hk | hk
              · cases hk; exact ⟨w, hw, hs⟩
              · exact absurd hk (hnot k)
            · have := h m f v v' h1 (by rw [List.getElem?_set_ne (Ne.symm hm)]; exact h2) h3
              have hne : f ≠ f0 := fun e => hm (name_unique hn h1 hm0' (by rw [e]))
              refine ⟨fun k hk => this.1 k ?_, fun hk => this.2 fun k hk' => hk k (by simp [hk'])⟩
              rcases List.mem_cons.1 hk with hk | hk
              · cases hk; exact absurd rfl hne
              · exact hk
          · by_cases hm : m = m0
            · subst hm
              rw [hm0'] at h1; cases h1
              rw [List.getElem?_set_self lt] at h2; cases h2
              obtain ⟨w', g1, g2⟩ := (h m f0 _ v' hm0' hv0 h3).1 k0 (by simp)
              rw [hw] at g1; cases g1
              rw [hs] at g2; cases g2
              exact ⟨fun k hk => absurd hk (hnot k), fun _ => rfl⟩
            · rw [List.getElem?_set_ne (Ne.symm hm)] at h2
              have := h m f v v' h1 h2 h3
              have hne : f ≠ f0 := fun e => hm (name_unique hn h1 hm0' (by rw [e]))
              refine ⟨fun k hk => this.1 k (by simp [hk]), fun hk => this.2 fun k hk' => ?_⟩
              rcases List.mem_cons.1 hk' with hk' | hk'
              · cases hk'; exact absurd rfl hne
              · exact hk k hk'

theorem isZero_iff (k : Kind) (v : FieldVal) : IsZero k v ↔ v = zeroVal k :=
  ⟨fun h => by cases h <;> rfl, fun h => by subst h; cases k <;> constructor⟩

theorem entry_iff {header : List Bytes} {fields : List Field} (hn : (fields.map (·.name)).Nodup) {m : Nat} {f : Field}
    (hf : fields[m]? = some f) (k : Bytes) : (k, f) ∈ mappingOf header fields [] ↔
      KeyOf header f k ∧ ∀ m' f', m < m' → fields[m']? = some f' → ¬ KeyOf header f' k := by
  rw [mem_mappingOf header fields (by simp)]
  constructor
  · rintro (⟨i, h1, h2, h3⟩ | ⟨h, _⟩)
    · have := name_unique hn h1 hf rfl
      subst this
      exact ⟨h2, h3⟩
    · cases h
  · rintro ⟨h1, h2⟩
    exact .inl ⟨m, hf, h1, h2⟩

theorem source_iff {header : List Bytes} {fields : List Field} (hn : (fields.map (·.name)).Nodup) {m : Nat} {f : Field}
    (hf : fields[m]? = some f) (j : Nat) : Source header fields m j ↔ ∃ k, (k, f) ∈ mappingOf header fields [] ∧ ColumnAt header k j := by
  simp only [entry_iff hn hf]
  constructor
  · rintro ⟨f', k, h1, h2, h3, h4⟩
    rw [hf] at h1; cases h1
    exact ⟨k, ⟨h2, h4⟩, h3⟩
  · rintro ⟨k, ⟨h2, h4⟩, h3⟩
    exact ⟨f, k, hf, h2, h3, h4⟩

theorem entry_field {header : List Bytes} {fields : List Field} {k : Bytes} {f : Field} (h : (k, f) ∈ mappingOf header fields []) :
    ∃ m j : Nat, fields[m]? = some f ∧ ColumnAt header k j ∧ (lastIndex k header 0).getD 0 = j := by
  rcases (mem_mappingOf header fields (by simp) k f).1 h with ⟨i, h1, h2, _⟩ | ⟨h, _⟩
  · obtain ⟨j, hj⟩ := columnAt_exists (keyOf_mem h2)
    exact ⟨i, j, h1, hj, by rw [lastIndex_at.2 hj]; rfl⟩
  · cases h

theorem unmarshalFields_struct {fl : Floats} {header row : List Bytes} {fields : List Field} (hn : (fields.map (·.name)).Nodup)
    (hk : ∀ f ∈ fields, GoKind f.kind) {es : List (Bytes × Field)} (hp : es.Perm (mappingOf header fields [])) (vals : List FieldVal) :
    unmarshalFields fl header fields row es (fields.map fun f => zeroVal f.kind) = .ok (.ok vals) ↔
      Settable header fields ∧ StructOf fl header fields row vals := by
  have h1 : (es.map (·.2.name)).Nodup :=
    (hp.map _).nodup_iff.2 (mappingOf_names header fields hn (by simp) (by simp))
  have h2 : ∀ e ∈ es, e.2 ∈ fields := fun e he => by
    obtain ⟨m, j, h, _⟩ := entry_field (hp.mem_iff.1 he)
    exact List.mem_of_getElem? h
  rw [unmarshalFields_ok hn h1 h2 (by simp)]
  have zero : ∀ {m : Nat} {f : Field}, fields[m]? = some f → (fields.map fun f => zeroVal f.kind)[m]? = some (zeroVal f.kind) := fun h => by
    rw [List.getElem?_map, h]; rfl
  have got : ∀ {m : Nat} {f k v}, fields[m]? = some f → (k, f) ∈ mappingOf header fields [] →
      (Got fl header row k f (zeroVal f.kind) v ↔ ∃ j w, ColumnAt header k j ∧ row[j]? = some w ∧
        (Writable f → f.exported = true ∧ CellReads fl f.kind w v) ∧ (¬ Writable f → v = zeroVal f.kind)) := fun {m f k v} hf hm => by
    obtain ⟨m', j, e1, e2, e3⟩ := entry_field hm
    unfold Got
    rw [e3]
    simp only [fieldSet_iff (hk f (List.mem_of_getElem? hf))]
    constructor
    · rintro ⟨w, g1, g2⟩
      exact ⟨j, w, e2, g1, g2⟩
    · rintro ⟨j', w, g0, g1, g2⟩
      rw [columnAt_unique g0 e2] at g1
      exact ⟨w, g1, g2⟩
  constructor
  · rintro ⟨hl, h⟩
    constructor
    · intro m f j hf hw hs
      obtain ⟨k, k1, k2⟩ := (source_iff hn hf j).1 hs
      have hm : m < vals.length := by rw [hl]; exact (List.getElem?_eq_some_iff.1 hf).1
      obtain ⟨_, w, _, _, g, _⟩ := (got hf k1).1 ((h m f _ _ hf (zero hf) (List.getElem?_eq_getElem hm)).1 k (hp.mem_iff.2 k1))
      exact (g hw).1
    · refine ⟨hl, fun m f v hf hv => ⟨fun hz => (isZero_iff _ _).2 ?_, fun j hs => ?_⟩⟩
      · obtain ⟨g1, g2⟩ := h m f _ v hf (zero hf) hv
        by_cases hx : ∃ k, (k, f) ∈ mappingOf header fields []
        · obtain ⟨k, hx⟩ := hx
          obtain ⟨j, w, c1, c2, c3, c4⟩ := (got hf hx).1 (g1 k (hp.mem_iff.2 hx))
          rcases hz with hz | hz
          · exact absurd ((source_iff hn hf j).2 ⟨k, hx, c1⟩) (hz j)
          · exact c4 hz
        · exact g2 fun k hk' => hx ⟨k, hp.mem_iff.1 hk'⟩
      · obtain ⟨k, k1, k2⟩ := (source_iff hn hf j).1 hs
        obtain ⟨j', w, c1, c2, c3, c4⟩ := (got hf k1).1 ((h m f _ v hf (zero hf) hv).1 k (hp.mem_iff.2 k1))
        rw [columnAt_unique c1 k2] at c2
        exact ⟨w, c2, fun hw => (c3 hw).2⟩
  · rintro ⟨hset, hl, h⟩
    refine ⟨hl, fun m f v v' hf hv hv' => ?_⟩
    rw [zero hf] at hv
    cases hv
    obtain ⟨g1, g2⟩ := h m f v' hf hv'
    constructor
    · intro k hm
      have hm' := hp.mem_iff.1 hm
      obtain ⟨_, j, _, e2, _⟩ := entry_field hm'
      have hs := (source_iff hn hf j).2 ⟨k, hm', e2⟩
      obtain ⟨w, w1, w2⟩ := g2 j hs
      exact (got hf hm').2 ⟨j, w, e2, w1, fun hw => ⟨hset m f j hf hw hs, w2 hw⟩, fun hw => (isZero_iff _ _).1 (g1 (.inr hw))⟩
    · intro hno
      refine (isZero_iff _ _).1 (g1 (.inl fun j hs => ?_))
      obtain ⟨k, k1, _⟩ := (source_iff hn hf j).1 hs
      exact hno k (hp.mem_iff.2 k1)

theorem unmarshalRows_structs {fl : Floats} {order : Nat → List (Bytes × Field) → List (Bytes × Field)} (hp : ∀ i es, (order i es).Perm es)
    {header : List Bytes} {fields : List Field} (hn : (fields.map (·.name)).Nodup) (hk : ∀ f ∈ fields, GoKind f.kind)
    (rows : List (List Bytes)) (i : Nat) (vs : List (List FieldVal)) :
    unmarshalRows fl order header fields i rows = .ok (.ok vs) ↔
      (rows ≠ [] → Settable header fields) ∧ Pointwise (StructOf fl header fields) rows vs := by
  induction rows generalizing i vs with
  | nil =>
    simp only [unmarshalRows, Out.ok.injEq, Except.ok.injEq, ne_eq, not_true, false_implies, true_and]
    exact ⟨fun h => h ▸ .nil, fun h => by cases h; rfl⟩
  | cons row rows ih =>
    have one := unmarshalFields_struct (fl := fl) (row := row) hn hk (hp i (mappingOf header fields []))
    rw [unmarshalRows]
    have bad : (∀ vals, unmarshalFields fl header fields row (order i (mappingOf header fields [])) (fields.map fun f => zeroVal f.kind) ≠ .ok (.ok vals)) →
        ¬ ((row :: rows ≠ [] → Settable header fields) ∧ Pointwise (StructOf fl header fields) (row :: rows) vs) := by
      rintro h ⟨h1, h2⟩
      cases h2 with
      | cons h2 _ => exact h _ ((one _).2 ⟨h1 (by simp), h2⟩)
    cases hu : unmarshalFields fl header fields row (order i (mappingOf header fields [])) (fields.map fun f => zeroVal f.kind) with
    | panic p => simp only [Out.bind_panic, reduceCtorEq, false_iff]; exact bad fun v h => by rw [hu] at h; cases h
    | timeout => simp only [Out.bind_timeout, reduceCtorEq, false_iff]; exact bad fun v h => by rw [hu] at h; cases h
    | ok r =>
      cases r with
      | error e =>
        show Out.ok (Except.error e) = _ ↔ _
        simp only [Out.ok.injEq, reduceCtorEq, false_iff]; exact bad fun v h => by rw [hu] at h; cases h
      | ok vals =>
        obtain ⟨s1, s2⟩ := (one vals).1 hu
        have bad' : (∀ vs', unmarshalRows fl order header fields (i + 1) rows ≠ .ok (.ok vs')) →
            ¬ ((row :: rows ≠ [] → Settable header fields) ∧ Pointwise (StructOf fl header fields) (row :: rows) vs) := by
          rintro h ⟨h1, h2⟩
          cases h2 with
          | cons _ h2 => exact h _ ((ih (i + 1) _).2 ⟨fun _ => s1, h2⟩)
        simp only [Out.bind_ok]
        cases hr : unmarshalRows fl order header fields (i + 1) rows with
        | panic p => simp only [Out.bind_panic, reduceCtorEq, false_iff]; exact bad' fun v h => by rw [hr] at h; cases h
        | timeout => simp only [Out.bind_timeout, reduceCtorEq, false_iff]; exact bad' fun v h => by rw [hr] at h; cases h
        | ok r =>
          cases r with
          | error e =>
            show Out.ok (Except.error e) = _ ↔ _
            simp only [Out.ok.injEq, reduceCtorEq, false_iff]; exact bad' fun v h => by rw [hr] at h; cases h
          | ok vs' =>
            show Out.ok (Except.ok (vals :: vs')) = _ ↔ _
            obtain ⟨_, t2⟩ := (ih (i + 1) vs').1 hr
            constructor
            · intro h; cases h
              exact ⟨fun _ => s1, .cons s2 t2⟩
            · rintro ⟨h1, h2⟩
              cases h2 with
              | cons g1 g2 =>
                have a := (one _).2 ⟨s1, g1⟩
                rw [hu] at a; cases a
                have b := (ih (i + 1) _).2 ⟨fun _ => s1, g2⟩
                rw [hr] at b; cases b
                rfl

/-! ### How reading ends -/

/-- The panic of `reflect` for fields that are not exported. -/
def unexportedPanic : Panic := .user "reflect: using value obtained using unexported field"

theorem fieldSet_shape (fl : Floats) {f : Field} (h : Writable f) (w : Bytes) (old : FieldVal) :
    (∃ v, ∀ b, fieldSet fl { f with exported := b } w old = setVal { f with exported := b } v) ∨
      ∃ why, ∀ b, fieldSet fl { f with exported := b } w old = .ok (.error (.number w why)) := by
  unfold fieldSet
  unfold Writable at h
  simp only
  cases hk : f.kind with
  | other => exact absurd hk h
  | string => exact .inl ⟨_, fun b => rfl⟩
  | int bits =>
    simp only
    cases parseInt w 10 with
    | error e => exact .inr ⟨e, fun b => rfl⟩
    | ok z => exact .inl ⟨_, fun b => rfl⟩
  | uint bits =>
    simp only
    cases parseUint w 10 with
    | error e => exact .inr ⟨e, fun b => rfl⟩
    | ok z => exact .inl ⟨_, fun b => rfl⟩
  | float bits =>
    simp only
    cases fl.parse w with
    | error e => exact .inr ⟨e, fun b => rfl⟩
    | ok z => exact .inl ⟨_, fun b => rfl⟩

theorem fieldSet_safe {fl : Floats} {f : Field} (hk : GoKind f.kind) (w : Bytes) (old : FieldVal) :
    (∃ v, fieldSet fl f w old = .ok (.ok v)) ∨
    (∃ why, fieldSet fl f w old = .ok (.error (.number w why)) ∧ Writable f ∧ ∀ v, ¬ CellReads fl f.kind w v) ∨
    (fieldSet fl f w old = .panic unexportedPanic ∧ Writable f ∧ f.exported = false) := by
  by_cases hw : Writable f
  · rcases fieldSet_shape fl hw w old with ⟨v, h⟩ | ⟨why, h⟩
    · have := h f.exported
      cases he : f.exported with
      | true => left; refine ⟨v, ?_⟩; rw [show f = { f with exported := f.exported } from rfl, this]; simp [setVal, he]
      | false =>
        right; right
        refine ⟨?_, hw, rfl⟩
        rw [show f = { f with exported := f.exported } from rfl, this]; simp [setVal, he, unexportedPanic]
    · right; left
      refine ⟨why, h f.exported, hw, fun v hv => ?_⟩
      have := (fieldSet_iff (fl := fl) (f := { f with exported := true }) hk w old v).2 ⟨fun _ => ⟨rfl, hv⟩, fun h' => absurd hw h'⟩
      rw [h true] at this; cases this
  · left
    have : f.kind = .other := Classical.not_not.1 hw
    refine ⟨old, ?_⟩
    unfold fieldSet
    rw [this]

/-- The ways in which reading can end. -/
inductive Ending (fl : Floats) (header : List Bytes) (fields : List Field) (rows : List (List Bytes)) {α : Type} :
    Out (Except UnmarshalErr α) → Prop where
  | done (a : α) : Ending fl header fields rows (.ok (.ok a))
  | unreadable {row : List Bytes} {w : Bytes} {why : NumErr} : row ∈ rows → Unreadable fl header fields row w →
      Ending fl header fields rows (.ok (.error (.number w why)))
  | short {row : List Bytes} {m j : Nat} : row ∈ rows → Source header fields m j → row.length ≤ j →
      Ending fl header fields rows (.panic .index)
  | unexported : ¬ Settable header fields → Ending fl header fields rows (.panic unexportedPanic)

theorem unmarshalFields_ends {fl : Floats} {header row : List Bytes} {fields : List Field} (hn : (fields.map (·.name)).Nodup)
    (hk : ∀ f ∈ fields, GoKind f.kind) {es : List (Bytes × Field)} (hes : ∀ e ∈ es, e ∈ mappingOf header fields []) {vals : List FieldVal}
    (hl : vals.length = fields.length) {rows : List (List Bytes)} (hr : row ∈ rows) :
    Ending fl header fields rows (unmarshalFields fl header fields row es vals) := by
  induction es generalizing vals with
  | nil => exact .done vals
  | cons e es ih =>
    obtain ⟨k, f⟩ := e
    obtain ⟨m, j, h1, h2, h3⟩ := entry_field (hes (k, f) (by simp))
    have hs : Source header fields m j := (source_iff hn h1 j).2 ⟨k, hes (k, f) (by simp), h2⟩
    have lt : m < vals.length := by rw [hl]; exact (List.getElem?_eq_some_iff.1 h1).1
    rw [unmarshalFields, h3]
    by_cases hj : j < row.length
    · have hw : row[j]? = some row[j] := List.getElem?_eq_getElem hj
      rw [hw]
      simp only [fieldByName_at hn h1 (List.getElem?_eq_getElem lt)]
      rcases fieldSet_safe (fl := fl) (hk f (List.mem_of_getElem? h1)) row[j] vals[m] with ⟨v, h⟩ | ⟨why, h, g1, g2⟩ | ⟨h, g1, g2⟩
      · rw [h]
        exact ih (fun e he => hes e (by simp [he])) (by rw [setByName_get hn hl h1, List.length_set]; exact hl)
      · rw [h]
        exact .unreadable hr ⟨m, j, f, h1, hs, g1, hw, g2⟩
      · rw [h]
        exact .unexported fun hset => by rw [hset m f j h1 g1 hs] at g2; cases g2
    · rw [List.getElem?_eq_none (by omega)]
      exact .short hr hs (by omega)

theorem unmarshalRows_ends {fl : Floats} {order : Nat → List (Bytes × Field) → List (Bytes × Field)} (hp : ∀ i es, (order i es).Perm es)
    {header : List Bytes} {fields : List Field} (hn : (fields.map (·.name)).Nodup)
    (hk : ∀ f ∈ fields, GoKind f.kind) {all rows : List (List Bytes)} (ha : ∀ r ∈ rows, r ∈ all) (i : Nat) :
    Ending fl header fields all (unmarshalRows fl order header fields i rows) := by
  induction rows generalizing i with
  | nil => exact .done []
  | cons row rows ih =>
    rw [unmarshalRows]
    have h1 := unmarshalFields_ends (fl := fl) (row := row) hn hk (es := order i (mappingOf header fields []))
      (fun e he => (hp i _).mem_iff.1 he) (vals := fields.map fun f => zeroVal f.kind) (by simp) (ha row (by simp))
    have h2 := ih (fun r hr => ha r (by simp [hr])) (i + 1)
    revert h1 h2
    generalize unmarshalFields fl header fields row (order i (mappingOf header fields [])) (fields.map fun f => zeroVal f.kind) = x
    generalize unmarshalRows fl order header fields (i + 1) rows = y
    intro h1 h2
    cases h1 with
    | done a =>
      cases h2 with
      | done b => exact .done (a :: b)
      | unreadable u1 u2 => exact .unreadable u1 u2
      | short u1 u2 u3 => exact .short u1 u2 u3
      | unexported u1 => exact .unexported u1
    | unreadable u1 u2 => exact .unreadable u1 u2
    | short u1 u2 u3 => exact .short u1 u2 u3
    | unexported u1 => exact .unexported u1

end Takenoco
