import Verif.Lemmas.ReflectBox
/-
C68: `ReflectionBox`.
-/
namespace Takenoco
open Refl Spec

section
variable {narrow : UInt64 → UInt64} {D : Decls}

/-- **C68.** When a getter or setter of a box does not panic. -/
theorem C68_allowed {h : Heap} (hh : TypedHeap D h) {r : RV} (hb : TypedBox D r) {m : Method} (ha : TypedArg D m) (hm : GetOrSet m) :
    (Allowed r m → ∃ h' x, call narrow h r m = .ok (h', x)) ∧ (¬ Allowed r m → call narrow h r m = .panic reflectPanic) := by
  by_cases hs : IsSetter m
  · rw [setter_call hs]
    have key : ∀ ty p, r = .ref ty p → ((∃ c, setValue narrow ty m = some c) ↔ Allowed r m) := fun ty p hr => by
      subst hr
      cases m <;> simp only [IsSetter] at hs <;> simp only [setValue, Allowed, RV.ref.injEq]
      · rename_i d
        cases d with
        | none => simp [FitsVar]
        | some d =>
          obtain ⟨ty', c⟩ := d
          constructor
          · rintro ⟨c', hc⟩
            refine ⟨ty, p, ⟨rfl, rfl⟩, ty', c, rfl, ?_⟩
            simp only at hc
            split at hc
            · exact .inl ‹_›
            · split at hc
              · exact .inr ‹_›
              · cases hc
          · rintro ⟨_, _, ⟨rfl, rfl⟩, _, _, h1, h2⟩
            cases h1
            simp only
            split
            · exact ⟨_, rfl⟩
            · split
              · exact ⟨_, rfl⟩
              · rename_i h3 h4; exact absurd h2 (by simp [h3, h4])
      all_goals
        constructor
        · rintro ⟨c', hc⟩
          split at hc
          · simp
          · cases hc
        · rintro ⟨_, h⟩
          first
          | (obtain ⟨rfl, _⟩ := h; exact ⟨_, rfl⟩)
          | (obtain ⟨_, rfl, _⟩ := h; exact ⟨_, rfl⟩)
    cases r with
    | invalid => exact ⟨fun h => (by cases m <;> simp_all [Allowed, IsSetter]), fun _ => rfl⟩
    | copy => exact ⟨fun h => (by cases m <;> simp_all [Allowed, IsSetter]), fun _ => rfl⟩
    | ref ty p =>
      simp only
      cases hv : setValue narrow ty m with
      | none => exact ⟨fun h => (by obtain ⟨c, h⟩ := (key ty p rfl).2 h; rw [hv] at h; cases h), fun _ => rfl⟩
      | some c =>
        refine ⟨fun _ => ?_, fun h => absurd ((key ty p rfl).1 ⟨c, hv⟩) h⟩
        obtain ⟨h', h1, _⟩ := typed_store hh hb (typed_set ha hv)
        simp only [h1]
        exact ⟨h', _, rfl⟩
  · have hg : IsGetter m := by cases m <;> simp_all [IsSetter, IsGetter, GetOrSet]
    by_cases hr : r = .invalid
    · subst hr
      by_cases hm : m = .getString
      · subst hm; exact ⟨fun _ => ⟨h, _, rfl⟩, fun h => absurd trivial h⟩
      · rw [getter_call hg (.inr hm)]
        exact ⟨fun h => (by cases m <;> simp_all [Allowed, IsGetter, boxType]), fun _ => rfl⟩
    · rw [getter_call hg (.inl hr)]
      obtain ⟨ty, c, h1, h2, h3⟩ := typed_contents hh hb hr
      rw [h2]
      simp only [Out.bind]
      by_cases hby : m = .getBytes
      · subst hby
        simp only [Allowed, h1, Option.some.injEq]
        constructor
        · rintro rfl
          obtain ⟨s, rfl⟩ := typed_slice h3
          exact ⟨h, _, rfl⟩
        · intro hn
          cases hv : getValue .getBytes (ty, c) with
          | ok x => exact absurd (getBytes_ok hv).1 hn
          | panic x =>
            unfold getValue at hv
            split at hv <;> first | (cases hv <;> rfl) | (rename_i h _; cases h; done) | (rename_i h; cases h; done)
          | timeout =>
            unfold getValue at hv
            split at hv <;> first | (rename_i h _; cases h; done) | (rename_i h; cases h; done) | (cases hv; done)
      · cases m <;> simp only [IsGetter, not_true_eq_false] at hg hby <;> simp only [Allowed, h1, hr, ne_eq, not_false_eq_true, true_implies, not_true_eq_false, false_implies] <;>
          cases h3 <;> simp [getValue]

/-- **C68.** `GetString` returns the string for a box on a string, and a description of the type for any other box. -/
theorem C68_string {h : Heap} (hh : TypedHeap D h) {r : RV} (hb : TypedBox D r) :
    (boxType r = some .string → ∃ s, call narrow h r .getString = .ok (h, .str s)) ∧
    (boxType r ≠ some .string → call narrow h r .getString = .ok (h, .descr (boxType r))) := by
  by_cases hr : r = .invalid
  · subst hr; exact ⟨fun h => (by cases h), fun _ => rfl⟩
  · rw [getter_call (by trivial) (.inl hr)]
    obtain ⟨ty, c, h1, h2, h3⟩ := typed_contents hh hb hr
    rw [h2, h1]
    cases h3 <;> simp [Out.bind, getValue]

/-- **C68.** The calls keep every variable and every box within its type. -/
theorem C68_typed {h h' : Heap} (hh : TypedHeap D h) {r : RV} (hb : TypedBox D r) {m : Method} (ha : TypedArg D m) {x : Res}
    (hc : call narrow h r m = .ok (h', x)) : TypedHeap D h' ∧ TypedRes D x := typed_call hh hb ha hc

/-- **C68.** The value that was written last is read back, by whatever box on the same variable: after any calls, if the
later ones do not write to the variable or to a part of it or to an array that contains it. -/
theorem C68_read_back {h : Heap} (hh : TypedHeap D h) (pre post : List (RV × Method)) (hp : ∀ o ∈ pre, TypedBox D o.1 ∧ TypedArg D o.2)
    {ty : Ty} {p : Place} (hb : TypedBox D (.ref ty p)) {m g : Method} (ha : TypedArg D m) {x : Res} (hr : ReadsBack narrow ty m g x)
    (hn : ∀ o ∈ post, ¬ Touches o p) : ∃ h', history narrow h (pre ++ (.ref ty p, m) :: post) = h' ∧ call narrow h' (.ref ty p) g = .ok (h', x) := by
  refine ⟨_, rfl, ?_⟩
  have hpre : ∀ (os : List (RV × Method)) (h : Heap), TypedHeap D h → (∀ o ∈ os, TypedBox D o.1 ∧ TypedArg D o.2) → TypedHeap D (history narrow h os) := by
    intro os
    induction os with
    | nil => exact fun h hh _ => hh
    | cons o os ih =>
      intro h hh ho
      obtain ⟨r, m⟩ := o
      rw [history]
      have h1 := ho _ List.mem_cons_self
      split
      · rename_i h' x hc
        exact ih _ (typed_call hh h1.1 h1.2 hc).1 fun o h' => ho o (List.mem_cons_of_mem _ h')
      · exact ih _ hh fun o h' => ho o (List.mem_cons_of_mem _ h')
  have hh' := hpre pre h hh hp
  have hs := readsBack_setter hr
  obtain ⟨c, hc⟩ : ∃ c, setValue narrow ty m = some c := by
    cases hr <;> first | exact ⟨_, rfl⟩ | (rename_i hne; exact ⟨_, by simp only [setValue, if_neg hne, if_true]; rfl⟩)
  obtain ⟨h'', h1, h2⟩ := typed_store hh' hb (typed_set ha hc)
  have hcall : call narrow (history narrow h pre) (.ref ty p) m = .ok (h'', .unit) := by
    rw [setter_call hs]; simp only [hc, h1, Out.bind]
  rw [refl_history_append, history, hcall]
  simp only
  refine readsBack_get hr hc ?_
  rw [history_apart post hn]
  have := store_load h1 []
  simpa [Cell.at] using this

/-- **C68.** A variable keeps its value as long as nothing is written to it, to a part of it or to an array that contains it. -/
theorem C68_unchanged (h : Heap) (os : List (RV × Method)) {ty : Ty} {q : Place} (hn : ∀ o ∈ os, ¬ Touches o q) {g : Method}
    (hg : ¬ IsSetter g) (hgs : GetOrSet g) (x : Res) :
    call narrow (history narrow h os) (.ref ty q) g = .ok (history narrow h os, x) ↔ call narrow h (.ref ty q) g = .ok (h, x) := by
  have hg' : IsGetter g := by cases g <;> simp_all [IsSetter, IsGetter, GetOrSet]
  rw [getter_call hg' (.inl (by simp)), getter_call hg' (.inl (by simp))]
  simp only [contents, bind, history_apart os hn]
  generalize (load h q).bind _ = o
  cases o with
  | ok a =>
    simp only [Out.bind]
    cases getValue g a <;> simp
  | panic => simp [Out.bind]
  | timeout => simp [Out.bind]

/-- **C68.** Getters, `Index` and `MapIndex` change nothing. -/
theorem C68_reads {h h' : Heap} {r : RV} {m : Method} {x : Res} (hm : ¬ IsSetter m) (hc : call narrow h r m = .ok (h', x)) : h' = h :=
  other_call hm hc

/-- **C68.** The integer read back is the one written if it fits into the variable. -/
theorem C68_fits {bits : Nat} (hb : 1 ≤ bits) {v : Int64} (h1 : -2 ^ (bits - 1) ≤ v.toInt) (h2 : v.toInt < 2 ^ (bits - 1)) :
    ReadsBack narrow (.int bits) (.setInt v) .getInt (.int v) := by
  have : v.toInt.bmod (2 ^ bits) = v.toInt := by
    obtain ⟨k, rfl⟩ : ∃ k, bits = k + 1 := ⟨bits - 1, by omega⟩
    simp only [Nat.add_sub_cancel] at h1 h2
    have e : ((2 ^ k : Nat) : Int) = 2 ^ k := by simp
    apply Int.bmod_eq_of_le <;> simp only [Nat.pow_succ] <;> rw [← e] at h1 h2 <;> generalize 2 ^ k = z at * <;> omega
  have h := ReadsBack.int (narrow := narrow) (bits := bits) (v := v)
  rw [this, Int64.ofInt_toInt] at h
  exact h

/-- **C68.** Boxes on the elements of slices: two boxes from `Index` are on the same variable exactly if the slices have the same
backing array there. What is written through one is read through the other; otherwise it is not touched. -/
theorem C68_elements {h : Heap} {r r' b b' : RV} {s s' : Hdr} {e e' : Ty} {i j : Int} (h1 : contents h r = .ok (.slice e, .slice (some s)))
    (h2 : contents h r' = .ok (.slice e', .slice (some s'))) (hi : call narrow h r (.index i) = .ok (h, .box b))
    (hj : call narrow h r' (.index j) = .ok (h, .box b')) :
    ∃ p p', b = .ref e p ∧ b' = .ref e' p' ∧ (Overlap p p' ↔ p = p') ∧ (p = p' ↔ s.arr = s'.arr ∧ s.off + i = s'.off + j) := by
  have key : ∀ {r b : RV} {s : Hdr} {e : Ty} {i : Int}, contents h r = .ok (.slice e, .slice (some s)) → call narrow h r (.index i) = .ok (h, .box b) →
      0 ≤ i ∧ b = .ref e ⟨s.arr, s.off + i.toNat, []⟩ := by
    intro r b s e i h1 hi
    obtain ⟨_, a, h3, h4⟩ := bind_keep (f := .box) hi
    cases h4
    simp only [indexValue, h1, bind, Out.bind] at h3
    split at h3
    · cases h3; exact ⟨by omega, rfl⟩
    · cases h3
  obtain ⟨hi0, rfl⟩ := key h1 hi
  obtain ⟨hj0, rfl⟩ := key h2 hj
  refine ⟨_, _, rfl, rfl, ?_, ?_⟩
  · simp only [Overlap, Place.mk.injEq, List.prefix_rfl, or_self, and_true]
  · simp only [Place.mk.injEq, and_true]
    constructor
    · rintro ⟨h1, h2⟩; exact ⟨h1, by omega⟩
    · rintro ⟨h1, h2⟩; exact ⟨h1, by omega⟩

/-- **C68.** A box from `MapIndex` holds a copy: every setter panics, and what it returns does not depend on the memory. -/
theorem C68_map_copy {h h' : Heap} {r b : RV} {k : Bytes} (hc : call narrow h r (.mapIndex k) = .ok (h', .box b)) :
    (∀ g m, IsSetter m → call narrow g b m = .panic reflectPanic) ∧
    (∀ g g' m x, GetOrSet m → call narrow g b m = .ok (g, x) → call narrow g' b m = .ok (g', x)) := by
  obtain ⟨_, a, h1, h2⟩ := bind_keep (f := .box) hc
  cases h2
  have hb : (∀ ty p, b ≠ .ref ty p) := by
    intro ty p e
    subst e
    unfold mapIndexValue at h1
    cases hcon : contents h r with
    | panic => rw [hcon] at h1; cases h1
    | timeout => rw [hcon] at h1; cases h1
    | ok v =>
      rw [hcon] at h1
      simp only [bind, Out.bind] at h1
      repeat' split at h1
      all_goals cases h1
  refine ⟨fun g m hm => ?_, fun g g' m x hg hx => ?_⟩
  · rw [setter_call hm]
    cases b with
    | ref ty p => exact absurd rfl (hb ty p)
    | _ => rfl
  · by_cases hm : IsSetter m
    · rw [setter_call hm] at hx
      cases b with
      | ref ty p => exact absurd rfl (hb ty p)
      | _ => cases hx
    · have hg' : IsGetter m := by cases m <;> simp_all [IsSetter, IsGetter, GetOrSet]
      cases b with
      | ref ty p => exact absurd rfl (hb ty p)
      | invalid =>
        by_cases hs : m = .getString
        · subst hs; cases hx; rfl
        · rw [getter_call hg' (.inr hs)] at hx; cases hx
      | copy ty c =>
        rw [getter_call hg' (.inl (by simp))] at hx ⊢
        obtain ⟨_, a, h3, rfl⟩ := bind_keep hx
        simp only [contents, Out.bind] at h3 ⊢
        rw [h3]

theorem comparable_iff (ty : Ty) : ty.comparable = true ↔ ¬ Uncomparable ty := by
  induction ty with
  | array n e ih =>
    rw [Ty.comparable, ih]
    exact ⟨fun h h' => by cases h' with | array h' => exact h h', fun h h' => h (.array h')⟩
  | slice => exact ⟨fun h => (by cases h), fun h => absurd .slice h⟩
  | map => exact ⟨fun h => (by cases h), fun h => absurd .map h⟩
  | _ => exact ⟨fun _ h => (by cases h), fun _ => rfl⟩

theorem hashables_iff {l : List Cell} : Cell.hashables l = true ↔ ∀ c ∈ l, c.hashable = true := by
  induction l with
  | nil => simp [Cell.hashables]
  | cons c l ih => simp [Cell.hashables, ih]

theorem hashable_iff {ty : Ty} {c : Cell} (h : Typed D ty c) (hu : ¬ Uncomparable ty) : c.hashable = true ↔ ¬ HoldsUncomparable c := by
  induction h with
  | @any ty c _ _ ih =>
    rw [Cell.hashable, Bool.and_eq_true, comparable_iff]
    constructor
    · rintro ⟨h1, h2⟩ h
      cases h with
      | here h => exact h1 h
      | deeper h => exact (ih h1).1 h2 h
    · intro h
      have h1 : ¬ Uncomparable ty := fun h' => h (.here h')
      exact ⟨h1, (ih h1).2 fun h' => h (.deeper h')⟩
  | @array e l _ ih =>
    have he : ¬ Uncomparable e := fun h => hu (.array h)
    rw [Cell.hashable, hashables_iff]
    constructor
    · rintro h h'
      cases h' with
      | element hm h' => exact (ih _ hm he).1 (h _ hm) h'
    · exact fun h c hc => (ih c hc he).2 fun h' => h (.element hc h')
  | nilSlice => exact absurd .slice hu
  | slice => exact absurd .slice hu
  | nilMap => exact absurd .map hu
  | map => exact absurd .map hu
  | _ => simp only [Cell.hashable, true_iff]; intro h; cases h

/-- **C68.** `ComplexMapIndex` of a box on a map: a key that is not of the key type, or that cannot be hashed, panics; with any other key
the box that is returned holds the entry, or nothing if there is none. -/
theorem C68_mapIndex {h : Heap} (hh : TypedHeap D h) {r : RV} (hb : TypedBox D r) {kt e : Ty} (hr : boxType r = some (.map kt e)) (hk : ¬ Uncomparable kt)
    {d : Dyn} (hd : TypedDyn D d) :
    ((¬ ∃ k, MapKeyOf kt d k ∧ ¬ HoldsUncomparable k) → call narrow h r (.complexMapIndex d) = .panic reflectPanic) ∧
    ∀ k, MapKeyOf kt d k → ¬ HoldsUncomparable k → ∃ m b, contents h r = .ok (.map kt e, .map m) ∧ call narrow h r (.complexMapIndex d) = .ok (h, .box b) ∧
      (∀ v, (∃ id, m = some id ∧ h.maps id k = some v) → b = .copy e v) ∧ ((¬ ∃ id v, m = some id ∧ h.maps id k = some v) → b = .invalid) := by
  obtain ⟨ty, c, h1, h2, h3⟩ := typed_contents hh hb (by rintro rfl; cases hr)
  rw [hr] at h1
  cases h1
  obtain ⟨m, rfl⟩ : ∃ m, c = .map m := by cases h3 <;> exact ⟨_, rfl⟩
  have key : ∀ k, MapKeyOf kt d k → (k.hashable = true ↔ ¬ HoldsUncomparable k) := fun k h => by
    cases h with
    | any h' => exact hashable_iff hd (fun h => by cases h)
    | same h' he =>
      subst he
      cases hd with
      | any _ hd => exact hashable_iff hd hk
  have hcall : call narrow h r (.complexMapIndex d) = (mapIndexValue h r d).bind fun b => .ok (h, .box b) := rfl
  rw [hcall]
  unfold mapIndexValue
  simp only [h2, bind, Out.bind]
  cases d with
  | none => exact ⟨fun _ => rfl, fun k hk => by cases hk⟩
  | some d =>
    obtain ⟨ty', c'⟩ := d
    have fin : ∀ k, MapKeyOf kt (some (ty', c')) k → (∀ k', MapKeyOf kt (some (ty', c')) k' → k' = k) → ∀ o : Out RV,
        o = (if k.hashable = true then (match m.bind fun id => h.maps id k with | some v => .ok (.copy e v) | none => .ok .invalid) else .panic reflectPanic) →
        ((¬ ∃ k, MapKeyOf kt (some (ty', c')) k ∧ ¬ HoldsUncomparable k) → (o.bind fun b => Out.ok (h, Res.box b)) = .panic reflectPanic) ∧
        ∀ k, MapKeyOf kt (some (ty', c')) k → ¬ HoldsUncomparable k → ∃ m' b, Out.ok (Ty.map kt e, Cell.map m) = .ok (.map kt e, .map m') ∧
          (o.bind fun b => Out.ok (h, Res.box b)) = .ok (h, .box b) ∧
          (∀ v, (∃ id, m' = some id ∧ h.maps id k = some v) → b = .copy e v) ∧ ((¬ ∃ id v, m' = some id ∧ h.maps id k = some v) → b = .invalid) := by
      rintro k hko hun o rfl
      constructor
      · intro hn
        have : ¬ (k.hashable = true) := fun hh => hn ⟨k, hko, (key k hko).1 hh⟩
        rw [if_neg this]
        rfl
      · intro k' hk' hu
        have := hun k' hk'
        subst this
        rw [if_pos ((key k' hko).2 hu)]
        refine ⟨m, ?_⟩
        cases m with
        | none => exact ⟨.invalid, rfl, rfl, fun v ⟨id, h, _⟩ => (by cases h), fun _ => rfl⟩
        | some id =>
          simp only [Option.bind_some]
          cases hv : h.maps id k' with
          | none =>
            refine ⟨.invalid, trivial, rfl, fun v ⟨id', h1, h2⟩ => ?_, fun _ => rfl⟩
            cases h1
            rw [hv] at h2
            cases h2
          | some v =>
            refine ⟨.copy e v, trivial, rfl, fun v' ⟨id', h1, h2⟩ => ?_, fun hn => absurd ⟨id, v, rfl, hv⟩ hn⟩
            cases h1
            rw [hv] at h2
            cases h2
            rfl
    by_cases ha : kt = .any
    · refine fin _ (.any ha) (fun k' h' => ?_) _ ?_
      · cases h' with
        | any => rfl
        | same h' => exact absurd ha h'
      · simp only [ha, true_or, ↓reduceIte]
        rfl
    · by_cases ht : kt = ty'
      · refine fin _ (.same ha ht) (fun k' h' => ?_) _ ?_
        · cases h' with
          | any h' => exact absurd h' ha
          | same => rfl
        · subst ht
          simp only [ha, or_true, ↓reduceIte]
          rfl
      · simp only [ha, ht, or_self, ↓reduceIte]
        refine ⟨fun _ => trivial, fun k hk => ?_⟩
        cases hk with
        | any h' => exact absurd h' ha
        | same _ h' => exact absurd h' ht

/-- **C68.** `SetAny(nil)` panics on every box, also on a variable of type `interface{}`. -/
theorem C68_set_nil (h : Heap) (r : RV) : call narrow h r (.setAny none) = .panic reflectPanic := by cases r <;> rfl

end

/-! ### Non-vacuity -/

/-- An `int8` variable, a slice variable on an array of two `int64`, and this array. -/
private def decls : Decls :=
  { elem := fun a => if a = 0 then .int 8 else if a = 1 then .slice (.int 64) else .int 64
    len := fun a => if a = 0 ∨ a = 1 then 1 else if a = 2 then 2 else 0
    key := fun _ => .string
    val := fun _ => .int 64 }
private def heap : Heap :=
  { arrays := fun a => if a = 0 then [.int 5] else if a = 1 then [.slice (some ⟨2, 0, 2⟩)] else if a = 2 then [.int 7, .int 8] else []
    maps := fun _ _ => none }

private theorem heap_typed : TypedHeap decls heap where
  length a := by
    simp only [heap, decls]
    split
    · simp [*]
    · split
      · simp [*]
      · split <;> simp [*]
  arrays a c hc := by
    simp only [heap] at hc
    split at hc
    · rename_i h; subst h
      simp only [List.mem_cons, List.not_mem_nil, or_false] at hc
      subst hc
      exact .int (by decide) (by decide)
    · split at hc
      · rename_i h; subst h
        simp only [List.mem_cons, List.not_mem_nil, or_false] at hc
        subst hc
        exact .slice (D := decls) (s := ⟨2, 0, 2⟩) (by decide)
      · split at hc
        · rename_i h; subst h
          simp only [List.mem_cons, List.not_mem_nil, or_false] at hc
          rcases hc with rfl | rfl <;> exact .int (by decide) (by decide)
        · cases hc
  maps id k v h := by cases h

example : TypedBox decls (.ref (.int 8) ⟨0, 0, []⟩) := .ref (by decide) .whole

/-- `SetInt(300)` on the `int8` leaves 44, whatever is done to the slice afterwards. -/
example (i : Int) (v : Int64) : ∃ h', history id heap ([] ++ (.ref (.int 8) ⟨0, 0, []⟩, .setInt 300) ::
      [(.ref (.slice (.int 64)) ⟨1, 0, []⟩, .index i), (.ref (.int 64) ⟨2, 1, []⟩, .setInt v)]) = h' ∧
    call id h' (.ref (.int 8) ⟨0, 0, []⟩) .getInt = .ok (h', .int 44) :=
  C68_read_back heap_typed [] _ (by simp) (.ref (by decide) .whole) (m := .setInt 300) trivial (.int (bits := 8) (v := 300)) (by
    intro o ho
    simp only [List.mem_cons, List.not_mem_nil, or_false] at ho
    rcases ho with rfl | rfl
    · rintro ⟨_, _, _, h, _⟩; exact h
    · rintro ⟨_, p, h, _, h1, _⟩
      cases h
      exact absurd h1 (by decide))

/-- A map with keys of type `interface{}`: a slice cannot be a key, nor can an array of interfaces that hold slices. -/
example : (¬ ∃ k, MapKeyOf .any (some (.slice (.int 64), .slice none)) k ∧ ¬ HoldsUncomparable k) ∧
    (¬ ∃ k, MapKeyOf .any (some (.array 1 .any, .array [.any (some (.slice (.int 64), .slice none))])) k ∧ ¬ HoldsUncomparable k) ∧
    ∃ k, MapKeyOf .any (some (.int 64, .int 3)) k ∧ ¬ HoldsUncomparable k := by
  refine ⟨fun ⟨k, h1, h2⟩ => ?_, fun ⟨k, h1, h2⟩ => ?_, ⟨_, .any rfl, fun h => ?_⟩⟩
  · cases h1 with
    | any => exact h2 (.here .slice)
    | same h => exact h rfl
  · cases h1 with
    | any => exact h2 (.deeper (.element List.mem_cons_self (.here .slice)))
    | same h => exact h rfl
  · cases h with
    | here h => cases h
    | deeper h => cases h

/-- A box from `Index` writes into the array of the slice. -/
example : (call id heap (.ref (.slice (.int 64)) ⟨1, 0, []⟩) (.index 1)) = .ok (heap, .box (.ref (.int 64) ⟨2, 1, []⟩)) := rfl

end Takenoco
