import Verif.Lemmas.Box
import Verif.Model.ReflectBox
/-
C49: boxes over a map.
-/
namespace Takenoco
open Boxes Spec

section
variable {K P B : Type} [DecidableEq K] [DecidableEq B] {boxes : B → BoxInfo K}

/-- **C49.** Before the first write through it, every read of a `NotInitialized` box panics, whatever else happened. -/
theorem C49_unwritten (w : World K P B) (os : List (Op K P B)) (b : B) (hg : (boxes b).guarded = true) (hi : w.init b = false)
    (hn : ∀ o ∈ os, ¬ WritesBox boxes w.cont b o) (g : Getter) (k : K) :
    call boxes (history boxes w os) (.get b g) = .panic notInitialized ∧ call boxes (history boxes w os) (.sub b k) = .panic notInitialized ∧
    ∀ i, call boxes (history boxes w os) (.index b i) = .panic notInitialized := by
  have h := (history_keeps (boxes := boxes) os w).2.2.1 b hn
  rw [hi] at h
  simp [call, hg, h]

/-- What a getter sees after a write through a box. -/
theorem read_after (w : World K P B) (os : List (Op K P B)) (b : B)
    (hw : w.init b = true ∨ (boxes b).guarded = false ∨ ∃ o ∈ os, WritesBox boxes w.cont b o) (ty : GoType) (p : P)
    (hl : LastWrite boxes w.cont os (boxes b).key (.val ty p)) :
    ∃ r : RValue P, (r = .iface (.val ty p) ∧ w.cont.elem = none ∨ r = .conc ty p ∧ w.cont.elem ≠ none) ∧
      ∀ g, call boxes (history boxes w os) (.get b g) = (readAs g r).bind fun x => .ok (history boxes w os, x) := by
  have hget := history_last hl
  have hk : (history boxes w os).cont.keyOk (boxes b).key = true := by
    obtain ⟨_, _, _, _, _, hf, _⟩ := hl
    rw [(history_keeps os w).1.2.2]; exact hf.1
  have hi : ((boxes b).guarded && !(history boxes w os).init b) = false := by
    rcases hw with hw | hw | ⟨o, ho, hw⟩
    · simp [(history_keeps (boxes := boxes) os w).2.2.2 b hw]
    · simp [hw]
    · by_cases hg : (boxes b).guarded = true
      · obtain ⟨pre, post, rfl⟩ := List.append_of_mem ho
        obtain ⟨v, rfl, hf⟩ := hw
        rw [history_append]
        have hs := (history_keeps (boxes := boxes) pre w).1
        obtain ⟨w', h1, _, _, _, _, h3⟩ := history_cons (boxes := boxes) (history boxes w pre) (.set b v) post
        rw [h1, (history_keeps post w').2.2.2 b ((h3 b v rfl ((fits_same hs _ _).2 hf)).2 hg)]
        simp
      · simp [hg]
  have hm : ∃ r, mapIndex (history boxes w os).cont (boxes b).key = .ok r ∧
      (r = .iface (.val ty p) ∧ w.cont.elem = none ∨ r = .conc ty p ∧ w.cont.elem ≠ none) := by
    unfold mapIndex
    rw [if_pos hk, hget]
    have he := (history_keeps (boxes := boxes) os w).1.1
    simp only [storedAs]
    split
    · rename_i h; exact ⟨_, rfl, .inl ⟨rfl, by rw [← he, h]⟩⟩
    · next h1 h2 => cases h2; exact ⟨_, rfl, .inr ⟨rfl, by rw [← he, h1]; simp⟩⟩
    · rename_i h; cases h
  obtain ⟨r, h1, h2⟩ := hm
  refine ⟨r, h2, fun g => ?_⟩
  simp only [call, hi, Bool.false_eq_true, if_false, h1, Out.bind_ok]
  rfl

/-- **C49.** After a write through it, a box reads back the value written last under its key, provided this value is not nil:
`GetAny` returns it, whatever the element type of the map; the getter for its kind returns its contents if the element type
is a concrete type. -/
theorem C49_read_back_partial (w : World K P B) (os : List (Op K P B)) (b : B)
    (hw : w.init b = true ∨ (boxes b).guarded = false ∨ ∃ o ∈ os, WritesBox boxes w.cont b o) (ty : GoType) (p : P)
    (hl : LastWrite boxes w.cont os (boxes b).key (.val ty p)) :
    call boxes (history boxes w os) (.get b none) = .ok (history boxes w os, .any (.val ty p)) ∧
    (w.cont.elem ≠ none → ty.kind ≠ .other → call boxes (history boxes w os) (.get b (some ty.kind)) = .ok (history boxes w os, .raw p)) := by
  obtain ⟨r, h2, h1⟩ := read_after w os b hw ty p hl
  refine ⟨?_, fun hne ho => ?_⟩
  · rw [h1]
    rcases h2 with ⟨rfl, _⟩ | ⟨rfl, _⟩ <;> rfl
  · rcases h2 with ⟨_, h⟩ | ⟨rfl, _⟩
    · exact absurd h hne
    · rw [h1]
      obtain ⟨kd, nm⟩ := ty
      cases kd <;> simp_all [readAs, Out.bind]

/-- **C49.** Nor does any other getter return the contents: it panics, but `GetString` returns a description of the type instead: of the kind
`Interface` for a map of interfaces, of the type of the value otherwise. -/
theorem C49_wrong_getter (w : World K P B) (os : List (Op K P B)) (b : B)
    (hw : w.init b = true ∨ (boxes b).guarded = false ∨ ∃ o ∈ os, WritesBox boxes w.cont b o) (ty : GoType) (p : P)
    (hl : LastWrite boxes w.cont os (boxes b).key (.val ty p)) (k : Kind) (hk : w.cont.elem = none ∨ k ≠ ty.kind) :
    (k ≠ .string → call boxes (history boxes w os) (.get b (some k)) = .panic reflectPanic) ∧
    (k = .string → call boxes (history boxes w os) (.get b (some k)) =
      .ok (history boxes w os, .descr (some (if w.cont.elem = none then none else some ty)))) := by
  obtain ⟨r, h2, h1⟩ := read_after w os b hw ty p hl
  rw [h1]
  rcases h2 with ⟨rfl, h⟩ | ⟨rfl, h⟩
  · cases k <;> simp [readAs, Out.bind, h]
  · have hk : ty.kind ≠ k := fun e => hk.elim h fun h => h e.symm
    cases k <;> simp [readAs, Out.bind, h, hk]

/-- **C49.** A call that does not write to the key `k` does not change what is stored under it, and a call through another box
does not change whether a box counts as initialised. -/
theorem C49_other_keys (w : World K P B) (os : List (Op K P B)) (k : K) (hn : ∀ o ∈ os, ¬ WritesKey boxes w.cont k o) :
    mapIndex (history boxes w os).cont k = mapIndex w.cont k := by
  obtain ⟨⟨h1, h2, h3⟩, h4, _⟩ := history_keeps (boxes := boxes) os w
  simp only [mapIndex, h1, h3, h4 k hn]

/-- C49. `Index` of a box over a map gives a box over nothing, whatever the index and the contents of the map: the only method of that box
that does not panic is `GetString`, which describes it as an invalid value. -/
theorem C49_index (w : World K P B) (b : B) (i : Int) (hb : (boxes b).guarded = false ∨ w.init b = true) :
    call boxes w (.index b i) = .ok (w, .nothing) ∧
    ∀ (narrow : UInt64 → UInt64) (h : Refl.Heap) (m : Refl.Method),
      (m = .getString → Refl.call narrow h .invalid m = .ok (h, .descr none)) ∧ (m ≠ .getString → ∃ x, Refl.call narrow h .invalid m = .panic x) := by
  refine ⟨?_, fun narrow h m => ⟨fun hm => by subst hm; rfl, fun hm => ?_⟩⟩
  · rcases hb with hb | hb <;> simp [call, hb]
  · cases m <;> first | exact absurd rfl hm | exact ⟨_, rfl⟩

/-- Reading changes nothing. -/
theorem C49_reads (w w' : World K P B) (b : B) (g : Getter) (x : Got K P) (h : call boxes w (.get b g) = .ok (w', x)) : w' = w := by
  simp only [call] at h
  split at h
  · cases h
  · cases h1 : mapIndex w.cont (boxes b).key with
    | ok r =>
      rw [h1] at h
      cases h2 : (readAs g r : Out (Got K P)) with
      | ok x => simp [h2] at h; exact h.1.symm
      | panic p => simp [h2] at h
      | timeout => simp [h2] at h
    | panic p => simp [h1] at h
    | timeout => simp [h1] at h

end

/-! ### Where the claim is false -/

/-- A map of type `map[string]interface{}` without entries, and one box. -/
def emptyWorld : World String Nat Unit :=
  { cont := { elem := none, isNil := false, keyOk := fun _ => true, get := fun _ => none }, init := fun _ => false }
/-- The box for the key `x`. -/
def boxX : Unit → BoxInfo String := fun _ => { key := "x", guarded := true }

/-- **C49 is false as stated.** After `SetAny(nil)` the box counts as initialised, but the key has been deleted from the map:
reading the value back panics. -/
theorem C49_false : WritesBox boxX emptyWorld.cont () (.set () .nil) ∧
    call boxX (history boxX emptyWorld [.set () .nil]) (.get () none) = .panic reflectPanic := ⟨⟨.nil, rfl, rfl⟩, rfl⟩

/-- After `SetInt` through a box for a `map[string]interface{}`, `GetInt` panics (the value has the kind `Interface`), and
after `SetString` the method `GetString` returns a description of the type, not the string. -/
theorem C49_typed_getters_false :
    call boxX (history boxX emptyWorld [.set () (.val ⟨.int, 0⟩ 7)]) (.get () (some .int)) = .panic reflectPanic ∧
    ∃ w, call boxX (history boxX emptyWorld [.set () (.val ⟨.string, 0⟩ 7)]) (.get () (some .string)) = .ok (w, .descr (some none)) :=
  ⟨rfl, _, rfl⟩

/-! ### Non-vacuity -/

/-- A `map[string]int64` with an entry. -/
private def intWorld : World String Nat Bool :=
  { cont := { elem := some ⟨.int, 0⟩, isNil := false, keyOk := fun _ => true, get := fun k => if k = "y" then some (.val ⟨.int, 0⟩ 1) else none },
    init := fun _ => false }
/-- Two boxes for the keys `x` and `y`. -/
private def boxXY : Bool → BoxInfo String := fun b => { key := if b then "x" else "y", guarded := true }
/-- A history with writes to both keys, a refused write and a read. -/
private def someOps : List (Op String Nat Bool) :=
  [.get true none, .set true (.val ⟨.int, 0⟩ 5), .set false (.val ⟨.int, 0⟩ 6), .set true (.val ⟨.string, 0⟩ 9), .get true none]

example : LastWrite boxXY intWorld.cont someOps "x" (.val ⟨.int, 0⟩ 5) := by
  refine ⟨[.get true none], true, _, rfl, rfl, ⟨rfl, rfl, .inr rfl⟩, fun o ho => ?_⟩
  rintro ⟨b, v, rfl, hk, hf⟩
  simp only [List.mem_cons, List.not_mem_nil, or_false, Op.set.injEq, reduceCtorEq] at ho
  rcases ho with ⟨rfl, rfl⟩ | ⟨rfl, rfl⟩
  · revert hk; decide
  · rcases hf.2.2 with h | h
    · cases h
    · exact absurd h (by decide)
example : call boxXY (history boxXY intWorld someOps) (.get true (some .int)) = .ok (history boxXY intWorld someOps, .raw 5) := rfl
example : call boxXY (history boxXY intWorld someOps) (.get true (some .string)) = .ok (history boxXY intWorld someOps, .descr (some (some ⟨.int, 0⟩))) := rfl
example : call boxXY (history boxXY intWorld someOps) (.get true (some .uint)) = .panic reflectPanic := rfl
example : (boxXY true).guarded = true ∧ intWorld.init true = false ∧ ∀ o ∈ [Op.get true none, .set false (.val ⟨.int, 0⟩ 6)],
    ¬ WritesBox (P := Nat) boxXY intWorld.cont true o := by
  refine ⟨rfl, rfl, fun o ho => ?_⟩
  rintro ⟨v, rfl, _⟩
  simp at ho

example : call boxXY (history boxXY intWorld someOps) (.index true 3) = .ok (history boxXY intWorld someOps, .nothing) := rfl

end Takenoco
