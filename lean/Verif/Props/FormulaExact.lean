import Verif.Lemmas.FormulaExact
import Verif.Props.FormulaTotal
/-
C64: exactly which texts the formula example accepts.
C65: exactly which texts the torpn example accepts.
-/
namespace Takenoco
open Spec

/-- A run is the same from some fuel on. -/
theorem eventually_eq {α : Type} {f : Nat → α} {x y : α} (h1 : ∃ N, ∀ n, N ≤ n → f n = x) (h2 : ∃ N, ∀ n, N ≤ n → f n = y) : x = y := by
  obtain ⟨N, h1⟩ := h1
  obtain ⟨M, h2⟩ := h2
  rw [← h1 (N + M) (by omega), h2 (N + M) (by omega)]

/-- What a program returns at the start of a source, if it is total and known what it can match. -/
theorem admits_run {env : Env} {g : Gram} {X : Panic → Prop} {Y : Bytes → Panic → Prop} {k : Nat} {P : List Ast → Prop} {Q : Match} (s : Bytes)
    (ht : Total s.length X k P (den env g)) (h : Admits s.length Y Q (den env g)) (hput : StaysPut (den env g)) :
    ∃ N, (∃ w rest l o, s = w ++ rest ∧ Q w rest l ∧ o.stack = l ∧ o.status = .matched ∧ ∀ n, N ≤ n → run env n g (newStrCtx s) = .ok (o, none)) ∨
      (∃ o e, (e = none → o.status ≠ .matched) ∧ o.pos ≤ s.length ∧ ∀ n, N ≤ n → run env n g (newStrCtx s) = .ok (o, e)) ∨
      (∃ x, Y s x ∧ ∀ n, N ≤ n → run env n g (newStrCtx s) = .panic x) := by
  have h1 := h _ _ _ (newStrCtx_at s) (Nat.le_refl _)
  obtain ⟨N, h2⟩ := total_run s ht hput
  cases hr : den env g (newStrCtx s) with
  | timeout => rw [hr] at h1; exact h1.elim
  | panic x =>
    rw [hr] at h1
    obtain ⟨N, hN⟩ := run_of_den hr (by simp)
    exact ⟨N, .inr (.inr ⟨x, h1, hN⟩)⟩
  | ok oe =>
    obtain ⟨o, e⟩ := oe
    obtain ⟨M, hM⟩ := run_of_den hr (by simp)
    rw [hr] at h1
    rcases h2 with ⟨l, o', _, h3, h4, h5⟩ | ⟨o', e', h3, h4, h5⟩ | ⟨x, _, h5⟩
    · have := eventually_eq ⟨M, hM⟩ ⟨N, h5⟩
      cases this
      simp only [Outcome.of, h4] at h1
      obtain ⟨w, rest, h6, h7⟩ := h1
      obtain ⟨l, h8, h9⟩ := h7.stack
      have : (newStrCtx s).stack = [] := rfl
      exact ⟨N, .inl ⟨w, rest, l, o, h6, h9, by simpa [this] using h8, h4, h5⟩⟩
    · exact ⟨N, .inr (.inl ⟨o', e', h3, h4, h5⟩)⟩
    · have := eventually_eq ⟨M, hM⟩ ⟨N, h5⟩
      cases this

/-- `formula.Parse` returns the value of the expression that the text spells, or an error if it spells none; a panic is due
to a part of the text that is an expression without value. -/
theorem C64_ends (s : Bytes) : ∃ N,
    (∃ e v, Spelled s e ∧ e.value = some v ∧ ∀ n, N ≤ n → Formula.parse n s = .ok (.value v)) ∨
    ((¬ ∃ e, Spelled s e) ∧ ∃ o p, ∀ n, N ≤ n → Formula.parse n s = .ok (.failed o p)) ∨
    (NoValueWithin s ∧ ∀ n, N ≤ n → Formula.parse n s = .panic .divZero) := by
  have hp := program_takes formula_rules (X := fun s x => x = .divZero ∧ NoValueWithin s)
    (fun w s x h => by
      obtain ⟨h0, a, m, b, q, e, rfl, h2, h3⟩ := h
      exact ⟨h0, w ++ a, m, b, q, e, by simp, h2, h3⟩)
    (fun q e w rest h1 h2 => ⟨rfl, [], w, rest, q, e, by simp, h1, h2⟩) s.length
  obtain ⟨N, h⟩ := admits_run s (program_total formula_rules (X := (· = .divZero)) (fun _ _ _ => rfl) s.length) hp flat_stays
  refine ⟨N, ?_⟩
  rcases h with ⟨w, rest, l, o, rfl, ⟨rfl, e, v, h5, h6, a, rfl, h7⟩, h2, h3, h4⟩ | ⟨o, e, h1, h2, h3⟩ | ⟨x, ⟨rfl, hx⟩, h2⟩
  · refine .inl ⟨e, v, by simpa using h5, h6, fun n hn => ?_⟩
    rw [formula_parse_of (h4 n hn)]
    simp [Out.bind, Formula.finish, h3, h2, goGet, h7.2, Formula.asInt]
  · obtain ⟨r, hr⟩ := getLineAndCol_ok (t := 4) h2 (by omega)
    have hf : ∀ n, N ≤ n → Formula.parse n s = .ok (.failed e r) := fun n hn => by
      rw [formula_parse_of (h3 n hn)]
      cases e with
      | some e => simp [Out.bind, Formula.finish, hr]
      | none => simp [Out.bind, Formula.finish, hr, h1 rfl]
    refine .inr (.inl ⟨?_, e, r, hf⟩)
    rintro ⟨t, ht⟩
    obtain ⟨g1, g2⟩ := formula_accepted ht
    cases hv : t.value with
    | some v => have := eventually_eq ⟨N, hf⟩ (g1 v hv); cases this
    | none => have := eventually_eq ⟨N, hf⟩ (g2 hv); cases this
  · exact .inr (.inr ⟨hx, fun n hn => by rw [formula_parse_of (h2 n hn)]; rfl⟩)

theorem formula_stable {n m : Nat} {s : Bytes} {r : Out (Formula.ParseRes Int64)} (h : Formula.parse n s = r) (hr : r ≠ .timeout) (hm : n ≤ m) :
    Formula.parse m s = r := by
  have : run Formula.env n Formula.program (newStrCtx s) ≠ .timeout := fun ht => by
    rw [formula_parse_of ht] at h
    exact hr h.symm
  rw [← h, formula_parse_of rfl, formula_parse_of rfl, run_stable hm this]

theorem torpn_stable {n m : Nat} {s : Bytes} {r : Out (Formula.ParseRes (List Value))} (h : ToRpn.parse n s = r) (hr : r ≠ .timeout) (hm : n ≤ m) :
    ToRpn.parse m s = r := by
  have : run ToRpn.env n ToRpn.program (newStrCtx s) ≠ .timeout := fun ht => by
    rw [torpn_parse_of ht] at h
    exact hr h.symm
  rw [← h, torpn_parse_of rfl, torpn_parse_of rfl, run_stable hm this]

/-- `formula.Parse` returns a value exactly if the text spells an expression with this value. -/
theorem C64_value (s : Bytes) (v : Int64) : (∃ n, Formula.parse n s = .ok (.value v)) ↔ ∃ e, Spelled s e ∧ e.value = some v := by
  constructor
  · rintro ⟨n, h⟩
    have h : ∃ N, ∀ n, N ≤ n → Formula.parse n s = .ok (.value v) := ⟨n, fun m hm => formula_stable h (by simp) hm⟩
    obtain ⟨N, ⟨e, v', h1, h2, h3⟩ | ⟨_, o, p, h3⟩ | ⟨_, h3⟩⟩ := C64_ends s
    · have := eventually_eq h ⟨N, h3⟩
      cases this
      exact ⟨e, h1, h2⟩
    · have := eventually_eq h ⟨N, h3⟩; cases this
    · have := eventually_eq h ⟨N, h3⟩; cases this
  · rintro ⟨e, h1, h2⟩
    obtain ⟨N, hN⟩ := (formula_accepted h1).1 v h2
    exact ⟨N, hN N (Nat.le_refl _)⟩

/-- A text that spells an expression without value makes `formula.Parse` panic; if it panics, a part of the text is an
expression without value. -/
theorem C64_panic (s : Bytes) :
    (∀ e, Spelled s e → e.value = none → ∃ n, Formula.parse n s = .panic .divZero) ∧
    (∀ n x, Formula.parse n s = .panic x → x = .divZero ∧ NoValueWithin s) := by
  refine ⟨fun e h1 h2 => ?_, fun n x h => ?_⟩
  · obtain ⟨N, hN⟩ := (formula_accepted h1).2 h2
    exact ⟨N, hN N (Nat.le_refl _)⟩
  · have h : ∃ N, ∀ n, N ≤ n → Formula.parse n s = .panic x := ⟨n, fun m hm => formula_stable h (by simp) hm⟩
    obtain ⟨N, ⟨e, v', h1, h2, h3⟩ | ⟨_, o, p, h3⟩ | ⟨h0, h3⟩⟩ := C64_ends s
    · have := eventually_eq h ⟨N, h3⟩; cases this
    · have := eventually_eq h ⟨N, h3⟩; cases this
    · have := eventually_eq h ⟨N, h3⟩
      cases this
      exact ⟨rfl, h0⟩

/-- If `formula.Parse` returns an error, the text spells no expression. -/
theorem C64_error (s : Bytes) (n : Nat) (o : Option Err) (p : LineAndCol) (h : Formula.parse n s = .ok (.failed o p)) : ¬ ∃ e, Spelled s e := by
  have h : ∃ N, ∀ n, N ≤ n → Formula.parse n s = .ok (.failed o p) := ⟨n, fun m hm => formula_stable h (by simp) hm⟩
  obtain ⟨N, ⟨e, v', h1, h2, h3⟩ | ⟨h0, _⟩ | ⟨h0, h3⟩⟩ := C64_ends s
  · have := eventually_eq h ⟨N, h3⟩; cases this
  · exact h0
  · have := eventually_eq h ⟨N, h3⟩; cases this

/-- All expressions that a text spells have the same value and the same postfix form. -/
theorem C64_unambiguous (s : Bytes) (e e' : Expr) (h : Spelled s e) (h' : Spelled s e') : e.value = e'.value ∧ e.postfix.items = e'.postfix.items := by
  constructor
  · obtain ⟨g1, g2⟩ := formula_accepted h
    obtain ⟨g3, g4⟩ := formula_accepted h'
    cases hv : e.value with
    | none =>
      cases hv' : e'.value with
      | none => rfl
      | some v => have := eventually_eq (g2 hv) (g3 v hv'); cases this
    | some v =>
      cases hv' : e'.value with
      | none => have := eventually_eq (g1 v hv) (g4 hv'); cases this
      | some v' => have := eventually_eq (g1 v hv) (g3 v' hv'); cases this; rfl
  · have := eventually_eq (torpn_accepted h) (torpn_accepted h')
    injection this with this
    injection this

/-- `torpn.Parse` returns the items of the postfix form of the expression that the text spells, or an error if it spells none. -/
theorem C65_ends (s : Bytes) : ∃ N,
    (∃ e, Spelled s e ∧ ∀ n, N ≤ n → ToRpn.parse n s = .ok (.value e.postfix.items)) ∨
    ((¬ ∃ e, Spelled s e) ∧ ∃ o p, ∀ n, N ≤ n → ToRpn.parse n s = .ok (.failed o p)) := by
  by_cases h : ∃ e, Spelled s e
  · obtain ⟨e, h⟩ := h
    obtain ⟨N, hN⟩ := torpn_accepted h
    exact ⟨N, .inl ⟨e, h, hN⟩⟩
  · have hp := program_takes rpn_rules (X := fun _ _ => False) (fun w s x h => h)
      (fun q e w rest h1 h2 => by rw [postfix_fold] at h2; cases h2) s.length
    obtain ⟨N, h'⟩ := admits_run s (program_total rpn_rules (X := fun _ => True) (fun _ _ _ => trivial) s.length) hp flat_stays
    refine ⟨N, .inr ⟨h, ?_⟩⟩
    rcases h' with ⟨w, rest, l, o, rfl, ⟨rfl, e, v, h5, _⟩, h2, h3, h4⟩ | ⟨o, e, h1, h2, h3⟩ | ⟨x, hx, h2⟩
    · exact absurd ⟨e, by simpa using h5⟩ h
    · obtain ⟨r, hr⟩ := getLineAndCol_ok (t := 4) h2 (by omega)
      refine ⟨e, r, fun n hn => ?_⟩
      rw [torpn_parse_of (h3 n hn)]
      cases e with
      | some e => simp [Out.bind, ToRpn.finish, hr]
      | none => simp [Out.bind, ToRpn.finish, hr, h1 rfl]
    · exact hx.elim

/-- `torpn.Parse` returns a list exactly if it is the postfix form of an expression that the text spells. -/
theorem C65_value (s : Bytes) (l : List Value) : (∃ n, ToRpn.parse n s = .ok (.value l)) ↔ ∃ e, Spelled s e ∧ e.postfix.items = l := by
  constructor
  · rintro ⟨n, h⟩
    have h : ∃ N, ∀ n, N ≤ n → ToRpn.parse n s = .ok (.value l) := ⟨n, fun m hm => torpn_stable h (by simp) hm⟩
    obtain ⟨N, ⟨e, h1, h3⟩ | ⟨_, o, p, h3⟩⟩ := C65_ends s
    · have := eventually_eq h ⟨N, h3⟩
      injection this with this
      injection this with this
      exact ⟨e, h1, this.symm⟩
    · have := eventually_eq h ⟨N, h3⟩
      injection this with this
      cases this
  · rintro ⟨e, h1, rfl⟩
    obtain ⟨N, hN⟩ := torpn_accepted h1
    exact ⟨N, hN N (Nat.le_refl _)⟩

/-- `torpn.Parse` returns an error exactly if the text spells no expression. -/
theorem C65_error (s : Bytes) : (∃ n o p, ToRpn.parse n s = .ok (.failed o p)) ↔ ¬ ∃ e, Spelled s e := by
  constructor
  · rintro ⟨n, o, p, h⟩ ⟨e, he⟩
    have := eventually_eq ⟨n, fun m hm => torpn_stable h (by simp) hm⟩ (torpn_accepted he)
    injection this with this
    cases this
  · intro h
    obtain ⟨N, ⟨e, h1, _⟩ | ⟨_, o, p, h3⟩⟩ := C65_ends s
    · exact absurd ⟨e, h1⟩ h
    · exact ⟨N, o, p, h3 N (Nat.le_refl _)⟩

/-! ### Examples -/

private theorem five : DigitsText (b! "5") 5 :=
  ⟨⟨0x35, [], rfl, rfl⟩, rfl, show Numeral 10 [0x35] 5 from .digit (by unfold DigitOf; decide)⟩

/-- A text that is accepted though it is not one of `Denotes`. -/
example : Spelled (b! "+5") (.lit 5) ∧ ¬ ∃ e, Denotes (b! "+5") e := by
  refine ⟨⟨[], _, true, rfl, ⟨[], by simp, rfl⟩, .product (.unary (.atom (.plus (b := []) five (by decide) ⟨[], by simp, rfl⟩)))⟩, ?_⟩
  rintro ⟨e, b, s, h1, h2, h3⟩
  have hs : ∀ l e s, Writes l e s → ∃ d s', s = d :: s' ∧ (isDec d = true ∨ d = 0x28 ∨ d = 0x2d) := by
    intro l e s h
    induction h with
    | lit h _ =>
      obtain ⟨d, w, rfl, hd⟩ := h.start
      exact ⟨d, _, rfl, .inl hd⟩
    | paren => exact ⟨_, _, rfl, .inr (.inl rfl)⟩
    | atom _ ih => exact ih
    | neg => exact ⟨_, _, rfl, .inr (.inr rfl)⟩
    | unary _ ih => exact ih
    | mul _ _ _ _ ih => obtain ⟨d, s', rfl, hd⟩ := ih; exact ⟨d, _, rfl, hd⟩
    | product _ ih => exact ih
    | add _ _ _ _ ih => obtain ⟨d, s', rfl, hd⟩ := ih; exact ⟨d, _, rfl, hd⟩
  obtain ⟨d, s', rfl, hd⟩ := hs _ _ _ h3
  obtain ⟨t, ht, rfl⟩ := h2
  cases t with
  | nil =>
    simp only [utf8s, List.flatMap_nil, List.nil_append] at h1
    injection h1 with h1 _
    subst h1
    exact absurd hd (by decide)
  | cons ch t =>
    have h5 := ht ch (by simp)
    unfold White at h5
    simp only [List.mem_cons, List.not_mem_nil, or_false] at h5
    rcases h5 with rfl | rfl | rfl | rfl | rfl | rfl | rfl | rfl <;> (injection h1 with h1 _; exact absurd h1 (by decide))

/-- The call ended with an error. -/
private def isError : Out (Formula.ParseRes Int64) → Bool
  | .ok (.failed _ _) => true
  | _ => false

private theorem error_of {n : Nat} {s : Bytes} (h : isError (Formula.parse n s) = true) : ¬ ∃ e, Spelled s e := by
  cases hp : Formula.parse n s with
  | ok r =>
    cases r with
    | failed o p => exact C64_error s n o p hp
    | value v => rw [hp] at h; cases h
  | panic x => rw [hp] at h; cases h
  | timeout => rw [hp] at h; cases h

/-- The smallest number behind a number, and behind a group. -/
example : (∃ e, Spelled (b! "1*-9223372036854775808") e ∧ e.value = some (-9223372036854775808)) ∧
    ¬ ∃ e, Spelled (b! "(1)*-9223372036854775808") e := by
  constructor
  · exact (C64_value _ _).1 ⟨99, by cbv⟩
  · exact error_of (n := 99) (by cbv)

/-- A panic on a text that spells no expression: the group has no value. -/
example : Formula.parse 99 (b! "(1/0)+") = .panic .divZero := by cbv

end Takenoco
