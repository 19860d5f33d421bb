import Verif.Lemmas.Loop
import Verif.Props.Expressive
/-
C105: a parser runs forever exactly if it comes back to the same expression at the same place; otherwise its calls are nested at most so deep as
there are expressions and places.
-/
namespace Takenoco
open Spec Trace Pex

section
variable {rules : Nat → Pex} {p : Pex} {c : Ctx} {t : List Char} {l : List Pex}

/-- **C105.** A parsing expression of a finite grammar has no result on a text exactly if on the way some expression needs itself at the same place. -/
theorem C105_result (hl : ∀ i, rules i ∈ l) : (¬ ∃ o, Ford (fun i => (rules i).peg) p.peg t o) ↔ Loops rules p t := by
  refine ⟨fun h => ?_, fun h ⟨o, ho⟩ => loops_no_result h ho⟩
  by_cases hn : Loops rules p t
  · exact hn
  · obtain ⟨o, ho⟩ := result_of_no_loop hl hn
    exact absurd ⟨o, triedIn_ford ho⟩ h

/-- **C105.** So what is written for it as in C102 runs forever exactly in these cases. -/
theorem C105_forever (hl : ∀ i, rules i ∈ l) (hc : Startable c) (ht : Reads (ahead c) t) :
    (∀ n, run (fun i => (rules i).gram) n p.gram c = .timeout) ↔ Loops rules p t :=
  (C102_diverges hc ht).symm.trans (C105_result hl)

/-- **C105.** Coming back to the same place means running forever also in infinite grammars. -/
theorem C105_loops (hc : Startable c) (ht : Reads (ahead c) t) (h : Loops rules p t) (n : Nat) : run (fun i => (rules i).gram) n p.gram c = .timeout :=
  (C102_diverges hc ht).1 (fun ⟨_, ho⟩ => loops_no_result h ho) n

/-- **C105.** A run that ends nests calls of parsers at most `w * (k + 1)` deep, where `w` is the number of expressions that are written in the grammar
and `k` the number of characters: `nesting` counts the parsers that a `ParserTracer` has seen start and not return. -/
theorem C105_nesting (hl : ∀ i, rules i ∈ l) (hc : Startable c) (ht : Reads (ahead c) t) (i : Info) (n : Nat)
    (hn : run (fun i => (rules i).gram) n p.gram c ≠ .timeout) :
    nesting 0 ((p.gram.traced i).run (fun name _ => (rules name).gram.traced i) n c ⟨0, []⟩).2.events ≤ written p l * (t.length + 1) := by
  have h1 : ¬ Loops rules p t := fun h => hn (C105_loops hc ht h n)
  obtain ⟨o, ho⟩ := result_of_no_loop hl h1
  obtain ⟨ev, h2, h3, -⟩ := (settles_run (rules := rules) i n p c t o _ ⟨hc, ht⟩ ho).1 ⟨0, []⟩
  rw [h2]
  have := h3 0
  simpa using this

/-- **C105.** And a run that has nested calls so deep without an end never ends: whether a parser ends on a given text can be decided, by running it
with this bound. -/
theorem C105_decided (hl : ∀ i, rules i ∈ l) (hc : Startable c) (ht : Reads (ahead c) t) (n : Nat) (hn : written p l * (t.length + 1) ≤ n)
    (h : run (fun i => (rules i).gram) n p.gram c = .timeout) : ∀ m, run (fun i => (rules i).gram) m p.gram c = .timeout := by
  refine (C105_forever hl hc ht).2 ?_
  by_cases hloop : Loops rules p t
  · exact hloop
  · obtain ⟨o, ho⟩ := result_of_no_loop hl hloop
    have h1 := (settles_run (rules := rules) ⟨0, "", 0, ""⟩ n p c t o _ ⟨hc, ht⟩ ho).2 hn ⟨0, []⟩
    rw [C43_transparent _ (fun name => (rules name).gram) (fun _ _ => plain_traced _ _), plain_traced] at h1
    exact absurd h h1

/-- **C105.** Finiteness is needed: with `A0 ← A1`, `A1 ← A2`, `A2 ← A3`, … the parser runs forever and never comes back. -/
theorem C105_infinite (hc : Startable c) (ht : Reads (ahead c) t) :
    (∀ n, run (fun i => (Pex.var (i + 1)).gram) n (Pex.var 0).gram c = .timeout) ∧ ¬ Loops (fun i => .var (i + 1)) (.var 0) t := by
  have up : ∀ {p q t u}, Leads (fun i => .var (i + 1)) p t q u → ∀ i, p = .var i → ∃ j, q = .var j ∧ i < j := fun {p q t u} h => by
    induction h with
    | one h => intro i hi; subst hi; cases h; exact ⟨_, rfl, Nat.lt_succ_self _⟩
    | more h _ ih =>
      intro i hi; subst hi; cases h
      obtain ⟨j, h1, h2⟩ := ih (i + 1) rfl
      exact ⟨j, h1, by omega⟩
  refine ⟨(C102_diverges (rules := fun i => .var (i + 1)) (p := .var 0) hc ht).1 ?_, fun ⟨q, u, hq, hloop⟩ => ?_⟩
  · rintro ⟨o, h⟩
    have : ∀ {e t o}, Ford (fun i => (Pex.var (i + 1)).peg) e t o → ∀ i, e ≠ .var i := fun {e t o} h => by
      induction h with
      | var _ ih => exact fun i _ => ih _ rfl
      | _ => simp
    exact this h 0 rfl
  · have hv : ∃ i, q = .var i := by
      rcases hq with ⟨rfl, -⟩ | hq
      · exact ⟨0, rfl⟩
      · obtain ⟨j, h, -⟩ := up hq 0 rfl; exact ⟨j, h⟩
    obtain ⟨i, rfl⟩ := hv
    obtain ⟨j, h1, h2⟩ := up hloop i rfl
    cases h1
    omega

end

/-! ### Cases -/

/-- `A ← A 'x' / 'y'` -/
example : Loops (fun _ => .alt (.seq (.var 0) (.chr (· == 0x78))) (.chr (· == 0x79))) (.var 0) ['y', 'x'] :=
  ⟨_, _, .inl ⟨rfl, rfl⟩, .more .var (.more .altLeft (.one .seqLeft))⟩

/-- `A ← 'y'? A 'x' / 'z'` comes back only where there is no `y`. -/
example : let A : Pex := .alt (.seq (.alt (.chr (· == 0x79)) .eps) (.seq (.var 0) (.chr (· == 0x78)))) (.chr (· == 0x7A))
    Loops (fun _ => A) (.var 0) ['z'] :=
  ⟨_, _, .inl ⟨rfl, rfl⟩, .more .var (.more .altLeft (.more (.seqRight (.altRight (.chrNot (by decide)) .eps)) (.one .seqLeft)))⟩

/-- `('x'*)*`: on `xx` the outer repetition comes back to itself at the end. -/
example : Loops (fun _ => .eps) (.star (.star (.chr (· == 0x78)))) ['x', 'x'] :=
  have h : Ford (fun _ => .eps) (Pex.star (.chr (· == 0x78))).peg ['x', 'x'] (some []) :=
    .starMore (.chr (by decide)) (.starMore (.chr (by decide)) (.starEnd .chrEnd))
  ⟨.star (.star (.chr (· == 0x78))), [], .inr (.one (.again h)), .one (.again (.starEnd .chrEnd))⟩

/-- `A ← '(' A ')' / 'x'`: seven expressions are written on the right side, and `A` itself. -/
example : written (.var 0) [.alt (.seq (.chr (· == 0x28)) (.seq (.var 0) (.chr (· == 0x29)))) (.chr (· == 0x78))] = 8 := by decide

/-- For `((x))` its calls are nested 11 deep; the bound is 48. -/
example : let A : Pex := .alt (.seq (.chr (· == 0x28)) (.seq (.var 0) (.chr (· == 0x29)))) (.chr (· == 0x78))
    nesting 0 ((A.gram.traced ⟨0, "", 0, ""⟩).run (fun _ _ => A.gram.traced ⟨0, "", 0, ""⟩) 48 (newStrCtx (b! "((x))")) ⟨0, []⟩).2.events = 11 := by
  decide +kernel

#print axioms C105_result
#print axioms C105_forever
#print axioms C105_loops
#print axioms C105_nesting
#print axioms C105_decided
#print axioms C105_infinite

end Takenoco
