import Verif.Lemmas.DepthExamples
/-
C98: how deep parser calls are nested.
-/
namespace Takenoco
open Spec Trace

/-! ### C98: the nesting of parser calls -/

/-- **C98.** Without recursion, calls of parsers are never nested deeper than the parsers of the grammar are: whatever the source, its size
and how the parse ends, also by a panic, and also if it does not end. -/
theorem C98_height {tenv : TEnv} {k : Nat} {g : TGram} (h : Tall tenv k (.gram g)) (N : Nat) (c : Ctx) (s : Log) :
    ∃ l, (g.run tenv N c s).2.events = s.events ++ l ∧ nesting 0 l ≤ k := by
  obtain ⟨l, h1, h2, -⟩ := tall_shallow h N c s
  exact ⟨l, h1, by have := h2 0; omega⟩

/-- **C98.** With recursion that consumes input before it comes back to the same function, the calls are nested at most linearly deep in the part of
the source that is left: `h` levels of the grammar, and the levels of `R` functions (of at most `H` levels, and their calls) for every element
of the source and the start. -/
theorem C98_linear {tenv : TEnv} {S : Sources} {rank : Nat → Nat} {eater : Nat → Bool} {R H h r : Nat} {e : Bool} {g : TGram}
    (henv : NestsEnv tenv S rank eater R H) (hg : Nests tenv S rank eater R h r e (.gram g)) (N : Nat) (c : Ctx) (hc : Inside S c) (s : Log) :
    ∃ l, (g.run tenv N c s).2.events = s.events ++ l ∧ nesting 0 l ≤ h + (r + (S.size c - c.pos) * R) * (H + 1) := by
  obtain ⟨l, h1, h2, -⟩ := nests_deep henv hg N (S.size c - c.pos) c hc (Nat.le_refl _) s
  exact ⟨l, h1, by have := h2 0; unfold depthBound at this; omega⟩

/-- **C98.** Linear growth is possible: `n` nested brackets, which the grammar accepts, need `3 n + 3` nested calls. Nothing in the library bounds
the depth of the recursion, so it is the size of the Go stack that does. -/
theorem C98_grows (i : Info) (n N : Nat) (hN : 3 * n + 3 ≤ N) (s : Log) :
    ∃ l, ((bracketed i).run (fun _ _ => bracketed i) N (newStrCtx (bracketText n)) s).2.events = s.events ++ l ∧ 3 * n + 3 ≤ nesting 0 l ∧
      ∃ o, ((bracketed i).run (fun _ _ => bracketed i) N (newStrCtx (bracketText n)) s).1 = .ok (o, none) ∧ o.status = .matched ∧ o.pos = 2 * n + 1 := by
  obtain ⟨l, h1, h2, ⟨o, e⟩, h3, h4, h5, -, pre, h6, h7⟩ := bracketed_reach i n N hN (newStrCtx (bracketText n)) [] ⟨rfl, rfl, [], by simp [newStrCtx], rfl⟩ s
  simp only at h4 h5 h6 h7
  subst h4
  refine ⟨l, h1, by have := (h2 0).1; omega, o, h3, h5, ?_⟩
  rw [h7, show pre = bracketText n by simpa [newStrCtx] using h6.symm]
  simp [bracketText]; omega

/-! ### The examples -/

/-- **C98.** `csv.Parse` never nests more than 14 parser calls. -/
theorem C98_csv (i : Info) (N : Nat) (t : Bytes) (s : Log) :
    ∃ l, ((Csv.document.traced i).run (fun name _ => (noEnv name).traced i) N (newStrCtx t) s).2.events = s.events ++ l ∧ nesting 0 l ≤ 14 :=
  C98_height (fitsIn_tall 14 _ csv_fits) N _ s

/-- **C98.** `formula.Parse` nests at most `22 n + 41` parser calls on a text of `n` bytes, those that the production rules make included. -/
theorem C98_formula (i : Info) (N : Nat) (t : Bytes) (s : Log) :
    ∃ l, ((Formula.program.traced i).run (fun name _ => (Formula.env name).traced i) N (newStrCtx t) s).2.events = s.events ++ l ∧
      nesting 0 l ≤ 22 * t.length + 41 := by
  have he : NestsEnv (fun name _ => (Formula.env name).traced i) strings (fun _ => 0) (fun _ => false) 1 21 :=
    fun _ _ => ⟨by simp, nests_grouped (nests_inner rfl)⟩
  obtain ⟨l, h1, h2⟩ := C98_linear he (nests_program (i := i) (nests_inner (ts := [Formula.formulaProductionRules]) rfl)) N (newStrCtx t) ⟨rfl, trivial, Nat.zero_le _⟩ s
  refine ⟨l, h1, Nat.le_trans h2 ?_⟩
  rw [show strings.size (newStrCtx t) - (newStrCtx t).pos = t.length from rfl]
  omega

/-- C98. The same for `torpn.Parse`. -/
theorem C98_torpn (i : Info) (N : Nat) (t : Bytes) (s : Log) :
    ∃ l, ((ToRpn.program.traced i).run (fun name _ => (ToRpn.env name).traced i) N (newStrCtx t) s).2.events = s.events ++ l ∧
      nesting 0 l ≤ 22 * t.length + 41 := by
  have he : NestsEnv (fun name _ => (ToRpn.env name).traced i) strings (fun _ => 0) (fun _ => false) 1 21 :=
    fun _ _ => ⟨by simp, nests_grouped (nests_inner rfl)⟩
  obtain ⟨l, h1, h2⟩ := C98_linear he (nests_program (i := i) (nests_inner (ts := [ToRpn.formulaProductionRules]) rfl)) N (newStrCtx t) ⟨rfl, trivial, Nat.zero_le _⟩ s
  refine ⟨l, h1, Nat.le_trans h2 ?_⟩
  rw [show strings.size (newStrCtx t) - (newStrCtx t).pos = t.length from rfl]
  omega

/-! ### Cases -/

/-- The bracket grammar has three levels, and eats a bracket before it calls itself. -/
theorem bracketed_nests (i : Info) : NestsEnv (fun _ _ => bracketed i) strings (fun _ => 0) (fun _ => true) 1 3 := fun _ _ => by
  have eater : ∀ {r : Nat} {w : Bytes}, w ≠ [] → Nests (fun _ _ => bracketed i) strings (fun _ => 0) (fun _ => true) 1 1 r true (.gram (.prim (some i) none (seqS w))) :=
    fun h => .prim (steps_prim (S := strings) (k := 1) fun c hc => eatsStr_steps (.seq _ h) c hc.2.2).2
  have inner : Nests (fun _ _ => bracketed i) strings (fun _ => 0) (fun _ => true) 1 1 1 true (.gram (.indirect (some i) 0)) :=
    .le (.indirect (by decide)) (Nat.zero_le _)
  have last : Nests (fun _ _ => bracketed i) strings (fun _ => 0) (fun _ => true) 1 1 0 true (.seq [.prim (some i) none (seqS (b! ")"))]) :=
    .eat (eater (by decide)) (r' := 0) (Nat.zero_le _) .nil
  have body : Nests (fun _ _ => bracketed i) strings (fun _ => 0) (fun _ => true) 1 2 0 true
      (.gram (.flatGroup (some i) [.prim (some i) none (seqS (b! "(")), .indirect (some i) 0, .prim (some i) none (seqS (b! ")"))])) :=
    .flatGroup (.eat (eater (by decide)) (Nat.le_refl 1) (.eat inner (Nat.zero_le _) last))
  have x : Nests (fun _ _ => bracketed i) strings (fun _ => 0) (fun _ => true) 1 2 0 true (.gram (.prim (some i) none (seqS (b! "x")))) :=
    .le (eater (by decide)) (by decide)
  exact ⟨Nat.zero_lt_one, .first (by simp) (.alt (e := true) (e' := true) body (.alt (e := true) (e' := true) x .none))⟩

theorem bracketText_length (n : Nat) : (bracketText n).length = 2 * n + 1 := by simp [bracketText]; omega

/-- The depth for brackets is between `3 n + 3` and `8 n + 7`. -/
example (i : Info) (n : Nat) (s : Log) : ∃ l, ((bracketed i).run (fun _ _ => bracketed i) (3 * n + 3) (newStrCtx (bracketText n)) s).2.events = s.events ++ l ∧
    3 * n + 3 ≤ nesting 0 l ∧ nesting 0 l ≤ 8 * n + 7 := by
  generalize hN : 3 * n + 3 = N
  obtain ⟨l, h1, h2, -⟩ := C98_grows i n N (Nat.le_of_eq hN) s
  obtain ⟨l', h3, h4⟩ := C98_linear (bracketed_nests i) (bracketed_nests i 0 0).2 N (newStrCtx (bracketText n)) ⟨rfl, trivial, Nat.zero_le _⟩ s
  have hl : l' = l := List.append_cancel_left (h3.symm.trans h1)
  subst hl
  refine ⟨l', h1, hN ▸ h2, Nat.le_trans h4 ?_⟩
  rw [show strings.size (newStrCtx (bracketText n)) - (newStrCtx (bracketText n)).pos = (bracketText n).length from rfl, bracketText_length]
  show 3 + (0 + (2 * n + 1) * 1) * (3 + 1) ≤ 8 * n + 7
  omega

/-- Five brackets: 18 nested calls. -/
example : nesting 0 ((bracketed ⟨0, "", 0, ""⟩).run (fun _ _ => bracketed ⟨0, "", 0, ""⟩) 20 (newStrCtx (b! "(((((x)))))")) ⟨0, []⟩).2.events = 18 := by
  cbv

/-- `((1))` is parsed by `formula.Parse` with 29 nested calls; `1` needs 15. -/
example : nesting 0 ((Formula.program.traced ⟨0, "", 0, ""⟩).run (fun name _ => (Formula.env name).traced ⟨0, "", 0, ""⟩) 60 (newStrCtx (b! "((1))")) ⟨0, []⟩).2.events = 29 := by
  decide +kernel

/-- The two quoted cells `"a","b"` need 14 nested calls: the bound for CSV is reached. -/
example : nesting 0 ((Csv.document.traced ⟨0, "", 0, ""⟩).run (fun name _ => (noEnv name).traced ⟨0, "", 0, ""⟩) 60 (newStrCtx (b! "\"a\",\"b\"\n")) ⟨0, []⟩).2.events = 14 := by
  decide +kernel

#print axioms C98_height
#print axioms C98_linear
#print axioms C98_grows
#print axioms C98_csv
#print axioms C98_formula
#print axioms C98_torpn

end Takenoco
