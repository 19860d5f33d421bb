import Verif.Lemmas.Loose
import Verif.Props.Peg
import Verif.Props.LL1
import Verif.Props.StrTerminals
/-
Properties C96 (a grammar accepts only what its context-free reading generates) and C97 (left recursion never returns).
-/
namespace Takenoco
open Spec

section
variable {A : Ast → Prop} {env : Env} {rules : Nat → Peg} {g : Gram} {e : Peg} {c c' : Ctx} {t : List Char}

/-- **C96.** What a grammar consumes in a match is a word of its context-free reading, in which the alternatives have no order and the
look-aheads are empty. The LL(1) condition is not needed for that. -/
theorem C96_consumed (hA : Tokens A) (henv : ∀ i, Means A (.gram (env i)) (rules i)) (hg : Means A (.gram g) e) (hc : Startable c)
    (n : Nat) (h : Outcome.of (run env n g c) = .matched c') :
    ∃ u, ReadOff (ahead c) u (ahead c') ∧ Lang (fun i => (rules i).loose) e.loose u := by
  obtain ⟨t, ht⟩ := reads_total (ahead c)
  obtain ⟨o, h2, h3⟩ := C74_engine_to_peg hA henv hg hc ht n (fun h0 => by rw [h0] at h; cases h)
  rw [h] at h3
  obtain ⟨v, rfl, hw⟩ := h3.matched
  obtain ⟨u, hu, hr⟩ := hw.chars
  obtain ⟨u', hu', hl⟩ := ford_loose h2 v rfl
  rw [hu] at hu'
  rw [← List.append_cancel_right hu'] at hl
  exact ⟨u, hr, hl⟩

/-- **C96.** A grammar followed by `End` accepts only texts of its context-free language. -/
theorem C96_accepted (hA : Tokens A) (henv : ∀ i, Means A (.gram (env i)) (rules i)) (hg : Means A (.gram g) e) {s : Bytes} (ht : Reads s t)
    (n : Nat) (h : Outcome.of (run env n (.flatGroup [g, .prim endS]) (newStrCtx s)) = .matched c') :
    Lang (fun i => (rules i).loose) e.loose t := by
  have hm : Means A (.gram (.flatGroup [g, .prim endS])) (.seq e (.seq (.notP .any) .eps)) := .flatGroup (.seqCons hg (.seqCons .end .seqNil))
  obtain ⟨o, h2, h3⟩ := C74_engine_to_peg hA henv hm (startable_new s) (t := t) (by simpa [ahead, newStrCtx] using ht) n
    (fun h0 => by rw [h0] at h; cases h)
  rw [h] at h3
  obtain ⟨v, rfl, _⟩ := h3.matched
  cases h2 with
  | seq h1 h2 =>
    obtain ⟨u, hu, hl⟩ := ford_loose h1 _ rfl
    cases h2 with
    | seq h2 _ =>
      cases h2 with
      | notYes h2 =>
        cases h2 with
        | chrNot h => exact absurd trivial h
        | chrEnd => rw [hu, List.append_nil]; exact hl

end

section
variable {env : Env} {I : Ctx → Prop} {S : Nat → Prop} {c : Ctx}

/-- **C97.** A grammar that gets to a call of left recursive rules before anything can stop it never returns. -/
theorem C97_calls (henv : ∀ i, Plain (env i)) (hI : SourceOnly I) (hS : LeftRecursive env I S) {g : Gram} (hg : Plain g) (h : Calls env I S g)
    (hc : c.status = .matched) (hi : I c) (n : Nat) : run env n g c = .timeout :=
  (C12_divergence env henv g hg c hc).2 (fun ⟨_, hr⟩ => left_recursion hI hS hr h hc hi) n

/-- **C97.** Left recursive rules never return, whatever the source. -/
theorem C97_rule (henv : ∀ i, Plain (env i)) (hI : SourceOnly I) (hS : LeftRecursive env I S) {i : Nat} (h : S i)
    (hc : c.status = .matched) (hi : I c) (n : Nat) : run env n (.indirect i) c = .timeout :=
  C97_calls henv hI hS .indirect (.indirect h) hc hi n

/-- **C97**, the textbook case: `E = E … / …` never returns. -/
theorem C97_direct (henv : ∀ i, Plain (env i)) {i : Nat} {gs alts : List Gram} (h : env i = .first (.flatGroup (.indirect i :: gs) :: alts))
    (hc : c.status = .matched) (n : Nat) : run env n (.indirect i) c = .timeout := by
  refine C97_rule (I := fun _ => True) (S := (· = i)) henv (fun _ _ _ _ _ _ => trivial) ?_ rfl hc trivial n
  rintro j rfl
  rw [h]
  exact .first (ps := []) (by simp) (.flatGroup (ps := []) (by simp) (.indirect rfl))

/-- **C97.** White space in front of the call does not help: the second call finds none, but calls a third time. -/
theorem C97_behind_space (henv : ∀ i, Plain (env i)) {i : Nat} {gs alts : List Gram}
    (h : env i = .first (.flatGroup (.repeat ⟨0, -1⟩ [.prim whitespace] :: .indirect i :: gs) :: alts)) (s : Bytes) (n : Nat) :
    run env n (.indirect i) (newStrCtx s) = .timeout := by
  refine C97_rule (I := Inside) (S := (· = i)) henv inside_sourceOnly ?_ rfl rfl (Nat.zero_le _) n
  rintro j rfl
  rw [h]
  refine .first (ps := []) (by simp) (.flatGroup (ps := [_]) ?_ (.indirect rfl))
  intro p hp
  rw [List.mem_singleton.1 hp]
  exact always_repeat C18_whitespace (by decide)

end

/-- C96 on the grammar of aⁿbⁿcⁿ: `aabbcc` is accepted, so it is a word of `a* B` with `B = b B? c`, as the grammar reads without look-ahead. -/
example : Lang (fun i => (Abc.rules i).loose) (Abc.rules 2).loose ['a', 'a', 'b', 'b', 'c', 'c'] := by
  have hr : Reads (b! "aabbcc") ['a', 'a', 'b', 'b', 'c', 'c'] := (reads_text (by decide)).2 rfl
  have hf : Ford Abc.rules (.var 2) ['a', 'a', 'b', 'b', 'c', 'c'] (some []) := by
    rcases Abc.decides ['a', 'a', 'b', 'b', 'c', 'c'] with ⟨_, h⟩ | ⟨h, _⟩
    · exact h
    · exact absurd rfl (h 1)
  obtain ⟨n, c', h, _⟩ := (C74_matches (A := fun _ => True) (fun _ _ _ _ => trivial) Abc.means
    (.flatGroup (.seqCons .indirect (.seqCons .end .seqNil)) : Means (fun _ => True) (.gram (.flatGroup [.indirect 2, .prim endS])) _)
    (startable_new _) hr ['a', 'a', 'b', 'b', 'c', 'c'] [] rfl).1 (.seq hf (.seq (.notYes .chrEnd) .eps))
  have := C96_accepted (A := fun _ => True) (fun _ _ _ _ => trivial) Abc.means .indirect hr n h
  cases this with
  | var h => exact h

/-- C96 is about one direction only: without look-ahead `aabc` would be a word too, but it is not accepted. -/
example : Lang (fun i => (Abc.rules i).loose) (.var 2) ['a', 'b', 'c'] ∧ Lang (fun i => (Abc.rules i).loose) (.var 2) ['a', 'a', 'b', 'c'] ∧
    ¬ ∃ n c', Outcome.of (run Abc.env n (.indirect 2) (newStrCtx (b! "aabc"))) = .matched c' := by
  have lit : ∀ ch, Lang (fun i => (Abc.rules i).loose) (.lit [ch]) [ch] := fun ch => lang_lit.2 rfl
  have B : Lang (fun i => (Abc.rules i).loose) (.var 1) ['b', 'c'] :=
    .var (.seq (u := ['b']) (v := ['c']) (lit _) (.seq (u := []) (v := ['c']) (.right .eps) (.seq (u := ['c']) (v := []) (lit _) .eps)))
  have one : Lang (fun i => (Abc.rules i).loose) (.seq (.lit ['a']) .eps) ['a'] := .seq (u := ['a']) (v := []) (lit _) .eps
  refine ⟨?_, ?_, ?_⟩
  · exact .var (.seq (u := []) (v := ['a', 'b', 'c']) .eps (.seq (u := ['a']) (v := ['b', 'c']) (.starMore (u := ['a']) (v := []) one .starEnd)
      (.seq (u := ['b', 'c']) (v := []) B (.seq (u := []) (v := []) .eps .eps))))
  · exact .var (.seq (u := []) (v := ['a', 'a', 'b', 'c']) .eps (.seq (u := ['a', 'a']) (v := ['b', 'c'])
      (.starMore (u := ['a']) (v := ['a']) one (.starMore (u := ['a']) (v := []) one .starEnd))
      (.seq (u := ['b', 'c']) (v := []) B (.seq (u := []) (v := []) .eps .eps))))
  · rw [C74_abc]
    rintro ⟨k, hk⟩
    have h : Abc.word (k + 1) = ['a', 'a', 'b', 'c'] :=
      reads_unique ((reads_text (by simp [Abc.word])).2 hk) ((reads_text (by decide)).2 rfl)
    have h1 := congrArg (List.count 'a') h
    have h2 := congrArg (List.count 'b') h
    simp [Abc.word, List.count_append, List.count_replicate] at h1 h2
    omega

/-- C97: `E = E "+" digit / digit` on `1+1`. -/
example (n : Nat) : run (fun _ => .first [.flatGroup [.indirect 0, .prim (seqS (b! "+")), .prim number], .prim number]) n (.indirect 0) (newStrCtx (b! "1+1")) =
    .timeout :=
  C97_direct (fun _ => .first (by simp only [List.forall_mem_cons]; exact ⟨.flatGroup (by simp only [List.forall_mem_cons]; exact ⟨.indirect, .prim, .prim, by simp⟩), .prim, by simp⟩))
    rfl rfl n

/-- C97: two rules that call each other, one of them in a look-ahead. -/
example (n : Nat) (s : Bytes) : run (fun i => if i = 0 then .flatGroup [.lookAhead [.indirect 1], .prim anyS] else .group [.indirect 0]) n (.indirect 1)
    (newStrCtx s) = .timeout := by
  refine C97_rule (I := fun _ => True) (S := fun _ => True) ?_ (fun _ _ _ _ _ _ => trivial) ?_ trivial rfl trivial n
  · intro i
    split
    · exact .flatGroup (by simp only [List.forall_mem_cons]; exact ⟨.lookAhead (by simp only [List.forall_mem_cons]; exact ⟨.indirect, by simp⟩), .prim, by simp⟩)
    · exact .group (by simp only [List.forall_mem_cons]; exact ⟨.indirect, by simp⟩)
  · intro i _
    dsimp only
    split
    · exact .flatGroup (ps := []) (by simp) (.lookAhead (ps := []) (by simp) (.indirect trivial))
    · exact .group (ps := []) (by simp) (.indirect trivial)

#print axioms C96_consumed
#print axioms C96_accepted
#print axioms C97_calls
#print axioms C97_rule
#print axioms C97_direct
#print axioms C97_behind_space

end Takenoco
