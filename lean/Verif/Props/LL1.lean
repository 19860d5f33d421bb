import Verif.Lemmas.Language
import Verif.Props.Peg
/-
Property C75: an LL(1) grammar written with takenoco accepts exactly its context-free language.
-/
namespace Takenoco
open Spec

section
variable {A : Ast → Prop} {env : Env} {rules : Nat → Peg} {follow : Nat → Char → Prop} {g : Gram} {e : Peg} {F : Char → Prop} {c : Ctx} {t : List Char}

/-- **C75.** Without an end: the parser always ends, and it matches all of a word of the language if the end or a character comes behind it that may
follow. -/
theorem C75_word (hA : Tokens A) (henv : ∀ i, Means A (.gram (env i)) (rules i)) (hg : Means A (.gram g) e) (hwf : NoLeftRecursion rules)
    (hll : ∀ i, LL1 rules follow (rules i) (follow i)) (he : LL1 rules follow e F) (hc : Startable c) (ht : Reads (ahead c) t) :
    (∃ N, ∀ n, N ≤ n → ((∃ c' u, Outcome.of (run env n g c) = .matched c' ∧ Lang rules e u ∧ ReadOff (ahead c) u (ahead c')) ∨
      Outcome.of (run env n g c) = .unmatched)) ∧
    ∀ u v, t = u ++ v → Lang rules e u → (v = [] ∨ ∃ ch v', v = ch :: v' ∧ F ch) →
      ∃ N, ∀ n, N ≤ n → ∃ c', Outcome.of (run env n g c) = .matched c' ∧ ReadOff (ahead c) u (ahead c') := by
  obtain ⟨o, h1, h2, h3⟩ := ll1_decides hll hwf t e F he
  obtain ⟨N, hN⟩ := C74_peg_to_engine hA henv hg hc ht o h1
  constructor
  · refine ⟨N, fun n hn => ?_⟩
    cases o with
    | none => exact .inr (hN n hn).none
    | some v =>
      obtain ⟨c', h4, hw⟩ := (hN n hn).some
      obtain ⟨u, hu, hr⟩ := hw.chars
      obtain ⟨u', hu', hl⟩ := h2 v rfl
      have : u = u' := List.append_cancel_right (hu.symm.trans hu')
      subst this
      exact .inl ⟨c', u, h4, hl, hr⟩
  · intro u v e1 e2 e3
    have := h3 u v e1 e2 e3
    subst this
    refine ⟨N, fun n hn => ?_⟩
    obtain ⟨c', h4, hw⟩ := (hN n hn).some
    obtain ⟨u', hu, hr⟩ := hw.chars
    rw [e1] at hu
    rw [← List.append_cancel_right hu] at hr
    exact ⟨c', h4, hr⟩

/-- **C75.** A grammar that one character of look-ahead decides, between `Start` and `End`, matches exactly the texts of its context-free language;
on all others it is unmatched. -/
theorem C75_language (hA : Tokens A) (henv : ∀ i, Means A (.gram (env i)) (rules i)) (hg : Means A (.gram g) e) (hwf : NoLeftRecursion rules)
    (hll : ∀ i, LL1 rules follow (rules i) (follow i)) (he : LL1 rules follow e fun _ => False) {s : Bytes} (ht : Reads s t) :
    ∃ N, ∀ n, N ≤ n →
      (Lang rules e t ∧ (∃ c', Outcome.of (run env n (.flatGroup [.prim startP, g, .prim endS]) (newStrCtx s)) = .matched c' ∧ c'.pos = s.length)) ∨
      (¬ Lang rules e t ∧ Outcome.of (run env n (.flatGroup [.prim startP, g, .prim endS]) (newStrCtx s)) = .unmatched) := by
  obtain ⟨o, h1, h2, h3⟩ := ll1_decides hll hwf t e _ he
  have hL : Lang rules e t ↔ o = some [] := by
    constructor
    · exact fun h => h3 t [] (by simp) h (.inl rfl)
    · intro h
      obtain ⟨u, hu, hl⟩ := h2 [] h
      rw [hu, List.append_nil]; exact hl
  -- with the end
  have hm : Means A (.seq [g, .prim endS]) (.seq e (.seq (.notP .any) .eps)) := .seqCons hg (.seqCons .end .seqNil)
  have hf : Ford rules (.seq e (.seq (.notP .any) .eps)) t (if o = some [] then some [] else none) := by
    cases o with
    | none => exact .seqFail h1
    | some v =>
      cases v with
      | nil => exact .seq h1 (.seq (.notYes .chrEnd) .eps)
      | cons ch v => exact .seq h1 (.seqFail (.notNo (.chr trivial)))
  let c2 : Ctx := { newStrCtx s with len := 0, status := .matched, qty := 1, cls := ":base:Start" }
  obtain ⟨m, hm'⟩ := fordN_of hf
  obtain ⟨r, p1, a1⟩ := ford_parses hA henv m hm c2 t _ hm' (Nat.zero_le _) rfl (by simpa [ahead, c2, newStrCtx] using ht)
  have hs : Parses env (.gram (.prim startP)) (enter ":base:FlatGroup" (newStrCtx s)) (.matched c2) := by
    refine .prim ?_ (by simp)
    rw [startP_eq, if_pos (by rfl)]
    rfl
  obtain ⟨N, hN⟩ := C12_spec_to_engine env _ _ _ rfl (.flatGroup (.seqCons hs p1))
  refine ⟨N, fun n hn => ?_⟩
  rw [hN n hn, hL]
  by_cases ho : o = some []
  · rw [if_pos ho] at a1
    obtain ⟨c', rfl, hw⟩ := a1.some
    refine .inl ⟨ho, _, rfl, ?_⟩
    obtain ⟨u, hu, hr⟩ := hw.chars
    have h0 := hw.inside
    have h4 : c'.str = s := hw.str
    have h5 : Reads (ahead c') [] := by
      obtain ⟨w, hw'⟩ := reads_total (ahead c')
      have := reads_unique (readOff_reads hr hw') (by simpa [ahead, c2, newStrCtx] using ht)
      rw [hu, List.append_cancel_left_eq] at this
      rw [← this]; exact hw'
    generalize ha : ahead c' = x at h5
    cases h5
    have : (ahead c').length = 0 := by rw [ha]; rfl
    simp only [ahead, List.length_drop] at this
    show c'.pos = s.length
    rw [h4] at this h0
    omega
  · rw [if_neg ho] at a1
    rw [a1.none]
    exact .inr ⟨ho, rfl⟩

end

/-- **C75**, an example: the texts of brackets that are closed in order. -/
theorem C75_brackets (s : Bytes) : ∃ N, ∀ n, N ≤ n →
    ((∃ t, s = utf8s t ∧ Brackets.Closes 0 t) ∧
      (∃ c', Outcome.of (run Brackets.env n (.flatGroup [.prim startP, .indirect 0, .prim endS]) (newStrCtx s)) = .matched c' ∧ c'.pos = s.length)) ∨
    ((¬ ∃ t, s = utf8s t ∧ Brackets.Closes 0 t) ∧
      Outcome.of (run Brackets.env n (.flatGroup [.prim startP, .indirect 0, .prim endS]) (newStrCtx s)) = .unmatched) := by
  obtain ⟨t, ht⟩ := reads_total s
  have hs : Lang Brackets.rules (.var 0) t ↔ ∃ t, s = utf8s t ∧ Brackets.Closes 0 t := by
    rw [Brackets.lang_closes]
    constructor
    · exact fun h => ⟨t, (reads_text (Brackets.closes_plain h)).1 ht, h⟩
    · rintro ⟨t', h1, h2⟩
      rw [reads_unique ht ((reads_text (Brackets.closes_plain h2)).2 h1)]; exact h2
  rw [← hs]
  exact C75_language (A := fun _ => True) (follow := fun _ ch => ch = ')') (fun _ _ _ _ => trivial) Brackets.means .indirect Brackets.wf Brackets.ll1
    (.var fun _ h => h.elim) ht

/-- **C75.** Where one character does not decide, the order of the alternatives matters: `First(Seq("a"), Seq("ab"))` does not accept the word `ab`. -/
theorem C75_order_matters (rules : Nat → Peg) : ∃ (g : Gram) (e : Peg) (s : Bytes) (t : List Char), Means (fun _ => True) (.gram g) e ∧ Reads s t ∧ Lang rules e t ∧
    ∃ n, Outcome.of (run noEnv n (.flatGroup [g, .prim endS]) (newStrCtx s)) = .unmatched := by
  have hm : Means (fun _ => True) (.gram (.first [.prim (seqS (utf8s ['a'])), .prim (seqS (utf8s ['a', 'b']))])) (.alt (.lit ['a']) (.lit ['a', 'b'])) :=
    .first (by simp) (.choiceCons (by simp) (.lit (by decide)) (.choiceOne (.lit (by decide))))
  have hr : Reads (utf8s ['a', 'b']) ['a', 'b'] := (reads_text (by decide)).2 rfl
  refine ⟨_, _, utf8s ['a', 'b'], ['a', 'b'], hm, hr, .right (lang_lit.2 rfl), ?_⟩
  refine (C74_unmatched (A := fun _ => True) (rules := fun _ => .fail) (fun _ _ _ _ => trivial) (fun _ => .unmatched)
    (.flatGroup (.seqCons hm (.seqCons .end .seqNil))) (startable_new _) (t := ['a', 'b']) (by simpa [ahead, newStrCtx] using hr)).1 ?_
  exact .seq (.altLeft (.seq (.chr rfl) .eps)) (.seqFail (.notNo (.chr trivial)))

/-- `(())()` is accepted, `())` is not. -/
example : ∃ n c', Outcome.of (run Brackets.env n (.flatGroup [.prim startP, .indirect 0, .prim endS]) (newStrCtx (b! "(())()"))) = .matched c' := by
  obtain ⟨N, h⟩ := C75_brackets (b! "(())()")
  rcases h N (Nat.le_refl _) with ⟨_, c', h, _⟩ | ⟨h, _⟩
  · exact ⟨N, c', h⟩
  · exact absurd ⟨['(', '(', ')', ')', '(', ')'], rfl, by simp [Brackets.Closes]⟩ h

example : ∃ n, Outcome.of (run Brackets.env n (.flatGroup [.prim startP, .indirect 0, .prim endS]) (newStrCtx (b! "())"))) = .unmatched := by
  obtain ⟨N, h⟩ := C75_brackets (b! "())")
  rcases h N (Nat.le_refl _) with ⟨⟨t, h1, h2⟩, _⟩ | ⟨_, h⟩
  · exfalso
    have h0 : '�' ∉ t := Brackets.closes_plain h2
    have : t = ['(', ')', ')'] := reads_unique ((reads_text h0).2 h1) ((reads_text (by decide)).2 rfl)
    subst this
    simp [Brackets.Closes] at h2
  · exact ⟨N, h⟩

/-- The hypotheses of `C75_word` on the rule of that grammar: behind `()` comes `)`. -/
example : ∃ n c', Outcome.of (run Brackets.env n (.indirect 0) (newStrCtx (b! "())"))) = .matched c' ∧ ReadOff (b! "())") ['(', ')'] (ahead c') := by
  obtain ⟨N, h⟩ := (C75_word (A := fun _ => True) (follow := fun _ ch => ch = ')') (F := fun ch => ch = ')') (t := ['(', ')', ')']) (fun _ _ _ _ => trivial)
    Brackets.means .indirect Brackets.wf Brackets.ll1 (.var fun _ h => h) (startable_new (b! "())")) ((reads_text (by decide)).2 rfl)).2
    ['(', ')'] [')'] rfl (Brackets.lang_closes.2 (by simp [Brackets.Closes])) (.inr ⟨')', [], rfl, rfl⟩)
  obtain ⟨c', h1, h2⟩ := h N (Nat.le_refl _)
  exact ⟨N, c', h1, h2⟩

#print axioms C75_word
#print axioms C75_language
#print axioms C75_brackets
#print axioms C75_order_matters

end Takenoco
