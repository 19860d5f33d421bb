import Verif.Spec.Loose
import Verif.Lemmas.BigStep
import Verif.Lemmas.FordTools
import Verif.Lemmas.Runs
/-
What a parsing expression matches, its context-free reading generates; rules that call themselves first have no result.
-/
namespace Takenoco
open Spec

/-- What a parsing expression matches is a word of its context-free reading. -/
theorem ford_loose {rules : Nat → Peg} {e : Peg} {t : List Char} {o : Option (List Char)} (h : Ford rules e t o) :
    ∀ v, o = some v → ∃ u, t = u ++ v ∧ Lang (fun i => (rules i).loose) e.loose u := by
  induction h with
  | eps => rintro v ⟨⟩; exact ⟨[], rfl, .eps⟩
  | chr h => rintro v ⟨⟩; exact ⟨[_], rfl, .chr h⟩
  | chrNot | chrEnd | seqFail | notNo => intro v h; cases h
  | seq _ _ ih1 ih2 =>
    intro v h
    obtain ⟨u1, e1, l1⟩ := ih1 _ rfl
    obtain ⟨u2, e2, l2⟩ := ih2 v h
    exact ⟨u1 ++ u2, by rw [e1, e2, List.append_assoc], .seq l1 l2⟩
  | altLeft _ ih =>
    rintro v ⟨⟩
    obtain ⟨u, e1, l⟩ := ih _ rfl
    exact ⟨u, e1, .left l⟩
  | altRight _ _ _ ih =>
    intro v h
    obtain ⟨u, e1, l⟩ := ih v h
    exact ⟨u, e1, .right l⟩
  | starEnd => rintro v ⟨⟩; exact ⟨[], rfl, .starEnd⟩
  | starMore _ _ ih1 ih2 =>
    intro v h
    obtain ⟨u1, e1, l1⟩ := ih1 _ rfl
    obtain ⟨u2, e2, l2⟩ := ih2 v h
    exact ⟨u1 ++ u2, by rw [e1, e2, List.append_assoc], .starMore l1 l2⟩
  | notYes => rintro v ⟨⟩; exact ⟨[], rfl, .eps⟩
  | var _ ih =>
    intro v h
    obtain ⟨u, e1, l⟩ := ih v h
    exact ⟨u, e1, .var l⟩

/-- An expression without look-aheads is its own context-free reading. -/
theorem Spec.Peg.loose_eq {rules : Nat → Peg} {follow : Nat → Char → Prop} {e : Peg} {F : Char → Prop} (h : LL1 rules follow e F) : e.loose = e := by
  induction h with
  | eps | chr | var => rfl
  | seq _ _ ih1 ih2 => rw [Peg.loose, ih1, ih2]
  | alt _ _ _ _ ih1 ih2 => rw [Peg.loose, ih1, ih2]
  | star _ _ _ ih => rw [Peg.loose, ih]

/-- The judgement gets to a call of a rule in `S`. -/
def CallsIn (env : Env) (I : Ctx → Prop) (S : Nat → Prop) : Judg → Prop
  | .gram g => Calls env I S g
  | .seq l => ∃ ps g gs, l = ps ++ g :: gs ∧ (∀ p ∈ ps, AlwaysMatches env I p) ∧ Calls env I S g
  | .choice l => ∃ ps g gs, l = ps ++ g :: gs ∧ (∀ p ∈ ps, NeverMatches env I p) ∧ Calls env I S g
  | .reps t l k => t.max ≠ k ∧ ∃ ps g gs, l = ps ++ g :: gs ∧ (∀ p ∈ ps, AlwaysMatches env I p) ∧ Calls env I S g

theorem left_recursion {env : Env} {I : Ctx → Prop} {S : Nat → Prop} (hI : SourceOnly I) (hS : LeftRecursive env I S) {j : Judg} {c : Ctx} {r : Outcome} (h : Parses env j c r) :
    CallsIn env I S j → c.status = .matched → I c → False := by
  have hE : ∀ c cls, I c → I (enter cls c) := fun c cls h => hI c _ rfl rfl rfl h
  induction h with
  | seqNil => rintro ⟨ps, g, gs, e, _⟩ _ _; simp at e
  | seqCons h1 h2 ih1 ih2 =>
    rintro ⟨ps, g, gs, e, hp, hg⟩ hc hi
    cases ps with
    | nil => simp only [List.nil_append, List.cons.injEq] at e; exact ih1 (e.1 ▸ hg) hc hi
    | cons p ps =>
      simp only [List.cons_append, List.cons.injEq] at e
      obtain ⟨o, ho, hi'⟩ := hp p (.head _) _ _ hc hi (e.1 ▸ h1)
      cases ho
      exact ih2 ⟨ps, g, gs, e.2, fun q hq => hp q (.tail _ hq), hg⟩ (Outcome.of_matched_status (parses_sound h1 hc).1) hi'
  | seqStop h1 hn ih1 =>
    rintro ⟨ps, g, gs, e, hp, hg⟩ hc hi
    cases ps with
    | nil => simp only [List.nil_append, List.cons.injEq] at e; exact ih1 (e.1 ▸ hg) hc hi
    | cons p ps =>
      simp only [List.cons_append, List.cons.injEq] at e
      obtain ⟨o, ho, _⟩ := hp p (.head _) _ _ hc hi (e.1 ▸ h1)
      exact hn o ho
  | choiceNil => rintro ⟨ps, g, gs, e, _⟩ _ _; simp at e
  | choiceNext h1 h2 ih1 ih2 =>
    rintro ⟨ps, g, gs, e, hp, hg⟩ hc hi
    cases ps with
    | nil => simp only [List.nil_append, List.cons.injEq] at e; exact ih1 (e.1 ▸ hg) hc hi
    | cons p ps =>
      simp only [List.cons_append, List.cons.injEq] at e
      exact ih2 ⟨ps, g, gs, e.2, fun q hq => hp q (.tail _ hq), hg⟩ hc hi
  | choiceTake h1 hn ih1 =>
    rintro ⟨ps, g, gs, e, hp, hg⟩ hc hi
    cases ps with
    | nil => simp only [List.nil_append, List.cons.injEq] at e; exact ih1 (e.1 ▸ hg) hc hi
    | cons p ps =>
      simp only [List.cons_append, List.cons.injEq] at e
      exact hn (hp p (.head _) _ _ hc hi (e.1 ▸ h1))
  | repsMax h => exact fun h' _ _ => h'.1 h
  | repsEnd _ _ ih => exact fun h hc hi => ih h.2 hc hi
  | repsFail _ _ _ _ ih => exact fun h hc hi => ih h.2 hc hi
  | repsNext _ _ _ ih _ => exact fun h hc hi => ih h.2 hc hi
  | prim => exact fun h => nomatch h
  | flatGroup _ ih => intro h hc hi; cases h with | flatGroup h1 h2 => exact ih ⟨_, _, _, rfl, h1, h2⟩ rfl (hE _ _ hi)
  | group _ ih => intro h hc hi; cases h with | group h1 h2 => exact ih ⟨_, _, _, rfl, h1, h2⟩ rfl (hE _ _ hi)
  | first _ _ ih => intro h hc hi; cases h with | first h1 h2 => exact ih ⟨_, _, _, rfl, h1, h2⟩ rfl (hE _ _ hi)
  | firstNil =>
    intro h
    generalize hx : ([] : List Gram) = l at h
    cases h with | first h1 h2 => simp at hx
  | lookAhead _ ih => intro h hc hi; cases h with | lookAhead h1 h2 => exact ih ⟨_, _, _, rfl, h1, h2⟩ rfl (hE _ _ hi)
  | lookAheadN_no _ ih => intro h hc hi; cases h with | lookAheadN h1 h2 => exact ih ⟨_, _, _, rfl, h1, h2⟩ rfl (hE _ _ hi)
  | lookAheadN_yes _ ih => intro h hc hi; cases h with | lookAheadN h1 h2 => exact ih ⟨_, _, _, rfl, h1, h2⟩ rfl (hE _ _ hi)
  | lookAheadN_stop _ _ _ ih => intro h hc hi; cases h with | lookAheadN h1 h2 => exact ih ⟨_, _, _, rfl, h1, h2⟩ rfl (hE _ _ hi)
  | lookBehind | lookBehind_none | lookBehindN | lookBehindN_none => exact fun h => nomatch h
  | «repeat» _ ih => intro h hc hi; cases h with | «repeat» h0 h1 h2 => exact ih ⟨h0, _, _, _, rfl, h1, h2⟩ rfl (hE _ _ hi)
  | trans_stop _ _ ih => intro h hc hi; cases h with | trans h => exact ih h rfl (hE _ _ hi)
  | trans_none _ ih => intro h hc hi; cases h with | trans h => exact ih h rfl (hE _ _ hi)
  | trans _ _ _ ih =>
    intro h hc hi
    cases h with | trans h => exact ih h rfl (hE _ _ hi)
  | indirect _ ih => intro h hc hi; cases h with | indirect h => exact ih (hS _ h) hc hi
  | match_none | match_range | «match» => exact fun h => nomatch h

/-- The position is inside of the source. -/
def Inside (c : Ctx) : Prop := c.pos ≤ c.str.length

theorem inside_sourceOnly : SourceOnly Inside := fun c c' h1 _ h2 h => by unfold Inside; rw [h1, h2]; exact h

theorem always_reps {env : Env} {p : Sem} {cls : String} {S : Char → Prop} (hp : CharTerminal p cls S) {t : Times} (ht : t.min ≤ 0) {j : Judg} {c : Ctx}
    {r : Outcome} (h : Parses env j c r) : ∀ k : Nat, j = .reps t [.prim p] k → Inside c → ∃ o, r = .matched o ∧ Inside o := by
  have one : ∀ {c r}, Inside c → Parses env (.seq [.prim p]) c r → r = .unmatched ∨ ∃ o, r = .matched o ∧ Inside o := by
    intro c r hi h
    have key : Outcome.of (p c) = .unmatched ∨ ∃ o, Outcome.of (p c) = .matched o ∧ Inside o := by
      obtain ⟨h1, h2, h3⟩ := hp c hi
      by_cases he : c.pos = c.str.length
      · left; rw [h3 he]; rfl
      · have hne : c.str.drop c.pos ≠ [] := by
          intro h0
          have := congrArg List.length h0
          simp only [List.length_drop, List.length_nil] at this
          unfold Inside at hi; omega
        obtain ⟨ch, n, hn⟩ := nextChar_total hne
        have here : c.pos + n ≤ c.str.length := by
          have := nextChar_le hn
          simp only [List.length_drop] at this
          unfold Inside at hi; omega
        by_cases hS : S ch
        · right; rw [h1 ch n hn hS]; exact ⟨_, rfl, here⟩
        · left; rw [h2 ch n hn hS]; rfl
    cases h with
    | seqCons h1 h2 =>
      cases h1 with
      | prim h1 =>
        cases h2 with
        | seqNil =>
          right
          rcases key with h | ⟨o, h, hi⟩
          · rw [h] at h1; cases h1
          · rw [h] at h1; cases h1; exact ⟨_, rfl, hi⟩
    | seqStop h1 h2 =>
      cases h1 with
      | prim h1 => rw [h1] at key; exact key
  induction h with
  | repsMax h =>
    rintro k ⟨⟩ hi
    unfold repEnd
    rw [if_pos (by omega)]
    exact ⟨_, rfl, hi⟩
  | repsEnd h _ =>
    rintro k ⟨⟩ hi
    unfold repEnd
    rw [if_pos (by omega)]
    exact ⟨_, rfl, hi⟩
  | repsFail _ h h1 h2 =>
    rintro k ⟨⟩ hi
    rcases one hi h with h | ⟨o, h, _⟩
    · exact absurd h h1
    · exact absurd h (h2 o)
  | repsNext _ h _ _ ih =>
    rintro k ⟨⟩ hi
    rcases one hi h with h | ⟨o, h, hi'⟩
    · cases h
    · cases h; exact ih _ rfl hi'
  | _ => intro k h; cases h

/-- A repetition of a character terminal, with no least number, always matches. -/
theorem always_repeat {env : Env} {p : Sem} {cls : String} {S : Char → Prop} (hp : CharTerminal p cls S) {t : Times} (ht : t.min ≤ 0) :
    AlwaysMatches env Inside (.repeat t [.prim p]) := by
  intro c r _ hi h
  cases h with
  | «repeat» h => exact always_reps hp ht h 0 rfl hi

end Takenoco
