import Verif.Lemmas.Ford
/-
How takenoco grammars spell the usual parsing expressions, and the parsing expression for aⁿbⁿcⁿ.
-/
namespace Takenoco
open Spec

/-- A place in a string source from which a parser may be started. -/
def Startable (c : Ctx) : Prop := c.pos ≤ c.str.length ∧ c.status = .matched

theorem startable_new (s : Bytes) : Startable (newStrCtx s) := ⟨Nat.zero_le _, rfl⟩

/-- Grammars that spell parsing expressions are plain. -/
theorem means_plain {A : Ast → Prop} {j : Judg} {e : Peg} (h : Means A j e) : match j with
    | .gram g => Plain g
    | .seq gs => ∀ g ∈ gs, Plain g
    | .choice gs => ∀ g ∈ gs, Plain g
    | .reps _ gs _ => ∀ g ∈ gs, Plain g := by
  induction h with
  | chr | lit | zero | unmatched | «end» => exact .prim
  | seqNil => simp
  | seqCons _ _ ih1 ih2 => simp only [List.mem_cons, forall_eq_or_imp]; exact ⟨ih1, ih2⟩
  | choiceOne _ ih => simp only [List.mem_singleton, forall_eq]; exact ih
  | choiceCons _ _ _ ih1 ih2 => simp only [List.mem_cons, forall_eq_or_imp]; exact ⟨ih1, ih2⟩
  | repsMore _ _ _ _ ih _ => exact ih
  | repsMaybe _ _ _ _ ih _ => exact ih
  | repsDone _ _ _ ih => exact ih
  | repsStar _ _ _ ih => exact ih
  | flatGroup _ ih => exact .flatGroup ih
  | group _ _ ih => exact .group ih
  | first _ _ ih => exact .first ih
  | lookAhead _ ih => exact .lookAhead ih
  | lookAheadN _ ih => exact .lookAheadN ih
  | «repeat» h ih => exact .repeat ih
  | trans _ _ ih => exact .trans ih
  | indirect => exact .indirect

/-! ### The usual operators -/

section
variable {A : Ast → Prop} {gs : List Gram} {a : Peg}

/-- `ZeroOrMoreTimes` is `a*`. -/
theorem means_star (h : Means A (.seq gs) a) : Means A (.gram (Gram.star gs)) (.star a) :=
  .repeat (.repsStar (by decide) (by decide) h)

/-- `OneOrMoreTimes` is `a a*`. -/
theorem means_plus (h : Means A (.seq gs) a) : Means A (.gram (Gram.plus gs)) (.seq a (.star a)) :=
  .repeat (.repsMore (by decide) (by decide) h (.repsStar (by decide) (by decide) h))

/-- `ZeroOrOnce` is `a?`. -/
theorem means_opt (h : Means A (.seq gs) a) : Means A (.gram (Gram.opt gs)) (.alt (.seq a .eps) .eps) :=
  .repeat (.repsMaybe (by decide) (by decide) h (.repsDone (by decide) (by decide) h))

/-- `Once` is `a`. -/
theorem means_once (h : Means A (.seq gs) a) : Means A (.gram (Gram.one gs)) (.seq a .eps) :=
  .repeat (.repsMore (by decide) (by decide) h (.repsDone (by decide) (by decide) h))

/-- One parser alone. -/
theorem means_seq {g : Gram} (h : Means A (.gram g) a) : Means A (.seq [g]) (.seq a .eps) := .seqCons h .seqNil

theorem succeeds_erase : Succeeds A [erase] := fun _ _ _ => ⟨[], .step rfl .done, by simp⟩

end

/-! ### The language aⁿbⁿcⁿ, which is not context-free (Ford, section 3.4), as a takenoco grammar -/

namespace Abc
/-- `D = &(A !b) a* B !.` with `A = a A? b`, `B = b B? c`. -/
def env : Env
  | 0 => .flatGroup [.prim (seqS (utf8s ['a'])), Gram.opt [.indirect 0], .prim (seqS (utf8s ['b']))]
  | 1 => .flatGroup [.prim (seqS (utf8s ['b'])), Gram.opt [.indirect 1], .prim (seqS (utf8s ['c']))]
  | _ => .flatGroup [.lookAhead [.indirect 0, .lookAheadN [.prim (seqS (utf8s ['b']))]], Gram.star [.prim (seqS (utf8s ['a']))], .indirect 1, .prim endS]

def rules : Nat → Peg
  | 0 => .seq (.lit ['a']) (.seq (.alt (.seq (.seq (.var 0) .eps) .eps) .eps) (.seq (.lit ['b']) .eps))
  | 1 => .seq (.lit ['b']) (.seq (.alt (.seq (.seq (.var 1) .eps) .eps) .eps) (.seq (.lit ['c']) .eps))
  | _ => .seq (.notP (.notP (.seq (.var 0) (.seq (.notP (.seq (.lit ['b']) .eps)) .eps)))) (.seq (.star (.seq (.lit ['a']) .eps))
      (.seq (.var 1) (.seq (.notP .any) .eps)))

theorem means (i : Nat) : Means (fun _ => True) (.gram (env i)) (rules i) := by
  have lit : ∀ ch, ch ≠ '�' → Means (fun _ => True) (.gram (.prim (seqS (utf8s [ch])))) (.lit [ch]) := fun ch h => .lit (by simpa using h.symm)
  match i with
  | 0 => exact .flatGroup (.seqCons (lit _ (by decide)) (.seqCons (means_opt (means_seq .indirect)) (means_seq (lit _ (by decide)))))
  | 1 => exact .flatGroup (.seqCons (lit _ (by decide)) (.seqCons (means_opt (means_seq .indirect)) (means_seq (lit _ (by decide)))))
  | n + 2 =>
    exact .flatGroup (.seqCons (.lookAhead (.seqCons .indirect (means_seq (.lookAheadN (means_seq (lit _ (by decide)))))))
      (.seqCons (means_star (means_seq (lit _ (by decide)))) (.seqCons .indirect (means_seq .end))))


/-- `p`, then the rule again or nothing, then `q`. -/
def Nest (rs : Nat → Peg) (i : Nat) (p q : Char) : Prop :=
  rs i = .seq (.lit [p]) (.seq (.alt (.seq (.seq (.var i) .eps) .eps) .eps) (.seq (.lit [q]) .eps))

theorem lit_yes {rs : Nat → Peg} (ch : Char) (t : List Char) : Ford rs (.lit [ch]) (ch :: t) (some t) := .seq (.chr rfl) .eps

theorem lit_no {rs : Nat → Peg} {ch : Char} {t : List Char} (h : ∀ y, t ≠ ch :: y) : Ford rs (.lit [ch]) t none := by
  cases t with
  | nil => exact .seqFail .chrEnd
  | cons x t => exact .seqFail (.chrNot fun e => h t (by rw [e]))

/-- The nesting rule on `pⁿ x`, where `x` does not begin with `p`: it matches if `x` begins with `qⁿ`, and it fails otherwise. -/
theorem nest_ford {rs : Nat → Peg} {i : Nat} {p q : Char} (hr : Nest rs i p q) (hpq : p ≠ q) {x : List Char} (hx : ∀ y, x ≠ p :: y) (n : Nat) :
    (∃ w, 0 < n ∧ x = List.replicate n q ++ w ∧ Ford rs (.var i) (List.replicate n p ++ x) (some w)) ∨
    ((n = 0 ∨ ∀ w, x ≠ List.replicate n q ++ w) ∧ Ford rs (.var i) (List.replicate n p ++ x) none) := by
  induction n with
  | zero => exact .inr ⟨.inl rfl, .var (hr ▸ .seqFail (lit_no hx))⟩
  | succ n ih =>
    rw [show List.replicate (n + 1) p ++ x = p :: (List.replicate n p ++ x) from rfl]
    rcases ih with ⟨w, hn, hw, hf⟩ | ⟨hn, hf⟩
    · by_cases hq : ∃ w', w = q :: w'
      · obtain ⟨w', rfl⟩ := hq
        refine .inl ⟨w', by omega, ?_, .var (hr ▸ .seq (lit_yes _ _) (.seq (.altLeft (.seq (.seq hf .eps) .eps)) (.seq (lit_yes _ _) .eps)))⟩
        rw [hw, List.replicate_succ']; simp
      · refine .inr ⟨.inr fun w' h => hq ⟨w', ?_⟩,
          .var (hr ▸ .seq (lit_yes _ _) (.seq (.altLeft (.seq (.seq hf .eps) .eps)) (.seqFail (lit_no fun y h => hq ⟨y, h⟩))))⟩
        rw [hw, List.replicate_succ', List.append_assoc] at h
        exact List.append_cancel_left h
    · have back : ∀ r, Ford rs (.seq (.lit [q]) .eps) (List.replicate n p ++ x) r → Ford rs (.var i) (p :: (List.replicate n p ++ x)) r := fun r h =>
        .var (hr ▸ .seq (lit_yes _ _) (.seq (.altRight (.seqFail (.seqFail hf)) .eps) h))
      cases n with
      | zero =>
        by_cases hq : ∃ w', x = q :: w'
        · obtain ⟨w', rfl⟩ := hq
          exact .inl ⟨w', by omega, rfl, back _ (.seq (lit_yes _ _) .eps)⟩
        · exact .inr ⟨.inr fun w' h => hq ⟨w', h⟩, back _ (.seqFail (lit_no fun y h => hq ⟨y, h⟩))⟩
      | succ n =>
        refine .inr ⟨.inr fun w h => ?_, back _ (.seqFail (lit_no fun y h => ?_))⟩
        · refine (hn.resolve_left (by omega)) (q :: w) ?_
          rw [h, List.replicate_succ']; simp
        · rw [List.replicate_succ, List.cons_append] at h
          exact hpq (List.cons.inj h).1

/-- Every text is a run of one letter and something that does not begin with it. -/
theorem run_of (p : Char) : ∀ t : List Char, ∃ n x, t = List.replicate n p ++ x ∧ ∀ y, x ≠ p :: y := by
  intro t
  induction t with
  | nil => exact ⟨0, [], rfl, by simp⟩
  | cons ch t ih =>
    by_cases h : ch = p
    · obtain ⟨n, x, rfl, hx⟩ := ih
      exact ⟨n + 1, x, by rw [h, List.replicate_succ]; rfl, hx⟩
    · exact ⟨0, ch :: t, rfl, fun y e => h (List.cons.inj e).1⟩

theorem star_ford {rs : Nat → Peg} {p : Char} {x : List Char} (hx : ∀ y, x ≠ p :: y) (n : Nat) :
    Ford rs (.star (.seq (.lit [p]) .eps)) (List.replicate n p ++ x) (some x) := by
  induction n with
  | zero => exact .starEnd (.seqFail (lit_no hx))
  | succ n ih => rw [List.replicate_succ, List.cons_append]; exact .starMore (.seq (lit_yes _ _) .eps) ih

theorem run_unique {p : Char} {x y : List Char} (hx : ∀ z, x ≠ p :: z) (hy : ∀ z, y ≠ p :: z) : ∀ {n m : Nat},
    List.replicate n p ++ x = List.replicate m p ++ y → n = m ∧ x = y := by
  intro n
  induction n with
  | zero =>
    intro m h
    cases m with
    | zero => exact ⟨rfl, h⟩
    | succ m => exact absurd h (hx _)
  | succ n ih =>
    intro m h
    cases m with
    | zero => exact absurd h.symm (hy _)
    | succ m =>
      obtain ⟨h1, h2⟩ := ih (List.cons.inj h).2
      exact ⟨by omega, h2⟩

/-- aⁿbⁿcⁿ. -/
def word (n : Nat) : List Char := List.replicate n 'a' ++ (List.replicate n 'b' ++ List.replicate n 'c')

/-- The expression matches the texts aⁿbⁿcⁿ with `n` at least 1, as a whole, and fails on all others. -/
theorem decides (t : List Char) : ((∃ n, t = word (n + 1)) ∧ Ford rules (.var 2) t (some [])) ∨
    ((∀ n, t ≠ word (n + 1)) ∧ Ford rules (.var 2) t none) := by
  obtain ⟨n, x, rfl, hx⟩ := run_of 'a' t
  have form : ∀ m, List.replicate n 'a' ++ x = word (m + 1) → n = m + 1 ∧ x = List.replicate n 'b' ++ List.replicate n 'c' := fun m h => by
    obtain ⟨rfl, h2⟩ := run_unique hx (by simp [List.replicate_succ]) h
    exact ⟨rfl, h2⟩
  have noC : ∀ k z, List.replicate k 'c' ≠ 'b' :: z := fun k z h => by cases k <;> simp [List.replicate_succ] at h
  rcases nest_ford (rs := rules) (i := 0) rfl (p := 'a') (q := 'b') (by decide) hx n with ⟨w, hn, hw, hf⟩ | ⟨h, hf⟩
  · by_cases hb : ∃ z, w = 'b' :: z
    · obtain ⟨z, rfl⟩ := hb
      refine .inr ⟨fun m h => ?_, .var (.seqFail (.notNo (.notYes (.seq hf (.seqFail (.notNo (.seq (lit_yes _ _) .eps)))))))⟩
      obtain ⟨h1, h2⟩ := form m h
      exact noC n z (List.append_cancel_left (h2.symm.trans hw))
    · have hb : ∀ z, w ≠ 'b' :: z := fun z h => hb ⟨z, h⟩
      have go : ∀ {r}, Ford rules (.seq (.var 1) (.seq (.notP .any) .eps)) x r → Ford rules (.var 2) (List.replicate n 'a' ++ x) r := fun h =>
        .var (.seq (.notYes (.notNo (.seq hf (.seq (.notYes (.seqFail (lit_no hb))) .eps)))) (.seq (star_ford hx n) h))
      rcases nest_ford (rs := rules) (i := 1) rfl (p := 'b') (q := 'c') (by decide) hb n with ⟨v, _, hv, hg⟩ | ⟨h, hg⟩
      · rw [← hw] at hg
        cases v with
        | nil =>
          refine .inl ⟨⟨n - 1, ?_⟩, go (.seq hg (.seq (.notYes .chrEnd) .eps))⟩
          rw [List.append_nil] at hv
          rw [show n - 1 + 1 = n by omega, word, hw, hv]
        | cons ch v =>
          refine .inr ⟨fun m h => ?_, go (.seq hg (.seqFail (.notNo (.chr trivial))))⟩
          obtain ⟨h1, h2⟩ := form m h
          have := List.append_cancel_left (h2.symm.trans hw)
          rw [hv] at this
          have := congrArg List.length this
          simp at this
      · rw [← hw] at hg
        refine .inr ⟨fun m h' => ?_, go (.seqFail hg)⟩
        obtain ⟨h1, h2⟩ := form m h'
        have := List.append_cancel_left (h2.symm.trans hw)
        exact (h.resolve_left (by omega)) [] (by rw [← this, List.append_nil])
  · refine .inr ⟨fun m h' => ?_, .var (.seqFail (.notNo (.notYes (.seqFail hf))))⟩
    obtain ⟨h1, h2⟩ := form m h'
    exact (h.resolve_left (by omega)) _ h2

end Abc

/-- A text without U+FFFD is read from its encoding only. -/
theorem reads_text {s : Bytes} {t : List Char} (ht : '�' ∉ t) : Reads s t ↔ s = utf8s t := by
  constructor
  · intro h
    obtain ⟨r, rfl⟩ := lit_prefix (v := []) ht (by simpa using h)
    obtain ⟨v, hv⟩ := reads_total r
    have := reads_unique h (readOff_reads (readOff_utf8s t r) hv)
    have : v = [] := by simpa using this
    subst this
    cases hv
    simp
  · rintro rfl
    have := readOff_reads (readOff_utf8s t []) .nil
    simpa using this

end Takenoco
