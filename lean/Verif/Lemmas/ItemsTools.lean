import Verif.Lemmas.Items
import Verif.Lemmas.FordTools
/-
How takenoco grammars spell the usual parsing expressions over values, and the parsing expression for Polish notation.
-/
namespace Takenoco.Items
open Spec hiding Agrees Peg Ford Means Went
open Spec.Items

/-- Grammars that spell parsing expressions are plain. -/
theorem means_plain {src : SliceSrc} {A : Ast → Prop} {j : Judg} {e : Peg} (h : Means src A j e) : match j with
    | .gram g => Plain g
    | .seq gs => ∀ g ∈ gs, Plain g
    | .choice gs => ∀ g ∈ gs, Plain g
    | .reps _ gs _ => ∀ g ∈ gs, Plain g := by
  induction h with
  | any | objClass | objClassN | objClassFn | objSeq | zero | unmatched | «end» => exact .prim
  | seqNil => simp
  | seqCons _ _ ih1 ih2 => simp only [List.mem_cons, forall_eq_or_imp]; exact ⟨ih1, ih2⟩
  | choiceOne _ ih => simp only [List.mem_singleton, forall_eq]; exact ih
  | choiceCons _ _ _ ih1 ih2 => simp only [List.mem_cons, forall_eq_or_imp]; exact ⟨ih1, ih2⟩
  | repsMore _ _ _ _ ih _ => exact ih
  | repsMaybe _ _ _ _ ih _ => exact ih
  | repsDone _ _ _ ih => exact ih
  | repsStar _ _ _ ih => exact ih
  | flatGroup _ ih => exact .flatGroup ih
  | group _ _ ih => exact .group ih
  | first _ _ ih => exact .first ih
  | lookAhead _ ih => exact .lookAhead ih
  | lookAheadN _ ih => exact .lookAheadN ih
  | «repeat» h ih => exact .repeat ih
  | trans _ _ ih => exact .trans ih
  | indirect => exact .indirect

section
variable {src : SliceSrc} {A : Ast → Prop} {gs : List Gram} {a : Peg}

/-- `ZeroOrMoreTimes` is `a*`. -/
theorem means_star (h : Means src A (.seq gs) a) : Means src A (.gram (Gram.star gs)) (.star a) :=
  .repeat (.repsStar (by decide) (by decide) h)

/-- `OneOrMoreTimes` is `a a*`. -/
theorem means_plus (h : Means src A (.seq gs) a) : Means src A (.gram (Gram.plus gs)) (.seq a (.star a)) :=
  .repeat (.repsMore (by decide) (by decide) h (.repsStar (by decide) (by decide) h))

/-- One parser alone. -/
theorem means_seq {g : Gram} (h : Means src A (.gram g) a) : Means src A (.seq [g]) (.seq a .eps) := .seqCons h .seqNil

end

/-! ### Polish notation -/

namespace PolishGrammar

/-- `E := First(FlatGroup(ObjClass(op), Indirect(E), Indirect(E)), ObjClassN(op))`. -/
def env (op : Value) : Env := fun _ =>
  .first [.flatGroup [.prim (objClass [op]), .indirect 0, .indirect 0], .prim (objClassN [op])]

def rules (src : SliceSrc) (op : Value) : Nat → Peg := fun _ =>
  .alt (.seq (.item (OneOf src [op])) (.seq (.var 0) (.seq (.var 0) .eps))) (.item fun w => ¬ OneOf src [op] w)

variable {src : SliceSrc} {op : Value}

theorem means (h : Compares src op) (i : Nat) : Means src (fun _ => True) (.gram (env op i)) (rules src op i) :=
  .first (by simp) (.choiceCons (by simp) (.flatGroup (.seqCons (.objClass (by simpa using h)) (.seqCons .indirect (.seqCons .indirect .seqNil))))
    (.choiceOne (.objClassN (by simpa using h))))

/-- No expression is the beginning of another one. -/
theorem polish_unique {P : Value → Prop} {u : List Value} (h : Polish P u) : ∀ {u' v v' : List Value}, Polish P u' → u ++ v = u' ++ v' → u = u' ∧ v = v' := by
  induction h with
  | operand hn =>
    intro u' v v' h' he
    cases h' with
    | operand => simp at he; simp [he]
    | operator hp => simp at he; exact absurd (he.1 ▸ hp) hn
  | operator hp _ _ ih1 ih2 =>
    intro u' v v' h' he
    cases h' with
    | operand hn => simp at he; exact absurd (he.1 ▸ hp) hn
    | operator _ h1 h2 =>
      simp only [List.cons_append, List.append_assoc, List.cons.injEq] at he
      obtain ⟨rfl, e2⟩ := ih1 h1 he.2
      obtain ⟨rfl, rfl⟩ := ih2 h2 e2
      exact ⟨by rw [he.1], rfl⟩

theorem decides (t : List Value) : (∃ u v, t = u ++ v ∧ Polish (OneOf src [op]) u ∧ Ford (rules src op) (.var 0) t (some v)) ∨
    ((∀ u v, t = u ++ v → ¬ Polish (OneOf src [op]) u) ∧ Ford (rules src op) (.var 0) t none) := by
  generalize hn : t.length = n
  induction n using Nat.strongRecOn generalizing t with
  | ind n ih =>
  cases t with
  | nil =>
    refine .inr ⟨fun u v h hp => ?_, .var (.altRight (.seqFail .itemEnd) .itemEnd)⟩
    have : u = [] := (List.append_eq_nil_iff.1 h.symm).1
    subst this; cases hp
  | cons w t =>
    simp only [List.length_cons] at hn
    by_cases hw : OneOf src [op] w
    · rcases ih t.length (by omega) t rfl with ⟨l, t1, rfl, hl, f1⟩ | ⟨h1, f1⟩
      · rcases ih t1.length (by simp at hn; omega) t1 rfl with ⟨r, v, rfl, hr, f2⟩ | ⟨h2, f2⟩
        · exact .inl ⟨w :: (l ++ r), v, by simp, .operator hw hl hr, .var (.altLeft (.seq (.item hw) (.seq f1 (.seq f2 .eps))))⟩
        · refine .inr ⟨fun u v he hp => ?_, .var (.altRight (.seq (.item hw) (.seq f1 (.seqFail f2))) (.itemNot fun h => h hw))⟩
          cases hp with
          | operand h => simp at he; exact h (he.1 ▸ hw)
          | operator _ hl' hr' =>
            simp only [List.cons_append, List.append_assoc, List.cons.injEq] at he
            obtain ⟨rfl, e2⟩ := polish_unique hl hl' he.2
            exact h2 _ _ e2 hr'
      · refine .inr ⟨fun u v he hp => ?_, .var (.altRight (.seq (.item hw) (.seqFail f1)) (.itemNot fun h => h hw))⟩
        cases hp with
        | operand h => simp at he; exact h (he.1 ▸ hw)
        | operator _ hl' hr' =>
          simp only [List.cons_append, List.append_assoc, List.cons.injEq] at he
          exact h1 _ _ he.2 hl'
    · exact .inl ⟨[w], t, rfl, .operand hw, .var (.altRight (.seqFail (.itemNot hw)) (.item hw))⟩

end PolishGrammar

end Takenoco.Items
