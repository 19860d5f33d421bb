import Verif.Lemmas.LinearRun
import Verif.Lemmas.CostLower
/-
Two grammars: one with a linear number of calls, and one with a useless part.
-/
namespace Takenoco
open Spec Trace

namespace Brackets
/-- `S = First(FlatGroup("(", S, ")", S), Zero())`, every parser traced by `i`. -/
def counted (i : Info) : TGram :=
  .first (some i) [.flatGroup (some i) [.prim (some i) none (seqS (utf8s ['('])), .indirect (some i) 0, .prim (some i) none (seqS (utf8s [')'])),
    .indirect (some i) 0], .prim (some i) none (zeroP [])]

theorem counted_plain (i : Info) (j : Nat) : (counted i).plain = env j := rfl

theorem useful (j : Nat) : (rules j).Useful := ⟨⟨⟨⟨_, rfl⟩, trivial⟩, trivial, ⟨⟨_, rfl⟩, trivial⟩, trivial, trivial⟩, trivial⟩

theorem reduced : Reduced env rules :=
  ⟨⟨[(env 0, rules 0)], fun _ => List.mem_singleton.2 rfl⟩, useful, fun _ => ⟨[], .right .eps⟩, wf⟩
end Brackets

namespace Useless
/-- `X = "a" X fail | "a" X "c" | "d"`: the first alternative generates nothing. -/
def rules : Nat → Peg := fun _ => .alt (.seq (.lit ['a']) (.seq (.var 0) (.seq .fail .eps))) (.alt (.seq (.lit ['a']) (.seq (.var 0) (.seq (.lit ['c']) .eps))) (.lit ['d']))

/-- The grammar: `slow`, where `Unmatched()` stands in place of `"b"`. -/
def env : Env := fun _ => (slowBy ⟨0, "", 0, ""⟩ unmatchedP).plain

theorem plain (i : Info) (j : Nat) : (slowBy i unmatchedP).plain = env j := rfl

theorem means (i : Nat) : Means (fun _ => True) (.gram (env i)) (rules i) := by
  have lit : ∀ ch : Char, '�' ∉ [ch] → Means (fun _ => True) (.gram (.prim (seqS (utf8s [ch])))) (.lit [ch]) := fun ch h => .lit h
  exact .first (by simp [plainList]) (.choiceCons (by simp [plainList])
    (.flatGroup (.seqCons (lit 'a' (by decide)) (.seqCons .indirect (.seqCons .unmatched .seqNil))))
    (.choiceCons (by simp [plainList]) (.flatGroup (.seqCons (lit 'a' (by decide)) (.seqCons .indirect (.seqCons (lit 'c' (by decide)) .seqNil))))
      (.choiceOne (lit 'd' (by decide)))))

theorem no_word {w : List Char} (h : Lang rules (.seq (.lit ['a']) (.seq (.var 0) (.seq .fail .eps))) w) : False := by
  obtain ⟨v, _, hv⟩ := lang_litSeq.1 h
  obtain ⟨_, x, _, _, hx⟩ := lang_seq.1 hv
  obtain ⟨_, _, _, hy, _⟩ := lang_seq.1 hx
  cases hy with
  | chr h => exact h

theorem ll1 (i : Nat) : LL1 rules (fun _ ch => ch = 'c') (rules i) (fun ch => ch = 'c') := by
  refine .alt not_nullable_litSeq (fun ch ⟨w, h⟩ => (no_word h).elim) (.seq ll1_lit (.seq (.var ?_) (.seq .chr .eps)))
    (.alt not_nullable_litSeq ?_ (.seq ll1_lit (.seq (.var ?_) (.seq ll1_lit .eps))) ll1_lit)
  · have no : ∀ {w}, Lang rules (.seq .fail .eps) w → False := fun h => by
      obtain ⟨_, _, _, hy, _⟩ := lang_seq.1 h
      cases hy with
      | chr h => exact h
    rintro ch (⟨w, h⟩ | ⟨h, _⟩)
    · exact (no h).elim
    · exact (no h).elim
  · intro ch h1 h2
    rw [firstOf_litSeq h1] at h2
    rcases h2 with ⟨w, h⟩ | ⟨h, _⟩
    · have := lang_lit.1 h; simp at this
    · have := lang_lit.1 h; simp at this
  · rintro ch (h | ⟨h, _⟩)
    · exact firstOf_litSeq h
    · exact absurd h not_nullable_litSeq

theorem wf : NoLeftRecursion rules := ⟨fun i => ⟨_, fun j hj => by
  exfalso
  cases hj with
  | altLeft h => exact not_leftmost_litSeq h
  | altRight h =>
    cases h with
    | altLeft h => exact not_leftmost_litSeq h
    | altRight h => exact not_leftmost_lit h⟩⟩
end Useless

end Takenoco
