import Verif.Lemmas.Cover
import Verif.Props.Denotation
/-
C94: the tokens spell what has been consumed, and lie where they say.
-/
namespace Takenoco
open Spec

section
variable {env : Env} {g : Gram} {c o : Ctx} {n : Nat}

/-- **C94.** The strings that a match appends to the AST stack, in order and also those inside of groups, make up the text of what it
has consumed: nothing is lost, doubled, reordered or made up. Bytes that start no well-formed character appear as U+FFFD if they were
taken one by one. What goes on inside look-arounds does not show. -/
theorem C94_text (henv : ∀ i, Over TextParser TextTrans (env i)) (hg : Over TextParser TextTrans g) (hc : c.status = .matched)
    (h : Outcome.of (run env n g c) = .matched o) :
    o.str = c.str ∧ ∃ new v, o.stack = c.stack ++ new ∧ TextOf new v ∧ Written c.str c.pos v o.pos := by
  have hp := C12_engine_to_spec env (fun i => (henv i).plain) g hg.plain c hc n (fun h0 => by rw [h0] at h; cases h)
  rw [h] at hp
  obtain ⟨h1, new, h2, v, h3, h4⟩ := (text_account c.str).grows henv hp hg rfl o rfl
  exact ⟨h1, new, v, h2, h3, h4⟩

/-- **C94.** Hence the text is byte for byte the piece of the source between the positions, unless U+FFFD occurs in it. -/
theorem C94_exact (henv : ∀ i, Over TextParser TextTrans (env i)) (hg : Over TextParser TextTrans g) (hc : c.status = .matched)
    (h : Outcome.of (run env n g c) = .matched o) :
    c.pos ≤ o.pos ∧ ∃ new v, o.stack = c.stack ++ new ∧ TextOf new v ∧
      (v = (c.str.drop c.pos).take (o.pos - c.pos) ∨ ∃ x y, v = x ++ utf8 '�' ++ y) := by
  obtain ⟨_, new, v, h2, h3, h4⟩ := C94_text henv hg hc h
  have := written_exact h4
  exact ⟨this.1, new, v, h2, h3, this.2.2⟩

/-- **C94.** What two grammars consume of two sources is the same if the ASTs are. -/
theorem C94_same (henv : ∀ i, Over TextParser TextTrans (env i)) (hg : Over TextParser TextTrans g) (hc : c.status = .matched)
    (h : Outcome.of (run env n g c) = .matched o) {env' : Env} {g' : Gram} {c' o' : Ctx} {n' : Nat}
    (henv' : ∀ i, Over TextParser TextTrans (env' i)) (hg' : Over TextParser TextTrans g') (hc' : c'.status = .matched)
    (h' : Outcome.of (run env' n' g' c') = .matched o') (new : List Ast) (hs : o.stack = c.stack ++ new) (hs' : o'.stack = c'.stack ++ new)
    (hbad : ∀ x y, ¬ TextOf new (x ++ utf8 '�' ++ y)) :
    (c.str.drop c.pos).take (o.pos - c.pos) = (c'.str.drop c'.pos).take (o'.pos - c'.pos) := by
  obtain ⟨_, l, v, h1, h2, h3⟩ := C94_exact henv hg hc h
  obtain ⟨_, l', v', h1', h2', h3'⟩ := C94_exact henv' hg' hc' h'
  have e := List.append_cancel_left (h1.symm.trans hs)
  have e' := List.append_cancel_left (h1'.symm.trans hs')
  subst e; subst e'
  have := textOf_unique h2 h2'
  subst this
  rcases h3 with h3 | ⟨x, y, rfl⟩
  · rcases h3' with h3' | ⟨x, y, rfl⟩
    · rw [← h3, ← h3']
    · exact absurd h2' (hbad x y)
  · exact absurd h2 (hbad x y)

/-- **C94.** Without `Zero` and `Concat`, the tokens lie one after the other in the source, without gaps, each at the place it carries. -/
theorem C94_places (henv : ∀ i, Over PlaceParser PlaceTrans (env i)) (hg : Over PlaceParser PlaceTrans g) (hc : c.status = .matched)
    (h : Outcome.of (run env n g c) = .matched o) :
    o.str = c.str ∧ ∃ new, o.stack = c.stack ++ new ∧ Laid c.str c.pos new o.pos := by
  have hp := C12_engine_to_spec env (fun i => (henv i).plain) g hg.plain c hc n (fun h0 => by rw [h0] at h; cases h)
  rw [h] at hp
  exact (place_account c.str).grows henv hp hg rfl o rfl

end

namespace CoverExample

/-- `FlatGroup(Seq("x"), Trans(FlatGroup(Trans(ZeroOrMoreTimes(Seq("a")), Concat), Seq("b")), Concat))` -/
def bad : Gram := .flatGroup [.prim (seqS (b! "x")), .trans (.flatGroup [.trans (Gram.star [.prim (seqS (b! "a"))]) [.fn concat], .prim (seqS (b! "b"))]) [.fn concat]]

theorem bad_over : Over TextParser TextTrans bad := by
  refine .flatGroup fun g hg => ?_
  simp only [List.mem_cons, List.not_mem_nil, or_false] at hg
  rcases hg with rfl | rfl
  · exact .prim (.token (.seq _))
  · refine .trans (fs := [concat]) (.flatGroup fun g hg => ?_) (by simp; exact .concat)
    simp only [List.mem_cons, List.not_mem_nil, or_false] at hg
    rcases hg with rfl | rfl
    · refine .trans (fs := [concat]) (.repeat fun g hg => ?_) (by simp; exact .concat)
      simp only [List.mem_cons, List.not_mem_nil, or_false] at hg
      subst hg
      exact .prim (.token (.seq _))
    · exact .prim (.token (.seq _))

end CoverExample

theorem CoverExample.matched_of {α : Type} {r : Outcome} (f : Ctx → α) {x : α} (h : (match r with | .matched o => some (f o) | _ => none) = some x) :
    ∃ o, r = .matched o ∧ f o = x := by
  cases r <;> simp_all

/-- **C94**, why `Concat` is left out there: `Concat` of nothing makes a token at place 0, and an outer `Concat` takes over the place of its
first AST. So the token `b`, which lies at 1, says that it lies at 0. -/
theorem C94_concat_place : ∃ o a b, Outcome.of (run (fun _ => .prim unmatchedP) 20 CoverExample.bad (newStrCtx (b! "xb"))) = .matched o ∧ o.stack = [a, b] ∧
    b.val = .str (b! "b") ∧ b.pos = 0 ∧ o.pos = 2 ∧ ¬ Laid (b! "xb") 0 [a, b] 2 := by
  obtain ⟨o, h, ho⟩ := CoverExample.matched_of (r := Outcome.of (run (fun _ => .prim unmatchedP) 20 CoverExample.bad (newStrCtx (b! "xb"))))
    (fun o => (o.stack, o.pos)) (x := ([⟨0, ":string:Seq", .string, .str (b! "x"), 0, 0⟩, ⟨0, "", .string, .str (b! "b"), 0, 0⟩], 2)) (by cbv)
  injection ho with h1 h2
  refine ⟨o, _, _, h, h1, rfl, rfl, h2, fun h => ?_⟩
  cases h with
  | token h1 _ h3 h4 =>
    cases h1
    have hj := piece_seq (by decide) h3
    subst hj
    cases h4 with
    | token _ h2 => cases h2
    | group h1 => cases h1
  | group h1 => cases h1

/-- An example with recursion, groups and `Concat`: `E := First(Group(Seq("("), E, Seq(")")), Trans(OneOrMoreTimes(Seq("a")), Concat))`. -/
def CoverExample.nest : Env := fun _ =>
  .first [.group [.prim (seqS (b! "(")), .indirect 0, .prim (seqS (b! ")"))], .trans (Gram.plus [.prim (seqS (b! "a"))]) [.fn concat]]

theorem CoverExample.nest_over (i : Nat) : Over TextParser TextTrans (CoverExample.nest i) := by
  refine .first fun g hg => ?_
  simp only [List.mem_cons, List.not_mem_nil, or_false] at hg
  rcases hg with rfl | rfl
  · refine .group fun g hg => ?_
    simp only [List.mem_cons, List.not_mem_nil, or_false] at hg
    rcases hg with rfl | rfl | rfl
    · exact .prim (.token (.seq _))
    · exact .indirect
    · exact .prim (.token (.seq _))
  · refine .trans (fs := [concat]) (.repeat fun g hg => ?_) (by simp; exact .concat)
    simp only [List.mem_cons, List.not_mem_nil, or_false] at hg
    subst hg
    exact .prim (.token (.seq _))

/-- It matches `((aa))b` up to the `b`. -/
example : ∃ o new v, Outcome.of (run CoverExample.nest 40 (.indirect 0) (newStrCtx (b! "((aa))b"))) = .matched o ∧ o.stack = new ∧ TextOf new v ∧
    Written (b! "((aa))b") 0 v 6 := by
  obtain ⟨o, h, ho⟩ := CoverExample.matched_of (r := Outcome.of (run CoverExample.nest 40 (.indirect 0) (newStrCtx (b! "((aa))b")))) Ctx.pos (x := 6) (by cbv)
  obtain ⟨_, new, v, h1, h2, h3⟩ := C94_text CoverExample.nest_over (.indirect (i := 0)) rfl h
  exact ⟨o, new, v, h, h1, h2, ho ▸ h3⟩

/-- A character read from an ill-formed source: `Any` on FF 41. -/
example : ∃ o v, Outcome.of (run (fun _ => .prim unmatchedP) 9 (.flatGroup [.prim anyS, .prim anyS]) (newStrCtx [0xff, 0x41])) = .matched o ∧
    TextOf o.stack v ∧ v = utf8 '�' ++ [0x41] ∧ Written [0xff, 0x41] 0 v 2 := by
  obtain ⟨o, h, ho⟩ := CoverExample.matched_of (r := Outcome.of (run (fun _ => .prim unmatchedP) 9 (.flatGroup [.prim anyS, .prim anyS]) (newStrCtx [0xff, 0x41])))
    (fun o => (o.pos, o.stack.map Ast.val)) (x := (2, [.str [0xef, 0xbf, 0xbd], .str [0x41]])) (by cbv)
  injection ho with ho1 ho2
  obtain ⟨_, new, v, h1, h2, h3⟩ := C94_text (env := fun _ => .prim unmatchedP) (fun _ => .prim .unmatched)
    (g := .flatGroup [.prim anyS, .prim anyS]) (.flatGroup (by simp; exact .prim (.token .any))) rfl h
  have h1 : o.stack = new := h1
  subst h1
  refine ⟨o, v, h, h2, textOf_unique h2 ?_, ho1 ▸ h3⟩
  rcases hs : o.stack with _ | ⟨a, _ | ⟨b, _ | _⟩⟩ <;> rw [hs] at ho2 <;> simp at ho2
  have := TextOf.token ho2.1 (.token ho2.2 .nil)
  rw [show utf8 '�' = [0xef, 0xbf, 0xbd] by decide]
  simpa using this

/-- Places: three tokens, one of them in a group. -/
example : ∃ o, Outcome.of (run (fun _ => .prim unmatchedP) 9 (.flatGroup [.prim (seqS (b! "ab")), .group [.prim (seqS (b! "c"))], .lookAheadN [.prim (seqS (b! "c"))], .prim anyS])
    (newStrCtx (b! "abcd"))) = .matched o ∧ Laid (b! "abcd") 0 o.stack 4 := by
  obtain ⟨o, h, ho⟩ := CoverExample.matched_of (r := Outcome.of (run (fun _ => .prim unmatchedP) 9
      (.flatGroup [.prim (seqS (b! "ab")), .group [.prim (seqS (b! "c"))], .lookAheadN [.prim (seqS (b! "c"))], .prim anyS]) (newStrCtx (b! "abcd"))))
    Ctx.pos (x := 4) (by cbv)
  obtain ⟨_, new, h1, h2⟩ := C94_places (env := fun _ => .prim unmatchedP) (fun _ => .prim .unmatched)
    (g := .flatGroup [.prim (seqS (b! "ab")), .group [.prim (seqS (b! "c"))], .lookAheadN [.prim (seqS (b! "c"))], .prim anyS])
    (.flatGroup (by
      simp only [List.mem_cons, List.not_mem_nil, or_false]
      rintro g (rfl | rfl | rfl | rfl)
      · exact .prim (.token (.seq _))
      · exact .group (by simp; exact .prim (.token (.seq _)))
      · exact .lookAheadN (by simp; exact .prim)
      · exact .prim (.token .any))) rfl h
  have h1 : o.stack = new := h1
  subst h1
  exact ⟨o, h, ho ▸ h2⟩

/-- The hypotheses of `C94_same`: `ab` as two tokens that are joined or as one, of `abc` and `ab`. -/
example : ((b! "abc").drop 0).take 2 = ((b! "ab").drop 0).take 2 := by
  have o1 : Over TextParser TextTrans (.trans (.flatGroup [.prim (seqS (b! "a")), .prim (seqS (b! "b"))]) [.fn concat, .fn (changeClassName "t")]) :=
    .trans (fs := [concat, changeClassName "t"]) (.flatGroup (by
      simp only [List.mem_cons, List.not_mem_nil, or_false]
      rintro g (rfl | rfl) <;> exact .prim (.token (.seq _)))) (by
      simp only [List.mem_cons, List.not_mem_nil, or_false]
      rintro g (rfl | rfl)
      · exact .concat
      · exact .changeClassName _)
  have o2 : Over TextParser TextTrans (.trans (.prim (seqS (b! "ab"))) [.fn concat, .fn (changeClassName "t")]) :=
    .trans (fs := [concat, changeClassName "t"]) (.prim (.token (.seq _))) (by
      simp only [List.mem_cons, List.not_mem_nil, or_false]
      rintro g (rfl | rfl)
      · exact .concat
      · exact .changeClassName _)
  obtain ⟨o, h, ho⟩ := CoverExample.matched_of (r := Outcome.of (run (fun _ => .prim unmatchedP) 9
      (.trans (.flatGroup [.prim (seqS (b! "a")), .prim (seqS (b! "b"))]) [.fn concat, .fn (changeClassName "t")]) (newStrCtx (b! "abc"))))
    (fun o => (o.pos, o.stack)) (x := (2, [⟨0, "t", .string, .str (b! "ab"), 0, 0⟩])) (by cbv)
  obtain ⟨o', h', ho'⟩ := CoverExample.matched_of (r := Outcome.of (run (fun _ => .prim unmatchedP) 9
      (.trans (.prim (seqS (b! "ab"))) [.fn concat, .fn (changeClassName "t")]) (newStrCtx (b! "ab"))))
    (fun o => (o.pos, o.stack)) (x := (2, [⟨0, "t", .string, .str (b! "ab"), 0, 0⟩])) (by cbv)
  have ho1 : o.pos = 2 := congrArg Prod.fst ho
  have ho2 := congrArg Prod.snd ho
  have ho1' : o'.pos = 2 := congrArg Prod.fst ho'
  have ho2' := congrArg Prod.snd ho'
  have := C94_same (env := fun _ => .prim unmatchedP) (fun _ => .prim .unmatched) o1 rfl h
    (env' := fun _ => .prim unmatchedP) (fun _ => .prim .unmatched) o2 rfl h' [⟨0, "t", .string, .str (b! "ab"), 0, 0⟩] ho2 ho2' (by
      intro x y h
      have := textOf_unique h (textOf_one rfl)
      have hm : (0xef : UInt8) ∈ x ++ utf8 '�' ++ y := by simp [show utf8 '�' = [0xef, 0xbf, 0xbd] by decide]
      rw [this] at hm
      revert hm; decide)
  rw [ho1, ho1'] at this
  exact this

#print axioms C94_text
#print axioms C94_exact
#print axioms C94_same
#print axioms C94_places
#print axioms C94_concat_place

end Takenoco
