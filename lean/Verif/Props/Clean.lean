import Verif.Lemmas.Clean
import Verif.Props.Cover
/-
C95: well-formed UTF-8 in ASTs and at positions.
-/
namespace Takenoco
open Spec

section
variable {env : Env} {g : Gram} {c o : Ctx} {n : Nat}

/-- **C95.** If the source is well-formed from the position on, it is so from the position on at which a match stops: the parsers never
stop inside of a character. The strings of the new ASTs make up exactly what has been consumed, byte for byte. -/
theorem C95_boundaries (henv : ∀ i, Over ExactParser TextTrans (env i)) (hg : Over ExactParser TextTrans g) (hc : c.status = .matched)
    (hs : WellFormed (c.str.drop c.pos)) (h : Outcome.of (run env n g c) = .matched o) :
    o.str = c.str ∧ WellFormed (c.str.drop o.pos) ∧
      ∃ new v, o.stack = c.stack ++ new ∧ TextOf new v ∧ WellFormed v ∧ c.str.drop c.pos = v ++ c.str.drop o.pos ∧ o.pos = c.pos + v.length := by
  have hp := C12_engine_to_spec env (fun i => (henv i).plain) g hg.plain c hc n (fun h0 => by rw [h0] at h; cases h)
  rw [h] at hp
  obtain ⟨h1, new, h2, h3⟩ := (exact_account c.str).grows henv hp hg rfl o rfl
  obtain ⟨t, h4, h5, h6⟩ := h3 hs
  exact ⟨h1, h3.rest hs, new, utf8s t, h2, h4, ⟨t, rfl⟩, h5, h6⟩

/-- **C95.** So a parser that gets to the end of a well-formed text leaves ASTs that spell the text. -/
theorem C95_whole (henv : ∀ i, Over ExactParser TextTrans (env i)) (hg : Over ExactParser TextTrans g) (t : List Char)
    (h : Outcome.of (run env n (.flatGroup [g, .prim endS]) (newStrCtx (utf8s t))) = .matched o) : TextOf o.stack (utf8s t) := by
  have hg' : Over ExactParser TextTrans (.flatGroup [g, .prim endS]) := .flatGroup (by
    simp only [List.mem_cons, List.not_mem_nil, or_false]
    rintro x (rfl | rfl)
    · exact hg
    · exact .prim .end)
  have hs : WellFormed ((newStrCtx (utf8s t)).str.drop (newStrCtx (utf8s t)).pos) := ⟨t, rfl⟩
  obtain ⟨h0, _, new, v, h1, h2, _, h3, _⟩ := C95_boundaries henv hg' rfl hs h
  have hend : o.pos = (utf8s t).length := by
    have hp := C12_engine_to_spec env (fun i => (henv i).plain) _ hg'.plain (newStrCtx (utf8s t)) rfl n (fun h0 => by rw [h0] at h; cases h)
    rw [h] at hp
    exact (ends_at_end hp rfl).trans (congrArg List.length h0)
  have h1 : o.stack = new := h1
  rw [h1]
  have h3 : utf8s t = v ++ (utf8s t).drop o.pos := h3
  rw [hend, List.drop_length, List.append_nil] at h3
  rw [h3]; exact h2

/-- **C95.** Whatever the bytes of the source are, the strings in the ASTs of a match are well-formed. -/
theorem C95_clean (henv : ∀ i, Over CleanParser CleanTrans (env i)) (hg : Over CleanParser CleanTrans g) (hc : c.status = .matched)
    (h : Outcome.of (run env n g c) = .matched o) : ∃ new, o.stack = c.stack ++ new ∧ ∀ a ∈ new, Clean a.val := by
  have hp := C12_engine_to_spec env (fun i => (henv i).plain) g hg.plain c hc n (fun h0 => by rw [h0] at h; cases h)
  rw [h] at hp
  exact ((clean_account c.str).grows henv hp hg rfl o rfl).2

end

/-- Folding of the Kelvin sign (U+212A) and k only. -/
private def kelvin (lo hi : Nat) : Bool := lo == 0x6b && hi == 0x212a

/-- **C95**, why `SeqI` must not be given U+FFFD: `SeqI("k�")` takes the four bytes of a Kelvin sign and of the first half of é from a
well-formed source, stops inside of the é, and pushes an ill-formed string. -/
theorem C95_seqI : ∃ o a, Outcome.of (seqIS kelvin (utf8s ['k', '�']) (newStrCtx (utf8s ['K', 'é']))) = .matched o ∧ o.pos = 4 ∧
    o.stack = [a] ∧ a.val = .str [0xe2, 0x84, 0xaa, 0xc3] ∧ ¬ WellFormed [0xe2, 0x84, 0xaa, 0xc3] ∧
    ¬ WellFormed ((utf8s ['K', 'é']).drop 4) := by
  obtain ⟨o, h, ho⟩ := CoverExample.matched_of (r := Outcome.of (seqIS kelvin (utf8s ['k', '�']) (newStrCtx (utf8s ['K', 'é']))))
    (fun o => (o.stack, o.pos)) (x := ([⟨0, ":string:SeqI", .string, .str [0xe2, 0x84, 0xaa, 0xc3], 0, 0⟩], 4)) (by
      rw [show utf8s ['k', '�'] = [0x6b, 0xef, 0xbf, 0xbd] by decide, show utf8s ['K', 'é'] = [0xe2, 0x84, 0xaa, 0xc3, 0xa9] by decide]
      cbv)
  have h1 := congrArg Prod.fst ho
  have h2 : o.pos = 4 := congrArg Prod.snd ho
  refine ⟨o, _, h, h2, h1, rfl, ?_, ?_⟩
  · rintro ⟨t, ht⟩
    have := wf_tail (v := utf8 'K') (w := [0xc3]) (wf_char _) (by rw [show utf8 'K' = [0xe2, 0x84, 0xaa] by decide]; exact ⟨t, ht⟩)
    exact absurd this not_wf_c3
  · rw [show (utf8s ['K', 'é']).drop 4 = [0xa9] by decide]
    exact not_wf_a9

/-- Anything in parentheses or a word, on a text with wide characters. -/
example : ∃ o v, Outcome.of (run (fun _ => .first [.group [.prim (seqS (b! "(")), .indirect 0, .prim (seqS (b! ")"))], .trans (Gram.plus [.prim (charClassN [b! "(", b! ")"])]) [.fn concat]])
      40 (.indirect 0) (newStrCtx (utf8s ['(', 'é', 'x', ')', ')']))) = .matched o ∧ o.pos = 5 ∧ TextOf o.stack v ∧ utf8s ['(', 'é', 'x', ')', ')'] = v ++ (utf8s ['(', 'é', 'x', ')', ')']).drop 5 := by
  obtain ⟨o, h, ho⟩ := CoverExample.matched_of (r := Outcome.of (run (fun _ => .first [.group [.prim (seqS (b! "(")), .indirect 0, .prim (seqS (b! ")"))], .trans (Gram.plus [.prim (charClassN [b! "(", b! ")"])]) [.fn concat]])
      40 (.indirect 0) (newStrCtx (utf8s ['(', 'é', 'x', ')', ')'])))) Ctx.pos (x := 5) (by
      rw [show utf8s ['(', 'é', 'x', ')', ')'] = [0x28, 0xc3, 0xa9, 0x78, 0x29, 0x29] by decide]
      cbv)
  obtain ⟨_, _, new, v, h1, h2, _, h3, _⟩ := C95_boundaries (env := fun _ => _) (fun _ => .first (by
      simp only [List.mem_cons, List.not_mem_nil, or_false]
      rintro g (rfl | rfl)
      · refine .group (by
          simp only [List.mem_cons, List.not_mem_nil, or_false]
          rintro g (rfl | rfl | rfl)
          · exact .prim (.token (.seq ⟨['('], by decide⟩))
          · exact .indirect
          · exact .prim (.token (.seq ⟨[')'], by decide⟩)))
      · exact .trans (fs := [concat]) (.repeat (by simp; exact .prim (.token (.charClassN _)))) (by simp; exact .concat)))
    (.indirect (i := 0)) rfl ⟨['(', 'é', 'x', ')', ')'], rfl⟩ h
  have h1 : o.stack = new := h1
  subst h1
  exact ⟨o, v, h, ho, h2, ho ▸ h3⟩

/-- An ill-formed source: the strings are well-formed all the same. -/
example : ∃ o, Outcome.of (run (fun _ => .prim unmatchedP) 9 (.trans (Gram.plus [.prim anyS]) [.fn trim]) (newStrCtx [0xff, 0x41, 0x20])) = .matched o ∧
    o.pos = 3 ∧ ∀ a ∈ o.stack, Clean a.val := by
  obtain ⟨o, h, ho⟩ := CoverExample.matched_of (r := Outcome.of (run (fun _ => .prim unmatchedP) 9 (.trans (Gram.plus [.prim anyS]) [.fn trim]) (newStrCtx [0xff, 0x41, 0x20])))
    Ctx.pos (x := 3) (by cbv)
  obtain ⟨new, h1, h2⟩ := C95_clean (env := fun _ => .prim unmatchedP) (fun _ => .prim .unmatched)
    (.trans (fs := [trim]) (.repeat (by simp; exact .prim (.token .any))) (by simp; exact .trim)) rfl h
  have h1 : o.stack = new := h1
  subst h1
  exact ⟨o, h, ho, h2⟩

/-- The hypotheses of `C95_whole`. -/
example : ∃ o, Outcome.of (run (fun _ => .prim unmatchedP) 9 (.flatGroup [Gram.star [.prim anyS], .prim endS]) (newStrCtx (utf8s ['é', 'x']))) = .matched o ∧
    TextOf o.stack (utf8s ['é', 'x']) := by
  obtain ⟨o, h, ho⟩ := CoverExample.matched_of (r := Outcome.of (run (fun _ => .prim unmatchedP) 9 (.flatGroup [Gram.star [.prim anyS], .prim endS]) (newStrCtx (utf8s ['é', 'x']))))
    Ctx.pos (x := 3) (by
      rw [show utf8s ['é', 'x'] = [0xc3, 0xa9, 0x78] by decide]
      cbv)
  exact ⟨o, h, C95_whole (fun _ => .prim .unmatched) (.repeat (by simp; exact .prim (.token .any))) _ h⟩

#print axioms C95_boundaries
#print axioms C95_whole
#print axioms C95_clean
#print axioms C95_seqI

end Takenoco
