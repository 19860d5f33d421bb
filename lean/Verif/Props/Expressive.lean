import Verif.Lemmas.Expressive
import Verif.Props.Peg
import Verif.Props.LL1
import Verif.Props.Linear
/-
C102: every parsing expression grammar can be written with the combinators, and every LL(1) grammar gives a parser that needs linear time.
-/
namespace Takenoco
open Spec Trace

section
variable {rules : Nat → Pex} {p : Pex} {c : Ctx} {t : List Char} {follow : Nat → Char → Prop} {F : Char → Prop}

theorem pex_env (i : Nat) : Means (fun _ => True) (.gram (rules i).gram) (rules i).peg.pad := pex_means _

/-- **C102.** For every parsing expression grammar, what is written for an expression `p` matches the text `u` at the front exactly if the parsing
expression does, with the same rest. -/
theorem C102_matches (hc : Startable c) (ht : Reads (ahead c) t) (u v : List Char) (hv : t = u ++ v) :
    Ford (fun i => (rules i).peg) p.peg t (some v) ↔
    ∃ n c', Outcome.of (run (fun i => (rules i).gram) n p.gram c) = .matched c' ∧ ReadOff (ahead c) u (ahead c') :=
  ford_unpad.symm.trans (C74_matches (fun _ _ _ _ => trivial) pex_env (pex_means p) hc ht u v hv)

/-- **C102.** It is unmatched exactly if the parsing expression fails. -/
theorem C102_unmatched (hc : Startable c) (ht : Reads (ahead c) t) :
    Ford (fun i => (rules i).peg) p.peg t none ↔ ∃ n, Outcome.of (run (fun i => (rules i).gram) n p.gram c) = .unmatched :=
  ford_unpad.symm.trans (C74_unmatched (fun _ _ _ _ => trivial) pex_env (pex_means p) hc ht)

/-- **C102.** And it runs forever exactly if the parsing expression has no result. -/
theorem C102_diverges (hc : Startable c) (ht : Reads (ahead c) t) :
    (¬ ∃ o, Ford (fun i => (rules i).peg) p.peg t o) ↔ ∀ n, run (fun i => (rules i).gram) n p.gram c = .timeout := by
  rw [← C74_diverges (A := fun _ => True) (fun _ _ _ _ => trivial) pex_env (pex_means p) hc ht]
  exact not_congr (exists_congr fun _ => ford_unpad.symm)

/-- **C102.** There is nothing else: with any fuel it is out of fuel, matched or unmatched; it never panics, aborts or returns an error. -/
theorem C102_outcomes (hc : Startable c) (n : Nat) :
    run (fun i => (rules i).gram) n p.gram c = .timeout ∨ (∃ c', Outcome.of (run (fun i => (rules i).gram) n p.gram c) = .matched c') ∨
    Outcome.of (run (fun i => (rules i).gram) n p.gram c) = .unmatched := by
  by_cases h0 : run (fun i => (rules i).gram) n p.gram c = .timeout
  · exact .inl h0
  · obtain ⟨t, ht⟩ := reads_total (ahead c)
    obtain ⟨o, -, h⟩ := C74_engine_to_peg (A := fun _ => True) (fun _ _ _ _ => trivial) pex_env (pex_means p) hc ht n h0
    cases o with
    | none => exact .inr (.inr h.none)
    | some v => obtain ⟨c', h1, -⟩ := h.some; exact .inr (.inl ⟨c', h1⟩)

/-- **C102.** For every LL(1) grammar without left recursion, what is written for it between `Start` and `End` accepts exactly the words of its
language, and is unmatched on all other texts. -/
theorem C102_language (hwf : NoLeftRecursion fun i => (rules i).peg) (hll : ∀ i, LL1 (fun i => (rules i).peg) follow (rules i).peg (follow i))
    (he : LL1 (fun i => (rules i).peg) follow p.peg fun _ => False) {s : Bytes} (ht : Reads s t) :
    ∃ N, ∀ n, N ≤ n →
      (Lang (fun i => (rules i).peg) p.peg t ∧
        ∃ c', Outcome.of (run (fun i => (rules i).gram) n (.flatGroup [.prim startP, p.gram, .prim endS]) (newStrCtx s)) = .matched c' ∧ c'.pos = s.length) ∨
      (¬ Lang (fun i => (rules i).peg) p.peg t ∧
        Outcome.of (run (fun i => (rules i).gram) n (.flatGroup [.prim startP, p.gram, .prim endS]) (newStrCtx s)) = .unmatched) := by
  obtain ⟨N, hN⟩ := C75_language (fun _ _ _ _ => trivial) pex_env (pex_means p) (noLeft_pad hwf) (fun i => ll1_pad (hll i)) (ll1_pad he) ht
  refine ⟨N, fun n hn => ?_⟩
  have := hN n hn
  rwa [lang_unpad] at this

/-- **C102.** And if the grammar is finite and has no useless parts, the number of parser calls for that is at most linear in the length of the
source, if all or some of the parsers are traced. -/
theorem C102_linear {tenv : TEnv} {g : TGram} (ht : ∀ i k, (tenv i k).plain = (rules i).gram) (hg : g.plain = p.gram) (hfin : ∃ l : List Pex, ∀ i, rules i ∈ l)
    (huse : ∀ i, (rules i).peg.Useful) (hword : ∀ i, ∃ w, Lang (fun i => (rules i).peg) (rules i).peg w)
    (hwf : NoLeftRecursion fun i => (rules i).peg) (hll : ∀ i, LL1 (fun i => (rules i).peg) follow (rules i).peg (follow i))
    (he : LL1 (fun i => (rules i).peg) follow p.peg F) (hu : p.peg.Useful) (i j l : Option Info) (cls cls' : Option String) :
    ∃ C, ∀ (txt : Bytes) N s, callCount ((TGram.flatGroup i [.prim j cls startP, g, .prim l cls' endS]).run tenv N (newStrCtx txt) s).2.events ≤
      callCount s.events + C * (txt.length + 1) := by
  refine C100_whole (A := fun _ => True) (env := fun i => (rules i).gram) (rules := fun i => (rules i).peg.pad) (fun _ _ _ _ => trivial) pex_env ht ?_
    (fun i => ll1_pad (hll i)) (by rw [hg]; exact pex_means p) (ll1_pad he) (useful_pad hu) i j l cls cls'
  obtain ⟨l, hl⟩ := hfin
  exact ⟨⟨l.map fun x => (x.gram, x.peg.pad), fun i => List.mem_map.2 ⟨_, hl i, rfl⟩⟩, fun i => useful_pad (huse i),
    fun i => (hword i).imp fun _ h => lang_pad h, noLeft_pad hwf⟩

end

/-! ### Examples -/

namespace Written
/-- `S ← "(" S ")" S / ε`. -/
def rules : Nat → Pex := fun _ => .alt (.seq (.chr (· == 40)) (.seq (.var 0) (.seq (.chr (· == 41)) (.var 0)))) .eps

/-- What is written: `First(FlatGroup(CharClassFn(f), FlatGroup(Indirect(s), FlatGroup(CharClassFn(g), Indirect(s)))), Zero())`. -/
example (i : Nat) : (rules i).gram = .first [.flatGroup [.prim (charClassFn (· == 40)), .flatGroup [.indirect 0, .flatGroup [.prim (charClassFn (· == 41)), .indirect 0]]],
    .prim (zeroP [])] := rfl

/-- It matches `()`, `(())` and nothing else of these; the last text is matched only at the front. -/
example : [b! "()", b! "(())", b! "((", b! "())"].map (fun txt => match run (fun i => (rules i).gram) 60 (Pex.var 0).gram (newStrCtx txt) with
    | .ok (d, none) => if d.status = .matched then some d.pos else none
    | _ => none) = [some 2, some 4, some 0, some 2] := by
  decide +kernel

/-- A text that is not followed by itself: `!("aa") "a"`. -/
example : [b! "ab", b! "aa"].map (fun txt => match run (fun i => (rules i).gram) 60
    (Pex.seq (.notP (.seq (.chr (· == 97)) (.chr (· == 97)))) (.chr (· == 97))).gram (newStrCtx txt) with
    | .ok (d, none) => if d.status = .matched then some d.pos else none
    | _ => none) = [some 1, none] := by
  decide +kernel

/-- `C102_matches` on `ab`: `!("aa") "a"` reads `a`. -/
example : ∃ n c', Outcome.of (run (fun i => (rules i).gram) n (Pex.seq (.notP (.seq (.chr (· == 97)) (.chr (· == 97)))) (.chr (· == 97))).gram
    (newStrCtx (b! "ab"))) = .matched c' ∧ ReadOff (b! "ab") ['a'] (ahead c') :=
  (C102_matches (t := ['a', 'b']) (startable_new _) ((reads_text (by decide)).2 rfl) ['a'] ['b'] rfl).1
    (.seq (.notYes (.seq (.chr rfl) (.chrNot (by decide)))) (.chr rfl))

/-- `C102_unmatched` on `aa`. -/
example : ∃ n, Outcome.of (run (fun i => (rules i).gram) n (Pex.seq (.notP (.seq (.chr (· == 97)) (.chr (· == 97)))) (.chr (· == 97))).gram
    (newStrCtx (b! "aa"))) = .unmatched :=
  (C102_unmatched (t := ['a', 'a']) (startable_new _) ((reads_text (by decide)).2 rfl)).1 (.seqFail (.notNo (.seq (.chr rfl) (.chr rfl))))

/-- `C102_diverges`: repeating what matches the empty text, at the end of the source. -/
example (n : Nat) : run (fun _ => (Pex.var 0).gram) n (Pex.star (.notP (.chr fun _ => true))).gram (newStrCtx []) = .timeout :=
  (C102_diverges (rules := fun _ => .var 0) (p := .star (.notP (.chr fun _ => true))) (t := []) (startable_new _) .nil).1
    (fun ⟨o, h⟩ => by
      change Ford _ (.star (.notP (.chr fun _ => true = true))) _ _ at h
      generalize he : Peg.star (.notP (.chr fun _ => true = true)) = e at h
      generalize ht : ([] : List Char) = t at h
      induction h with
      | starEnd h _ => cases he; cases ht; cases h with | notNo h => cases h
      | starMore h _ _ ih => cases he; cases ht; cases h with | notYes h => exact ih rfl rfl
      | _ => cases he) n

theorem lang_first {ch : Char} {w : List Char} (h : Lang (fun i => (rules i).peg) (.seq (.chr fun ch => (ch.toNat == 40) = true)
    (.seq (.var 0) (.seq (.chr fun ch => (ch.toNat == 41) = true) (.var 0)))) (ch :: w)) : ch.toNat = 40 := by
  obtain ⟨u, v, hu, h1, -⟩ := lang_seq.1 h
  cases h1 with
  | chr h => simp only [List.cons_append, List.nil_append, List.cons.injEq] at hu; rw [hu.1]; simpa using h

theorem ll1 (i : Nat) : LL1 (fun i => (rules i).peg) (fun _ ch => ch.toNat = 41) (rules i).peg fun ch => ch.toNat = 41 := by
  have close : ∀ {F : Char → Prop} ch, FirstThen (fun i => (rules i).peg) (.seq (.chr fun ch => (ch.toNat == 41) = true) (.var 0)) F ch → ch.toNat = 41 := by
    rintro F ch (⟨w, h⟩ | ⟨h, _⟩)
    · obtain ⟨u, v, hu, h1, -⟩ := lang_seq.1 h
      cases h1 with
      | chr h => simp only [List.cons_append, List.nil_append, List.cons.injEq] at hu; rw [hu.1]; simpa using h
    · obtain ⟨u, v, hu, h1, -⟩ := lang_seq.1 h
      cases h1; simp at hu
  refine .alt ?_ ?_ (.seq .chr (.seq (.var fun ch h => close ch h) (.seq .chr (.var fun _ h => h)))) .eps
  · intro h
    obtain ⟨u, v, hu, h1, -⟩ := lang_seq.1 h
    cases h1; simp at hu
  · rintro ch ⟨w, h⟩ (⟨w', h'⟩ | ⟨-, h'⟩)
    · cases h'
    · have := lang_first h; omega

theorem wf : NoLeftRecursion fun i => (rules i).peg := by
  refine ⟨fun i => ⟨i, fun j h => ?_⟩⟩
  cases h with
  | altLeft h => cases h with
    | seqLeft h => cases h
    | seqRight h _ => cases h
  | altRight h => cases h

/-- `C102_language` and `C102_linear` for the brackets. -/
example (s : Bytes) (t : List Char) (ht : Reads s t) := C102_language (rules := rules) (p := .var 0) wf ll1 (.var fun _ h => h.elim) ht

example (tenv : TEnv) (ht : ∀ i k, (tenv i k).plain = (rules i).gram) (i : Info) :=
  C102_linear (rules := rules) (p := .var 0) (g := .indirect (some i) 0) (F := fun _ => False) ht rfl ⟨[rules 0], fun _ => List.mem_singleton.2 rfl⟩
    (fun _ => ⟨⟨⟨'(', rfl⟩, trivial, ⟨')', rfl⟩, trivial⟩, trivial⟩) (fun _ => ⟨[], .right .eps⟩) wf ll1 (.var fun _ h => h.elim) trivial (some i) (some i) (some i) none none
end Written

#print axioms C102_matches
#print axioms C102_unmatched
#print axioms C102_diverges
#print axioms C102_outcomes
#print axioms C102_language
#print axioms C102_linear

end Takenoco
