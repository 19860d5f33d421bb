import Verif.Lemmas.ViablePrefix
import Verif.Lemmas.ViablePrefixRun
import Verif.Lemmas.LinearExamples
/-
C101: no parser is called behind the first wrong character, and what comes behind it makes no difference.
-/
namespace Takenoco
open Spec Trace

section
variable {A : Ast → Prop} {env : Env} {tenv : TEnv} {rules : Nat → Peg} {follow : Nat → Char → Prop} {g : TGram} {e : Peg} {F : Char → Prop}

/-- **C101.** In a grammar without look-ahead where every part can match something, a parser is only called where the text read so far can be
continued to a word of the grammar (read as a context-free grammar): for every call of `Before` that is added to the log. -/
theorem C101_viable (hA : Tokens A) (henv : ∀ i, Means A (.gram (env i)) (rules i)) (ht : ∀ i k, (tenv i k).plain = env i) (hp : Productive rules)
    (hg : Means A (.gram g.plain) e) (hn : e.NoLook) (hu : e.Useful) {c : Ctx} (hc : Startable c) (N : Nat) (s : Log)
    (hN : (g.run tenv N c s).1 ≠ .timeout) (i : Info) (d : Ctx) (hd : Event.before i d ∈ (g.run tenv N c s).2.events) :
    Event.before i d ∈ s.events ∨ d.str = c.str ∧ ∃ u, ReadOff (ahead c) u (ahead d) ∧ Continuable rules e u := by
  obtain ⟨t, hr⟩ := reads_total (ahead c)
  rw [C43_transparent tenv env ht] at hN
  obtain ⟨o, hf, -⟩ := C74_engine_to_peg hA henv hg hc hr N hN
  obtain ⟨k, q, hk⟩ := tries_of hf
  refine ((within_run hA henv ht N g e hg c t o k q ⟨hc, hr⟩ hk s).1 i d hd).imp_right ?_
  rintro ⟨h1, u, v, rfl, h2, h3⟩
  refine ⟨h1, u, h3, ?_⟩
  have := tries_viable hp hk hn hu
  rw [take_beyond h2] at this
  exact viable_prefix this

/-- **C101.** So no parser is called behind the first wrong character: if `u`, the text from `c` on, cannot be continued with the next character,
the calls start at most at the position of this character. -/
theorem C101_first_error (hA : Tokens A) (henv : ∀ i, Means A (.gram (env i)) (rules i)) (ht : ∀ i k, (tenv i k).plain = env i) (hp : Productive rules)
    (hg : Means A (.gram g.plain) e) (hn : e.NoLook) (hu : e.Useful) {c : Ctx} (hc : Startable c) (N : Nat) (s : Log)
    (hN : (g.run tenv N c s).1 ≠ .timeout) {u : List Char} {r : Bytes} {ch : Char} {n : Nat} (hr : ReadOff (ahead c) u r) (hch : NextChar r ch n)
    (hwrong : ¬ Continuable rules e (u ++ [ch])) (i : Info) (d : Ctx) (hd : Event.before i d ∈ (g.run tenv N c s).2.events) :
    Event.before i d ∈ s.events ∨ d.str = c.str ∧ d.pos ≤ c.str.length - r.length := by
  refine (C101_viable hA henv ht hp hg hn hu hc N s hN i d hd).imp_right ?_
  rintro ⟨h1, x, hx, hv⟩
  refine ⟨h1, ?_⟩
  have hlen := readOff_prefix hr hch hx fun y hy => hwrong (by subst hy; exact viable_prefix hv)
  have h0 := nextChar_drop_lt hch
  simp only [ahead, List.length_drop, h1] at hlen
  omega

/-- **C101.** And what comes behind the first wrong character makes no difference to the result: on two sources that agree up to it, from any
contexts and with any fuel that is enough, the grammar is unmatched on both, or matches the same characters. -/
theorem C101_rest {g : Gram} (hA : Tokens A) (henv : ∀ i, Means A (.gram (env i)) (rules i)) (hp : Productive rules) (hg : Means A (.gram g) e) (hn : e.NoLook)
    (hu : e.Useful) {c c' : Ctx} (hc : Startable c) (hc' : Startable c') {x y y' : List Char} {ch : Char} (hr : Reads (ahead c) (x ++ ch :: y))
    (hr' : Reads (ahead c') (x ++ ch :: y')) (hwrong : ¬ Continuable rules e (x ++ [ch])) (N N' : Nat) (hN : run env N g c ≠ .timeout)
    (hN' : run env N' g c' ≠ .timeout) :
    (Outcome.of (run env N g c) = .unmatched ∧ Outcome.of (run env N' g c') = .unmatched) ∨
    ∃ d d' u v, Outcome.of (run env N g c) = .matched d ∧ Outcome.of (run env N' g c') = .matched d' ∧ x = u ++ v ∧
      ReadOff (ahead c) u (ahead d) ∧ ReadOff (ahead c') u (ahead d') := by
  obtain ⟨o, hf, ha⟩ := C74_engine_to_peg hA henv hg hc hr N hN
  obtain ⟨o', hf', ha'⟩ := C74_engine_to_peg hA henv hg hc' hr' N' hN'
  obtain ⟨k, q, hk⟩ := tries_of hf
  have hq : q ≤ x.length := by
    refine Nat.le_of_not_lt fun h => hwrong ?_
    have := tries_viable hp hk hn hu
    rw [show x ++ ch :: y = (x ++ [ch]) ++ y by simp, take_beyond (by simp only [List.length_append, List.length_singleton]; omega)] at this
    exact viable_prefix this
  obtain ⟨o2, t2, h⟩ := tries_local y' hk x rfl hq
  rw [ford_unique t2.ford hf'] at h
  rcases h with ⟨rfl, rfl⟩ | ⟨u, v, rfl, rfl, rfl⟩
  · exact .inl ⟨ha.none, ha'.none⟩
  · obtain ⟨d, h1, w1⟩ := ha.some
    obtain ⟨d', h1', w1'⟩ := ha'.some
    obtain ⟨u1, e1, r1⟩ := w1.chars
    obtain ⟨u2, e2, r2⟩ := w1'.chars
    rw [List.append_assoc] at e1 e2
    rw [← List.append_cancel_right e1] at r1
    rw [← List.append_cancel_right e2] at r2
    exact .inr ⟨d, d', u, v, h1, h1', rfl, r1, r2⟩

/-- **C101.** Where one character of look-ahead decides (LL(1), no left recursion), the part of the text that is consumed on the way is exactly
the longest one that can be continued to a word. -/
theorem C101_longest (hp : Productive rules) (hll : ∀ i, LL1 rules follow (rules i) (follow i)) (hwf : NoLeftRecursion rules) (he : LL1 rules follow e F)
    (hu : e.Useful) (t : List Char) : ∃ o k p, Tries rules e t o k p ∧ p ≤ t.length ∧ Continuable rules e (t.take p) ∧ (p < t.length → ¬ Continuable rules e (t.take (p + 1))) := by
  obtain ⟨o, hf, -⟩ := ll1_decides hll hwf t e F he
  obtain ⟨k, p, hk⟩ := tries_of hf
  exact ⟨o, k, p, hk, hk.reach.1, tries_viable hp hk (ll1_noLook he) hu, ll1_longest hll hwf hk F he⟩

/-- **C101.** The same for the grammar between `Start` and `End`, on every text: wherever a parser is called, what has been read of the text can be
continued to a word. -/
theorem C101_whole (hA : Tokens A) (henv : ∀ i, Means A (.gram (env i)) (rules i)) (ht : ∀ i k, (tenv i k).plain = env i) (hp : Productive rules)
    (hll : ∀ i, LL1 rules follow (rules i) (follow i)) (hwf : NoLeftRecursion rules) (hg : Means A (.gram g.plain) e) (he : LL1 rules follow e F)
    (hu : e.Useful) (i j l : Option Info) (cls cls' : Option String) (txt : Bytes) (N : Nat) (s : Log) (m : Info) (d : Ctx)
    (hd : Event.before m d ∈ ((TGram.flatGroup i [.prim j cls startP, g, .prim l cls' endS]).run tenv N (newStrCtx txt) s).2.events) :
    Event.before m d ∈ s.events ∨ d.str = txt ∧ ∃ u, ReadOff txt u (ahead d) ∧ Continuable rules e u := by
  have hn := ll1_noLook he
  obtain ⟨t, hr⟩ := reads_total txt
  obtain ⟨o, hf, -⟩ := ll1_decides hll hwf t e F he
  obtain ⟨k, q, hk⟩ := tries_of hf
  cases N with
  | zero => unfold TGram.run at hd; exact .inl hd
  | succ N =>
    have here : ∀ d : Ctx, d.str = txt → d.pos = 0 → d.str = txt ∧ ∃ u, ReadOff txt u (ahead d) ∧ Continuable rules e u := by
      intro d h1 h2
      obtain ⟨w, hw⟩ := productive_word hp hn hu
      exact ⟨h1, [], by rw [ahead, h1, h2]; exact .nil, w, hw⟩
    have hprim : ∀ (i : Option Info) cls p (c : Ctx), (c.str = txt ∧ ∃ u, ReadOff txt u (ahead c) ∧ Continuable rules e u) →
        CallsAt (TGram.run tenv N (.prim i cls p) c) (fun d => d.str = txt ∧ ∃ u, ReadOff txt u (ahead d) ∧ Continuable rules e u) fun r => p c = .ok r := by
      intro i cls p c hc
      cases N with
      | zero => unfold TGram.run; exact starts_lift fun _ h => by cases h
      | succ N => unfold TGram.run; exact starts_wrap i hc (starts_lift fun _ h => h)
    have h : CallsAt ((TGram.flatGroup i [.prim j cls startP, g, .prim l cls' endS]).run tenv (N + 1) (newStrCtx txt))
        (fun d => d.str = txt ∧ ∃ u, ReadOff txt u (ahead d) ∧ Continuable rules e u) fun _ => True := by
      unfold TGram.run
      refine starts_wrap i (here _ rfl rfl) (within_base (fun _ h => by cases h) (within_once (P := fun _ => True) (within_iteration (R := fun _ => True)
        (P := fun r => ∀ k o, r = .fell k o → o.status = .matched) ?_ (fun _ _ _ => trivial) (fun _ => trivial) (fun _ _ _ => trivial)
        fun k o h => ⟨h k o rfl, trivial⟩)))
      simp only [List.map_cons, List.map_nil]
      rw [Trace.childLoop]
      refine (hprim j cls startP _ (here _ rfl rfl)).bind fun r hr1 => ?_
      rw [startP_eq, if_pos (by rfl)] at hr1
      cases hr1
      simp only [fixStatus, Option.isSome_none, Bool.false_eq_true, false_and, if_false]
      rw [Trace.childLoop]
      refine CallsAt.bind ((within_run hA henv ht N g e hg { newStrCtx txt with len := 0, status := .matched, qty := 1, cls := ":base:Start" } t o k q
        ⟨⟨Nat.zero_le _, rfl⟩, hr⟩ hk).weak ?_) fun r hres => ?_
      · rintro d ⟨h1, u, v, rfl, h2, h3⟩
        refine ⟨h1, u, h3, ?_⟩
        have := tries_viable hp hk hn hu
        rw [take_beyond h2] at this
        exact viable_prefix this
      · obtain ⟨o', err⟩ := r
        have hfix : fixStatus o' none = o' := by simp [fixStatus]
        rcases agrees_ok hres with ⟨rfl, hs, v, rfl, hwent⟩ | ⟨rfl, hs, _⟩
        · simp only [hfix, hs, show (readProps []).thereExists = false from rfl, Bool.false_eq_true, if_false]
          rw [Trace.childLoop]
          refine (hprim l cls' endS _ ⟨hwent.str, ?_⟩).bind fun r _ => ?_
          · obtain ⟨u, e1, h1⟩ := hwent.chars
            obtain ⟨u', e2, h2⟩ := noLook_lang hp hn hk
            have : u' = u := List.append_cancel_right (e2.symm.trans e1)
            exact ⟨u, h1, [], by rw [List.append_nil, ← this]; exact h2⟩
          · obtain ⟨o, err⟩ := r
            simp only
            split
            · exact starts_pure fun k o h => by cases h
            · exact starts_pure fun k o h => by cases h
            · next hs => exact starts_pure fun k o h => by cases h; exact hs
        · simp only [hfix, hs, show (readProps []).thereExists = false from rfl, Bool.false_eq_true, if_false]
          exact starts_pure fun k o h => by cases h
    exact (h s).1 m d hd

end

theorem Brackets.productive : Productive Brackets.rules :=
  ⟨fun _ => ⟨⟨⟨trivial, trivial⟩, trivial, ⟨trivial, trivial⟩, trivial, trivial⟩, trivial⟩, Brackets.useful, fun _ => ⟨[], .right .eps⟩⟩

/-- **C101**, an example: whenever a parser is called in the grammar of brackets, what has been read of the text can be completed to balanced brackets. -/
theorem C101_brackets (i : Info) (txt : Bytes) (N : Nat) (m : Info) (d : Ctx)
    (hd : Event.before m d ∈ ((TGram.flatGroup (some i) [.prim (some i) none startP, .indirect (some i) 0, .prim (some i) none endS]).run
      (fun _ _ => Brackets.counted i) N (newStrCtx txt) ⟨0, []⟩).2.events) :
    ∃ u w, ReadOff txt u (txt.drop d.pos) ∧ Brackets.Closes 0 (u ++ w) := by
  have := C101_whole (A := fun _ => True) (env := Brackets.env) (rules := Brackets.rules) (follow := fun _ ch => ch = ')') (e := .var 0) (F := fun _ => False)
    (fun _ _ _ _ => trivial) Brackets.means (fun j _ => Brackets.counted_plain i j) Brackets.productive Brackets.ll1 Brackets.wf .indirect (.var fun _ h => h.elim) trivial
    _ _ _ _ _ txt N ⟨0, []⟩ m d hd
  rcases this with h | ⟨h1, u, h2, w, h3⟩
  · cases h
  · rw [ahead, h1] at h2
    exact ⟨u, w, h2, Brackets.lang_closes.1 h3⟩

/-- The positions at which parsers are called on `(())) (` and on `())))`: never behind the bracket that is too many. -/
example : ∀ x ∈ [(b! "(()))((", 4), (b! "())))", 2), (b! ")", 0), (b! "((", 2)],
    ((((TGram.flatGroup (some ⟨0, "", 0, ""⟩) [.prim (some ⟨0, "", 0, ""⟩) none startP, .indirect (some ⟨0, "", 0, ""⟩) 0,
      .prim (some ⟨0, "", 0, ""⟩) none endS]).run (fun _ _ => Brackets.counted ⟨0, "", 0, ""⟩) 40 (newStrCtx x.1) ⟨0, []⟩).2.events.map
        fun | .before _ d => d.pos | _ => 0).max? = some x.2) := by
  decide +kernel

/-- With look-ahead, parsers are called behind: `FlatGroup(LookAhead("a", "b", "c"), "a")` has the only word `a`, but `"c"` is called at position 2. -/
example : ((TGram.flatGroup none [.lookAhead none [.prim none none (seqS (b! "a")), .prim none none (seqS (b! "b")), .prim (some ⟨0, "", 0, ""⟩) none (seqS (b! "c"))],
    .prim none none (seqS (b! "a"))]).run (fun _ _ => .flatGroup none []) 9 (newStrCtx (b! "abc")) ⟨0, []⟩).2.events.map
      (fun | .before _ d => d.pos | .after _ d _ => d.pos | _ => 0) = [2, 3] := by
  decide +kernel

/-- `C101_rest` on brackets: `())` and `())(((`. -/
example (N N' : Nat) (hN : run Brackets.env N (.indirect 0) (newStrCtx (b! "())")) ≠ .timeout) (hN' : run Brackets.env N' (.indirect 0) (newStrCtx (b! "())(((")) ≠ .timeout) :
    (Outcome.of (run Brackets.env N (.indirect 0) (newStrCtx (b! "())"))) = .unmatched ∧ Outcome.of (run Brackets.env N' (.indirect 0) (newStrCtx (b! "())((("))) = .unmatched) ∨
    ∃ d d' u v, Outcome.of (run Brackets.env N (.indirect 0) (newStrCtx (b! "())"))) = .matched d ∧
      Outcome.of (run Brackets.env N' (.indirect 0) (newStrCtx (b! "())((("))) = .matched d' ∧ ['(', ')'] = u ++ v ∧
      ReadOff (b! "())") u (ahead d) ∧ ReadOff (b! "())(((") u (ahead d') :=
  C101_rest (A := fun _ => True) (rules := Brackets.rules) (e := .var 0) (x := ['(', ')']) (ch := ')') (y := []) (y' := ['(', '(', '('])
    (fun _ _ _ _ => trivial) Brackets.means Brackets.productive .indirect trivial trivial (startable_new _) (startable_new _)
    ((reads_text (by decide)).2 rfl) ((reads_text (by decide)).2 rfl)
    (fun ⟨w, h⟩ => by have := Brackets.lang_closes.1 h; simp [Brackets.Closes] at this) N N' hN hN'

/-- And both match `()`. -/
example : [b! "())", b! "())((("].map (fun txt => match run Brackets.env 40 (.indirect 0) (newStrCtx txt) with
    | .ok (d, none) => if d.status = .matched then some d.pos else none
    | _ => none) = [some 2, some 2] := by
  decide +kernel

#print axioms C101_viable
#print axioms C101_first_error
#print axioms C101_rest
#print axioms C101_longest
#print axioms C101_whole
#print axioms C101_brackets

end Takenoco
