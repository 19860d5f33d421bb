import Verif.Lemmas.LinearExamples
import Verif.Props.LL1
/-
C100: grammars that one character of look-ahead decides need a linear number of parser calls.
-/
namespace Takenoco
open Spec Trace

section
variable {A : Ast → Prop} {env : Env} {tenv : TEnv} {rules : Nat → Peg} {follow : Nat → Char → Prop} {g : TGram} {e : Peg} {F : Char → Prop}

/-- **C100.** The work of the engine is that of the parsing expression: if `k` expressions are tried to get the result of the parsing expression
on the rest of the source, at most `W * k` parsers are called, where `W` is the depth to which combinators are nested in the grammar. -/
theorem C100_work (hA : Tokens A) (henv : ∀ i, Means A (.gram (env i)) (rules i)) (ht : ∀ i k, (tenv i k).plain = env i) {W : Nat}
    (hW : ∀ i, height (env i) ≤ W) (hg : Means A (.gram g.plain) e) (hgW : height g.plain ≤ W) {c : Ctx} (hc : Startable c) {t : List Char}
    (hr : Reads (ahead c) t) {o : Option (List Char)} {k p : Nat} (hk : Tries rules e t o k p) (N : Nat) (s : Log) :
    callCount (g.run tenv N c s).2.events ≤ callCount s.events + W * k := by
  have h := (calls_run hA henv ht hW N g e hg hgW c t o k p ⟨hc, hr⟩ hk s).1
  have h1 := hk.pos
  have e1 : W * k = W + W * (k - 1) := by
    rw [show k = (k - 1) + 1 by omega, Nat.mul_add, Nat.mul_one, Nat.add_comm, Nat.add_sub_cancel]
  omega

/-- **C100.** If one character decides how to go on (LL(1)), there is no left recursion, and the grammar is finite and has no useless parts,
the number of parser calls is at most linear in the number of bytes ahead: one constant for all sources, positions and earlier calls. -/
theorem C100_linear (hA : Tokens A) (henv : ∀ i, Means A (.gram (env i)) (rules i)) (ht : ∀ i k, (tenv i k).plain = env i)
    (hred : Reduced env rules) (hll : ∀ i, LL1 rules follow (rules i) (follow i)) (hg : Means A (.gram g.plain) e) (he : LL1 rules follow e F)
    (hu : e.Useful) : ∃ C, ∀ c, Startable c → ∀ N s, callCount (g.run tenv N c s).2.events ≤ callCount s.events + C * (c.str.length - c.pos + 1) := by
  obtain ⟨l, hl⟩ := hred.finite
  obtain ⟨rank, R, hR, hrank⟩ := rank_of hred.noLeft (l := l.map Prod.snd) fun i => List.mem_map.2 ⟨_, hl i, rfl⟩
  obtain ⟨B, hB⟩ := bounded_on (fun x : Gram × Peg => x.2.size) l
  obtain ⟨W, hW⟩ := bounded_on (fun x : Gram × Peg => height x.1) l
  obtain ⟨C, hC⟩ := ll1_linear (B := max B e.size) hll hred.useful hred.word hR hrank (fun i => Nat.le_trans (hB _ (hl i)) (Nat.le_max_left _ _))
    ⟨F, he⟩ hu (Nat.le_max_right _ _)
  refine ⟨max W (height g.plain) * C, fun c hc N s => ?_⟩
  obtain ⟨t, hr⟩ := reads_total (ahead c)
  obtain ⟨o, hf, -⟩ := ll1_decides hll hred.noLeft t e F he
  obtain ⟨k, p, hk⟩ := tries_of hf
  refine Nat.le_trans (C100_work hA henv ht (W := max W (height g.plain)) (fun i => Nat.le_trans (hW _ (hl i)) (Nat.le_max_left _ _)) hg
    (Nat.le_max_right _ _) hc hr hk N s) (Nat.add_le_add_left ?_ _)
  rw [Nat.mul_assoc]
  refine Nat.mul_le_mul_left _ (Nat.le_trans (hC t o k p hk) (Nat.mul_le_mul_left _ (Nat.succ_le_succ ?_)))
  have := reads_length hr
  simpa [ahead] using this

/-- **C100.** The same for the grammar between `Start` and `End`, which by C75 decides the language: a linear number of calls on every text. -/
theorem C100_whole (hA : Tokens A) (henv : ∀ i, Means A (.gram (env i)) (rules i)) (ht : ∀ i k, (tenv i k).plain = env i)
    (hred : Reduced env rules) (hll : ∀ i, LL1 rules follow (rules i) (follow i)) (hg : Means A (.gram g.plain) e) (he : LL1 rules follow e F)
    (hu : e.Useful) (i j l : Option Info) (cls cls' : Option String) :
    ∃ C, ∀ (txt : Bytes) N s, callCount ((TGram.flatGroup i [.prim j cls startP, g, .prim l cls' endS]).run tenv N (newStrCtx txt) s).2.events ≤
      callCount s.events + C * (txt.length + 1) := by
  obtain ⟨C, hC⟩ := C100_linear hA henv ht hred hll hg he hu
  refine ⟨C + 3, fun txt N s => ?_⟩
  have h3 : (C + 3) * (txt.length + 1) = C * (txt.length + 1) + 3 * (txt.length + 1) := Nat.add_mul ..
  cases N with
  | zero => unfold TGram.run; exact Nat.le_add_right _ _
  | succ N =>
    have hprim : ∀ (i : Option Info) cls p c, Upper (TGram.run tenv N (.prim i cls p) c) 1 fun r => p c = .ok r := by
      intro i cls p c
      cases N with
      | zero => unfold TGram.run; exact upper_lift (by simp)
      | succ N => unfold TGram.run; exact upper_wrap i (B := 0) (upper_lift fun _ h => h)
    have h : Upper ((TGram.flatGroup i [.prim j cls startP, g, .prim l cls' endS]).run tenv (N + 1) (newStrCtx txt))
        (1 + (1 + (C * (txt.length + 1) + (1 + 0)))) fun _ => True := by
      unfold TGram.run
      refine upper_wrap i (calls_base (fun _ h => by cases h) (calls_once (P := fun _ => True) (calls_iteration (Q := fun _ => True)
        (P := fun r => ∀ k o, r = .fell k o → o.status = .matched) ?_ (fun _ _ _ => trivial) (fun _ => trivial) (fun _ _ _ => trivial)
        fun k o h => ⟨h k o rfl, trivial⟩)))
      simp only [List.map_cons, List.map_nil]
      rw [Trace.childLoop]
      refine (hprim j cls startP _).bind fun r hr => ?_
      rw [startP_eq, if_pos (by rfl)] at hr
      cases hr
      simp only [fixStatus, Option.isSome_none, Bool.false_eq_true, false_and, if_false]
      rw [Trace.childLoop]
      refine Upper.bind (P := fun _ => True) (fun s => ⟨?_, fun _ _ => trivial⟩) fun r _ => ?_
      · have := hC { newStrCtx txt with len := 0, status := .matched, qty := 1, cls := ":base:Start" } ⟨Nat.zero_le _, rfl⟩ N s
        simpa [newStrCtx] using this
      · obtain ⟨o, err⟩ := r
        simp only
        split
        · exact upper_pure fun k o h => by cases h
        · exact upper_pure fun k o h => by cases h
        · rw [Trace.childLoop]
          refine (hprim l cls' endS _).bind fun r _ => ?_
          obtain ⟨o, err⟩ := r
          simp only
          split
          · exact upper_pure fun k o h => by cases h
          · exact upper_pure fun k o h => by cases h
          · next hs => exact upper_pure fun k o h => by cases h; exact hs
    have := (h s).1
    omega

end

/-- **C100**, an example: brackets need a linear number of calls. -/
theorem C100_brackets (i : Info) : ∃ C, ∀ (txt : Bytes) N s, callCount ((TGram.flatGroup (some i) [.prim (some i) none startP, .indirect (some i) 0,
    .prim (some i) none endS]).run (fun _ _ => Brackets.counted i) N (newStrCtx txt) s).2.events ≤ callCount s.events + C * (txt.length + 1) :=
  C100_whole (A := fun _ => True) (env := Brackets.env) (rules := Brackets.rules) (follow := fun _ ch => ch = ')') (e := .var 0) (F := fun _ => False)
    (fun _ _ _ _ => trivial) Brackets.means (fun j _ => Brackets.counted_plain i j) Brackets.reduced Brackets.ll1 .indirect (.var fun _ h => h.elim) trivial _ _ _ _ _

/-- **C100.** Useless parts must be excluded: here is a grammar that satisfies all other conditions, where the function given to `Indirect` is
called at least `2ⁿ⁺¹ - 2` times on a text of `2n + 1` bytes. -/
theorem C100_useless_exponential (i : Info) : (∀ j, Means (fun _ => True) (.gram (Useless.env j)) (Useless.rules j)) ∧
    (∀ j, (slowBy i unmatchedP).plain = Useless.env j) ∧ (∀ j, LL1 Useless.rules (fun _ ch => ch = 'c') (Useless.rules j) fun ch => ch = 'c') ∧
    NoLeftRecursion Useless.rules ∧ (∃ l : List (Gram × Peg), ∀ j, (Useless.env j, Useless.rules j) ∈ l) ∧ (∀ j, ∃ w, Lang Useless.rules (Useless.rules j) w) ∧
    ∀ n N s, 3 * n + 3 ≤ N → (slowText n).length = 2 * n + 1 ∧
      callCount s.events + (2 ^ (n + 1) - 2) ≤ callCount ((slowBy i unmatchedP).run (fun _ _ => slowBy i unmatchedP) N (newStrCtx (slowText n)) s).2.events :=
  ⟨Useless.means, fun j => Useless.plain i j, Useless.ll1, Useless.wf, ⟨[(Useless.env 0, Useless.rules 0)], fun _ => List.mem_singleton.2 rfl⟩,
    fun _ => ⟨['d'], .right (.right (lang_lit.2 rfl))⟩, fun n N s hN => ⟨by simp [slowText]; omega,
      (slowBy_lower i (fun c _ _ => by rw [unmatchedP_eq]; exact lower_lift ⟨_, rfl, rfl, rfl⟩) (fun _ => rfl) n N hN (newStrCtx (slowText n)) []
        ⟨rfl, rfl, [], by simp [newStrCtx], rfl⟩ s).1⟩⟩

/-- The numbers of calls on `()`, `()()` and `()()()`, and on `()()(`. -/
example : ∀ x ∈ [(b! "()", 18), (b! "()()", 28), (b! "()()()", 38), (b! "()()(", 34)],
    callCount ((TGram.flatGroup (some ⟨0, "", 0, ""⟩) [.prim (some ⟨0, "", 0, ""⟩) none startP, .indirect (some ⟨0, "", 0, ""⟩) 0,
      .prim (some ⟨0, "", 0, ""⟩) none endS]).run (fun _ _ => Brackets.counted ⟨0, "", 0, ""⟩) 40 (newStrCtx x.1) ⟨0, []⟩).2.events = x.2 := by
  decide +kernel

/-- `C100_work` on `"()"`: expressions tried. -/
example : ∃ k p, Tries Brackets.rules (.var 0) ['(', ')'] (some []) k p := by
  obtain ⟨o, hf, -, h3⟩ := ll1_decides (follow := fun _ ch => ch = ')') Brackets.ll1 Brackets.wf ['(', ')'] (.var 0) (fun _ => False) (.var fun _ h => h.elim)
  have := h3 ['(', ')'] [] rfl (Brackets.lang_closes.2 (by simp [Brackets.Closes])) (.inl rfl)
  subst this
  exact tries_of hf

#print axioms C100_work
#print axioms C100_linear
#print axioms C100_whole
#print axioms C100_brackets
#print axioms C100_useless_exponential

end Takenoco
