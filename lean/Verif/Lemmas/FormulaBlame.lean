import Verif.Lemmas.Blame
import Verif.Lemmas.FormulaExact
import Verif.Lemmas.CsvExact
import Verif.Spec.Blame
/-
Where the grammar of the formula and torpn examples reports errors.
-/
namespace Takenoco
open Spec Formula

/-! ### Numbers that are too large -/

theorem isDec_digit {b : UInt8} (h : isDec b = true) : ∃ v, DigitOf 10 b v := by
  have : ∀ n < 256, isDec (UInt8.ofNat n) = true → ∃ v < 10, lowerDigits[v]? = some (UInt8.ofNat n) := by
    set_option maxRecDepth 4000 in decide
  obtain ⟨v, h1, h2⟩ := this b.toNat (UInt8.toNat_lt b) (by simpa using h)
  exact ⟨v, h1, .inl (by simpa using h2)⟩

theorem dig_exists {s : Bytes} (h : ∀ b ∈ s, isDec b = true) (a : Nat) : ∃ n, Dig 10 a s n := by
  induction s generalizing a with
  | nil => exact ⟨a, .nil⟩
  | cons b s ih =>
    obtain ⟨v, hv⟩ := isDec_digit (h b (by simp))
    obtain ⟨n, hn⟩ := ih (fun b hb => h b (by simp [hb])) (a * 10 + v)
    exact ⟨n, .cons hv hn⟩

theorem takeWhile_mem {B : UInt8 → Bool} {s : Bytes} {b : UInt8} (h : b ∈ s.takeWhile B) : B b = true := by
  induction s with
  | nil => cases h
  | cons a s ih =>
    rw [List.takeWhile_cons] at h
    split at h
    · rcases List.mem_cons.1 h with rfl | h
      · assumption
      · exact ih h
    · cases h

theorem natRun_bytes {d : Bytes} (h2 : natRun d = d) : ∀ b ∈ withoutUnderscores d, isDec b = true := by
  have key : ∀ b ∈ natRun d, isDec b = true ∨ b = 0x5f := by
    intro b hb
    unfold natRun at hb
    split at hb
    · rcases List.mem_cons.1 hb with rfl | hb
      · exact .inl (by decide)
      · have := takeWhile_mem hb
        exact .inr (by simpa using this)
    · have := takeWhile_mem hb
      unfold or_ at this
      simpa using this
  rw [h2] at key
  intro b hb
  unfold withoutUnderscores at hb
  simp only [List.mem_filter, bne_iff_ne, ne_eq] at hb
  exact (key b hb.1).resolve_right hb.2

theorem digitsText_exists {d : Bytes} (h1 : StartsWith isDec d) (h2 : natRun d = d) : ∃ k, DigitsText d k := by
  obtain ⟨b, s', hd, _⟩ := digits_head h1
  obtain ⟨k, hk⟩ := dig_exists (natRun_bytes h2) 0
  exact ⟨k, h1, h2, numeral_iff.2 ⟨by rw [hd]; simp, hk⟩⟩

theorem parseDigits_error {s : Bytes} {a n : Nat} {e : NumErr} (hd : Dig 10 a s n) (h : parseDigits false 10 a s = .error e) : e = .range := by
  induction hd with
  | nil => cases h
  | cons hb _ ih =>
    unfold parseDigits at h
    simp only [Bool.false_eq_true, false_and, if_false] at h
    obtain ⟨h1, h2⟩ := (digitOf_iff (by omega) _ _).1 hb
    rw [h1] at h
    simp only [Nat.not_le.2 h2, if_false] at h
    split at h
    · cases h; rfl
    · exact ih h

theorem parseUint_error {s : Bytes} {n : Nat} {e : NumErr} (hd : Numeral 10 s n) (h : parseUint s 10 = .error e) : e = .range := by
  obtain ⟨h1, h2⟩ := dig_of_numeral hd
  unfold parseUint at h
  rw [if_neg h1, if_pos (by decide)] at h
  exact parseDigits_error h2 h

theorem parseInt_error {s : Bytes} {v : Int} {e : NumErr} (hd : SignedNumeral 10 s v) (h : parseInt s 10 = .error e) : e = .range := by
  have key : ∀ c cs k, s = c :: cs → Numeral 10 (if c = 0x2b ∨ c = 0x2d then cs else s) k → e = .range := by
    rintro c cs k rfl hk
    unfold parseInt at h
    simp only at h
    split at h
    · rename_i h'
      cases h
      exact parseUint_error hk h'
    · split at h
      · cases h; rfl
      · split at h
        · cases h; rfl
        · cases h
  cases hd with
  | @none _ k hk =>
    obtain ⟨b, s', v, rfl, h6⟩ := numeral_head hk
    refine key b s' k rfl ?_
    rw [if_neg (fun hb => sign_not_digit hb h6)]
    exact hk
  | plus hk => exact key 0x2b _ _ rfl (by simpa using hk)
  | minus hk => exact key 0x2d _ _ rfl (by simpa using hk)

/-- A signed number that cannot be converted. -/
theorem tooLarge_of {sg d b : Bytes} {e : NumErr} (hsg : sg = [] ∨ sg = [0x2b] ∨ sg = [0x2d]) (h1 : StartsWith isDec d) (h2 : natRun d = d) (hb : Blanks b)
    (h : parseInt (withoutUnderscores (sg ++ d)) 10 = .error e) : e = .range ∧ TooLarge (sg ++ d ++ b) (withoutUnderscores (sg ++ d)) := by
  obtain ⟨k, hk⟩ := digitsText_exists h1 h2
  have hw : withoutUnderscores (sg ++ d) = sg ++ withoutUnderscores d := by
    rcases hsg with rfl | rfl | rfl <;> simp [withoutUnderscores]
  rw [hw] at h ⊢
  have hn : ∀ v, ¬ (SignedNumeral 10 (sg ++ withoutUnderscores d) v ∧ -2 ^ 63 ≤ v ∧ v < 2 ^ 63) := fun v hv => by
    have := (parseInt_iff (base := 10) (by omega) (by omega) _ _).2 hv
    have := h.symm.trans this
    cases this
  rcases hsg with rfl | rfl | rfl
  · have hv : SignedNumeral 10 ([] ++ withoutUnderscores d) k := .none hk.value
    have : ¬ (-2 ^ 63 ≤ (k : Int) ∧ (k : Int) < 2 ^ 63) := fun h => hn k ⟨hv, h⟩
    exact ⟨parseInt_error hv h, [], d, b, k, rfl, .inl rfl, hk, hb, by omega, by simp, rfl⟩
  · have hv : SignedNumeral 10 ([0x2b] ++ withoutUnderscores d) k := .plus hk.value
    have : ¬ (-2 ^ 63 ≤ (k : Int) ∧ (k : Int) < 2 ^ 63) := fun h => hn k ⟨hv, h⟩
    exact ⟨parseInt_error hv h, [0x2b], d, b, k, rfl, .inr (.inl rfl), hk, hb, by omega, by simp, rfl⟩
  · have hv : SignedNumeral 10 ([0x2d] ++ withoutUnderscores d) (-k) := .minus hk.value
    have : ¬ (-2 ^ 63 ≤ -(k : Int) ∧ -(k : Int) < 2 ^ 63) := fun h => hn (-k) ⟨hv, h⟩
    exact ⟨parseInt_error hv h, [0x2d], d, b, k, rfl, .inr (.inr rfl), hk, hb, by omega, by omega, rfl⟩

/-! ### Blame -/

/-- The errors of a part of the grammar; `V` describes the texts that can be completed, `st` tells whether a value can be missing
at the very start. -/
inductive Cause (V : Bytes → Prop) (st : Bool) : Bytes → Option Err → Prop where
  | value {a b : Bytes} : V (a ++ b) → Blanks b → (st = true ∧ a = [] ∨ ∃ a', a = a' ++ [0x28] ∨ a = a' ++ [0x2d]) →
      Cause V st (a ++ b) (some (.msg "Value required"))
  | operand {a b : Bytes} {op : BinOp} : V (a ++ op.char :: b) → Blanks b →
      Cause V st (a ++ op.char :: b) (some (.msg "Error in the expression after the binary operator"))
  | group {a : Bytes} : V (a ++ [0x28]) → Cause V st (a ++ [0x28]) (some (.msg "Error in grouped expression"))
  | range {a w t : Bytes} : V a → TooLarge w t → Cause V st (a ++ w) (some (.strconv t .range))

theorem Cause.mono {V V' : Bytes → Prop} {st st' : Bool} {u : Bytes} {e : Option Err} (h : Cause V st u e) (hV : ∀ a t, u = a ++ t → V a → V' a)
    (hst : st = true → st' = true) : Cause V' st' u e := by
  cases h with
  | value h1 h2 h3 => exact .value (hV _ [] (by simp) h1) h2 (h3.imp_left fun h => ⟨hst h.1, h.2⟩)
  | operand h1 h2 => exact .operand (hV _ [] (by simp) h1) h2
  | group h1 => exact .group (hV _ [] (by simp) h1)
  | range h1 h2 => exact .range (hV _ _ rfl h1) h2

theorem Cause.behind {V V' : Bytes → Prop} {st : Bool} {u w : Bytes} {e : Option Err} (h : Cause V false u e) (hV : ∀ a t, u = a ++ t → V a → V' (w ++ a)) :
    Cause V' st (w ++ u) e := by
  cases h with
  | value h1 h2 h3 =>
    rcases h3 with h3 | ⟨a', h3⟩
    · cases h3.1
    · rw [← List.append_assoc]
      refine .value (by rw [List.append_assoc]; exact hV _ [] (by simp) h1) h2 (.inr ⟨w ++ a', ?_⟩)
      rcases h3 with rfl | rfl
      · exact .inl (by simp)
      · exact .inr (by simp)
  | operand h1 h2 =>
    rw [← List.append_assoc]
    exact .operand (by rw [List.append_assoc]; exact hV _ [] (by simp) h1) h2
  | group h1 =>
    rw [← List.append_assoc]
    exact .group (by rw [List.append_assoc]; exact hV _ [] (by simp) h1)
  | range h1 h2 =>
    rw [← List.append_assoc]
    exact .range (hV _ _ rfl h1) h2

/-! ### Tokens -/

section
variable {env : Env} {n : Nat}

theorem blames_of_eq {p : Sem} {B : Blame} (h : ∀ c pre s, At c pre s → ∀ o e, Outcome.of (p c) ≠ .failed o e) : Blames n B p :=
  fun c pre s hc _ o e ho => absurd ho (h c pre s hc o e)

theorem integer_blames : Blames n NoBlame (den env Extra.integerNumberStr) := by
  have h : Blames n NoBlame (den env (.flatGroup [Gram.opt [Extra.plusMinus], .first [Extra.zeroLit, Extra.digits]])) := blames_of_eq fun c pre s hc o e ho => by
    by_cases hd : StartsWith isDec (s.drop (signRun s).length)
    · obtain ⟨m, h1, h2⟩ := lexInteger_some hd
      obtain ⟨h3, h4⟩ := (lexes_integer (env := env) pre s).1 m h1
      obtain ⟨c', h5, h6⟩ := h4 c (by simpa using hc)
      rw [h5] at ho; cases ho
    · rw [(lexes_integer (env := env) pre s).2 (lexInteger_none hd) c hc] at ho; cases ho
  have h' : Admits n (fun _ _ => False) (fun _ _ l => ∃ vs, Texts l vs) (den env (.flatGroup [Gram.opt [Extra.plusMinus], .first [Extra.zeroLit, Extra.digits]])) := by
    intro c pre s hc hs
    by_cases hd : StartsWith isDec (s.drop (signRun s).length)
    · obtain ⟨m, h1, h2⟩ := lexInteger_some hd
      obtain ⟨h3, h4⟩ := (lexes_integer (env := env) pre s).1 m h1
      obtain ⟨c', h5, h6⟩ := h4 c (by simpa using hc)
      rw [h5]
      exact ⟨_, _, (List.take_append_drop m s).symm, h6.mono fun l ⟨vs, h7, _⟩ => ⟨vs, h7⟩⟩
    · rw [(lexes_integer (env := env) pre s).2 (lexInteger_none hd) c hc]; trivial
  refine trans_blames h' h fun c w rest l l' e hl ha => ?_
  obtain ⟨vs, hv⟩ := hl
  obtain ⟨l'', f1, _⟩ := concat_named (env := env) (name := ":extra:IntegerNumberStr") c l hv
  rw [f1] at ha; cases ha

theorem wordBoundary_blames : Blames n NoBlame (den env (.prim wordBoundary)) := blames_of_eq fun c pre s hc o e ho => by
  rw [den_prim] at ho
  obtain ⟨b, hb⟩ := wordBoundary_form ":string:WordBoundary" isWord c hc.le
  unfold wordBoundary at ho
  rw [hb] at ho
  split at ho <;> cases ho

theorem charClass_blames {cc : List Bytes} : Blames n NoBlame (den env (.prim (charClass cc))) := blames_of_eq fun c pre s hc o e ho => by
  rw [den_prim, charClass_eq] at ho
  split at ho <;> cases ho

theorem endS_blames : Blames n NoBlame (den env (.prim endS)) := blames_of_eq fun c pre s hc o e ho => by
  by_cases h : s = []
  · subst h
    obtain ⟨c', h1, _⟩ := endS_hits (env := env) pre c hc
    rw [h1] at ho; cases ho
  · rw [endS_misses h c hc] at ho; cases ho

theorem startP_blames : Blames n NoBlame (den env (.prim startP)) := blames_of_eq fun c pre s hc o e ho => by
  rw [den_prim, startP_eq] at ho
  split at ho <;> cases ho

theorem after_none {Q : Match} {u v : Bytes} {e : Option Err} : ¬ Behind Q NoBlame u v e := fun ⟨_, _, _, _, _, h⟩ => h

private theorem growsFalse : Grows (fun _ _ => False) := fun _ _ _ h => h

theorem white_star : Admits n (fun _ _ => False) (fun _ _ _ => True) (den env (Gram.star [.prim whitespace])) :=
  (star_takes (gs := [.prim whitespace]) growsFalse stopsAt_any (SeqTakes.single (charTerminal_takes C18_whitespace)) fun _ _ _ h => charMatch_ne h).mono
    fun _ _ _ _ => trivial

theorem sp0_blames : Blames n NoBlame (den env (Gram.erased sp0)) := by
  have h : Blames n NoBlame (den env (Gram.star [.prim whitespace])) :=
    (star_blames (gs := [.prim whitespace]) growsFalse (SeqTakes.single (charTerminal_takes C18_whitespace)) (fun _ _ _ h => charMatch_ne h)
      (SeqBlames.single (charTerminal_blames C18_whitespace))).mono fun _ _ _ h => after_none h
  exact erased_blames (erased_takes white_star) (erased_blames white_star h)

theorem operator_blames {cc : List Bytes} {name : String} :
    Blames n NoBlame (den env (.trans (.flatGroup [.prim (charClass cc), Gram.erased sp0]) [.fn (changeClassName name)])) := by
  refine trans_blames (flat_takes (gs := [.prim (charClass cc), Gram.erased sp0])
    (SeqTakes.step (n := n) growsFalse charClass_takes (SeqTakes.single (sp0_takes growsFalse))))
    ((flat_blames (gs := [.prim (charClass cc), Gram.erased sp0]) (.step (X := fun _ _ => False) charClass_takes charClass_blames (.single sp0_blames))).mono
      fun _ _ _ h => h.elim id after_none) fun c w rest l l' e hl ha => ?_
  obtain ⟨w1, b, l1, l2, rfl, rfl, ⟨hw, hx⟩, rfl, hb⟩ := hl
  cases hx with
  | cons h4 h5 h6 =>
    cases h6
    simp [denTr_fn, applyTrs, changeClassName, rewriteHead] at ha

theorem number_blames : Blames n (fun u _ e => ∃ t, TooLarge u t ∧ e = some (.strconv t .range)) (den env numberG) := by
  have hX : Grows (fun _ _ => False) := growsFalse
  refine trans_blames (flat_takes (env := env) (gs := [Extra.integerNumberStr, .prim wordBoundary, Gram.erased sp0])
    (SeqTakes.step (n := n) hX integer_takes (SeqTakes.step hX wordBoundary_takes (SeqTakes.single (sp0_takes hX)))))
    ((flat_blames (gs := [Extra.integerNumberStr, .prim wordBoundary, Gram.erased sp0]) (.step (X := fun _ _ => False) integer_takes integer_blames
      (.step (X := fun _ _ => False) wordBoundary_takes wordBoundary_blames (.single sp0_blames)))).mono fun _ _ _ h => ?_)
      fun c w rest l l' e hl ha => ?_
  · rcases h with h | ⟨_, _, _, _, _, h | h⟩
    · exact h.elim
    · exact h.elim
    · exact (after_none h).elim
  · obtain ⟨w1, w2, l1, l2, rfl, rfl, ⟨sg, d, a, rfl, h2, h3, h4, rfl, hv⟩, w3, b, l3, l4, rfl, rfl, ⟨rfl, rfl⟩, rfl, hb⟩ := hl
    simp only [List.map, denTr_fn, applyTrs, numberTr, List.append_nil, hv, asStr] at ha
    cases hp : parseInt (withoutUnderscores (sg ++ d)) 10 with
    | error e' =>
      rw [hp] at ha
      obtain ⟨rfl, h6⟩ := tooLarge_of h2 h3 h4 hb hp
      cases ha
      exact ⟨_, by simpa using h6, rfl⟩
    | ok i => rw [hp] at ha; cases ha

end

/-! ### Texts that can be completed -/

/-- An operand without signs, and operators and operands behind it. -/
def PlainText (w : Bytes) : Prop := ∃ q q' e s t r, w = s ++ t ∧ Spells .atom false q e s ∧ Tail q q' r t

/-- Operands and operators between. -/
def ChainText (w : Bytes) : Prop := ∃ q q' x s t r, w = s ++ t ∧ Opd false q x s ∧ Tail q q' r t

/-- The text can be completed to a text of a kind. -/
def Opened (K : Bytes → Prop) (u : Bytes) : Prop := ∃ t, K (u ++ t)

/-- A sum. -/
def SumText (w : Bytes) : Prop := ∃ q e, Spells .sum false q e w

def AtomText (w : Bytes) : Prop := ∃ q e, Spells .atom false q e w

theorem blanks_nil : Blanks [] := ⟨[], by simp, rfl⟩

theorem zero_digits : DigitsText [0x30] 0 := ⟨⟨0x30, [], rfl, rfl⟩, rfl, show Numeral 10 [0x30] 0 from .digit (by unfold DigitOf; decide)⟩

theorem zero_atom : Spells .atom false true (.lit 0) [0x30] := .lit (b := []) zero_digits (by decide) blanks_nil

theorem plain_zero : PlainText [0x30] := ⟨_, _, _, [0x30], [], _, rfl, zero_atom, .nil⟩

theorem chain_zero : ChainText [0x30] := ⟨_, _, _, [0x30], [], _, rfl, .sgn (.zero zero_atom), .nil⟩

theorem sum_zero : SumText [0x30] := ⟨_, _, .product (.unary (.atom zero_atom))⟩

theorem ChainText.sum {w : Bytes} (h : ChainText w) : SumText w := by
  obtain ⟨q, q', x, s, t, r, rfl, h1, h2⟩ := h
  obtain ⟨e, _, h3⟩ := chain_spells h1 h2
  exact ⟨_, _, h3⟩

theorem PlainText.chain {w : Bytes} (h : PlainText w) : ChainText w := by
  obtain ⟨q, q', e, s, t, r, rfl, h1, h2⟩ := h
  exact ⟨_, _, _, _, _, _, rfl, .sgn (.zero h1), h2⟩

theorem AtomText.plain {w : Bytes} (h : AtomText w) : PlainText w := by
  obtain ⟨q, e, h⟩ := h
  exact ⟨_, _, _, w, [], _, by simp, h, .nil⟩

/-- Two chains and an operator between. -/
theorem ChainText.bin {w w' b : Bytes} {op : BinOp} (h : ChainText w) (hb : Blanks b) (h' : ChainText w') : ChainText (w ++ op.char :: (b ++ w')) := by
  obtain ⟨q, q', x, s, t, r, rfl, h1, h2⟩ := h
  obtain ⟨p, p', x', s', t', r', rfl, h3, h4⟩ := h'
  have h5 : Opd q' p x' s' := by cases h3 with | sgn h => exact .sgn h
  exact ⟨_, _, _, s, _, _, by simp, h1, h2.append (.cons (op := op) hb h5 h4)⟩

theorem PlainText.bin {w w' b : Bytes} {op : BinOp} (h : PlainText w) (hb : Blanks b) (h' : ChainText w') : PlainText (w ++ op.char :: (b ++ w')) := by
  obtain ⟨q, q', e, s, t, r, rfl, h1, h2⟩ := h
  obtain ⟨p, p', x', s', t', r', rfl, h3, h4⟩ := h'
  have h5 : Opd q' p x' s' := by cases h3 with | sgn h => exact .sgn h
  exact ⟨_, _, _, s, _, _, by simp, h1, h2.append (.cons (op := op) hb h5 h4)⟩

/-- Minus signs. -/
def SignMatch : Match := fun w _ l => ∃ a b, l = [a] ∧ OpAst "UnaryOperator" 0x2d a ∧ w = 0x2d :: b ∧ Blanks b

theorem signs_chainText {m : Nat} {w w' rest : Bytes} {l : List Ast} (h : Repeated SignMatch m w rest l) (h' : PlainText w') : ChainText (w ++ w') := by
  obtain ⟨q, q', e, s, t, r, rfl, h1, h2⟩ := h'
  have : Sgn m q e (w ++ s) := by
    induction h with
    | zero => exact .zero h1
    | succ h _ ih =>
      obtain ⟨a, b, rfl, ha, rfl, hb⟩ := h
      simpa using Sgn.succ hb ih
  exact ⟨_, _, _, w ++ s, t, _, by simp, .sgn this, h2⟩

theorem signs_end {m : Nat} {w rest : Bytes} {l : List Ast} (h : Repeated SignMatch m w rest l) : w = [] ∨ ∃ a b, w = a ++ [0x2d] ++ b ∧ Blanks b := by
  induction h with
  | zero => exact .inl rfl
  | succ h _ ih =>
    obtain ⟨a, b, _, _, rfl, hb⟩ := h
    rcases ih with rfl | ⟨a', b', rfl, hb'⟩
    · exact .inr ⟨[], b, by simp, hb⟩
    · exact .inr ⟨0x2d :: b ++ a', b', by simp, hb'⟩

theorem atom_number {w : Bytes} {v : Int64} (h : NumberMatch w v) : AtomText w ∨ ∃ w', w = 0x2d :: w' := by
  obtain ⟨sg, d, b, k, i, rfl, h1, h2, h3⟩ := h
  cases h1 with
  | none h => exact .inl ⟨_, _, .lit h2 h h3⟩
  | plus h => exact .inl ⟨_, _, by simpa using Spells.plus (p := false) h2 h h3⟩
  | minus h => exact .inr ⟨_, rfl⟩

/-! ### Expressions -/

section
variable {D : Type} {tr : Tr} {Is : Ast → Tok D → Prop} {num : Int64 → D} {neg : D → D} {bin : BinOp → D → D → Option D}
  {n : Nat} {X : Bytes → Panic → Prop}

theorem plainMatch_text {w : Bytes} {l : List Ast} (h : PlainMatch Is num neg bin w l) : PlainText w := by
  obtain ⟨q, q', e, s, t, d, l₁, l₂, rfl, _, h1, _, _, r, ds, h2, _⟩ := h
  exact ⟨q, q', e, s, t, r, rfl, h1, h2⟩

theorem chainMatch_text {w : Bytes} {l : List Ast} (h : ChainMatch Is num neg bin w l) : ChainText w := by
  obtain ⟨q, q', x, s, t, d, l₁, l₂, rfl, _, h1, _, _, r, ds, h2, _⟩ := h
  exact ⟨q, q', x, s, t, r, rfl, h1, h2⟩

/-- A number of `simpleExpression` behind an operator. -/
theorem plain_tail (hR : RulesFor tr Is num neg bin) {m : Nat} {w rest : Bytes} {l : List Ast} (h : Repeated (Then
      (fun w _ l => ∃ a op b, l = [a] ∧ OpAst "BinaryOperator" (BinOp.char op) a ∧ w = op.char :: b ∧ Blanks b)
      (fun w _ l => ∃ a v, NumberMatch w v ∧ l = [a] ∧ NumberAst v a)) m w rest l) : ∃ r, Tail true true r w := by
  induction h with
  | zero => exact ⟨_, .nil⟩
  | succ h _ ih =>
    obtain ⟨w1, w2, l1, l2, rfl, rfl, ⟨a, op, b, rfl, h1, rfl, h2⟩, a', v', h3, rfl, h4⟩ := h
    obtain ⟨x, h5, _⟩ := number_opd hR h3
    obtain ⟨r, ih⟩ := ih
    exact ⟨_, by simpa using Tail.cons (op := op) h2 h5 ih⟩

theorem simple_blames (hR : RulesFor tr Is num neg bin) :
    Blames n (fun u _ e => Cause (fun a => Opened PlainText a ∨ ∃ w', a = 0x2d :: w') false u e) (den (envOf tr) simpleExpression) := by
  have hX : Grows (fun _ _ => False) := growsFalse
  have hs := SeqTakes.step (n := n) hX (binary_takes (env := envOf tr) hX) (SeqTakes.single (number_takes (env := envOf tr) hX))
  have hk : ∀ w rest l, Then (fun w _ l => ∃ a op b, l = [a] ∧ OpAst "BinaryOperator" (BinOp.char op) a ∧ w = op.char :: b ∧ Blanks b)
      (fun w _ l => ∃ a v, NumberMatch w v ∧ l = [a] ∧ NumberAst v a) w rest l → w ≠ [] := fun w rest l h => by
    obtain ⟨w1, w2, l1, l2, rfl, _, ⟨a, op, b, _, _, rfl, _⟩, _⟩ := h
    simp
  have hb := star_blames (gs := [binaryOperator, numberG]) hX hs hk
    (SeqBlames.step (binary_takes hX) operator_blames (SeqBlames.single number_blames))
  refine (flat_blames (gs := [numberG, Gram.star [binaryOperator, numberG]]) (SeqBlames.step (number_takes hX) number_blames (SeqBlames.single hb))).mono
    fun u v e h => ?_
  rcases h with ⟨t, h, rfl⟩ | ⟨w, _, l, rfl, ⟨a, v, hn, _⟩, w2, _, l2, rfl, ⟨m, hm⟩, h | ⟨_, u', _, rfl, ⟨_, op, b, _, _, rfl, hb⟩, t, h, rfl⟩⟩
  · exact .range (a := []) (.inl ⟨_, plain_zero⟩) h
  · exact h.elim
  · have : w ++ (w2 ++ (op.char :: b ++ u')) = (w ++ (w2 ++ (op.char :: b))) ++ u' := by simp
    rw [this]
    refine .range ?_ h
    rcases atom_number hn with ⟨q, e, hw⟩ | ⟨w', rfl⟩
    · obtain ⟨r, ht⟩ := plain_tail hR hm
      have hq : q = true := by
        obtain ⟨sg, d, b, k, i, rfl, h1, h2, h3⟩ := hn
        cases q with
        | true => rfl
        | false =>
          generalize hx : sg ++ d ++ b = x at hw
          obtain ⟨c, d', rfl, hc⟩ := h2.start
          cases hw with
          | paren _ _ _ =>
            cases h1 with
            | none => simp at hx; rw [hx.1] at hc; exact absurd hc (by decide)
            | plus => simp at hx
            | minus => simp at hx
      subst hq
      refine .inl ⟨[0x30], ?_⟩
      have : PlainText (w ++ w2) := ⟨_, _, _, w, w2, _, rfl, hw, ht⟩
      simpa using this.bin (op := op) hb chain_zero
    · exact .inr ⟨_, rfl⟩

/-- Where no minus sign stands. -/
theorem plain_blames (hR : RulesFor tr Is num neg bin) :
    Blames n (fun u v e => (∀ s', u ++ v ≠ 0x2d :: s') → Cause (Opened PlainText) false u e) (den (envOf tr) simpleExpression) :=
  (simple_blames hR).mono fun u v e h hE => h.mono (fun a t hu hV => by
    rcases hV with hV | ⟨w', rfl⟩
    · exact hV
    · subst hu; exact absurd rfl (hE _)) id

theorem inner_blames (hR : RulesFor tr Is num neg bin) (hX : Grows X)
    (hG : Admits n X (fun w _ l => GroupMatch Is num neg bin w l) (den (envOf tr) (.indirect groupedName)))
    (hGb : Blames n (fun u _ e => Cause (Opened AtomText) false u e) (den (envOf tr) (.indirect groupedName))) :
    Blames n (fun u _ e => Cause (Opened ChainText) true u e) (den (envOf tr) expressionInner) := by
  have hu : Admits n X (fun w rest l => (∀ s', rest ≠ 0x2d :: s') ∧ ∃ m, Repeated SignMatch m w rest l) (den (envOf tr) (Gram.star [unaryOperator])) :=
    star_takes (gs := [unaryOperator]) hX unary_stops (SeqTakes.single (unary_takes hX)) fun w rest l h => by
      obtain ⟨a, b, _, _, rfl, _⟩ := h
      simp
  have hub : Blames n NoBlame (den (envOf tr) (Gram.star [unaryOperator])) :=
    (star_blames (gs := [unaryOperator]) hX (SeqTakes.single (unary_takes hX)) (fun w rest l h => by
      obtain ⟨a, b, _, _, rfl, _⟩ := h
      simp) (SeqBlames.single operator_blames)).mono fun _ _ _ h => after_none h
  have hf : ∀ gs, (∀ g ∈ gs, g = .indirect groupedName ∨ g = .prim (errorP "Value required")) →
      Admits n X (fun w _ l => PlainText w ∨ ∃ w', w = 0x2d :: w') (den (envOf tr) (.first (simpleExpression :: gs))) := fun gs hgs =>
    first_takes (by simp) fun g hg => by
      rcases List.mem_cons.1 hg with rfl | hg
      · exact (simple_takes hR hX).mono fun w rest l h => h.imp_left plainMatch_text
      · rcases hgs g hg with rfl | rfl
        · refine hG.mono fun w rest l ⟨e, d, h1, h2, h3⟩ => .inl (AtomText.plain ⟨_, _, h1⟩)
        · exact errorP_takes _
  have hgb : Blames n (fun u v e => (∀ s', u ++ v ≠ 0x2d :: s') → Cause (Opened PlainText) false u e) (den (envOf tr) (.indirect groupedName)) :=
    hGb.mono fun u v e h _ => h.mono (fun a t _ ⟨t', h⟩ => ⟨t', h.plain⟩) id
  have hfb : Blames n (fun u v e => (∀ s', u ++ v ≠ 0x2d :: s') → Cause (Opened PlainText) false u e)
      (den (envOf tr) (.first [simpleExpression, .indirect groupedName])) :=
    first_blames fun g hg => by
      simp only [List.mem_cons, List.not_mem_nil, or_false] at hg
      rcases hg with rfl | rfl
      · exact plain_blames hR
      · exact hgb
  have hvb : Blames n (fun u v e => (∀ s', u ++ v ≠ 0x2d :: s') → Cause (Opened PlainText) false u e ∨ u = [] ∧ e = some (.msg "Value required"))
      (den (envOf tr) (.first [simpleExpression, .indirect groupedName, .prim (errorP "Value required")])) :=
    first_blames fun g hg => by
      simp only [List.mem_cons, List.not_mem_nil, or_false] at hg
      rcases hg with rfl | rfl | rfl
      · exact (plain_blames hR).mono fun u v e h hE => .inl (h hE)
      · exact hgb.mono fun u v e h hE => .inl (h hE)
      · exact (errorP_blames _).mono fun u v e h _ => .inr h
  have h1 : Admits n X (fun w _ l => ChainText w)
      (den (envOf tr) (.flatGroup [Gram.star [unaryOperator], .first [simpleExpression, .indirect groupedName]])) := by
    refine (flat_takes (gs := [Gram.star [unaryOperator], .first [simpleExpression, .indirect groupedName]])
      (SeqTakes.step hX hu (SeqTakes.single (hf [.indirect groupedName] (by simp))))).mono fun w rest l hl => ?_
    obtain ⟨w1, w2, l1, l2, rfl, rfl, ⟨hE, m, hm⟩, hp | ⟨w', rfl⟩⟩ := hl
    · exact signs_chainText hm hp
    · exact absurd rfl (hE _)
  have h1b : Blames n (fun u _ e => Cause (Opened ChainText) false u e)
      (den (envOf tr) (.flatGroup [Gram.star [unaryOperator], .first [simpleExpression, .indirect groupedName]])) := by
    refine (flat_blames (gs := [Gram.star [unaryOperator], .first [simpleExpression, .indirect groupedName]])
      (SeqBlames.step hu hub (SeqBlames.single hfb))).mono fun u v e h => ?_
    rcases h with h | ⟨w, u', l, rfl, ⟨hE, m, hm⟩, h⟩
    · exact h.elim
    · exact (h hE).behind fun a t _ ⟨t', ht⟩ => ⟨t', by rw [List.append_assoc]; exact signs_chainText hm ht⟩
  have h2 : Admits n X (fun w _ l => ChainText w) (den (envOf tr) rightOperand) :=
    first_takes (by simp) fun g hg => by
      simp only [List.mem_cons, List.not_mem_nil, or_false] at hg
      rcases hg with rfl | rfl
      · exact h1
      · exact errorP_takes _
  have h2b : Blames n (fun u _ e => Cause (Opened ChainText) false u e ∨ u = [] ∧ e = some (.msg "Error in the expression after the binary operator"))
      (den (envOf tr) rightOperand) :=
    first_blames fun g hg => by
      simp only [List.mem_cons, List.not_mem_nil, or_false] at hg
      rcases hg with rfl | rfl
      · exact h1b.mono fun _ _ _ h => .inl h
      · exact (errorP_blames _).mono fun _ _ _ h => .inr h
  have h3b := star_blames (gs := [binaryOperator, rightOperand]) hX (SeqTakes.step hX (binary_takes hX) (SeqTakes.single h2)) (fun w rest l h => by
      obtain ⟨w1, w2, l1, l2, rfl, _, ⟨a, op, b, _, _, rfl, _⟩, _⟩ := h
      simp) (SeqBlames.step (binary_takes hX) operator_blames (SeqBlames.single h2b))
  have h4 := flat_blames (env := envOf tr) (gs := [Gram.star [unaryOperator], .first [simpleExpression, .indirect groupedName, .prim (errorP "Value required")],
      Gram.star [binaryOperator, rightOperand]])
    (SeqBlames.step hu hub (SeqBlames.step (hf [.indirect groupedName, .prim (errorP "Value required")] (by simp)) hvb (SeqBlames.single h3b)))
  refine h4.mono fun u v e h => ?_
  rcases h with h | ⟨w, u', l, rfl, ⟨hE, m, hm⟩, h | ⟨w2, u2, l2, rfl, hp, w3, u3, l3, rfl, ⟨m', hm'⟩, h | ⟨w4, u4, l4, rfl, ⟨_, op, b, _, _, rfl, hb⟩, h⟩⟩⟩
  · exact h.elim
  · rcases h hE with h | ⟨rfl, rfl⟩
    · exact h.behind fun a t _ ⟨t', ht⟩ => ⟨t', by rw [List.append_assoc]; exact signs_chainText hm ht⟩
    · have hv : Opened ChainText w := ⟨_, signs_chainText hm plain_zero⟩
      rw [List.append_nil]
      rcases signs_end hm with rfl | ⟨a, b, rfl, hb⟩
      · exact .value (a := []) (b := []) hv blanks_nil (.inl ⟨rfl, rfl⟩)
      · exact .value hv hb (.inr ⟨a, .inr rfl⟩)
  · exact h.elim
  · have hp : PlainText w2 := hp.resolve_right fun ⟨w', e⟩ => by subst e; exact hE _ (by simp; rfl)
    have hc : ChainText (w ++ w2 ++ w3) := by
      have := signs_chainText hm hp
      generalize w ++ w2 = x at this
      generalize op.char :: b ++ u4 ++ v = rest at hm'
      clear hp hm hE h h4 h3b h2b h2 h1b h1 hvb hfb hgb hf hub hu hG hGb
      induction hm' generalizing x with
      | zero => simpa using this
      | succ h _ ih =>
        obtain ⟨v1, v2, k1, k2, rfl, rfl, ⟨a, op, b, rfl, ha, rfl, hb⟩, h⟩ := h
        have := ih _ (this.bin (op := op) hb h)
        simpa using this
    rcases h with h | ⟨rfl, rfl⟩
    · have := h.behind (st := true) (V' := Opened ChainText) (w := w ++ w2 ++ w3 ++ op.char :: b) fun a t _ ⟨t', ht⟩ => ⟨t', by
        simpa using hc.bin (op := op) hb ht⟩
      simpa using this
    · have := Cause.operand (st := true) (V := Opened ChainText) (a := w ++ w2 ++ w3) (op := op) (b := b) ⟨[0x30], by
        simpa using hc.bin (op := op) hb chain_zero⟩ hb
      simpa using this

theorem expression_blames (hR : RulesFor tr Is num neg bin) (hX : Grows X)
    (hG : Admits n X (fun w _ l => GroupMatch Is num neg bin w l) (den (envOf tr) (.indirect groupedName)))
    (hGb : Blames n (fun u _ e => Cause (Opened AtomText) false u e) (den (envOf tr) (.indirect groupedName))) :
    Blames n (fun u _ e => Cause (Opened SumText) true u e) (den (envOf tr) (expressionOf tr)) :=
  trans_blames (inner_takes hR hX hG) ((inner_blames hR hX hG hGb).mono fun u v e h => h.mono (fun a t _ ⟨t', ht⟩ => ⟨t', ht.sum⟩) id)
    fun c w rest l l' e hl ha => by
      obtain ⟨q, e, x, r, h1, h2, h3⟩ := chainMatch_value hl
      obtain ⟨h4, h5⟩ := hR.gives c l x r h2
      cases hv : chainValue neg bin x r with
      | none => simp only [List.map, applyTrs, h5 hv] at ha; cases ha
      | some v =>
        obtain ⟨y, h6, h7⟩ := h4 v hv
        simp only [List.map, applyTrs, h7] at ha; cases ha

theorem parenthesis_blames (v : Bytes) : Blames n NoBlame (den (envOf tr) (Gram.erased (.prim (charClass [v])))) :=
  erased_blames (X := fun _ _ => False) charClass_takes charClass_blames

theorem parenthesis_takes (v : Bytes) : Admits n X (fun w _ l => w = v ∧ l = []) (den (envOf tr) (Gram.erased (.prim (charClass [v])))) :=
  (erased_takes charClass_takes).mono fun w rest l h => by
    obtain ⟨h1, l', h2, _⟩ := h
    exact ⟨by simpa using h2, h1⟩

theorem group_opened {b a : Bytes} (hb : Blanks b) (h : Opened SumText a) : Opened AtomText (0x28 :: (b ++ a)) := by
  obtain ⟨t, q, e, h⟩ := h
  exact ⟨t ++ [0x29], false, e, by simpa using Spells.paren (p := false) (b₂ := []) hb h blanks_nil⟩

theorem grouped_blames (hR : RulesFor tr Is num neg bin) (hX : Grows X)
    (hV : ∀ q e w rest, Spells .sum false q e w → e.fold (litOf num) neg bin = none → X (w ++ rest) .divZero) (n : Nat) :
    Blames n (fun u _ e => Cause (Opened AtomText) false u e) (den (envOf tr) (.indirect groupedName)) := by
  induction n with
  | zero =>
    refine indirect_blames (i := groupedName) ?_
    refine (flat_blames (gs := [Gram.erased (.prim (charClass [b! "("])), .first [groupedInner tr, .prim (errorP "Error in grouped expression")]])
      (SeqBlames.cons (X := X) (C := NoBlame) (parenthesis_takes _) (parenthesis_blames _) fun w rest l h hlen => ?_)).mono fun u v e h => ?_
    · rw [h.1] at hlen; simp at hlen
    · exact (h.elim id after_none).elim
  | succ n ih =>
    refine indirect_blames (i := groupedName) ?_
    have hG := grouped_takes hR hX hV n
    have h1 : Blames n (fun u _ e => Cause (Opened AtomText) false (0x28 :: u) e) (den (envOf tr) (groupedInner tr)) := by
      refine (flat_blames (gs := [Gram.erased sp0, expressionOf tr, Gram.erased (.prim (charClass [b! ")"])), Gram.erased sp0])
        (SeqBlames.step (sp0_takes hX) sp0_blames (SeqBlames.step (expression_takes_of hR hX hV hG) (expression_blames hR hX hG ih)
          (SeqBlames.step (X := X) (parenthesis_takes _) (parenthesis_blames _) (SeqBlames.single sp0_blames))))).mono fun u v e h => ?_
      rcases h with h | ⟨b, u', l, rfl, ⟨rfl, hb⟩, h | ⟨_, _, _, _, _, h | h⟩⟩
      · exact h.elim
      · cases h with
        | value h1 h2 h3 =>
          rename_i a b'
          rcases h3 with ⟨_, rfl⟩ | ⟨a', h3⟩
          · have := Cause.value (V := Opened AtomText) (st := false) (a := [0x28]) (b := b ++ b') (by simpa using group_opened hb h1) (blanks_append hb h2) (.inr ⟨[], .inl rfl⟩)
            simpa using this
          · have := Cause.value (V := Opened AtomText) (st := false) (a := 0x28 :: (b ++ a)) (b := b') (by simpa using group_opened hb h1) h2
              (.inr ⟨0x28 :: (b ++ a'), by rcases h3 with rfl | rfl <;> simp⟩)
            simpa using this
        | operand h1 h2 =>
          rename_i a b' op
          have := Cause.operand (V := Opened AtomText) (st := false) (a := 0x28 :: (b ++ a)) (b := b') (op := op) (by simpa using group_opened hb h1) h2
          simpa using this
        | group h1 =>
          rename_i a
          have := Cause.group (V := Opened AtomText) (st := false) (a := 0x28 :: (b ++ a)) (by simpa using group_opened hb h1)
          simpa using this
        | range h1 h2 =>
          rename_i a w t
          have := Cause.range (V := Opened AtomText) (st := false) (a := 0x28 :: (b ++ a)) (by simpa using group_opened hb h1) h2
          simpa using this
      · exact h.elim
      · exact (after_none h).elim
    have h2 : Blames n (fun u _ e => Cause (Opened AtomText) false (0x28 :: u) e)
        (den (envOf tr) (.first [groupedInner tr, .prim (errorP "Error in grouped expression")])) :=
      first_blames fun g hg => by
        simp only [List.mem_cons, List.not_mem_nil, or_false] at hg
        rcases hg with rfl | rfl
        · exact h1
        · refine (errorP_blames _).mono fun u v e ⟨h1, h2⟩ => ?_
          subst h1 h2
          exact .group (a := []) (group_opened blanks_nil ⟨_, sum_zero⟩)
    refine (flat_blames (gs := [Gram.erased (.prim (charClass [b! "("])), .first [groupedInner tr, .prim (errorP "Error in grouped expression")]])
      (SeqBlames.cons (X := X) (parenthesis_takes _) (parenthesis_blames _) fun w rest l h hlen =>
        SeqBlames.single (h2.weak (by rw [h.1] at hlen; simp at hlen; omega)))).mono fun u v e h => ?_
    rcases h with h | ⟨w, u', l, rfl, ⟨rfl, _⟩, h⟩
    · exact h.elim
    · exact h

theorem program_blames (hR : RulesFor tr Is num neg bin) (hX : Grows X)
    (hV : ∀ q e w rest, Spells .sum false q e w → e.fold (litOf num) neg bin = none → X (w ++ rest) .divZero) (n : Nat) :
    Blames n (fun u _ e => ∃ e', e = some e' ∧ Blamed e' u) (den (envOf tr) (programOf tr)) := by
  have hG := grouped_takes hR hX hV n
  refine (flat_blames (gs := [.prim startP, Gram.erased sp0, expressionOf tr, .prim endS])
    (SeqBlames.step (X := X) startP_takes startP_blames (SeqBlames.step (sp0_takes hX) sp0_blames (SeqBlames.step (expression_takes_of hR hX hV hG)
      (expression_blames hR hX hG (grouped_blames hR hX hV n)) (SeqBlames.single endS_blames))))).mono fun u v e h => ?_
  rcases h with h | ⟨_, _, _, rfl, ⟨rfl, _⟩, h | ⟨b, u', l, rfl, ⟨_, hb⟩, h | h⟩⟩
  · exact h.elim
  · exact h.elim
  · have hV : ∀ a, Opened SumText a → Viable (b ++ a) := fun a ⟨t, q, e, h⟩ => ⟨t, e, b, a ++ t, q, by simp, hb, h⟩
    rw [List.nil_append]
    cases h with
    | value h1 h2 h3 =>
      rename_i a b'
      rcases h3 with ⟨_, rfl⟩ | ⟨a', h3⟩
      · exact ⟨_, rfl, .value (a := []) (hV _ h1) (blanks_append hb h2) (.inl rfl)⟩
      · refine ⟨_, rfl, ?_⟩
        rw [← List.append_assoc]
        exact .value (by simpa using hV _ h1) h2 (.inr ⟨b ++ a', by rcases h3 with rfl | rfl <;> simp⟩)
    | operand h1 h2 =>
      refine ⟨_, rfl, ?_⟩
      rw [← List.append_assoc]
      exact .operand (by simpa using hV _ h1) h2
    | group h1 =>
      refine ⟨_, rfl, ?_⟩
      rw [← List.append_assoc]
      exact .group (by simpa using hV _ h1)
    | range h1 h2 =>
      refine ⟨_, rfl, ?_⟩
      rw [← List.append_assoc]
      exact .range (by simpa using hV _ h1) h2
  · exact (after_none h).elim

/-! ### Texts without error -/

theorem inner_stops (hR : RulesFor tr Is num neg bin) (hX : Grows X)
    (hG : ∀ n, Admits n X (fun w _ l => GroupMatch Is num neg bin w l) (den (envOf tr) (.indirect groupedName))) :
    StopsAt [den (envOf tr) expressionInner] (fun _ => False) := by
  have hu : ∀ n, SeqTakes n X SignMatch ([unaryOperator].map (den (envOf tr))) := fun n => SeqTakes.single (unary_takes hX)
  have hk : ∀ w rest l, SignMatch w rest l → w ≠ [] := fun w rest l h => by
    obtain ⟨a, b, _, _, rfl, _⟩ := h
    simp
  have hr : ∀ n, Admits n X (fun _ _ _ => True) (den (envOf tr) (Gram.star [unaryOperator])) := fun n =>
    (star_takes hX stopsAt_any (hu n) hk).mono fun _ _ _ _ => trivial
  have ho : ∀ n (gs : List Gram), (∀ g ∈ gs, ∃ m, g = .prim (errorP m)) →
      Admits n X (fun _ _ _ => True) (den (envOf tr) (.first (simpleExpression :: .indirect groupedName :: gs))) := fun n gs hgs =>
    first_takes (by simp) fun g hg => by
      simp only [List.mem_cons] at hg
      rcases hg with rfl | rfl | hg
      · exact (simple_takes hR hX).mono fun _ _ _ _ => trivial
      · exact (hG n).mono fun _ _ _ _ => trivial
      · obtain ⟨m, rfl⟩ := hgs g hg
        exact errorP_takes _
  have hs : ∀ n, SeqTakes n X (Then (fun w _ l => ∃ a op b, l = [a] ∧ OpAst "BinaryOperator" (BinOp.char op) a ∧ w = op.char :: b ∧ Blanks b) fun _ _ _ => True)
      ([binaryOperator, rightOperand].map (den (envOf tr))) := fun n =>
    SeqTakes.step hX (binary_takes hX) (SeqTakes.single (first_takes (by simp) fun g hg => by
      simp only [List.mem_cons, List.not_mem_nil, or_false] at hg
      rcases hg with rfl | rfl
      · exact (flat_takes (gs := [Gram.star [unaryOperator], .first [simpleExpression, .indirect groupedName]])
          (SeqTakes.step hX (hr n) (SeqTakes.single (ho n [] (by simp))))).mono fun _ _ _ _ => trivial
      · exact errorP_takes _))
  have h := flat_stops (env := envOf tr) (gs := [Gram.star [unaryOperator], .first [simpleExpression, .indirect groupedName, .prim (errorP "Value required")],
      Gram.star [binaryOperator, rightOperand]])
    (.cons (star_stops hX hu hk) hr (.cons (first_stops (by simp) (errorP_stops "Value required"))
      (fun n => ho n [.prim (errorP "Value required")] fun g hg => ⟨_, by simpa using hg⟩) (star_stops hX hs fun w rest l h => by
        obtain ⟨w1, w2, l1, l2, rfl, _, ⟨a, op, b, _, _, rfl, _⟩, _⟩ := h
        simp)))
  refine h.mono fun s h => ?_
  rcases h with h | ⟨_, _, _, _, _, h | ⟨_, _, _, _, _, h⟩⟩ <;> exact h

/-- The program does not match at the start of a text without error only if something stands behind an expression. -/
theorem program_unmatched (hR : RulesFor tr Is num neg bin) {c : Ctx} {s : Bytes} (hc : At c [] s)
    (hu : Outcome.of (den (envOf tr) (programOf tr) c) = .unmatched) : ∃ u v e, s = u ++ v ∧ v ≠ [] ∧ Spelled u e := by
  have hX : Grows (fun _ _ => True) := fun _ _ _ _ => trivial
  have hG := fun n => grouped_takes (X := fun _ _ => True) hR hX (fun _ _ _ _ _ _ => trivial) n
  have hs : StopsAt ([Gram.erased sp0, expressionOf tr, .prim endS].map (den (envOf tr))) (fun s => ∃ u v e, s = u ++ v ∧ v ≠ [] ∧ Spelled u e) := by
    have hw : StopsAt [den (envOf tr) (Gram.erased sp0)] (fun _ => False) :=
      trans_stops (trans_stops (star_stops (gs := [.prim whitespace]) hX (fun _ => SeqTakes.single (charTerminal_takes C18_whitespace))
        fun _ _ _ h => charMatch_ne h))
    refine StopsAt.mono (.cons hw (fun n => sp0_takes hX) (.cons (trans_stops (inner_stops hR hX hG))
      (fun n => expression_takes_of hR hX (fun _ _ _ _ _ _ => trivial) (hG n)) endS_stops)) fun s h => ?_
    rcases h with h | ⟨b, _, _, rfl, ⟨_, hb⟩, h | ⟨w, v, _, rfl, ⟨q, e, d, h1, _⟩, h⟩⟩
    · exact h.elim
    · exact h.elim
    · exact ⟨b ++ w, v, e, by simp, h, b, w, q, rfl, hb, h1⟩
  obtain ⟨r, hr⟩ := Seq.total ([Gram.prim startP, Gram.erased sp0, expressionOf tr, .prim endS].map (den (envOf tr))) (enter ":base:FlatGroup" c)
  unfold programOf at hu
  rw [den_flatGroup, flatGroup_of hr] at hu
  cases r <;> simp [Outcome.onMatch] at hu
  have hc' := hc.enter ":base:FlatGroup"
  cases hr with
  | stop h _ =>
    rw [den_prim, startP_eq, if_pos (by simpa using hc'.pos)] at h
    cases h
  | step h h' =>
    have := startP_takes (env := envOf tr) (X := fun _ _ => False) (n := s.length) _ _ _ hc' (Nat.le_refl _)
    rw [h] at this
    obtain ⟨w, rest, rfl, hr⟩ := this
    obtain ⟨l, _, rfl, _⟩ := hr.stack
    exact hs _ _ _ hr.at_ h'

end
end Takenoco
