import Verif.Lemmas.Exact
import Verif.Lemmas.FormulaText
/-
What the grammar of the formula and torpn examples can match.
-/
namespace Takenoco
open Spec Formula

/-! ### Chains are spelled expressions -/

theorem atom_any {p p' q : Bool} {e : Expr} {s : Bytes} (h : Spells .atom p q e s) : Spells .atom p' q e s := by
  cases h with
  | lit h1 h2 h3 => exact .lit h1 h2 h3
  | plus h1 h2 h3 => exact .plus h1 h2 h3
  | paren h1 h2 h3 => exact .paren h1 h2 h3

theorem sgn_spells {k : Nat} {q : Bool} {e : Expr} {s : Bytes} (h : Sgn k q e s) (p : Bool) : Spells .unary p q (applySigns Expr.neg k e) s := by
  induction h generalizing p with
  | zero h => exact .atom (atom_any h)
  | succ hb _ ih => exact .neg hb (ih false)

theorem opd_spells {p q : Bool} {x : Signed Expr} {s : Bytes} (h : Opd p q x s) : Spells .unary p q (applySigns Expr.neg x.1 x.2) s := by
  cases h with
  | sgn h => exact sgn_spells h p
  | min h1 h2 => exact .min h1 h2

theorem tail_any {p q : Bool} {r : List (BinOp × Signed Expr)} {t : Bytes} (h : Tail false q r t) : ∃ q', Tail p q' r t := by
  cases h with
  | nil => exact ⟨_, .nil⟩
  | cons hb ho ht =>
    cases ho with
    | sgn h => exact ⟨_, .cons hb (.sgn h) ht⟩

/-- A chain behind a sum, an operator and a product. -/
theorem tail_spells {m q : Bool} {r : List (BinOp × Signed Expr)} {t : Bytes} (h : Tail m q r t) : ∀ {p m₀ : Bool} {L e : Expr} {sL b s : Bytes} {op : BinOp},
    op.tight = false → Spells .sum p m₀ L sL → Blanks b → Spells .product m₀ m e s →
    ∃ z, products binE e (applied r) = some z ∧ ∃ v, fromLeft binE (.bin op L z.1) z.2 = some v ∧ Spells .sum p q v (sL ++ op.char :: (b ++ (s ++ t))) := by
  induction h with
  | nil =>
    intro p m₀ L e sL b s op hop hL hb he
    exact ⟨_, rfl, _, rfl, by simpa using Spells.add hop hL hb he⟩
  | @cons m m₁ q op' x b' s' t' r' hb' ho ht ih =>
    intro p m₀ L e sL b s op hop hL hb he
    cases hop' : op'.tight with
    | true =>
      obtain ⟨z, h1, v, h2, h3⟩ := ih hop hL hb (.mul hop' he hb' (opd_spells ho))
      refine ⟨z, ?_, v, h2, by simpa using h3⟩
      simp only [applied, List.map_cons, products, hop', if_true]
      exact h1
    | false =>
      obtain ⟨z, h1, v, h2, h3⟩ := ih hop' (.add hop hL hb he) hb' (.unary (opd_spells ho))
      refine ⟨(e, (op', z.1) :: z.2), ?_, v, ?_, by simpa using h3⟩
      · simp only [applied, List.map_cons, products, hop', Bool.false_eq_true, if_false]
        rw [show products binE _ (List.map _ r') = some z from h1]; rfl
      · simpa [fromLeft] using h2

/-- A chain behind a product. -/
theorem tail_spells_first {m q : Bool} {r : List (BinOp × Signed Expr)} {t : Bytes} (h : Tail m q r t) : ∀ {p : Bool} {e : Expr} {s : Bytes},
    Spells .product p m e s →
    ∃ z, products binE e (applied r) = some z ∧ ∃ v, fromLeft binE z.1 z.2 = some v ∧ Spells .sum p q v (s ++ t) := by
  induction h with
  | nil =>
    intro p e s he
    exact ⟨_, rfl, _, rfl, by simpa using Spells.product he⟩
  | @cons m m₁ q op' x b' s' t' r' hb' ho ht ih =>
    intro p e s he
    cases hop' : op'.tight with
    | true =>
      obtain ⟨z, h1, v, h2, h3⟩ := ih (.mul hop' he hb' (opd_spells ho))
      refine ⟨z, ?_, v, h2, by simpa using h3⟩
      simp only [applied, List.map_cons, products, hop', if_true]
      exact h1
    | false =>
      obtain ⟨z, h1, v, h2, h3⟩ := tail_spells ht hop' (.product he) hb' (.unary (opd_spells ho))
      refine ⟨(e, (op', z.1) :: z.2), ?_, v, ?_, by simpa using h3⟩
      · simp only [applied, List.map_cons, products, hop', Bool.false_eq_true, if_false]
        rw [show products binE _ (List.map _ r') = some z from h1]; rfl
      · simpa [fromLeft] using h2

theorem chain_spells {p m q : Bool} {x : Signed Expr} {r : List (BinOp × Signed Expr)} {s t : Bytes} (h : Opd p m x s) (ht : Tail m q r t) :
    ∃ e, chainValue Expr.neg binE x r = some e ∧ Spells .sum p q e (s ++ t) := by
  obtain ⟨z, h1, v, h2, h3⟩ := tail_spells_first ht (.unary (opd_spells h))
  refine ⟨v, ?_, h3⟩
  unfold chainValue
  rw [show products binE _ (List.map _ r) = some z from h1]; exact h2

/-! ### Tokens -/

section
variable {env : Env} {n : Nat} {X : Bytes → Panic → Prop}

theorem white_char {w rest : Bytes} {ch : Char} (hw : White ch) (h : NextChar (w ++ rest) ch w.length) : w = utf8 ch := by
  generalize hs : w ++ rest = s at h
  generalize hn : w.length = k at h
  cases h with
  | char => exact (List.append_inj hs hn).1
  | bad =>
    unfold White at hw
    exact absurd hw (by decide)

theorem blanks_append {a b : Bytes} (ha : Blanks a) (hb : Blanks b) : Blanks (a ++ b) := by
  obtain ⟨t, h1, rfl⟩ := ha
  obtain ⟨u, h2, rfl⟩ := hb
  refine ⟨t ++ u, fun ch hc => ?_, by simp [utf8s]⟩
  rcases List.mem_append.1 hc with hc | hc
  · exact h1 ch hc
  · exact h2 ch hc

theorem sp0_takes (hX : Grows X) : Admits n X (fun w _ l => l = [] ∧ Blanks w) (den env (Gram.erased sp0)) := by
  have h := star_takes (env := env) (n := n) (gs := [.prim whitespace]) hX stopsAt_any (SeqTakes.single (charTerminal_takes C18_whitespace)) fun w rest l h => by
    obtain ⟨ch, h1, h2, _⟩ := h
    intro hw
    rw [hw] at h2
    have := (nextChar_width h2).1
    simp at this
  refine (erased_takes (erased_takes h)).mono fun w rest l hl => ?_
  obtain ⟨h1, l', _, l'', _, m, hm⟩ := hl
  refine ⟨h1, ?_⟩
  clear h1
  induction hm with
  | zero => exact ⟨[], by simp, rfl⟩
  | succ h _ ih =>
    obtain ⟨ch, h1, h2, _⟩ := h
    rw [white_char h1 h2]
    exact blanks_append ⟨[ch], by rintro x hx; rw [List.mem_singleton.1 hx]; exact h1, by simp [utf8s]⟩ ih

/-- Every text is white space and something that does not start with white space. -/
theorem blanks_split (s : Bytes) : ∃ b s', s = b ++ s' ∧ Blanks b ∧ NotWhite s' := by
  generalize hn : s.length = k
  induction k using Nat.strongRecOn generalizing s with
  | ind k ih =>
    by_cases h : NotWhite s
    · exact ⟨[], s, rfl, ⟨[], by simp, rfl⟩, h⟩
    · unfold NotWhite at h
      simp only [Classical.not_forall, Classical.not_not] at h
      obtain ⟨ch, m, h1, hw⟩ := h
      have h2 := nextChar_width h1
      have e : m = (s.take m).length := by simp; omega
      have hw' : s.take m = utf8 ch := white_char (rest := s.drop m) hw (by rw [← e]; simpa using h1)
      obtain ⟨b, s', h3, h4, h5⟩ := ih (s.drop m).length (by simp; omega) (s.drop m) rfl
      refine ⟨s.take m ++ b, s', by rw [List.append_assoc, ← h3]; simp, blanks_append ⟨[ch], by rintro x hx; rw [List.mem_singleton.1 hx]; exact hw, by rw [hw']; simp [utf8s]⟩ h4, h5⟩

theorem takeWhile_idem {B : UInt8 → Bool} (s : Bytes) : (s.takeWhile B).takeWhile B = s.takeWhile B := by
  induction s with
  | nil => rfl
  | cons a s ih =>
    rw [List.takeWhile_cons]
    split
    · rename_i h; rw [List.takeWhile_cons, if_pos h, ih]
    · rfl

theorem natRun_idem {s : Bytes} (h : StartsWith isDec s) : natRun (natRun s) = natRun s ∧ StartsWith isDec (natRun s) := by
  obtain ⟨b, s', rfl, hb⟩ := h
  by_cases h0 : b = 0x30
  · subst h0
    simp only [natRun, takeWhile_idem, true_and]
    exact ⟨_, _, rfl, hb⟩
  · have e1 : ∀ t, natRun (b :: t) = digitRun isDec (b :: t) := fun t => by
      unfold natRun
      split
      · rename_i h; cases h; exact absurd rfl h0
      · rfl
    have e2 : digitRun isDec (b :: s') = b :: s'.takeWhile (or_ isDec) := by
      unfold digitRun
      rw [List.takeWhile_cons, if_pos (by unfold or_; simp [hb])]
    rw [e1, e2, e1]
    unfold digitRun
    rw [List.takeWhile_cons, if_pos (by unfold or_; simp [hb]), takeWhile_idem]
    exact ⟨rfl, _, _, rfl, hb⟩

theorem signRun_cases (s : Bytes) : signRun s = [] ∨ signRun s = [0x2b] ∨ signRun s = [0x2d] := by
  unfold signRun
  split
  · rename_i b s'
    split
    · rename_i h
      unfold isSign at h
      simp only [Bool.or_eq_true, beq_iff_eq] at h
      rcases h with rfl | rfl <;> simp
    · exact .inl rfl
  · exact .inl rfl

theorem integer_takes : Admits n X (fun w _ l => ∃ sg d a, w = sg ++ d ∧ (sg = [] ∨ sg = [0x2b] ∨ sg = [0x2d]) ∧ StartsWith isDec d ∧ natRun d = d ∧
    l = [a] ∧ a.val = .str (withoutUnderscores w)) (den env Extra.integerNumberStr) := by
  have h : Admits n X (fun w _ l => ∃ sg d vs, w = sg ++ d ∧ (sg = [] ∨ sg = [0x2b] ∨ sg = [0x2d]) ∧ StartsWith isDec d ∧ natRun d = d ∧ Texts l vs ∧
      vs.flatten = noUnderscore w)
      (den env (.flatGroup [Gram.opt [Extra.plusMinus], .first [Extra.zeroLit, Extra.digits]])) := by
    intro c pre s hc hs
    by_cases hd : StartsWith isDec (s.drop (signRun s).length)
    · obtain ⟨m, h1, h2⟩ := lexInteger_some hd
      obtain ⟨h3, h4⟩ := (lexes_integer (env := env) pre s).1 m h1
      obtain ⟨c', h5, h6⟩ := h4 c (by simpa using hc)
      rw [h5]
      refine ⟨_, _, (List.take_append_drop m s).symm, h6.mono fun l hl => ?_⟩
      obtain ⟨vs, h7, h8⟩ := hl
      exact ⟨_, _, vs, h2, signRun_cases s, (natRun_idem hd).2, (natRun_idem hd).1, h7, h8⟩
    · rw [(lexes_integer (env := env) pre s).2 (lexInteger_none hd) c hc]; trivial
  refine trans_takes (by simp) h fun c w rest l hl => ?_
  obtain ⟨sg, d, vs, h1, h2, h3, h4, hv, he⟩ := hl
  obtain ⟨l', f1, a, f2, f3, f4, f5, _⟩ := concat_named (env := env) (name := ":extra:IntegerNumberStr") c l hv
  rw [f1]
  exact ⟨sg, d, a, h1, h2, h3, h4, f2, by rw [f5, he, noUnderscore_eq]⟩

theorem numeral_head {base k : Nat} {s : Bytes} (h : Numeral base s k) : ∃ b s' v, s = b :: s' ∧ DigitOf base b v := by
  induction h with
  | digit h => exact ⟨_, [], _, rfl, h⟩
  | snoc _ _ ih =>
    obtain ⟨b, s', v, rfl, h⟩ := ih
    exact ⟨b, _, v, rfl, h⟩

theorem sign_not_digit {b : UInt8} {v : Nat} (hb : b = 0x2b ∨ b = 0x2d) : ¬ DigitOf 10 b v := by
  rintro ⟨h1, h2⟩
  have : ∀ v < 10, ¬ (lowerDigits[v]? = some 0x2b ∨ upperDigits[v]? = some 0x2b) ∧ ¬ (lowerDigits[v]? = some 0x2d ∨ upperDigits[v]? = some 0x2d) := by decide
  rcases hb with rfl | rfl
  · exact (this v h1).1 h2
  · exact (this v h1).2 h2

theorem digits_head {d : Bytes} (h : StartsWith isDec d) : ∃ b s', withoutUnderscores d = b :: s' ∧ isDec b = true := by
  obtain ⟨b, s', rfl, hb⟩ := h
  refine ⟨b, withoutUnderscores s', ?_, hb⟩
  have : b ≠ 0x5f := fun e => by subst e; exact absurd hb (by decide)
  simp [withoutUnderscores, this]

/-- A signed number that can be converted. -/
theorem signedValue_of {sg d : Bytes} {i : Int} (hsg : sg = [] ∨ sg = [0x2b] ∨ sg = [0x2d]) (h1 : StartsWith isDec d) (h2 : natRun d = d)
    (h : parseInt (withoutUnderscores (sg ++ d)) 10 = .ok i) : ∃ k, SignedValue k sg i (Int64.ofInt i) ∧ DigitsText d k := by
  obtain ⟨h3, h4, h5⟩ := (parseInt_iff (base := 10) (by omega) (by omega) _ _).1 h
  obtain ⟨b, s', hd, hb⟩ := digits_head h1
  have hne : b ≠ 0x2b ∧ b ≠ 0x2d := ⟨fun e => by subst e; exact absurd hb (by decide), fun e => by subst e; exact absurd hb (by decide)⟩
  have hw : withoutUnderscores (sg ++ d) = withoutUnderscores sg ++ withoutUnderscores d := by simp [withoutUnderscores]
  generalize hx : withoutUnderscores (sg ++ d) = x at h3
  rw [hw] at hx
  rcases hsg with rfl | rfl | rfl
  · cases h3 with
    | none h3 => exact ⟨_, .none (by omega), h1, h2, by rw [← hx] at h3; exact h3⟩
    | plus h3 => rw [hd] at hx; injection hx with hx _; exact absurd hx hne.1
    | minus h3 => rw [hd] at hx; injection hx with hx _; exact absurd hx hne.2
  · cases h3 with
    | none h3 =>
      obtain ⟨b, s', v, rfl, h6⟩ := numeral_head h3
      injection hx with hx _
      exact absurd h6 (sign_not_digit (.inl hx.symm))
    | plus h3 =>
      injection hx with _ hx
      subst hx
      exact ⟨_, .plus (by omega), h1, h2, h3⟩
    | minus h3 => injection hx with hx _; exact absurd hx (by decide)
  · cases h3 with
    | none h3 =>
      obtain ⟨b, s', v, rfl, h6⟩ := numeral_head h3
      injection hx with hx _
      exact absurd h6 (sign_not_digit (.inr hx.symm))
    | plus h3 => injection hx with hx _; exact absurd hx (by decide)
    | @minus _ k h3 =>
      injection hx with _ hx
      subst hx
      have hk : k ≤ 2 ^ 63 := by omega
      exact ⟨k, by rw [int64_ofInt_neg hk]; exact .minus hk, h1, h2, h3⟩

/-- A number token. -/
def NumberMatch (w : Bytes) (v : Int64) : Prop := ∃ sg d b k i, w = sg ++ d ++ b ∧ SignedValue k sg i v ∧ DigitsText d k ∧ Blanks b

theorem number_takes (hX : Grows X) : Admits n X (fun w _ l => ∃ a v, NumberMatch w v ∧ l = [a] ∧ NumberAst v a) (den env numberG) := by
  have h := flat_takes (env := env) (gs := [Extra.integerNumberStr, .prim wordBoundary, Gram.erased sp0])
    (SeqTakes.step (n := n) hX integer_takes (SeqTakes.step hX wordBoundary_takes (SeqTakes.single (sp0_takes hX))))
  refine trans_takes (by simp) h fun c w rest l hl => ?_
  obtain ⟨w1, w2, l1, l2, rfl, rfl, ⟨sg, d, a, rfl, h2, h3, h4, rfl, ha⟩, w3, b, l3, l4, rfl, rfl, ⟨rfl, rfl⟩, rfl, hb⟩ := hl
  simp only [List.map, denTr_fn, applyTrs, numberTr, List.append_nil, ha, asStr]
  cases hp : parseInt (withoutUnderscores (sg ++ d)) 10 with
  | error e => trivial
  | ok i =>
    obtain ⟨k, h5, h6⟩ := signedValue_of h2 h3 h4 hp
    exact ⟨_, Int64.ofInt i, ⟨sg, d, b, k, i, by simp, h5, h6, hb⟩, rfl, rfl, rfl, rfl⟩

theorem operator_takes (hX : Grows X) {cc : List Bytes} {name : String} :
    Admits n X (fun w _ l => ∃ a o b, l = [a] ∧ o ∈ cc ∧ w = o ++ b ∧ Blanks b ∧ a.cls = name ∧ a.val = .str o)
      (den env (.trans (.flatGroup [.prim (charClass cc), Gram.erased sp0]) [.fn (changeClassName name)])) := by
  have h := flat_takes (env := env) (gs := [.prim (charClass cc), Gram.erased sp0])
    (SeqTakes.step (n := n) hX charClass_takes (SeqTakes.single (sp0_takes hX)))
  refine trans_takes (by simp) h fun c w rest l hl => ?_
  obtain ⟨w1, b, l1, l2, rfl, rfl, ⟨hw, hx⟩, rfl, hb⟩ := hl
  cases hx with
  | @cons a l v vs h4 h5 h6 =>
    cases h6
    simp only [List.map, denTr_fn, applyTrs, changeClassName, rewriteHead, List.append_nil]
    exact ⟨_, w1, b, rfl, hw, rfl, hb, rfl, h5⟩

theorem unary_takes (hX : Grows X) : Admits n X (fun w _ l => ∃ a b, l = [a] ∧ OpAst "UnaryOperator" 0x2d a ∧ w = 0x2d :: b ∧ Blanks b)
    (den env unaryOperator) :=
  (operator_takes hX (cc := [b! "-"])).mono fun w rest l hl => by
    obtain ⟨a, o, b, h1, h2, h3, h4, h5, h6⟩ := hl
    simp only [List.mem_singleton] at h2
    subst h2
    exact ⟨a, b, h1, ⟨h5, h6⟩, h3, h4⟩

theorem binary_takes (hX : Grows X) : Admits n X (fun w _ l => ∃ a op b, l = [a] ∧ OpAst "BinaryOperator" (BinOp.char op) a ∧ w = op.char :: b ∧ Blanks b)
    (den env binaryOperator) :=
  (operator_takes hX (cc := [b! "+", b! "-", b! "*", b! "/"])).mono fun w rest l hl => by
    obtain ⟨a, o, b, h1, h2, h3, h4, h5, h6⟩ := hl
    simp only [List.mem_cons, List.not_mem_nil, or_false] at h2
    rcases h2 with rfl | rfl | rfl | rfl
    · exact ⟨a, .add, b, h1, ⟨h5, h6⟩, h3, h4⟩
    · exact ⟨a, .sub, b, h1, ⟨h5, h6⟩, h3, h4⟩
    · exact ⟨a, .mul, b, h1, ⟨h5, h6⟩, h3, h4⟩
    · exact ⟨a, .div, b, h1, ⟨h5, h6⟩, h3, h4⟩

/-- The signs end where no minus sign follows. -/
theorem unary_stops : StopsAt [den env unaryOperator] (fun s => ∀ s', s ≠ 0x2d :: s') :=
  stopsAt_of fun pre s hs => by
    simp only [Classical.not_forall, Classical.not_not] at hs
    obtain ⟨s', rfl⟩ := hs
    obtain ⟨b, s'', rfl, hb, hw⟩ := blanks_split s'
    exact ⟨0x2d :: b, s'', _, rfl, unary_hits hb hw pre⟩

end

/-! ### Expressions -/

section
variable {D : Type} {tr : Tr} {Is : Ast → Tok D → Prop} {num : Int64 → D} {neg : D → D} {bin : BinOp → D → D → Option D}
  {n : Nat} {X : Bytes → Panic → Prop}

variable (Is num neg bin) in
/-- Operators and operands with values. -/
def TailMatch (p q : Bool) (w : Bytes) (l : List Ast) : Prop :=
  ∃ r ds, Tail p q r w ∧ vals (litOf num) neg bin (applied r) = some ds ∧ RestTokens Is neg ds l

variable (Is num neg bin) in
/-- An operand without signs, and operators and operands behind it. -/
def PlainMatch (w : Bytes) (l : List Ast) : Prop :=
  ∃ q q' e s t d l₁ l₂, w = s ++ t ∧ l = l₁ ++ l₂ ∧ Spells .atom false q e s ∧ e.fold (litOf num) neg bin = some d ∧ OperandAst Is d l₁ ∧
    TailMatch Is num neg bin q q' t l₂

variable (Is num neg bin) in
/-- A chain. -/
def ChainMatch (w : Bytes) (l : List Ast) : Prop :=
  ∃ q q' x s t d l₁ l₂, w = s ++ t ∧ l = l₁ ++ l₂ ∧ Opd false q x s ∧ (applySigns Expr.neg x.1 x.2).fold (litOf num) neg bin = some d ∧
    SignedTokens Is neg d l₁ ∧ TailMatch Is num neg bin q q' t l₂

theorem tailMatch_nil {p : Bool} : TailMatch Is num neg bin p p [] [] := ⟨[], [], .nil, rfl, restTokens_nil⟩

theorem tailMatch_append {p q r : Bool} {w w' : Bytes} {l l' : List Ast} (h : TailMatch Is num neg bin p q w l) (h' : TailMatch Is num neg bin q r w' l') :
    TailMatch Is num neg bin p r (w ++ w') (l ++ l') := by
  obtain ⟨r1, ds1, h1, h2, h3⟩ := h
  obtain ⟨r2, ds2, h4, h5, h6⟩ := h'
  refine ⟨r1 ++ r2, ds1 ++ ds2, h1.append h4, ?_, restTokens_append h3 h6⟩
  simp only [applied, List.map_append, vals_append]
  rw [show vals (litOf num) neg bin (List.map _ r1) = _ from h2, show vals (litOf num) neg bin (List.map _ r2) = _ from h5]; rfl

theorem tailMatch_any {p q : Bool} {w : Bytes} {l : List Ast} (h : TailMatch Is num neg bin false q w l) : ∃ q', TailMatch Is num neg bin p q' w l := by
  obtain ⟨r, ds, h1, h2, h3⟩ := h
  obtain ⟨q', h1⟩ := tail_any (p := p) h1
  exact ⟨q', r, ds, h1, h2, h3⟩

theorem tailMatch_one {p q : Bool} {op : BinOp} {x : Signed Expr} {b s : Bytes} {d : D} {a : Ast} {l : List Ast} (hb : Blanks b) (ho : Opd p q x s)
    (hd : (applySigns Expr.neg x.1 x.2).fold (litOf num) neg bin = some d) (ha : Is a (.bin op)) (hl : SignedTokens Is neg d l) :
    TailMatch Is num neg bin p q (op.char :: (b ++ s)) (a :: l) := by
  refine ⟨[(op, x)], [(op, d)], by simpa using Tail.cons (op := op) hb ho .nil, ?_, restTokens_one ha hl⟩
  simp [applied, vals, hd]

/-- A number behind an operator that follows a number. -/
theorem number_opd (hR : RulesFor tr Is num neg bin) {w : Bytes} {v : Int64} (h : NumberMatch w v) :
    ∃ x, Opd true true x w ∧ (applySigns Expr.neg x.1 x.2).fold (litOf num) neg bin = some (num v) := by
  obtain ⟨sg, d, b, k, i, rfl, h1, h2, h3⟩ := h
  cases h1 with
  | none h => exact ⟨(0, .lit k), .sgn (.zero (p := true) (.lit h2 h h3)), rfl⟩
  | plus h => exact ⟨(0, .lit k), .sgn (.zero (p := true) (.plus h2 h h3)), rfl⟩
  | minus h =>
    by_cases hk : k = 2 ^ 63
    · subst hk
      exact ⟨_, .min h2 h3, by rw [hR.num_neg]; rfl⟩
    · exact ⟨(1, .lit k), .sgn (.succ (b := []) ⟨[], by simp, rfl⟩ (.zero (p := true) (.lit h2 (by omega) h3))), by rw [hR.num_neg]; rfl⟩

theorem simple_takes (hR : RulesFor tr Is num neg bin) (hX : Grows X) :
    Admits n X (fun w _ l => PlainMatch Is num neg bin w l ∨ ∃ w', w = 0x2d :: w') (den (envOf tr) simpleExpression) := by
  have hs := star_takes (env := envOf tr) (n := n) (gs := [binaryOperator, numberG]) hX stopsAt_any
    (SeqTakes.step hX (binary_takes hX) (SeqTakes.single (number_takes hX))) fun w rest l h => by
      obtain ⟨w1, w2, l1, l2, rfl, _, ⟨a, op, b, _, _, rfl, _⟩, _⟩ := h
      simp
  have h := flat_takes (env := envOf tr) (gs := [numberG, Gram.star [binaryOperator, numberG]])
    (SeqTakes.step (n := n) hX (number_takes hX) (SeqTakes.single hs))
  refine h.mono fun w rest l hl => ?_
  obtain ⟨w1, w2, l1, l2, rfl, rfl, ⟨a, v, hn, rfl, ha⟩, _, m, hm⟩ := hl
  have ht : TailMatch Is num neg bin true true w2 l2 := by
    clear hn ha h hs
    induction hm with
    | zero => exact tailMatch_nil
    | succ h _ ih =>
      obtain ⟨w1, w2, l1, l2, rfl, rfl, ⟨a, op, b, rfl, h1, rfl, h2⟩, a', v', h3, rfl, h4⟩ := h
      obtain ⟨x, h5, h6⟩ := number_opd hR h3
      have := tailMatch_one (op := op) (l := [a']) h2 h5 h6 (hR.bin_tok a op h1) ⟨(0, num v'), .cons (hR.num_tok a' v' h4) .nil, rfl⟩
      exact tailMatch_append (by simpa using this) ih
  obtain ⟨sg, d, b, k, i, rfl, h1, h2, h3⟩ := hn
  cases h1 with
  | none h => exact .inl ⟨true, true, .lit k, _, w2, _, [a], l2, rfl, rfl, .lit h2 h h3, rfl, ⟨a, rfl, hR.num_tok a _ ha⟩, ht⟩
  | plus h => exact .inl ⟨true, true, .lit k, _, w2, _, [a], l2, rfl, rfl, .plus h2 h h3, rfl, ⟨a, rfl, hR.num_tok a _ ha⟩, ht⟩
  | minus h => exact .inr ⟨_, rfl⟩

variable (Is num neg bin) in
/-- A group. -/
def GroupMatch (w : Bytes) (l : List Ast) : Prop := ∃ e d, Spells .atom false false e w ∧ e.fold (litOf num) neg bin = some d ∧ OperandAst Is d l

variable (Is num neg bin) in
/-- An expression. -/
def ExprMatch (w : Bytes) (l : List Ast) : Prop := ∃ q e d, Spells .sum false q e w ∧ e.fold (litOf num) neg bin = some d ∧ OperandAst Is d l

theorem signed_match {k : Nat} {q : Bool} {e : Expr} {s : Bytes} {d : D} (h1 : Sgn k q e s) (h2 : e.fold (litOf num) neg bin = some d) :
    Opd false q (k, e) s ∧ (applySigns Expr.neg k e).fold (litOf num) neg bin = some (applySigns neg k d) :=
  ⟨.sgn h1, by rw [fold_signs, h2]; rfl⟩

/-- Signs and an operand. -/
theorem signs_match (hR : RulesFor tr Is num neg bin) {m : Nat} {w w' rest : Bytes} {l l' : List Ast}
    (h : Repeated (fun w _ l => ∃ a b, l = [a] ∧ OpAst "UnaryOperator" 0x2d a ∧ w = 0x2d :: b ∧ Blanks b) m w rest l)
    (h' : PlainMatch Is num neg bin w' l') : ChainMatch Is num neg bin (w ++ w') (l ++ l') := by
  obtain ⟨q, q', e, s, t, d, l₁, l₂, rfl, rfl, h1, h2, h3, h4⟩ := h'
  have key : Sgn m q e (w ++ s) ∧ Toks Is l (List.replicate m .neg) := by
    induction h with
    | zero => exact ⟨.zero h1, .nil⟩
    | succ h _ ih =>
      obtain ⟨a, b, rfl, ha, rfl, hb⟩ := h
      refine ⟨by simpa using Sgn.succ hb ih.1, .cons (hR.neg_tok a ha) ih.2⟩
  obtain ⟨k1, k2⟩ := signed_match key.1 h2
  exact ⟨q, q', (m, e), w ++ s, t, _, l ++ l₁, l₂, by simp, by simp, k1, k2, signedTokens_of key.2 h3, h4⟩

theorem inner_takes (hR : RulesFor tr Is num neg bin) (hX : Grows X)
    (hG : Admits n X (fun w _ l => GroupMatch Is num neg bin w l) (den (envOf tr) (.indirect groupedName))) :
    Admits n X (fun w _ l => ChainMatch Is num neg bin w l) (den (envOf tr) expressionInner) := by
  have hu := star_takes (env := envOf tr) (n := n) (gs := [unaryOperator]) hX unary_stops (SeqTakes.single (unary_takes hX)) fun w rest l h => by
    obtain ⟨a, b, _, _, rfl, _⟩ := h
    simp
  have hf : ∀ gs, (∀ g ∈ gs, g = .indirect groupedName ∨ g = .prim (errorP "Value required")) →
      Admits n X (fun w _ l => PlainMatch Is num neg bin w l ∨ ∃ w', w = 0x2d :: w') (den (envOf tr) (.first (simpleExpression :: gs))) := fun gs hgs =>
    first_takes (by simp) fun g hg => by
      rcases List.mem_cons.1 hg with rfl | hg
      · exact simple_takes hR hX
      · rcases hgs g hg with rfl | rfl
        · refine hG.mono fun w rest l h => ?_
          obtain ⟨e, d, h1, h2, h3⟩ := h
          exact .inl ⟨false, false, e, w, [], d, l, [], by simp, by simp, h1, h2, h3, tailMatch_nil⟩
        · exact errorP_takes _
  have h1 : Admits n X (fun w _ l => ChainMatch Is num neg bin w l)
      (den (envOf tr) (.flatGroup [Gram.star [unaryOperator], .first [simpleExpression, .indirect groupedName]])) := by
    refine (flat_takes (gs := [Gram.star [unaryOperator], .first [simpleExpression, .indirect groupedName]])
      (SeqTakes.step hX hu (SeqTakes.single (hf [.indirect groupedName] (by simp))))).mono fun w rest l hl => ?_
    obtain ⟨w1, w2, l1, l2, rfl, rfl, ⟨hE, m, hm⟩, hp | ⟨w', rfl⟩⟩ := hl
    · exact signs_match hR hm hp
    · exact absurd rfl (hE _)
  have h2 : Admits n X (fun w _ l => ChainMatch Is num neg bin w l) (den (envOf tr) rightOperand) :=
    first_takes (by simp) fun g hg => by
      simp only [List.mem_cons, List.not_mem_nil, or_false] at hg
      rcases hg with rfl | rfl
      · exact h1
      · exact errorP_takes _
  have h3 := star_takes (env := envOf tr) (n := n) (gs := [binaryOperator, rightOperand]) hX stopsAt_any
    (SeqTakes.step hX (binary_takes hX) (SeqTakes.single h2)) fun w rest l h => by
      obtain ⟨w1, w2, l1, l2, rfl, _, ⟨a, op, b, _, _, rfl, _⟩, _⟩ := h
      simp
  have h4 := flat_takes (env := envOf tr) (gs := [Gram.star [unaryOperator], .first [simpleExpression, .indirect groupedName, .prim (errorP "Value required")],
      Gram.star [binaryOperator, rightOperand]])
    (SeqTakes.step hX hu (SeqTakes.step hX (hf [.indirect groupedName, .prim (errorP "Value required")] (by simp)) (SeqTakes.single h3)))
  refine h4.mono fun w rest l hl => ?_
  obtain ⟨w1, w2, l1, l2, rfl, rfl, ⟨hE, m, hm⟩, w3, w4, l3, l4, rfl, rfl, hp, _, m', hm'⟩ := hl
  rcases hp with hp | ⟨w', rfl⟩
  · have hc := signs_match hR hm hp
    rw [← List.append_assoc, ← List.append_assoc]
    generalize w1 ++ w3 = u at hc
    generalize l1 ++ l3 = k at hc
    clear hp hm hE h1 h2 h3 h4 hf hu hG
    induction hm' generalizing u k with
    | zero => simpa using hc
    | succ h _ ih =>
      obtain ⟨v1, v2, k1, k2, rfl, rfl, ⟨a, op, b, rfl, ha, rfl, hb⟩, q, q', x, s, t, d, k3, k4, rfl, rfl, g1, g2, g3, g4⟩ := h
      obtain ⟨q₀, q₁, x₀, s₀, t₀, d₀, l₀, l₁, rfl, rfl, e1, e2, e3, e4⟩ := hc
      have := tailMatch_one (op := op) hb g1 g2 (hR.bin_tok a op ha) g3
      obtain ⟨q₂, h5⟩ := tailMatch_any (p := q₁) (tailMatch_append this g4)
      have := ih _ _ ⟨q₀, q₂, x₀, s₀, _, d₀, l₀, _, List.append_assoc _ _ _, List.append_assoc _ _ _, e1, e2, e3, by
        simpa using tailMatch_append e4 h5⟩
      simpa using this
  · exact absurd rfl (hE _)

/-- The value of a chain. -/
theorem chainMatch_value {w : Bytes} {l : List Ast} (h : ChainMatch Is num neg bin w l) : ∃ q e x rest, Spells .sum false q e w ∧
    Toks Is l (chainToks x rest) ∧ chainValue neg bin x rest = e.fold (litOf num) neg bin := by
  obtain ⟨q, q', x, s, t, d, l₁, l₂, rfl, rfl, h1, h2, ⟨z, h3, h3'⟩, r, ds, h4, h5, r', h6, h6'⟩ := h
  obtain ⟨e, h7, h8⟩ := chain_spells h1 h4
  refine ⟨q', e, z, r', h8, h3.append h6, ?_⟩
  rw [chain_fold x r e h7, h2, h5]
  unfold chainValue
  rw [h3', h6']; rfl

theorem expression_takes_of (hR : RulesFor tr Is num neg bin) (hX : Grows X)
    (hV : ∀ q e w rest, Spells .sum false q e w → e.fold (litOf num) neg bin = none → X (w ++ rest) .divZero)
    (hG : Admits n X (fun w _ l => GroupMatch Is num neg bin w l) (den (envOf tr) (.indirect groupedName))) :
    Admits n X (fun w _ l => ExprMatch Is num neg bin w l) (den (envOf tr) (expressionOf tr)) :=
  trans_takes (by simp) (inner_takes hR hX hG) fun c w rest l hl => by
    obtain ⟨q, e, x, r, h1, h2, h3⟩ := chainMatch_value hl
    obtain ⟨h4, h5⟩ := hR.gives c l x r h2
    cases hv : chainValue neg bin x r with
    | none =>
      simp only [List.map, applyTrs, h5 hv]
      exact hV q e w rest h1 (by rw [← h3, hv])
    | some v =>
      obtain ⟨y, h6, h7⟩ := h4 v hv
      simp only [List.map, applyTrs, h7]
      exact ⟨q, e, v, h1, by rw [← h3, hv], y, rfl, h6⟩

theorem grouped_takes (hR : RulesFor tr Is num neg bin) (hX : Grows X)
    (hV : ∀ q e w rest, Spells .sum false q e w → e.fold (litOf num) neg bin = none → X (w ++ rest) .divZero) (n : Nat) :
    Admits n X (fun w _ l => GroupMatch Is num neg bin w l) (den (envOf tr) (.indirect groupedName)) := by
  have hp : ∀ m (v : Bytes), Admits m X (fun w _ l => w = v ∧ l = []) (den (envOf tr) (Gram.erased (.prim (charClass [v])))) := fun m v =>
    (erased_takes charClass_takes).mono fun w rest l h => by
      obtain ⟨h1, l', h2, _⟩ := h
      exact ⟨by simpa using h2, h1⟩
  induction n with
  | zero =>
    refine indirect_takes (i := groupedName) ?_
    refine (flat_takes (gs := [Gram.erased (.prim (charClass [b! "("])), .first [groupedInner tr, .prim (errorP "Error in grouped expression")]])
      (SeqTakes.cons (R := fun _ _ _ => False) hX (hp _ _) fun w rest l h hlen => ?_)).mono fun w rest l hl => ?_
    · rw [h.1] at hlen; simp at hlen
    · obtain ⟨_, _, _, _, _, _, _, h⟩ := hl
      exact h.elim
  | succ n ih =>
    refine indirect_takes (i := groupedName) ?_
    have h1 : Admits n X (fun w _ l => ∃ b₁ s b₂, w = b₁ ++ (s ++ 0x29 :: b₂) ∧ Blanks b₁ ∧ Blanks b₂ ∧ ExprMatch Is num neg bin s l) (den (envOf tr) (groupedInner tr)) := by
      refine (flat_takes (gs := [Gram.erased sp0, expressionOf tr, Gram.erased (.prim (charClass [b! ")"])), Gram.erased sp0])
        (SeqTakes.step hX (sp0_takes hX) (SeqTakes.step hX (expression_takes_of hR hX hV ih) (SeqTakes.step hX (hp _ _)
          (SeqTakes.single (sp0_takes hX)))))).mono fun w rest l hl => ?_
      obtain ⟨b₁, w1, l1, l2, rfl, rfl, ⟨rfl, hb₁⟩, s, w2, l3, l4, rfl, rfl, he, w3, b₂, l5, l6, rfl, rfl, ⟨rfl, rfl⟩, rfl, hb₂⟩ := hl
      exact ⟨b₁, s, b₂, rfl, hb₁, hb₂, by simpa using he⟩
    have h2 : Admits n X (fun w _ l => ∃ b₁ s b₂, w = b₁ ++ (s ++ 0x29 :: b₂) ∧ Blanks b₁ ∧ Blanks b₂ ∧ ExprMatch Is num neg bin s l)
        (den (envOf tr) (.first [groupedInner tr, .prim (errorP "Error in grouped expression")])) :=
      first_takes (by simp) fun g hg => by
        simp only [List.mem_cons, List.not_mem_nil, or_false] at hg
        rcases hg with rfl | rfl
        · exact h1
        · exact errorP_takes _
    refine (flat_takes (gs := [Gram.erased (.prim (charClass [b! "("])), .first [groupedInner tr, .prim (errorP "Error in grouped expression")]])
      (SeqTakes.cons hX (hp _ _) fun w rest l h hlen => SeqTakes.single (h2.weak (by rw [h.1] at hlen; simp at hlen; omega)))).mono fun w rest l hl => ?_
    obtain ⟨w1, w2, l1, l2, rfl, rfl, ⟨rfl, rfl⟩, b₁, s, b₂, rfl, hb₁, hb₂, q, e, d, h3, h4, h5⟩ := hl
    exact ⟨e, d, .paren hb₁ h3 hb₂, h4, by simpa using h5⟩

theorem program_takes (hR : RulesFor tr Is num neg bin) (hX : Grows X)
    (hV : ∀ q e w rest, Spells .sum false q e w → e.fold (litOf num) neg bin = none → X (w ++ rest) .divZero) (n : Nat) :
    Admits n X (fun w rest l => rest = [] ∧ ∃ e d, Spelled w e ∧ e.fold (litOf num) neg bin = some d ∧ OperandAst Is d l) (den (envOf tr) (programOf tr)) := by
  refine (flat_takes (gs := [.prim startP, Gram.erased sp0, expressionOf tr, .prim endS])
    (SeqTakes.step hX startP_takes (SeqTakes.step hX (sp0_takes hX) (SeqTakes.step hX (expression_takes_of hR hX hV (grouped_takes hR hX hV n))
      (SeqTakes.single endS_takes))))).mono fun w rest l hl => ?_
  obtain ⟨w1, w2, l1, l2, rfl, rfl, ⟨rfl, rfl⟩, b, w3, l3, l4, rfl, rfl, ⟨rfl, hb⟩, s, w4, l5, l6, rfl, rfl, ⟨q, e, d, h1, h2, h3⟩, rfl, rfl, rfl⟩ := hl
  exact ⟨rfl, e, d, ⟨b, s, q, by simp, hb, h1⟩, h2, by simpa using h3⟩

end
end Takenoco
