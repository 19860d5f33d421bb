import Verif.Lemmas.FormulaTokens
/-
Texts of expressions are parsed as the formula and torpn examples parse them. Both examples have the same grammar; they
differ in the production rules.
-/
namespace Takenoco
open Spec Formula

/-- The grammar with given production rules. -/
def expressionOf (tr : Tr) : Gram := .trans expressionInner [tr]

def groupedInner (tr : Tr) : Gram := .flatGroup [Gram.erased sp0, expressionOf tr, Gram.erased (.prim (charClass [b! ")"])), Gram.erased sp0]

def groupedOf (tr : Tr) : Gram :=
  .flatGroup [Gram.erased (.prim (charClass [b! "("])), .first [groupedInner tr, .prim (errorP "Error in grouped expression")]]

def envOf (tr : Tr) : Env := fun _ => groupedOf tr

def programOf (tr : Tr) : Gram := .flatGroup [.prim startP, Gram.erased sp0, expressionOf tr, .prim endS]

/-- What the production rules do. -/
structure RulesFor {D : Type} (tr : Tr) (Is : Ast → Tok D → Prop) (num : Int64 → D) (neg : D → D) (bin : BinOp → D → D → Option D) : Prop where
  num_tok : ∀ a v, NumberAst v a → Is a (.operand (num v))
  neg_tok : ∀ a, OpAst "UnaryOperator" 0x2d a → Is a .neg
  bin_tok : ∀ a op, OpAst "BinaryOperator" (BinOp.char op) a → Is a (.bin op)
  num_neg : ∀ v, num (int64Neg v) = neg (num v)
  gives : ∀ c l x rest, Toks Is l (chainToks x rest) →
    (∀ v, chainValue neg bin x rest = some v → ∃ y, Is y (.operand v) ∧ denTr (envOf tr) tr c l = .ok ([y], none)) ∧
    (chainValue neg bin x rest = none → denTr (envOf tr) tr c l = .panic .divZero)

theorem Spec.Toks.append {D : Type} {Is : Ast → Tok D → Prop} {l l' : List Ast} {t t' : List (Tok D)} (h : Toks Is l t) (h' : Toks Is l' t') :
    Toks Is (l ++ l') (t ++ t') := by
  induction h with
  | nil => exact h'
  | cons h1 _ ih => exact .cons h1 ih

/-- A closing parenthesis or the end. -/
def Follow (s : Bytes) : Prop := s = [] ∨ ∃ s', s = 0x29 :: s'

/-- A byte that may start an operand. -/
def Opens (s : Bytes) : Prop := ∃ b s', s = b :: s' ∧ (isDec b = true ∨ b = 0x28 ∨ b = 0x2d ∨ b = 0x2b)

theorem Opens.append {s t : Bytes} (h : Opens s) : Opens (s ++ t) := by
  obtain ⟨b, s', rfl, hb⟩ := h
  exact ⟨b, s' ++ t, rfl, hb⟩

theorem Spec.DigitsText.opens {w : Bytes} {n : Nat} (h : DigitsText w n) : Opens w := by
  obtain ⟨b, w, rfl, hb⟩ := h.start
  exact ⟨b, _, rfl, .inl hb⟩

theorem atom_opens {p q : Bool} {e : Expr} {s : Bytes} (h : Spells .atom p q e s) : Opens s := by
  cases h with
  | lit h1 _ h2 => exact h1.opens.append
  | plus => exact ⟨_, _, rfl, .inr (.inr (.inr rfl))⟩
  | paren => exact ⟨_, _, rfl, .inr (.inl rfl)⟩

theorem sgn_opens {k : Nat} {q : Bool} {e : Expr} {s : Bytes} (h : Sgn k q e s) : Opens s := by
  cases h with
  | zero h => exact atom_opens h
  | succ => exact ⟨_, _, rfl, .inr (.inr (.inl rfl))⟩

theorem opd_opens {p q : Bool} {x : Signed Expr} {s : Bytes} (h : Opd p q x s) : Opens s := by
  cases h with
  | sgn h => exact sgn_opens h
  | min => exact ⟨_, _, rfl, .inr (.inr (.inl rfl))⟩

theorem spells_opens {l : Level} {p q : Bool} {e : Expr} {s : Bytes} (h : Spells l p q e s) : Opens s := by
  have := spells_shape h
  cases l with
  | atom => exact atom_opens this
  | unary => obtain ⟨x, h, _⟩ := this; exact opd_opens h
  | product => obtain ⟨m, x, r, s, t, rfl, h, _⟩ := this; exact (opd_opens h).append
  | sum => obtain ⟨m, x, r, s, t, rfl, h, _⟩ := this; exact (opd_opens h).append

theorem isDec_facts {b : UInt8} (h : isDec b = true) : b < 0x80 ∧ b ∉ [0x09, 0x0a, 0x0b, 0x0c, 0x0d, 0x20] ∧ b ≠ 0x2d ∧ b ≠ 0x28 := by
  unfold isDec at h
  simp only [Bool.and_eq_true, decide_eq_true_eq, UInt8.le_iff_toNat_le] at h
  simp at h
  refine ⟨by rw [UInt8.lt_iff_toNat_lt]; simp; omega, ?_, fun e => by subst e; simp at h, fun e => by subst e; simp at h⟩
  simp only [List.mem_cons, List.not_mem_nil, or_false, not_or]
  refine ⟨?_, ?_, ?_, ?_, ?_, ?_⟩ <;> (intro e; subst e; simp at h)

theorem atom_cases {p q : Bool} {e : Expr} {s : Bytes} (h : Spells .atom p q e s) :
    (∃ sg w b n, s = sg ++ w ++ b ∧ e = .lit n ∧ (sg = [] ∨ sg = [0x2b]) ∧ SignedValue n sg n (Int64.ofInt n) ∧ DigitsText w n ∧ Blanks b ∧ q = true ∧
      n < 2 ^ 63) ∨
    (∃ b₁ s' b₂ q', s = 0x28 :: (b₁ ++ (s' ++ 0x29 :: b₂)) ∧ Blanks b₁ ∧ Spells .sum false q' e s' ∧ Blanks b₂ ∧ q = false) := by
  cases h with
  | lit h1 h2 h3 => exact .inl ⟨[], _, _, _, rfl, rfl, .inl rfl, .none h2, h1, h3, rfl, h2⟩
  | plus h1 h2 h3 => exact .inl ⟨[0x2b], _, _, _, rfl, rfl, .inr rfl, .plus h2, h1, h3, rfl, h2⟩
  | paren h1 h2 h3 => exact .inr ⟨_, _, _, _, rfl, h1, h2, h3, rfl⟩

theorem opens_atom_not_minus {p q : Bool} {e : Expr} {s : Bytes} (h : Spells .atom p q e s) (t s' : Bytes) : s ++ t ≠ 0x2d :: s' := by
  intro he
  rcases atom_cases h with ⟨sg, w, b, n, rfl, _, rfl | rfl, _, h1, _⟩ | ⟨b₁, s', b₂, _, rfl, _⟩
  · obtain ⟨d, w', rfl, hd⟩ := h1.start
    injection he with he _
    exact (isDec_facts hd).2.2.1 he
  · injection he with he _
    exact absurd he (by decide)
  · injection he with he _
    exact absurd he (by decide)

theorem Opens.notWhite {s : Bytes} (h : Opens s) : NotWhite s := by
  obtain ⟨b, s', rfl, hb⟩ := h
  rcases hb with hb | rfl | rfl | rfl
  · exact notWhite_ascii (isDec_facts hb).1 (isDec_facts hb).2.1
  · exact notWhite_ascii (by decide) (by decide)
  · exact notWhite_ascii (by decide) (by decide)
  · exact notWhite_ascii (by decide) (by decide)

/-- What may follow an atom. -/
def After (s : Bytes) : Prop := NotWhite s ∧ NoWord s

theorem after_ascii {b : UInt8} {s : Bytes} (hb : b < 0x80) (h : b ∉ [0x09, 0x0a, 0x0b, 0x0c, 0x0d, 0x20]) (hw : isWord b.toNat = false) :
    After (b :: s) :=
  ⟨notWhite_ascii hb h, fun ch n hn => by rw [(nextChar_ascii hb hn).1]; exact hw⟩

theorem Follow.after {s : Bytes} (h : Follow s) : After s := by
  rcases h with rfl | ⟨s', rfl⟩
  · exact ⟨notWhite_nil, fun ch n hn => (nextChar_nil hn).elim⟩
  · exact after_ascii (by decide) (by decide) rfl

theorem op_after (op : BinOp) (s : Bytes) : After (op.char :: s) := by
  cases op <;> exact after_ascii (by decide) (by decide) rfl

theorem tail_after {p q : Bool} {r : List (BinOp × Signed Expr)} {t rest : Bytes} (h : Tail p q r t) (hr : Follow rest) : After (t ++ rest) := by
  cases h with
  | nil => exact hr.after
  | cons => exact op_after _ _

section
variable {D : Type} {tr : Tr} {Is : Ast → Tok D → Prop} {num : Int64 → D} {neg : D → D} {bin : BinOp → D → D → Option D}

/-- The interpretation of expressions. -/
abbrev litOf (num : Int64 → D) (n : Nat) : D := num (Int64.ofInt n)

variable (Is neg) in
/-- The pushed ASTs are operators and signed operands, which have these values when the signs are applied. -/
def RestTokens (ds : List (BinOp × D)) (l : List Ast) : Prop :=
  ∃ r : List (BinOp × Signed D), Toks Is l (r.flatMap fun y => .bin y.1 :: y.2.toks) ∧ r.map (fun y => (y.1, applySigns neg y.2.1 y.2.2)) = ds

variable (Is neg) in
def SignedTokens (d : D) (l : List Ast) : Prop := ∃ x : Signed D, Toks Is l x.toks ∧ applySigns neg x.1 x.2 = d

theorem restTokens_nil : RestTokens Is neg [] [] := ⟨[], .nil, rfl⟩

theorem restTokens_append {ds ds' : List (BinOp × D)} {l l' : List Ast} (h : RestTokens Is neg ds l) (h' : RestTokens Is neg ds' l') :
    RestTokens Is neg (ds ++ ds') (l ++ l') := by
  obtain ⟨r, h1, h2⟩ := h
  obtain ⟨r', h3, h4⟩ := h'
  exact ⟨r ++ r', by rw [List.flatMap_append]; exact h1.append h3, by rw [List.map_append, h2, h4]⟩

theorem restTokens_one {op : BinOp} {d : D} {a : Ast} {l : List Ast} (h : Is a (.bin op)) (h' : SignedTokens Is neg d l) :
    RestTokens Is neg [(op, d)] (a :: l) := by
  obtain ⟨x, h1, h2⟩ := h'
  exact ⟨[(op, x)], by simpa using Toks.cons h h1, by simp [h2]⟩

/-- Signs before an operand. -/
theorem signs_iter (hR : RulesFor tr Is num neg bin) {k : Nat} {q : Bool} {e : Expr} {s rest : Bytes} (h : Sgn k q e s) (pre : Bytes) :
    ∃ s₁ s₂ Q, s = s₁ ++ s₂ ∧ (∃ p, Spells .atom p q e s₂) ∧ Iter [den (envOf tr) unaryOperator] k pre s₁ (s₂ ++ rest) Q ∧
      ∀ l, Q l → Toks Is l (List.replicate k .neg) := by
  induction h generalizing pre with
  | @zero p q e s h =>
    refine ⟨[], s, _, rfl, ⟨p, h⟩, .stop (.head (unary_misses (fun s' he => ?_) pre)), fun l hl => by rw [hl]; exact .nil⟩
    exact opens_atom_not_minus h rest s' he
  | @succ k q e b s hb hs ih =>
    obtain ⟨s₁, s₂, Q, rfl, h1, h2, h3⟩ := ih (pre ++ (0x2d :: b))
    refine ⟨0x2d :: (b ++ s₁), s₂, _, by simp, h1, Iter.next (w1 := 0x2d :: b) (.single (unary_hits hb ?_ pre)) h2, fun l hl => ?_⟩
    · rw [← List.append_assoc]; exact (sgn_opens hs).append.notWhite
    · obtain ⟨x, y, rfl, ⟨a, rfl, ha⟩, hy⟩ := hl
      exact .cons (hR.neg_tok a ha) (h3 y hy)

/-- `numberG` does not match unless a digit comes next, or a minus sign and a digit. -/
theorem number_misses_at {env : Env} {s : Bytes} (pre : Bytes) (h : (∃ s', s = 0x28 :: s') ∨ ∃ s', s = 0x2d :: s' ∧ ¬ StartsWith isDec s') :
    Misses (den env numberG) pre s := by
  refine number_misses ?_ pre
  rcases h with ⟨s', rfl⟩ | ⟨s', rfl, h⟩
  · rintro ⟨b, s'', h1, h2⟩
    have : signRun (0x28 :: s') = [] := rfl
    rw [this] at h1
    cases h1
    exact absurd h2 (by decide)
  · exact h

theorem blanks_not_dec {b s : Bytes} (hb : Blanks b) (hne : b ≠ []) : ¬ StartsWith isDec (b ++ s) := by
  rintro ⟨d, s', he, hd⟩
  rcases blanks_first (s := s) hb with h | ⟨ch, n, h1, h2⟩
  · exact hne h
  · rw [he] at h1
    exact notWhite_ascii (isDec_facts hd).1 (isDec_facts hd).2.1 ch n h1 h2

theorem op_opens_minus {s : Bytes} : ¬ StartsWith isDec (0x2d :: s) := by
  rintro ⟨d, s', he, hd⟩
  cases he
  exact absurd hd (by decide)

/-- An operand is a number for `numberG`, or it is not matched by it and can stand anywhere. -/
theorem number_or_not (hR : RulesFor tr Is num neg bin) {p q : Bool} {x : Signed Expr} {s rest : Bytes} (h : Opd p q x s) (hr : After rest) (pre : Bytes) :
    (q = true ∧ ∃ d, (applySigns Expr.neg x.1 x.2).fold (litOf num) neg bin = some d ∧
      Hits (den (envOf tr) numberG) pre s rest (SignedTokens Is neg d)) ∨
    (Misses (den (envOf tr) numberG) pre (s ++ rest) ∧ Opd false q x s) := by
  cases h with
  | min h1 h2 =>
    refine .inl ⟨rfl, _, rfl, ?_⟩
    have := number_hits (env := envOf tr) (.minus (n := 2 ^ 63) (Nat.le_refl _)) h1 h2 hr.1 hr.2 pre
    refine this.mono fun l hl => ?_
    obtain ⟨a, rfl, ha⟩ := hl
    exact ⟨(0, _), .cons (hR.num_tok a _ ha) .nil, hR.num_neg _⟩
  | sgn h =>
  cases h with
  | zero h =>
    rcases atom_cases h with ⟨sg, w, b, n, rfl, rfl, _, h0, h1, h2, h3, _⟩ | ⟨b₁, s', b₂, _, rfl, _⟩
    · refine .inl ⟨h3, _, rfl, ?_⟩
      have := number_hits (env := envOf tr) h0 h1 h2 hr.1 hr.2 pre
      refine this.mono fun l hl => ?_
      obtain ⟨a, rfl, ha⟩ := hl
      exact ⟨(0, _), .cons (hR.num_tok a _ ha) .nil, rfl⟩
    · exact .inr ⟨number_misses_at pre (.inl ⟨_, rfl⟩), .sgn (.zero h)⟩
  | @succ k q e b s hb hs =>
    by_cases hne : b = []
    · subst hne
      cases hs with
      | zero h =>
        rcases atom_cases h with ⟨sg, w, b, n, rfl, rfl, rfl | rfl, h0, h1, h2, h3, h4⟩ | ⟨b₁, s', b₂, _, rfl, _⟩
        · refine .inl ⟨h3, _, rfl, ?_⟩
          have := number_hits (env := envOf tr) (.minus (Nat.le_of_lt h4)) h1 h2 hr.1 hr.2 pre
          refine this.mono fun l hl => ?_
          obtain ⟨a, rfl, ha⟩ := hl
          exact ⟨(0, _), .cons (hR.num_tok a _ ha) .nil, hR.num_neg _⟩
        · refine .inr ⟨number_misses_at pre (.inr ⟨_, rfl, ?_⟩), .sgn (.succ hb (.zero h))⟩
          rintro ⟨d, s'', he, hd⟩
          cases he
          exact absurd hd (by decide)
        · refine .inr ⟨number_misses_at pre (.inr ⟨_, rfl, ?_⟩), .sgn (.succ hb (.zero h))⟩
          rintro ⟨d, s'', he, hd⟩
          cases he
          exact absurd hd (by decide)
      | succ hb' hs' => exact .inr ⟨number_misses_at pre (.inr ⟨_, rfl, op_opens_minus⟩), .sgn (.succ hb (.succ hb' hs'))⟩
    · refine .inr ⟨number_misses_at pre (.inr ⟨b ++ s ++ rest, by simp, ?_⟩), .sgn (.succ hb hs)⟩
      rw [List.append_assoc]
      exact blanks_not_dec hb hne

/-- The repetition of operators and numbers behind a number. -/
theorem inner_iter (hR : RulesFor tr Is num neg bin) {p q : Bool} {r : List (BinOp × Signed Expr)} {t rest : Bytes} (h : Tail p q r t) (hr : Follow rest)
    (pre : Bytes) :
    ∃ r₁ r₂ t₁ t₂ n Q ds q', r = r₁ ++ r₂ ∧ t = t₁ ++ t₂ ∧ Tail false q' r₂ t₂ ∧ vals (litOf num) neg bin (applied r₁) = some ds ∧
      Iter [den (envOf tr) binaryOperator, den (envOf tr) numberG] n pre t₁ (t₂ ++ rest) Q ∧ ∀ l, Q l → RestTokens Is neg ds l := by
  induction h generalizing pre with
  | nil => exact ⟨[], [], [], [], 0, _, [], _, rfl, rfl, .nil, rfl, .stop (.head (binary_misses hr pre)), fun l hl => by rw [hl]; exact restTokens_nil⟩
  | @cons p q q' op x b s t r hb hs ht ih =>
    have hop := binary_hits (env := envOf tr) (op := op) (s := s ++ t ++ rest) hb (by rw [List.append_assoc]; exact (opd_opens hs).append.notWhite) pre
    rcases number_or_not hR hs (tail_after ht hr) (pre ++ op.char :: b) with ⟨_, d, h1, h2⟩ | ⟨h1, h2⟩
    · obtain ⟨r₁, r₂, t₁, t₂, n, Q, ds, q', rfl, rfl, h3, h4, h5, h6⟩ := ih (pre ++ (op.char :: b ++ s))
      refine ⟨(op, x) :: r₁, r₂, (op.char :: b ++ s) ++ t₁, t₂, n + 1, _, (op, d) :: ds, q', by simp, by simp, h3, ?_,
        .next (.cons (by simpa using hop) (.single (by simpa using h2))) h5, fun l hl => ?_⟩
      · simp only [applied, List.map_cons, vals, h1, Option.bind_some]
        rw [show vals (litOf num) neg bin (List.map _ r₁) = _ from h4]; rfl
      · obtain ⟨x, y, rfl, ⟨x1, x2, rfl, ⟨a, rfl, ha⟩, hx2⟩, hy⟩ := hl
        exact restTokens_append (restTokens_one (hR.bin_tok a op ha) hx2) (h6 y hy)
    · refine ⟨[], _, [], _, 0, _, [], _, rfl, rfl, .cons hb h2 ht, rfl, .stop ?_, fun l hl => by rw [hl]; exact restTokens_nil⟩
      have := SeqMisses.tail (ps := [den (envOf tr) numberG]) hop (.head (by simpa using h1))
      simpa using this

/-- `simpleExpression` behind the signs of a number. -/
theorem simple_hits (hR : RulesFor tr Is num neg bin) {sg w b : Bytes} {n : Nat} (hsg : SignedValue n sg n (Int64.ofInt n)) (hw : DigitsText w n) (hb : Blanks b)
    {p q : Bool} {r : List (BinOp × Signed Expr)} {t rest : Bytes} (h : Tail p q r t) (hr : Follow rest) (pre : Bytes) :
    ∃ r₁ r₂ t₁ t₂ ds q', r = r₁ ++ r₂ ∧ t = t₁ ++ t₂ ∧ Tail false q' r₂ t₂ ∧ vals (litOf num) neg bin (applied r₁) = some ds ∧
      Hits (den (envOf tr) simpleExpression) pre (sg ++ w ++ b ++ t₁) (t₂ ++ rest)
        (Both (fun l => ∃ a, l = [a] ∧ Is a (.operand (litOf num n))) (RestTokens Is neg ds)) := by
  obtain ⟨r₁, r₂, t₁, t₂, m, Q, ds, q', h1, h2, h3, h4, h5, h6⟩ := inner_iter hR h hr (pre ++ (sg ++ w ++ b))
  refine ⟨r₁, r₂, t₁, t₂, ds, q', h1, h2, h3, h4, ?_⟩
  have hn := number_hits (env := envOf tr) (s := t₁ ++ (t₂ ++ rest)) hsg hw hb
    (by rw [← List.append_assoc, ← h2]; exact (tail_after h hr).1) (by rw [← List.append_assoc, ← h2]; exact (tail_after h hr).2) pre
  have := flat_hits (env := envOf tr) (gs := [numberG, Gram.star [binaryOperator, numberG]])
    (.cons hn (.single (star_hits (gs := [binaryOperator, numberG]) h5)))
  refine this.mono fun l hl => ?_
  obtain ⟨x, y, rfl, ⟨a, rfl, ha⟩, hy⟩ := hl
  exact ⟨_, y, rfl, ⟨a, rfl, hR.num_tok a _ ha⟩, h6 y hy⟩

theorem simple_misses {env : Env} {s : Bytes} (pre : Bytes) (h : ∃ s', s = 0x28 :: s') : Misses (den env simpleExpression) pre s :=
  flat_misses (gs := [numberG, Gram.star [binaryOperator, numberG]]) (.head (number_misses_at pre (.inl h)))

/-- One operand with this value. -/
def OperandAst (Is : Ast → Tok D → Prop) (d : D) (l : List Ast) : Prop := ∃ a, l = [a] ∧ Is a (.operand d)

variable (tr Is num neg bin) in
/-- Expressions with texts shorter than `n` are parsed to their values. -/
def ExprOk (n : Nat) : Prop := ∀ q e s, s.length < n → Spells .sum false q e s → ∀ pre rest, Follow rest →
  (∀ v, e.fold (litOf num) neg bin = some v → Hits (den (envOf tr) (expressionOf tr)) pre s rest (OperandAst Is v)) ∧
  (e.fold (litOf num) neg bin = none → Panics (den (envOf tr) (expressionOf tr)) pre (s ++ rest) .divZero)

theorem paren_hits {env : Env} {o : UInt8} (pre s : Bytes) : Hits (den env (Gram.erased (.prim (charClass [[o]])))) pre [o] s (· = []) :=
  erased_hits (charClass_hits (cc1 := []) (cc2 := []) rfl (by simp))

theorem grouped_ok {n : Nat} (hE : ExprOk tr Is num neg bin n) {q : Bool} {e : Expr} {s b₁ b₂ rest : Bytes} (hs : s.length < n) (h : Spells .sum false q e s)
    (hb₁ : Blanks b₁) (hb₂ : Blanks b₂) (hr : After rest) (pre : Bytes) :
    (∀ v, e.fold (litOf num) neg bin = some v →
      Hits (den (envOf tr) (.indirect groupedName)) pre (0x28 :: (b₁ ++ (s ++ 0x29 :: b₂))) rest (OperandAst Is v)) ∧
    (e.fold (litOf num) neg bin = none →
      Panics (den (envOf tr) (.indirect groupedName)) pre (0x28 :: (b₁ ++ (s ++ 0x29 :: b₂)) ++ rest) .divZero) := by
  have ho := paren_hits (env := envOf tr) (o := 0x28) pre (b₁ ++ (s ++ 0x29 :: b₂) ++ rest)
  have hsp : ∀ rest, Hits (den (envOf tr) (Gram.erased sp0)) (pre ++ [0x28]) b₁ (s ++ rest) (· = []) := fun rest =>
    sp0_hits hb₁ (spells_opens h).append.notWhite _
  have hk := hE q e s hs h (pre ++ [0x28] ++ b₁) (0x29 :: (b₂ ++ rest)) (.inr ⟨_, rfl⟩)
  constructor
  · intro v hv
    have h1 := hk.1 v hv
    have h2 := paren_hits (env := envOf tr) (o := 0x29) (pre ++ [0x28] ++ b₁ ++ s) (b₂ ++ rest)
    have h3 := sp0_hits (env := envOf tr) hb₂ hr.1 (pre ++ [0x28] ++ b₁ ++ s ++ [0x29])
    have h4 : Hits (den (envOf tr) (groupedInner tr)) (pre ++ [0x28]) (b₁ ++ (s ++ ([0x29] ++ b₂))) rest _ :=
      flat_hits (gs := [Gram.erased sp0, expressionOf tr, Gram.erased (.prim (charClass [b! ")"])), Gram.erased sp0])
        (.cons (by simpa using hsp (0x29 :: (b₂ ++ rest))) (.cons (by simpa using h1) (.cons h2 (.single h3))))
    have h5 : Hits (den (envOf tr) (groupedOf tr)) pre ([0x28] ++ (b₁ ++ (s ++ ([0x29] ++ b₂)))) rest _ :=
      flat_hits (gs := [Gram.erased (.prim (charClass [b! "("])), .first [groupedInner tr, .prim (errorP "Error in grouped expression")]])
        (.cons (by simpa using ho) (.single (first_hits (gs := [groupedInner tr, .prim (errorP "Error in grouped expression")]) (.here h4))))
    refine (indirect_hits (i := groupedName) (env := envOf tr) h5).mono fun l hl => ?_
    obtain ⟨x, y, rfl, rfl, y1, y2, rfl, rfl, y3, y4, rfl, ⟨a, rfl, ha⟩, y5, y6, rfl, rfl, rfl⟩ := hl
    exact ⟨a, rfl, ha⟩
  · intro hv
    have h1 := hk.2 hv
    have h4 : Panics (den (envOf tr) (groupedInner tr)) (pre ++ [0x28]) (b₁ ++ (s ++ 0x29 :: (b₂ ++ rest))) .divZero :=
      flat_panics (gs := [Gram.erased sp0, expressionOf tr, Gram.erased (.prim (charClass [b! ")"])), Gram.erased sp0])
        (.tail (hsp (0x29 :: (b₂ ++ rest))) (.head h1))
    have h5 : Panics (den (envOf tr) (groupedOf tr)) pre ([0x28] ++ (b₁ ++ (s ++ 0x29 :: (b₂ ++ rest)))) .divZero :=
      flat_panics (gs := [Gram.erased (.prim (charClass [b! "("])), .first [groupedInner tr, .prim (errorP "Error in grouped expression")]])
        (.tail (by simpa using ho) (.head (first_panics (gs := [groupedInner tr, .prim (errorP "Error in grouped expression")]) (.here h4))))
    have := indirect_panics (i := groupedName) (env := envOf tr) h5
    simpa using this

/-- An operand and what `simpleExpression` takes in addition. -/
theorem atom_ok (hR : RulesFor tr Is num neg bin) {n : Nat} (hE : ExprOk tr Is num neg bin n) {e : Expr} {s : Bytes} (hs : s.length ≤ n)
    {p q q' : Bool} (h : Spells .atom p q e s) {r : List (BinOp × Signed Expr)} {t rest : Bytes} (ht : Tail q q' r t) (hr : Follow rest) (more : List Gram) (pre : Bytes) :
    (∀ v, e.fold (litOf num) neg bin = some v → ∃ r₁ r₂ t₁ t₂ ds q', r = r₁ ++ r₂ ∧ t = t₁ ++ t₂ ∧ Tail false q' r₂ t₂ ∧
      vals (litOf num) neg bin (applied r₁) = some ds ∧
      Hits (den (envOf tr) (.first (simpleExpression :: .indirect groupedName :: more))) pre (s ++ t₁) (t₂ ++ rest)
        (Both (OperandAst Is v) (RestTokens Is neg ds))) ∧
    (e.fold (litOf num) neg bin = none →
      Panics (den (envOf tr) (.first (simpleExpression :: .indirect groupedName :: more))) pre (s ++ (t ++ rest)) .divZero) := by
  rcases atom_cases h with ⟨sg, w, b, m, rfl, rfl, _, h0, h1, h2, _⟩ | ⟨b₁, s', b₂, _, rfl, hb₁, hs', hb₂, rfl⟩
  · refine ⟨fun v hv => ?_, fun hv => by cases hv⟩
    cases hv
    obtain ⟨r₁, r₂, t₁, t₂, ds, q', h3, h4, h5, h6, h7⟩ := simple_hits hR h0 h1 h2 ht hr pre
    exact ⟨r₁, r₂, t₁, t₂, ds, q', h3, h4, h5, h6, first_hits (.here h7)⟩
  · have hlen : s'.length < n := by simp at hs; omega
    have hg := grouped_ok hE hlen hs' hb₁ hb₂ (tail_after ht hr) pre
    refine ⟨fun v hv => ⟨[], r, [], t, [], _, rfl, rfl, ht, rfl, ?_⟩, fun hv => ?_⟩
    · refine first_hits (.there (simple_misses pre ⟨_, rfl⟩) (.here ?_))
      have := hg.1 v hv
      rw [List.append_nil]
      exact this.mono fun l hl => ⟨l, [], by simp, hl, restTokens_nil⟩
    · exact first_panics (.there (simple_misses pre ⟨_, rfl⟩) (.here (hg.2 hv)))

theorem signedTokens_of {k : Nat} {d : D} {l l' : List Ast} (h : Toks Is l (List.replicate k .neg)) (h' : OperandAst Is d l') :
    SignedTokens Is neg (applySigns neg k d) (l ++ l') := by
  obtain ⟨a, rfl, ha⟩ := h'
  exact ⟨(k, d), h.append (.cons ha .nil), rfl⟩

/-- A signed operand and what `simpleExpression` takes in addition. -/
theorem signed_ok (hR : RulesFor tr Is num neg bin) {n : Nat} (hE : ExprOk tr Is num neg bin n) {k : Nat} {q q' : Bool} {e : Expr} {s : Bytes} (hs : s.length ≤ n)
    (h : Sgn k q e s) {r : List (BinOp × Signed Expr)} {t rest : Bytes} (ht : Tail q q' r t) (hr : Follow rest) (more : List Gram) (pre : Bytes) :
    (∀ v, (applySigns Expr.neg k e).fold (litOf num) neg bin = some v → ∃ r₁ r₂ t₁ t₂ ds q', r = r₁ ++ r₂ ∧ t = t₁ ++ t₂ ∧ Tail false q' r₂ t₂ ∧
      vals (litOf num) neg bin (applied r₁) = some ds ∧
      SeqHits [den (envOf tr) (Gram.star [unaryOperator]), den (envOf tr) (.first (simpleExpression :: .indirect groupedName :: more))] pre (s ++ t₁)
        (t₂ ++ rest) (Both (SignedTokens Is neg v) (RestTokens Is neg ds))) ∧
    ((applySigns Expr.neg k e).fold (litOf num) neg bin = none → ∀ ps,
      SeqPanics (den (envOf tr) (Gram.star [unaryOperator]) :: den (envOf tr) (.first (simpleExpression :: .indirect groupedName :: more)) :: ps) pre
        (s ++ (t ++ rest)) .divZero) := by
  obtain ⟨s₁, s₂, Q, rfl, ⟨_, h1⟩, h2, h3⟩ := signs_iter (rest := t ++ rest) hR h pre
  have hstar := star_hits (env := envOf tr) (gs := [unaryOperator]) h2
  have hlen : s₂.length ≤ n := by simp at hs; omega
  have ha := atom_ok hR hE hlen h1 ht hr more (pre ++ s₁)
  rw [fold_signs]
  constructor
  · intro v hv
    cases he : e.fold (litOf num) neg bin with
    | none => rw [he] at hv; cases hv
    | some d =>
      rw [he] at hv
      cases hv
      obtain ⟨r₁, r₂, t₁, t₂, ds, q', h4, h5, h6, h7, h8⟩ := ha.1 d he
      refine ⟨r₁, r₂, t₁, t₂, ds, q', h4, h5, h6, h7, ?_⟩
      rw [List.append_assoc]
      refine (SeqHits.cons (by rw [h5] at hstar; simpa using hstar) (.single h8)).mono fun l hl => ?_
      obtain ⟨x, y, rfl, hx, y1, y2, rfl, hy1, hy2⟩ := hl
      exact ⟨x ++ y1, y2, by simp, signedTokens_of (h3 x hx) hy1, hy2⟩
  · intro hv ps
    have he : e.fold (litOf num) neg bin = none := by
      cases he : e.fold (litOf num) neg bin with
      | none => rfl
      | some d => rw [he] at hv; cases hv
    have := SeqPanics.tail (ps := den (envOf tr) (.first (simpleExpression :: .indirect groupedName :: more)) :: ps) hstar (.head (ha.2 he))
    simpa using this

/-- The operand behind a binary operator. -/
abbrev rightOperand : Gram := .first [
  .flatGroup [Gram.star [unaryOperator], .first [simpleExpression, .indirect groupedName]],
  .prim (errorP "Error in the expression after the binary operator")]

/-- The repetition of operators and operands. -/
theorem outer_ok (hR : RulesFor tr Is num neg bin) {n : Nat} (hE : ExprOk tr Is num neg bin n) (m : Nat) {r : List (BinOp × Signed Expr)} {t rest : Bytes}
    {q : Bool} (hm : r.length ≤ m) (hn : t.length ≤ n) (ht : Tail false q r t) (hr : Follow rest) (pre : Bytes) :
    (∀ ds, vals (litOf num) neg bin (applied r) = some ds → ∃ k Q,
      Iter [den (envOf tr) binaryOperator, den (envOf tr) rightOperand] k pre t rest Q ∧ ∀ l, Q l → RestTokens Is neg ds l) ∧
    (vals (litOf num) neg bin (applied r) = none → ∃ k Q w s, t = w ++ s ∧
      Upto [den (envOf tr) binaryOperator, den (envOf tr) rightOperand] k pre w (s ++ rest) Q ∧
      SeqPanics [den (envOf tr) binaryOperator, den (envOf tr) rightOperand] (pre ++ w) (s ++ rest) .divZero) := by
  induction m generalizing r t q pre with
  | zero =>
    cases ht with
    | nil =>
      refine ⟨fun ds hds => ?_, fun h => by cases h⟩
      cases hds
      exact ⟨0, _, .stop (.head (binary_misses hr pre)), fun l hl => by rw [hl]; exact restTokens_nil⟩
    | cons => simp at hm
  | succ m ih =>
    cases ht with
    | nil =>
      refine ⟨fun ds hds => ?_, fun h => by cases h⟩
      cases hds
      exact ⟨0, _, .stop (.head (binary_misses hr pre)), fun l hl => by rw [hl]; exact restTokens_nil⟩
    | @cons _ q' _ op x b s t r hb hs ht =>
      obtain ⟨k, e⟩ := x
      have hs : Sgn k q' e s := by cases hs; assumption
      have hop := fun rest => binary_hits (env := envOf tr) (op := op) (s := s ++ rest) hb (sgn_opens hs).append.notWhite pre
      have hsg := signed_ok hR hE (by simp at hn; omega) hs ht hr [] (pre ++ op.char :: b)
      simp only [applied, List.map_cons, vals]
      cases hv : (applySigns Expr.neg k e).fold (litOf num) neg bin with
      | none =>
        refine ⟨fun ds hds => (by cases hds), fun _ => ⟨0, _, [], _, rfl, .stop, ?_⟩⟩
        have h1 := first_panics (gs := [.flatGroup [Gram.star [unaryOperator], .first [simpleExpression, .indirect groupedName]],
          .prim (errorP "Error in the expression after the binary operator")]) (.here (flat_panics (env := envOf tr) (gs := [Gram.star [unaryOperator], .first [simpleExpression, .indirect groupedName]]) (hsg.2 hv [])))
        have := SeqPanics.tail (ps := [den (envOf tr) rightOperand]) (hop (t ++ rest)) (.head h1)
        simpa using this
      | some d =>
        obtain ⟨r₁, r₂, t₁, t₂, ds₁, _, rfl, rfl, h6, h7, h8⟩ := hsg.1 d hv
        have h9 := first_hits (gs := [.flatGroup [Gram.star [unaryOperator], .first [simpleExpression, .indirect groupedName]],
          .prim (errorP "Error in the expression after the binary operator")]) (.here (flat_hits (env := envOf tr) (gs := [Gram.star [unaryOperator], .first [simpleExpression, .indirect groupedName]]) h8))
        have h10 := SeqHits.cons (by simpa using hop (t₁ ++ (t₂ ++ rest))) (SeqHits.single h9)
        have hih := ih (r := r₂) (t := t₂) (by simp at hm; omega) (by simp at hn; omega) h6 (pre ++ (op.char :: b ++ (s ++ t₁)))
        have e1 : vals (litOf num) neg bin (applied (r₁ ++ r₂)) = (vals (litOf num) neg bin (applied r₂)).map (ds₁ ++ ·) := by
          simp only [applied, List.map_append, vals_append]
          rw [show vals (litOf num) neg bin (List.map _ r₁) = _ from h7]; rfl
        simp only [Option.bind_some]
        rw [show vals (litOf num) neg bin (List.map _ (r₁ ++ r₂)) = _ from e1]
        constructor
        · intro ds hds
          cases hv2 : vals (litOf num) neg bin (applied r₂) with
          | none => rw [hv2] at hds; cases hds
          | some ds₂ =>
            rw [hv2] at hds
            cases hds
            obtain ⟨j, Q, h11, h12⟩ := hih.1 ds₂ hv2
            refine ⟨j + 1, _, by simpa using Iter.next h10 h11, fun l hl => ?_⟩
            obtain ⟨x, y, rfl, ⟨x1, x2, rfl, ⟨a, rfl, ha⟩, x3, x4, rfl, hx3, hx4⟩, hy⟩ := hl
            have := restTokens_append (restTokens_append (restTokens_one (hR.bin_tok a op ha) hx3) hx4) (h12 y hy)
            simpa using this
        · intro hds
          have hv2 : vals (litOf num) neg bin (applied r₂) = none := by
            cases hv2 : vals (litOf num) neg bin (applied r₂) with
            | none => rfl
            | some ds₂ => rw [hv2] at hds; cases hds
          obtain ⟨j, Q, w, s', rfl, h11, h12⟩ := hih.2 hv2
          refine ⟨j + 1, _, (op.char :: b ++ (s ++ t₁)) ++ w, s', by simp, Upto.next (by simpa using h10) h11, ?_⟩
          rw [← List.append_assoc]; exact h12

theorem SeqHits.append {ps qs : List Sem} {pre w1 w2 rest : Bytes} {Q R : List Ast → Prop}
    (h1 : SeqHits ps pre w1 (w2 ++ rest) Q) (h2 : SeqHits qs (pre ++ w1) w2 rest R) :
    SeqHits (ps ++ qs) pre (w1 ++ w2) rest (Both Q R) := fun c hc => by
  obtain ⟨c1, e1, r1⟩ := h1 c (by simpa using hc)
  obtain ⟨c2, e2, r2⟩ := h2 c1 r1.at_
  exact ⟨c2, e1.append_matched e2, r1.trans r2⟩

theorem SeqPanics.append {ps qs : List Sem} {pre w s : Bytes} {Q : List Ast → Prop} {x : Panic}
    (h1 : SeqHits ps pre w s Q) (h2 : SeqPanics qs (pre ++ w) s x) : SeqPanics (ps ++ qs) pre (w ++ s) x := fun c hc => by
  obtain ⟨c1, e1, r1⟩ := h1 c hc
  exact e1.append_matched (h2 c1 r1.at_)

theorem expr_ok (hR : RulesFor tr Is num neg bin) (n : Nat) : ExprOk tr Is num neg bin n := by
  induction n with
  | zero => exact fun q e s hs => absurd hs (by omega)
  | succ n ih =>
    intro q e s hs h pre rest hr
    obtain ⟨q₁, ⟨k, a⟩, r, s₁, t, rfl, h1, h2, h3⟩ := spells_shape h
    have h1 : Sgn k q₁ a s₁ := by cases h1; assumption
    have hlen : s₁.length ≤ n ∧ t.length ≤ n := by simp at hs; omega
    have hsg := signed_ok hR ih hlen.1 h1 h2 hr [.prim (errorP "Value required")] pre
    have hfold := chain_fold (lit := litOf num) (neg := neg) (bin := bin) _ _ _ h3
    cases hv : (applySigns Expr.neg k a).fold (litOf num) neg bin with
    | none =>
      rw [hv] at hfold
      refine ⟨fun v hv' => (by rw [hfold] at hv'; cases hv'), fun _ => ?_⟩
      have := trans_panics (ts := [tr]) (flat_panics (env := envOf tr) (gs := [Gram.star [unaryOperator],
        .first [simpleExpression, .indirect groupedName, .prim (errorP "Value required")], Gram.star [binaryOperator, rightOperand]]) (hsg.2 hv _))
      rw [List.append_assoc]
      exact this
    | some d =>
      rw [hv] at hfold
      simp only [Option.bind_some] at hfold
      obtain ⟨r₁, r₂, t₁, t₂, ds₁, _, rfl, rfl, h6, h7, h8⟩ := hsg.1 d hv
      have ho := outer_ok hR ih r₂.length (Nat.le_refl _) (by simp at hlen; omega) h6 hr (pre ++ (s₁ ++ t₁))
      have e1 : vals (litOf num) neg bin (applied (r₁ ++ r₂)) = (vals (litOf num) neg bin (applied r₂)).map (ds₁ ++ ·) := by
        simp only [applied, List.map_append, vals_append]
        rw [show vals (litOf num) neg bin (List.map _ r₁) = _ from h7]; rfl
      rw [e1] at hfold
      cases hv2 : vals (litOf num) neg bin (applied r₂) with
      | none =>
        rw [hv2] at hfold
        refine ⟨fun v hv' => (by rw [hfold] at hv'; cases hv'), fun _ => ?_⟩
        obtain ⟨j, Q, w, s', rfl, h11, h12⟩ := ho.2 hv2
        have hp : Panics (den (envOf tr) (Gram.star [binaryOperator, rightOperand])) (pre ++ (s₁ ++ t₁)) (w ++ (s' ++ rest)) .divZero :=
          repeat_panics (env := envOf tr) (t := qtyZeroOrMoreTimes) (gs := [binaryOperator, rightOperand]) h11 h12
            (.inl (by simp [qtyZeroOrMoreTimes]))
        have := trans_panics (ts := [tr]) (flat_panics (env := envOf tr) (gs := [Gram.star [unaryOperator],
          .first [simpleExpression, .indirect groupedName, .prim (errorP "Value required")], Gram.star [binaryOperator, rightOperand]])
          (SeqPanics.append (by simpa using h8) (.head hp)))
        have e2 : s₁ ++ (t₁ ++ (w ++ s')) ++ rest = s₁ ++ t₁ ++ (w ++ (s' ++ rest)) := by simp
        rw [e2]
        exact this
      | some ds₂ =>
        rw [hv2] at hfold
        obtain ⟨j, Q, h11, h12⟩ := ho.1 ds₂ hv2
        have hp : Hits (den (envOf tr) (Gram.star [binaryOperator, rightOperand])) (pre ++ (s₁ ++ t₁)) t₂ rest Q :=
          star_hits (env := envOf tr) (gs := [binaryOperator, rightOperand]) h11
        have hin : Hits (den (envOf tr) expressionInner) pre (s₁ ++ t₁ ++ t₂) rest _ := flat_hits (env := envOf tr) (gs := [Gram.star [unaryOperator],
          .first [simpleExpression, .indirect groupedName, .prim (errorP "Value required")], Gram.star [binaryOperator, rightOperand]])
          (SeqHits.append h8 (.single hp))
        rw [List.append_assoc] at hin
        have htok : ∀ l, Both (Both (SignedTokens Is neg d) (RestTokens Is neg ds₁)) Q l → ∃ x rest, Toks Is l (chainToks x rest) ∧
            applySigns neg x.1 x.2 = d ∧ rest.map (fun y => (y.1, applySigns neg y.2.1 y.2.2)) = ds₁ ++ ds₂ := by
          rintro l ⟨x, y, rfl, ⟨x1, x2, rfl, ⟨z, hz1, hz2⟩, hx2⟩, hy⟩
          obtain ⟨rr, h13, h14⟩ := restTokens_append hx2 (h12 y hy)
          exact ⟨z, rr, by rw [List.append_assoc]; exact hz1.append h13, hz2, h14⟩
        have hcv : ∀ (x : Signed D) (rest : List (BinOp × Signed D)), applySigns neg x.1 x.2 = d →
            rest.map (fun y => (y.1, applySigns neg y.2.1 y.2.2)) = ds₁ ++ ds₂ → chainValue neg bin x rest = e.fold (litOf num) neg bin := by
          intro x rest hx hrest
          rw [hfold]
          unfold chainValue
          rw [hx, hrest]; rfl
        constructor
        · intro v hv'
          refine trans_hits (by simp) hin fun c l hl => ?_
          obtain ⟨x, rr, h13, h14, h15⟩ := htok l hl
          obtain ⟨y, h16, h17⟩ := (hR.gives c l x rr h13).1 v (by rw [hcv x rr h14 h15, hv'])
          exact ⟨[y], by simp [applyTrs, h17], y, rfl, h16⟩
        · intro hv'
          refine trans_panics_of hin fun c l hl => ?_
          obtain ⟨x, rr, h13, h14, h15⟩ := htok l hl
          have := (hR.gives c l x rr h13).2 (by rw [hcv x rr h14 h15, hv'])
          simp [applyTrs, this]

/-- The whole program. -/
theorem program_ok (hR : RulesFor tr Is num neg bin) {e : Expr} {s : Bytes} (h : Spelled s e) :
    (∀ v, e.fold (litOf num) neg bin = some v → Hits (den (envOf tr) (programOf tr)) [] s [] (OperandAst Is v)) ∧
    (e.fold (litOf num) neg bin = none → Panics (den (envOf tr) (programOf tr)) [] s .divZero) := by
  obtain ⟨b, s', q, rfl, hb, hs⟩ := h
  have hk := expr_ok hR (s'.length + 1) q e s' (by omega) hs b [] (.inl rfl)
  have hsp := fun rest => sp0_hits (env := envOf tr) hb (spells_opens hs).append.notWhite (s := s' ++ rest) []
  constructor
  · intro v hv
    have : Hits (den (envOf tr) (programOf tr)) [] ([] ++ (b ++ (s' ++ []))) [] _ :=
      flat_hits (gs := [.prim startP, Gram.erased sp0, expressionOf tr, .prim endS])
        (.cons (startP_hits _) (.cons (by simpa using hsp []) (.cons (by simpa using hk.1 v hv) (.single (endS_hits _)))))
    rw [List.append_nil, List.nil_append] at this
    refine this.mono fun l hl => ?_
    obtain ⟨x, y, rfl, rfl, y1, y2, rfl, rfl, y3, y4, rfl, ⟨a, rfl, ha⟩, rfl⟩ := hl
    exact ⟨a, rfl, ha⟩
  · intro hv
    have : Panics (den (envOf tr) (programOf tr)) [] ([] ++ (b ++ (s' ++ []))) .divZero :=
      flat_panics (gs := [.prim startP, Gram.erased sp0, expressionOf tr, .prim endS])
        (.tail (startP_hits _) (.tail (by simpa using hsp []) (.head (by simpa using hk.2 hv))))
    rwa [List.append_nil, List.nil_append] at this

end
end Takenoco
