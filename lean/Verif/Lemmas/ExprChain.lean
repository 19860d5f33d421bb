import Verif.Spec.Formula
/-
Expressions as chains of signed atoms.
-/
namespace Takenoco
open Spec

/-- Minus signs before an atom. The flag tells whether the atom is a number. -/
inductive Sgn : Nat → Bool → Expr → Bytes → Prop where
  | zero {p q : Bool} {e : Expr} {s : Bytes} : Spells .atom p q e s → Sgn 0 q e s
  | succ {k : Nat} {q : Bool} {e : Expr} {b s : Bytes} : Blanks b → Sgn k q e s → Sgn (k + 1) q e (0x2d :: (b ++ s))

/-- Operands: the first flag tells whether the operand before is a number. -/
inductive Opd : Bool → Bool → Signed Expr → Bytes → Prop where
  | sgn {p q : Bool} {k : Nat} {e : Expr} {s : Bytes} : Sgn k q e s → Opd p q (k, e) s
  | min {w b : Bytes} : DigitsText w (2 ^ 63) → Blanks b → Opd true true (1, .lit (2 ^ 63)) (0x2d :: (w ++ b))

/-- Operators and operands. -/
inductive Tail : Bool → Bool → List (BinOp × Signed Expr) → Bytes → Prop where
  | nil {p : Bool} : Tail p p [] []
  | cons {p q r : Bool} {op : BinOp} {x : Signed Expr} {b s t : Bytes} {l : List (BinOp × Signed Expr)} : Blanks b → Opd p q x s → Tail q r l t →
      Tail p r ((op, x) :: l) (op.char :: (b ++ (s ++ t)))

theorem Tail.append {p q r : Bool} {l l' : List (BinOp × Signed Expr)} {t t' : Bytes} (h : Tail p q l t) (h' : Tail q r l' t') :
    Tail p r (l ++ l') (t ++ t') := by
  induction h with
  | nil => exact h'
  | cons h1 h2 _ ih => simpa using Tail.cons h1 h2 (ih h')

/-- The free interpretation. -/
abbrev binE (op : BinOp) (a b : Expr) : Option Expr := some (.bin op a b)
/-- The chain with the signs applied. -/
abbrev applied (r : List (BinOp × Signed Expr)) : List (BinOp × Expr) := r.map fun y => (y.1, applySigns Expr.neg y.2.1 y.2.2)

theorem products_snoc_tight {D : Type} {bin : BinOp → D → D → Option D} {op : BinOp} (hop : op.tight = true) (y : D) (x : D) (r : List (BinOp × D))
    (d : D) (h : products bin x r = some (d, [])) : products bin x (r ++ [(op, y)]) = (bin op d y).map fun d => (d, []) := by
  induction r generalizing x with
  | nil =>
    cases h
    simp only [List.nil_append, products, hop, if_true]
    cases bin op d y <;> rfl
  | cons z r ih =>
    obtain ⟨o, e⟩ := z
    simp only [products, List.cons_append] at h ⊢
    split at h
    · rename_i ho
      cases hb : bin o x e with
      | none => rw [hb] at h; cases h
      | some w => rw [hb] at h; simpa [ho] using ih w h
    · cases hp : products bin e r with
      | none => rw [hp] at h; cases h
      | some w => rw [hp] at h; cases h

theorem products_append_loose {D : Type} {bin : BinOp → D → D → Option D} {op : BinOp} (hop : op.tight = false) (y : D) (r' : List (BinOp × D)) (x : D)
    (r : List (BinOp × D)) :
    products bin x (r ++ (op, y) :: r') = (products bin x r).bind fun a => (products bin y r').map fun b => (a.1, a.2 ++ (op, b.1) :: b.2) := by
  induction r generalizing x with
  | nil => simp [products, hop]
  | cons z r ih =>
    obtain ⟨o, e⟩ := z
    simp only [products, List.cons_append]
    split
    · cases hb : bin o x e with
      | none => rfl
      | some w => exact ih w
    · rw [ih]
      cases products bin e r with
      | none => rfl
      | some a => cases products bin y r' <;> simp

theorem fromLeft_append {D : Type} {bin : BinOp → D → D → Option D} (x : D) (r r' : List (BinOp × D)) :
    fromLeft bin x (r ++ r') = (fromLeft bin x r).bind fun d => fromLeft bin d r' := by
  induction r generalizing x with
  | nil => rfl
  | cons z r ih =>
    obtain ⟨o, e⟩ := z
    simp only [fromLeft, List.cons_append]
    cases bin o x e with
    | none => rfl
    | some w => exact ih w

/-- What a text of some level looks like. -/
def Shape : Level → Bool → Bool → Expr → Bytes → Prop
  | .atom, p, q, e, s => Spells .atom p q e s
  | .unary, p, q, e, s => ∃ x, Opd p q x s ∧ applySigns Expr.neg x.1 x.2 = e
  | .product, p, q, e, s => ∃ m x r s₁ t, s = s₁ ++ t ∧ Opd p m x s₁ ∧ Tail m q r t ∧ products binE (applySigns Expr.neg x.1 x.2) (applied r) = some (e, [])
  | .sum, p, q, e, s => ∃ m x r s₁ t, s = s₁ ++ t ∧ Opd p m x s₁ ∧ Tail m q r t ∧ chainValue Expr.neg binE x r = some e

theorem spells_shape {l : Level} {p q : Bool} {e : Expr} {s : Bytes} (h : Spells l p q e s) : Shape l p q e s := by
  induction h with
  | lit h1 h2 h3 => exact .lit h1 h2 h3
  | plus h1 h2 h3 => exact .plus h1 h2 h3
  | paren h1 h2 h3 _ => exact .paren h1 h2 h3
  | atom h1 _ => exact ⟨(0, _), .sgn (.zero h1), rfl⟩
  | neg h1 _ ih =>
    obtain ⟨x, h2, h3⟩ := ih
    cases h2 with
    | @sgn _ _ k a s h2 => exact ⟨(k + 1, a), .sgn (.succ h1 h2), by rw [← h3]; rfl⟩
  | min h1 h2 => exact ⟨_, .min h1 h2, rfl⟩
  | @unary _ _ s e _ ih =>
    obtain ⟨x, h2, h3⟩ := ih
    exact ⟨_, x, [], s, [], by simp, h2, .nil, by rw [h3]; rfl⟩
  | @mul _ _ _ op s b t l r hop _ hb _ ih1 ih2 =>
    obtain ⟨m, x, r', s₁, t', rfl, h2, h3, h4⟩ := ih1
    obtain ⟨x', h5, h6⟩ := ih2
    refine ⟨m, x, r' ++ [(op, x')], s₁, t' ++ op.char :: (b ++ t), by simp, h2, h3.append ?_, ?_⟩
    · simpa using Tail.cons (op := op) hb h5 .nil
    · simp only [applied, List.map_append, List.map_cons, List.map_nil, h6]
      rw [products_snoc_tight hop _ _ _ _ h4]; rfl
  | @product _ _ s e _ ih =>
    obtain ⟨m, x, r, s₁, t, h1, h2, h3, h4⟩ := ih
    refine ⟨m, x, r, s₁, t, h1, h2, h3, ?_⟩
    unfold chainValue
    rw [h4]; rfl
  | @add _ _ _ op s b t l r hop _ hb _ ih1 ih2 =>
    obtain ⟨m, x, r', s₁, t', rfl, h2, h3, h4⟩ := ih1
    obtain ⟨m', x', r'', s₂, t'', rfl, h5, h6, h7⟩ := ih2
    refine ⟨m, x, r' ++ (op, x') :: r'', s₁, t' ++ op.char :: (b ++ (s₂ ++ t'')), by simp, h2, h3.append (.cons hb h5 h6), ?_⟩
    unfold chainValue at h4 ⊢
    simp only [List.map_append, List.map_cons]
    rw [products_append_loose hop]
    cases hp : products binE (applySigns Expr.neg x.1 x.2) (applied r') with
    | none => rw [hp] at h4; cases h4
    | some y =>
      rw [hp] at h4
      simp only [Option.bind_some] at h4 ⊢
      rw [h7]
      simp only [Option.map_some, Option.bind_some]
      rw [fromLeft_append, h4]; rfl

/-- The texts of expressions are accepted. -/
theorem writes_spells {l : Level} {e : Expr} {s : Bytes} (h : Writes l e s) : ∀ p, ∃ q, Spells l p q e s := by
  induction h with
  | lit h1 h2 => exact fun p => ⟨_, .lit ⟨h1.start, h1.shape, h1.value⟩ h1.small h2⟩
  | paren h1 _ h3 ih => exact fun p => ⟨_, .paren h1 (ih false).choose_spec h3⟩
  | atom _ ih => exact fun p => ⟨_, .atom (ih p).choose_spec⟩
  | neg h1 _ ih => exact fun p => ⟨_, .neg h1 (ih false).choose_spec⟩
  | unary _ ih => exact fun p => ⟨_, .unary (ih p).choose_spec⟩
  | mul hop _ hb _ ih1 ih2 => exact fun p => ⟨_, .mul hop (ih1 p).choose_spec hb (ih2 _).choose_spec⟩
  | product _ ih => exact fun p => ⟨_, .product (ih p).choose_spec⟩
  | add hop _ hb _ ih1 ih2 => exact fun p => ⟨_, .add hop (ih1 p).choose_spec hb (ih2 _).choose_spec⟩

theorem denotes_spelled {s : Bytes} {e : Expr} (h : Denotes s e) : Spelled s e := by
  obtain ⟨b, s', h1, h2, h3⟩ := h
  obtain ⟨q, h4⟩ := writes_spells h3 false
  exact ⟨b, s', q, h1, h2, h4⟩

/-! ### Interpretations of chains -/

section
variable {D : Type} {lit : Nat → D} {neg : D → D} {bin : BinOp → D → D → Option D}

theorem fold_signs (k : Nat) (e : Expr) :
    (applySigns Expr.neg k e).fold lit neg bin = (e.fold lit neg bin).map (applySigns neg k) := by
  induction k with
  | zero => simp only [applySigns]; cases e.fold lit neg bin <;> rfl
  | succ k ih =>
    simp only [applySigns, Expr.fold, ih]
    cases e.fold lit neg bin <;> rfl

variable (lit neg bin) in
/-- The values of the operands; `none` if there is one without value. -/
def vals : List (BinOp × Expr) → Option (List (BinOp × D))
  | [] => some []
  | (op, e) :: r => (e.fold lit neg bin).bind fun d => (vals r).map ((op, d) :: ·)

theorem vals_append (r r' : List (BinOp × Expr)) : vals lit neg bin (r ++ r') =
    (vals lit neg bin r).bind fun a => (vals lit neg bin r').map (a ++ ·) := by
  induction r with
  | nil => simp only [List.nil_append, vals, Option.bind_some]; cases vals lit neg bin r' <;> rfl
  | cons y r ih =>
    obtain ⟨op, e⟩ := y
    simp only [List.cons_append, vals, ih]
    cases e.fold lit neg bin with
    | none => rfl
    | some d =>
      cases vals lit neg bin r with
      | none => rfl
      | some a => cases vals lit neg bin r' <;> rfl

theorem fromLeft_fold (x e : Expr) (r : List (BinOp × Expr)) (h : fromLeft binE x r = some e) :
    e.fold lit neg bin = (x.fold lit neg bin).bind fun d => (vals lit neg bin r).bind fun ds => fromLeft bin d ds := by
  induction r generalizing x with
  | nil => cases h; simp only [vals, fromLeft, Option.bind_some]; cases e.fold lit neg bin <;> rfl
  | cons y r ih =>
    obtain ⟨op, z⟩ := y
    rw [ih _ h]
    simp only [Expr.fold, vals]
    cases x.fold lit neg bin with
    | none => rfl
    | some d =>
      cases z.fold lit neg bin with
      | none => rfl
      | some f =>
        simp only [Option.bind_some]
        cases hv : vals lit neg bin r with
        | none => cases bin op d f <;> rfl
        | some ds => rfl

theorem products_fold (x a : Expr) (r s : List (BinOp × Expr)) (h : products binE x r = some (a, s)) :
    ((a.fold lit neg bin).bind fun d => (vals lit neg bin s).map fun ds => (d, ds)) =
      (x.fold lit neg bin).bind fun d => (vals lit neg bin r).bind fun ds => products bin d ds := by
  induction r generalizing x a s with
  | nil => cases h; simp only [vals, products, Option.bind_some, Option.map_some]
  | cons y r ih =>
    obtain ⟨op, z⟩ := y
    simp only [products] at h
    by_cases hop : op.tight = true
    · simp only [hop, if_true] at h
      rw [ih _ _ _ h]
      simp only [Expr.fold, vals]
      cases x.fold lit neg bin with
      | none => rfl
      | some d =>
        cases z.fold lit neg bin with
        | none => rfl
        | some f =>
          simp only [Option.bind_some]
          cases hv : vals lit neg bin r with
          | none => cases bin op d f <;> rfl
          | some ds => simp [products, hop]
    · simp only [hop] at h
      cases hp : products binE z r with
      | none => rw [hp] at h; cases h
      | some q =>
        rw [hp] at h
        obtain ⟨q1, q2⟩ := q
        cases h
        have := ih _ _ _ hp
        simp only [vals]
        cases x.fold lit neg bin with
        | none => rfl
        | some d =>
          cases hq : q1.fold lit neg bin with
          | none =>
            rw [hq] at this
            cases hz : z.fold lit neg bin with
            | none => rfl
            | some f =>
              rw [hz] at this
              cases hv : vals lit neg bin r with
              | none => rfl
              | some ds => rw [hv] at this; simp at this; simp [products, hop, ← this]
          | some q1' =>
            rw [hq] at this
            cases hz : z.fold lit neg bin with
            | none =>
              rw [hz] at this
              cases hv : vals lit neg bin q2 with
              | none => simp
              | some ds => rw [hv] at this; simp at this
            | some f =>
              rw [hz] at this
              cases hv : vals lit neg bin r with
              | none =>
                rw [hv] at this
                cases hv : vals lit neg bin q2 with
                | none => simp
                | some ds => rw [hv] at this; simp at this
              | some ds =>
                rw [hv] at this
                simp at this
                simp [products, hop, ← this]
                cases vals lit neg bin q2 <;> rfl

/-- The interpretation of an expression from the interpretations of its chain. -/
theorem chain_fold (x : Signed Expr) (r : List (BinOp × Signed Expr)) (e : Expr) (h : chainValue Expr.neg binE x r = some e) :
    e.fold lit neg bin = ((applySigns Expr.neg x.1 x.2).fold lit neg bin).bind fun d => (vals lit neg bin (applied r)).bind fun ds =>
      (products bin d ds).bind fun s => fromLeft bin s.1 s.2 := by
  unfold chainValue at h
  cases hp : products binE (applySigns Expr.neg x.1 x.2) (applied r) with
  | none => rw [hp] at h; cases h
  | some q =>
    obtain ⟨a, s⟩ := q
    rw [hp] at h
    simp only [Option.bind_some] at h
    rw [fromLeft_fold a e s h]
    have := products_fold (lit := lit) (neg := neg) (bin := bin) _ _ _ _ hp
    cases hx : (applySigns Expr.neg x.1 x.2).fold lit neg bin with
    | none =>
      rw [hx] at this
      cases ha : a.fold lit neg bin with
      | none => rfl
      | some d =>
        rw [ha] at this
        cases hv : vals lit neg bin s with
        | none => rfl
        | some ds => rw [hv] at this; cases this
    | some d =>
      rw [hx] at this
      simp only [Option.bind_some] at this ⊢
      cases hr : vals lit neg bin (applied r) with
      | none =>
        rw [hr] at this
        cases ha : a.fold lit neg bin with
        | none => rfl
        | some d =>
          rw [ha] at this
          cases hv : vals lit neg bin s with
          | none => rfl
          | some ds => rw [hv] at this; cases this
      | some ds =>
        rw [hr] at this
        simp only [Option.bind_some] at this ⊢
        rw [← this]
        cases a.fold lit neg bin with
        | none => rfl
        | some d => cases vals lit neg bin s <;> rfl

end
end Takenoco
