import Verif.Spec.Objects
/-
Equality of ASTs: the code against the specification.
-/
namespace Takenoco
open Spec

theorem floatEq_iff (a b : UInt64) : floatEq a b = true ↔ FloatEq a b := by
  unfold floatEq FloatEq IsNaN
  simp [and_assoc]

mutual
theorem valEq_iff : ∀ a b : Value, a.deepEq b = true ↔ ValEq a b
  | .nil, b => by
    cases b <;> simp only [Value.deepEq] <;> first
      | exact ⟨fun _ => .nil, fun _ => trivial⟩
      | exact ⟨fun h => (by cases h), fun h => (by cases h)⟩
  | .rune x, b => by
    cases b <;> simp only [Value.deepEq, beq_iff_eq] <;> first
      | exact ⟨fun h => (by subst h; exact .rune), fun h => by cases h; rfl⟩
      | exact ⟨fun h => (by cases h), fun h => (by cases h)⟩
  | .int x, b => by
    cases b <;> simp only [Value.deepEq, beq_iff_eq] <;> first
      | exact ⟨fun h => (by subst h; exact .int), fun h => by cases h; rfl⟩
      | exact ⟨fun h => (by cases h), fun h => (by cases h)⟩
  | .uint x, b => by
    cases b <;> simp only [Value.deepEq, beq_iff_eq] <;> first
      | exact ⟨fun h => (by subst h; exact .uint), fun h => by cases h; rfl⟩
      | exact ⟨fun h => (by cases h), fun h => (by cases h)⟩
  | .float x, b => by
    cases b <;> simp only [Value.deepEq, floatEq_iff] <;> first
      | exact ⟨fun h => .float h, fun h => by cases h; assumption⟩
      | exact ⟨fun h => (by cases h), fun h => (by cases h)⟩
  | .bool x, b => by
    cases b <;> simp only [Value.deepEq, beq_iff_eq] <;> first
      | exact ⟨fun h => (by subst h; exact .bool), fun h => by cases h; rfl⟩
      | exact ⟨fun h => (by cases h), fun h => (by cases h)⟩
  | .str x, b => by
    cases b <;> simp only [Value.deepEq, beq_iff_eq] <;> first
      | exact ⟨fun h => (by subst h; exact .str), fun h => by cases h; rfl⟩
      | exact ⟨fun h => (by cases h), fun h => (by cases h)⟩
  | .cons x y, b => by
    cases b with
    | cons x' y' =>
      simp only [Value.deepEq, Bool.and_eq_true, wholeEq_iff x x', wholeEq_iff y y']
      exact ⟨fun h => .cons h.1 h.2, fun h => by cases h; exact ⟨by assumption, by assumption⟩⟩
    | _ => simp only [Value.deepEq]; exact ⟨fun h => (by cases h), fun h => (by cases h)⟩
  | .list x, b => by
    cases b with
    | list x' =>
      simp only [Value.deepEq, wholeEqs_iff x x']
      exact ⟨fun h => .list h, fun h => by cases h; assumption⟩
    | _ => simp only [Value.deepEq]; exact ⟨fun h => (by cases h), fun h => (by cases h)⟩
  | .strs x, b => by
    cases b <;> simp only [Value.deepEq, beq_iff_eq] <;> first
      | exact ⟨fun h => (by subst h; exact .strs), fun h => by cases h; rfl⟩
      | exact ⟨fun h => (by cases h), fun h => (by cases h)⟩
  | .strss x, b => by
    cases b <;> simp only [Value.deepEq, beq_iff_eq] <;> first
      | exact ⟨fun h => (by subst h; exact .strss), fun h => by cases h; rfl⟩
      | exact ⟨fun h => (by cases h), fun h => (by cases h)⟩
  | .ast x, b => by
    cases b with
    | ast x' =>
      simp only [Value.deepEq, wholeEq_iff x x']
      exact ⟨fun h => .ast h, fun h => by cases h; assumption⟩
    | _ => simp only [Value.deepEq]; exact ⟨fun h => (by cases h), fun h => (by cases h)⟩
  | .slice x, b => by
    cases b with
    | slice x' =>
      simp only [Value.deepEq, valEqs_iff x x']
      exact ⟨fun h => .slice h, fun h => by cases h; assumption⟩
    | _ => simp only [Value.deepEq]; exact ⟨fun h => (by cases h), fun h => (by cases h)⟩
  | .time x y, b => by
    cases b with
    | time x' y' =>
      simp only [Value.deepEq, Bool.and_eq_true, beq_iff_eq]
      exact ⟨fun ⟨h, h'⟩ => (by subst h; subst h'; exact .time), fun h => by cases h; exact ⟨rfl, rfl⟩⟩
    | _ => simp only [Value.deepEq]; exact ⟨fun h => (by cases h), fun h => (by cases h)⟩
  | .func x, b => by
    cases b <;> simp only [Value.deepEq] <;> exact ⟨fun h => (by cases h), fun h => (by cases h)⟩
  | .opaque x, b => by
    cases b <;> simp only [Value.deepEq, beq_iff_eq] <;> first
      | exact ⟨fun h => (by subst h; exact .opaque), fun h => by cases h; rfl⟩
      | exact ⟨fun h => (by cases h), fun h => (by cases h)⟩
theorem wholeEq_iff : ∀ a b : Ast, a.deepEq b = true ↔ WholeEq a b
  | ⟨o, c, t, v, p, l⟩, ⟨o', c', t', v', p', l'⟩ => by
    simp only [Ast.deepEq, Bool.and_eq_true, beq_iff_eq, valEq_iff v v']
    constructor
    · rintro ⟨⟨⟨⟨⟨rfl, rfl⟩, rfl⟩, h⟩, rfl⟩, rfl⟩; exact .mk h
    · intro h; cases h; exact ⟨⟨⟨⟨⟨rfl, rfl⟩, rfl⟩, by assumption⟩, rfl⟩, rfl⟩
theorem wholeEqs_iff : ∀ a b : List Ast, Ast.deepEqL a b = true ↔ WholeEqs a b
  | [], [] => by simp only [Ast.deepEqL]; exact ⟨fun _ => .nil, fun _ => trivial⟩
  | [], _ :: _ => by simp only [Ast.deepEqL]; exact ⟨fun h => (by cases h), fun h => (by cases h)⟩
  | _ :: _, [] => by simp only [Ast.deepEqL]; exact ⟨fun h => (by cases h), fun h => (by cases h)⟩
  | a :: as, b :: bs => by
    simp only [Ast.deepEqL, Bool.and_eq_true, wholeEq_iff a b, wholeEqs_iff as bs]
    exact ⟨fun h => .cons h.1 h.2, fun h => by cases h; exact ⟨by assumption, by assumption⟩⟩
theorem valEqs_iff : ∀ a b : List Value, Value.deepEqL a b = true ↔ ValEqs a b
  | [], [] => by simp only [Value.deepEqL]; exact ⟨fun _ => .nil, fun _ => trivial⟩
  | [], _ :: _ => by simp only [Value.deepEqL]; exact ⟨fun h => (by cases h), fun h => (by cases h)⟩
  | _ :: _, [] => by simp only [Value.deepEqL]; exact ⟨fun h => (by cases h), fun h => (by cases h)⟩
  | a :: as, b :: bs => by
    simp only [Value.deepEqL, Bool.and_eq_true, valEq_iff a b, valEqs_iff as bs]
    exact ⟨fun h => .cons h.1 h.2, fun h => by cases h; exact ⟨by assumption, by assumption⟩⟩
end

/-- A Go boolean result that decides a proposition, without panic. -/
def Decides (o : Out Bool) (P : Prop) : Prop := ∃ b, o = .ok b ∧ (b = true ↔ P)

mutual
theorem itemEquals_decides : ∀ {a : Ast}, WellTyped a → ∀ {b : Ast}, WellTyped b → Decides (a.itemEquals b) (AstEq a b)
  | _, .cons (n := n) (a := x) (b := y) hx hy, b, hb => by
    cases hb with
    | @cons _ n' _ _ x' y' hx' hy' =>
      by_cases hn : n = n'
      · obtain ⟨b1, e1, i1⟩ := itemEquals_decides hx hx'
        obtain ⟨b2, e2, i2⟩ := itemEquals_decides hy hy'
        subst hn
        refine ⟨b1 && b2, ?_, ?_⟩
        · simp only [Ast.itemEquals, and_self, if_true, Value.itemEqualsCons, e1, e2, Out.bind_ok]
          cases b1 <;> cases b2 <;> rfl
        · rw [Bool.and_eq_true, i1, i2]
          exact ⟨fun h => .cons h.1 h.2, fun h => by
            cases h with
            | cons h1 h2 => exact ⟨h1, h2⟩
            | leaf h => exact absurd rfl h⟩
      · refine ⟨false, by simp [Ast.itemEquals, hn], ?_⟩
        exact ⟨fun h => (by cases h), fun h => by cases h <;> exact absurd rfl hn⟩
    | list h => exact ⟨false, by simp [Ast.itemEquals], ⟨fun h => (by cases h), fun h => (by cases h)⟩⟩
    | leaf h1 h2 =>
      refine ⟨false, ?_, ⟨fun h => (by cases h), fun h => by cases h; exact absurd rfl h1; exact absurd rfl h1⟩⟩
      simp [Ast.itemEquals, Ne.symm h1]
  | _, .list (n := n) (a := x) hx, b, hb => by
    cases hb with
    | @list _ n' _ _ x' hx' =>
      by_cases hn : n = n'
      · subst hn
        by_cases hl : x.length = x'.length
        · obtain ⟨b1, e1, i1⟩ := itemEqualsL_decides hx hx' hl
          refine ⟨b1, ?_, ?_⟩
          · simp only [Ast.itemEquals, and_self, if_true, Value.itemEqualsList, hl, e1]
          · rw [i1]
            exact ⟨fun h => .list h, fun h => by
              cases h with
              | list h => exact h
              | leaf _ h => exact absurd rfl h⟩
        · refine ⟨false, by simp [Ast.itemEquals, Value.itemEqualsList, hl], ⟨fun h => (by cases h), fun h => ?_⟩⟩
          cases h with
          | list h => exact absurd (astEqs_length h) hl
          | leaf _ h => exact absurd rfl h
      · refine ⟨false, by simp [Ast.itemEquals, hn], ?_⟩
        exact ⟨fun h => (by cases h), fun h => by cases h <;> exact absurd rfl hn⟩
    | cons _ _ => exact ⟨false, by simp [Ast.itemEquals], ⟨fun h => (by cases h), fun h => (by cases h)⟩⟩
    | leaf h1 h2 =>
      refine ⟨false, ?_, ⟨fun h => (by cases h), fun h => by cases h; exact absurd rfl h2; exact absurd rfl h2⟩⟩
      simp [Ast.itemEquals, Ne.symm h2]
  | _, @WellTyped.leaf o n p l t v h1 h2, ⟨o', n', t', v', p', l'⟩, hb => by
    by_cases hnt : n = n' ∧ t = t'
    · obtain ⟨rfl, rfl⟩ := hnt
      refine ⟨v.deepEq v', ?_, ?_⟩
      · simp only [Ast.itemEquals, and_self, if_true]
      · rw [valEq_iff]
        exact ⟨fun h => .leaf h1 h2 h, fun h => by
          cases h with
          | cons => exact absurd rfl h1
          | list => exact absurd rfl h2
          | leaf _ _ h => exact h⟩
    · refine ⟨false, by simp only [Ast.itemEquals, hnt, if_false], ⟨fun h => (by cases h), fun h => ?_⟩⟩
      cases h <;> exact absurd ⟨rfl, rfl⟩ hnt
theorem itemEqualsL_decides : ∀ {a : List Ast}, WellTypeds a → ∀ {b : List Ast}, WellTypeds b → a.length = b.length →
    Decides (Ast.itemEqualsL a b) (AstEqs a b)
  | _, .nil, _, .nil, _ => ⟨true, by simp [Ast.itemEqualsL], ⟨fun _ => .nil, fun _ => rfl⟩⟩
  | _, .nil, _, .cons _ _, hl => by simp at hl
  | _, .cons _ _, _, .nil, hl => by simp at hl
  | _, .cons h1 h2, _, .cons h1' h2', hl => by
    obtain ⟨b1, e1, i1⟩ := itemEquals_decides h1 h1'
    obtain ⟨b2, e2, i2⟩ := itemEqualsL_decides h2 h2' (by simpa using hl)
    refine ⟨b1 && b2, ?_, ?_⟩
    · simp only [Ast.itemEqualsL, e1, e2, Out.bind_ok]
      cases b1 <;> rfl
    · rw [Bool.and_eq_true, i1, i2]
      exact ⟨fun h => .cons h.1 h.2, fun h => by cases h; exact ⟨by assumption, by assumption⟩⟩
theorem astEqs_length : ∀ {a b : List Ast}, AstEqs a b → a.length = b.length
  | _, _, .nil => rfl
  | _, _, .cons _ h => by simp [astEqs_length h]
end

/-! ### An equivalence -/

theorem FloatEq.symm {a b : UInt64} (h : FloatEq a b) : FloatEq b a :=
  ⟨h.2.1, h.1, h.2.2.elim (fun e => .inl e.symm) fun e => .inr ⟨e.2, e.1⟩⟩

theorem FloatEq.trans {a b c : UInt64} (h : FloatEq a b) (h' : FloatEq b c) : FloatEq a c := by
  obtain ⟨h1, h2, h3⟩ := h
  obtain ⟨_, h5, h6⟩ := h'
  refine ⟨h1, h5, ?_⟩
  rcases h3 with rfl | h3
  · exact h6
  · rcases h6 with rfl | h6
    · exact .inr h3
    · exact .inr ⟨h3.1, h6.2⟩

mutual
theorem ValEq.symm : ∀ {a b : Value}, ValEq a b → ValEq b a
  | _, _, .nil => .nil
  | _, _, .rune => .rune
  | _, _, .int => .int
  | _, _, .uint => .uint
  | _, _, .float h => .float (FloatEq.symm h)
  | _, _, .bool => .bool
  | _, _, .str => .str
  | _, _, .cons h1 h2 => .cons (WholeEq.symm h1) (WholeEq.symm h2)
  | _, _, .list h => .list (WholeEqs.symm h)
  | _, _, .strs => .strs
  | _, _, .strss => .strss
  | _, _, .ast h => .ast (WholeEq.symm h)
  | _, _, .slice h => .slice (ValEqs.symm h)
  | _, _, .time => .time
  | _, _, .opaque => .opaque
theorem WholeEq.symm : ∀ {a b : Ast}, WholeEq a b → WholeEq b a
  | _, _, .mk h => .mk (ValEq.symm h)
theorem WholeEqs.symm : ∀ {a b : List Ast}, WholeEqs a b → WholeEqs b a
  | _, _, .nil => .nil
  | _, _, .cons h1 h2 => .cons (WholeEq.symm h1) (WholeEqs.symm h2)
theorem ValEqs.symm : ∀ {a b : List Value}, ValEqs a b → ValEqs b a
  | _, _, .nil => .nil
  | _, _, .cons h1 h2 => .cons (ValEq.symm h1) (ValEqs.symm h2)
end

mutual
theorem ValEq.trans : ∀ {a b c : Value}, ValEq a b → ValEq b c → ValEq a c
  | _, _, _, .nil, .nil => .nil
  | _, _, _, .rune, .rune => .rune
  | _, _, _, .int, .int => .int
  | _, _, _, .uint, .uint => .uint
  | _, _, _, .float h, .float h' => .float (FloatEq.trans h h')
  | _, _, _, .bool, .bool => .bool
  | _, _, _, .str, .str => .str
  | _, _, _, .cons h1 h2, .cons h1' h2' => .cons (WholeEq.trans h1 h1') (WholeEq.trans h2 h2')
  | _, _, _, .list h, .list h' => .list (WholeEqs.trans h h')
  | _, _, _, .strs, .strs => .strs
  | _, _, _, .strss, .strss => .strss
  | _, _, _, .ast h, .ast h' => .ast (WholeEq.trans h h')
  | _, _, _, .slice h, .slice h' => .slice (ValEqs.trans h h')
  | _, _, _, .time, .time => .time
  | _, _, _, .opaque, .opaque => .opaque
theorem WholeEq.trans : ∀ {a b c : Ast}, WholeEq a b → WholeEq b c → WholeEq a c
  | _, _, _, .mk h, .mk h' => .mk (ValEq.trans h h')
theorem WholeEqs.trans : ∀ {a b c : List Ast}, WholeEqs a b → WholeEqs b c → WholeEqs a c
  | _, _, _, .nil, .nil => .nil
  | _, _, _, .cons h1 h2, .cons h1' h2' => .cons (WholeEq.trans h1 h1') (WholeEqs.trans h2 h2')
theorem ValEqs.trans : ∀ {a b c : List Value}, ValEqs a b → ValEqs b c → ValEqs a c
  | _, _, _, .nil, .nil => .nil
  | _, _, _, .cons h1 h2, .cons h1' h2' => .cons (ValEq.trans h1 h1') (ValEqs.trans h2 h2')
end

mutual
theorem AstEq.symm : ∀ {a b : Ast}, AstEq a b → AstEq b a
  | _, _, .cons h1 h2 => .cons (AstEq.symm h1) (AstEq.symm h2)
  | _, _, .list h => .list (AstEqs.symm h)
  | _, _, .leaf h1 h2 h => .leaf h1 h2 (ValEq.symm h)
theorem AstEqs.symm : ∀ {a b : List Ast}, AstEqs a b → AstEqs b a
  | _, _, .nil => .nil
  | _, _, .cons h1 h2 => .cons (AstEq.symm h1) (AstEqs.symm h2)
end

mutual
theorem AstEq.trans : ∀ {a b c : Ast}, AstEq a b → AstEq b c → AstEq a c
  | _, _, _, .cons h1 h2, .cons h1' h2' => .cons (AstEq.trans h1 h1') (AstEq.trans h2 h2')
  | _, _, _, .cons _ _, .leaf h _ _ => absurd rfl h
  | _, _, _, .list h, .list h' => .list (AstEqs.trans h h')
  | _, _, _, .list _, .leaf _ h _ => absurd rfl h
  | _, _, _, .leaf h1 h2 h, .leaf _ _ h' => .leaf h1 h2 (ValEq.trans h h')
  | _, _, _, .leaf h _ _, .cons _ _ => absurd rfl h
  | _, _, _, .leaf _ h _, .list _ => absurd rfl h
theorem AstEqs.trans : ∀ {a b c : List Ast}, AstEqs a b → AstEqs b c → AstEqs a c
  | _, _, _, .nil, .nil => .nil
  | _, _, _, .cons h1 h2, .cons h1' h2' => .cons (AstEq.trans h1 h1') (AstEqs.trans h2 h2')
end

mutual
theorem ValEq.refl : ∀ {v : Value}, Reflexive v → ValEq v v
  | _, .nil => .nil
  | _, .rune => .rune
  | _, .int => .int
  | _, .uint => .uint
  | _, .float h => .float ⟨h, h, .inl rfl⟩
  | _, .bool => .bool
  | _, .str => .str
  | _, .cons h1 h2 => .cons (WholeEq.refl h1) (WholeEq.refl h2)
  | _, .list h => .list (WholeEqs.refl h)
  | _, .strs => .strs
  | _, .strss => .strss
  | _, .ast h => .ast (WholeEq.refl h)
  | _, .slice h => .slice (ValEqs.refl h)
  | _, .time => .time
  | _, .opaque => .opaque
theorem WholeEq.refl : ∀ {a : Ast}, ReflexiveAst a → WholeEq a a
  | _, .mk h => .mk (ValEq.refl h)
theorem WholeEqs.refl : ∀ {a : List Ast}, ReflexiveAsts a → WholeEqs a a
  | _, .nil => .nil
  | _, .cons h1 h2 => .cons (WholeEq.refl h1) (WholeEqs.refl h2)
theorem ValEqs.refl : ∀ {a : List Value}, Reflexives a → ValEqs a a
  | _, .nil => .nil
  | _, .cons h1 h2 => .cons (ValEq.refl h1) (ValEqs.refl h2)
end

mutual
theorem AstEq.refl : ∀ {a : Ast}, WellTyped a → ReflexiveAst a → AstEq a a
  | _, .cons h1 h2, .mk (.cons h3 h4) => .cons (AstEq.refl h1 h3) (AstEq.refl h2 h4)
  | _, .list h, .mk (.list h') => .list (AstEqs.refl h h')
  | _, .leaf h1 h2, .mk h => .leaf h1 h2 (ValEq.refl h)
theorem AstEqs.refl : ∀ {a : List Ast}, WellTypeds a → ReflexiveAsts a → AstEqs a a
  | _, .nil, _ => .nil
  | _, .cons h1 h2, .cons h3 h4 => .cons (AstEq.refl h1 h3) (AstEqs.refl h2 h4)
end

end Takenoco
