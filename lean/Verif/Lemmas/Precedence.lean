import Verif.Lemmas.ProductionPanics
import Verif.Spec.Precedence
/-
Three levels of production rules (unary minus, products, sums) evaluate chains with the conventional precedence.
-/
namespace Takenoco
open Spec

variable {D : Type}

/-- What the rules `u` (unary minus), `b true` (products) and `b false` (sums), and the check, do to lists of tokens. -/
structure Evaluates (Is : Ast → Tok D → Prop) (neg : D → D) (bin : BinOp → D → D → Option D) (x : Panic) (tag : Value)
    (u : Sem) (b : Bool → Sem) (check : Sem) : Prop where
  u_idle : ∀ l ts p, Toks Is l ts → ts[p]? ≠ some .neg → Inapplicable [u] tag l p
  u_step : ∀ l ts p d, Toks Is l ts → ts[p]? = some .neg → ts[p + 1]? = some (.operand d) →
    ∃ o y, u (overAsts tag l p) = .ok (o, none) ∧ o.status = .matched ∧ o.pos = p + 2 ∧ o.stack = [y] ∧ Is y (.operand (neg d))
  b_idle : ∀ t l ts p, Toks Is l ts → (∀ op, op.tight = t → ts[p + 1]? ≠ some (.bin op)) → Inapplicable [b t] tag l p
  b_step : ∀ l ts p d op e, Toks Is l ts → ts[p]? = some (.operand d) → ts[p + 1]? = some (.bin op) →
    ts[p + 2]? = some (.operand e) →
    (∀ v, bin op d e = some v → ∃ o y, b op.tight (overAsts tag l p) = .ok (o, none) ∧ o.status = .matched ∧ o.pos = p + 3 ∧
      o.stack = [y] ∧ Is y (.operand v)) ∧
    (bin op d e = none → b op.tight (overAsts tag l p) = .panic x)
  accepts : ∀ l, l.length = 1 → Accepts check tag l
  declines : ∀ l, l.length ≠ 1 → Declines check tag l

theorem toks_append {Is : Ast → Tok D → Prop} {l : List Ast} {a b : List (Tok D)} (h : Toks Is l (a ++ b)) :
    Toks Is (l.take a.length) a ∧ Toks Is (l.drop a.length) b := by
  induction a generalizing l with
  | nil => exact ⟨.nil, h⟩
  | cons t a ih =>
    cases h with
    | cons h1 h2 => exact ⟨.cons h1 (ih h2).1, (ih h2).2⟩

theorem toks_join {Is : Ast → Tok D → Prop} {l m : List Ast} {a b : List (Tok D)} (h1 : Toks Is l a) (h2 : Toks Is m b) :
    Toks Is (l ++ m) (a ++ b) := by
  induction h1 with
  | nil => exact h2
  | cons h _ ih => exact .cons h ih

theorem toks_length {Is : Ast → Tok D → Prop} {l : List Ast} {a : List (Tok D)} (h : Toks Is l a) : l.length = a.length := by
  induction h with
  | nil => rfl
  | cons _ _ ih => simp [ih]

/-- Replacing the ASTs of a segment by one AST. -/
theorem toks_splice {Is : Ast → Tok D → Prop} {l : List Ast} {a m b : List (Tok D)} {y : Ast} {t : Tok D}
    (h : Toks Is l (a ++ (m ++ b))) (hy : Is y t) :
    Toks Is (l.take a.length ++ [y] ++ l.drop (a.length + m.length)) (a ++ ([t] ++ b)) := by
  have h1 := toks_append h
  have h2 := toks_append h1.2
  rw [List.drop_drop] at h2
  rw [← List.append_assoc]
  refine toks_join (toks_join h1.1 (.cons hy .nil)) ?_
  exact h2.2

section
variable {Is : Ast → Tok D → Prop} {neg : D → D} {bin : BinOp → D → D → Option D} {x : Panic} {tag : Value}
  {u : Sem} {b : Bool → Sem} {check : Sem}

/-- The levels. -/
abbrev evalLevels (u : Sem) (b : Bool → Sem) : List (List Sem × Bool) := [([u], true), ([b true], false), ([b false], false)]

theorem eval_unary (H : Evaluates Is neg bin x tag u b check) {l : List Ast} {pre post : List (Tok D)} {d : D}
    (h : Toks Is l (pre ++ ([.neg, .operand d] ++ post))) (hp : ∀ t ∈ post, t ≠ .neg) :
    ∃ l', ProdStep (evalLevels u b) tag l (.ok l') ∧ Toks Is l' (pre ++ ([.operand (neg d)] ++ post)) := by
  obtain ⟨o, y, h1, h2, h3, h4, h5⟩ := H.u_step l _ pre.length d h (by simp) (by simp)
  have hl := toks_length h
  simp at hl
  refine ⟨l.take pre.length ++ [y] ++ l.drop (pre.length + 2), ⟨[], [u], true, _, rfl, (fun a ha => (by cases ha)), pre.length, by omega, ?_, ?_⟩, ?_⟩
  · have := AppliesAt.rewrite (rules := [u]) (tag := tag) (asts := l) (p := pre.length) (pre := []) (post := []) rfl (fun a ha => (by cases ha)) h1 h2 (by omega)
    rwa [h3, h4] at this
  · intro q hq hlt
    simp only [if_true] at hlt
    refine H.u_idle l _ q h fun he => ?_
    rw [List.getElem?_append_right (by omega)] at he
    obtain ⟨k, hk⟩ : ∃ k, q - pre.length = k + 1 := ⟨q - pre.length - 1, by omega⟩
    rw [hk] at he
    cases k with
    | zero => simp at he
    | succ k =>
      simp at he
      exact hp _ (List.mem_of_getElem? he) rfl
  · exact toks_splice (m := [.neg, .operand d]) h h5

theorem eval_no_unary (H : Evaluates Is neg bin x tag u b check) {l : List Ast} {ts : List (Tok D)} (h : Toks Is l ts)
    (hn : ∀ t ∈ ts, t ≠ .neg) : ∀ p, p ≤ l.length → Inapplicable [u] tag l p :=
  fun p _ => H.u_idle l ts p h fun he => hn _ (List.mem_of_getElem? he) rfl

/-- The binary operators of the tokens have precedence `t`. -/
def OpsAre (t : Bool) (ts : List (Tok D)) : Prop := ∀ op, .bin op ∈ ts → op.tight = t

theorem eval_binary_at (H : Evaluates Is neg bin x tag u b check) {l : List Ast} {pre post : List (Tok D)} {d e : D} {op : BinOp}
    (h : Toks Is l (pre ++ ([.operand d, .bin op, .operand e] ++ post))) (hpre : OpsAre (!op.tight) pre) :
    (∀ v, bin op d e = some v → ∃ l' y, Is y (.operand v) ∧ l' = l.take pre.length ++ [y] ++ l.drop (pre.length + 3) ∧
      AppliesAt [b op.tight] tag l pre.length (.ok l')) ∧
    (bin op d e = none → PanicsAt [b op.tight] tag l pre.length x) ∧
    ∀ q, q ≤ l.length → q < pre.length → Inapplicable [b op.tight] tag l q := by
  have hs := H.b_step l _ pre.length d op e h (by simp) (by simp) (by simp)
  have hl := toks_length h
  simp at hl
  refine ⟨fun v hv => ?_, fun hv => ?_, fun q hq hlt => ?_⟩
  · obtain ⟨o, y, h1, h2, h3, h4, h5⟩ := hs.1 v hv
    refine ⟨_, y, h5, rfl, ?_⟩
    have := AppliesAt.rewrite (rules := [b op.tight]) (tag := tag) (asts := l) (p := pre.length) (pre := []) (post := []) rfl (fun a ha => (by cases ha)) h1 h2 (by omega)
    rwa [h3, h4] at this
  · exact .rule (pre := []) (post := []) rfl (fun a ha => (by cases ha)) (hs.2 hv)
  · refine H.b_idle _ l _ q h fun op' ht he => ?_
    by_cases hq' : q + 1 < pre.length
    · rw [List.getElem?_append_left hq'] at he
      have := hpre op' (List.mem_of_getElem? he)
      rw [ht] at this
      cases op.tight <;> simp at this
    · rw [List.getElem?_append_right (by omega), show q + 1 - pre.length = 0 by omega] at he
      simp at he

/-- A step for a binary operator, when no unary minus is left and, for sums, no product is left. -/
theorem eval_binary (H : Evaluates Is neg bin x tag u b check) {l : List Ast} {pre post : List (Tok D)} {d e : D} {op : BinOp}
    (h : Toks Is l (pre ++ ([.operand d, .bin op, .operand e] ++ post))) (hpre : OpsAre (!op.tight) pre)
    (hn : ∀ t ∈ pre ++ post, t ≠ .neg) (hs : op.tight = false → OpsAre false (pre ++ post)) :
    (∀ v, bin op d e = some v → ∃ l', ProdStep (evalLevels u b) tag l (.ok l') ∧ Toks Is l' (pre ++ ([.operand v] ++ post))) ∧
    (bin op d e = none → StepPanics (evalLevels u b) tag l x) := by
  have hno : ∀ p, p ≤ l.length → Inapplicable [u] tag l p := by
    refine eval_no_unary H h fun t ht => ?_
    simp only [List.mem_append, List.mem_cons, List.not_mem_nil, or_false] at ht
    rcases ht with ht | (rfl | rfl | rfl) | ht
    · exact hn t (by simp [ht])
    · simp
    · simp
    · simp
    · exact hn t (by simp [ht])
  have hl := toks_length h
  simp at hl
  obtain ⟨k1, k2, k3⟩ := eval_binary_at H h hpre
  cases ht : op.tight with
  | true =>
    rw [ht] at k1 k2 k3
    refine ⟨fun v hv => ?_, fun hv => ?_⟩
    · obtain ⟨l', y, hy, hl', ha⟩ := k1 v hv
      refine ⟨l', ⟨[([u], true)], _, _, _, rfl, fun a ha => ?_, pre.length, by omega, ha, fun q hq hlt => k3 q hq (by simpa using hlt)⟩, ?_⟩
      · cases List.mem_singleton.1 ha; exact hno
      · rw [hl']; exact toks_splice (m := [.operand d, .bin op, .operand e]) h hy
    · refine ⟨[([u], true)], _, _, _, rfl, fun a ha => ?_, pre.length, by omega, k2 hv, fun q hq hlt => k3 q hq (by simpa using hlt)⟩
      cases List.mem_singleton.1 ha; exact hno
  | false =>
    rw [ht] at k1 k2 k3
    have hno2 : ∀ p, p ≤ l.length → Inapplicable [b true] tag l p := by
      intro p _
      refine H.b_idle true l _ p h fun op' ht' he => ?_
      have hm := List.mem_of_getElem? he
      simp only [List.mem_append, List.mem_cons, List.not_mem_nil, or_false, reduceCtorEq, false_or] at hm
      have hx := hs ht op'
      rw [List.mem_append] at hx
      rcases hm with hm | hm | hm
      · rw [hx (.inl hm)] at ht'; cases ht'
      · cases hm; rw [ht] at ht'; cases ht'
      · rw [hx (.inr hm)] at ht'; cases ht'
    have hidle : Idle [([u], true), ([b true], false)] tag l := by
      intro a ha
      rcases List.mem_cons.1 ha with rfl | ha
      · exact hno
      · cases List.mem_singleton.1 ha; exact hno2
    refine ⟨fun v hv => ?_, fun hv => ?_⟩
    · obtain ⟨l', y, hy, hl', ha⟩ := k1 v hv
      refine ⟨l', ⟨[([u], true), ([b true], false)], _, _, _, rfl, hidle, pre.length, by omega, ha, fun q hq hlt => k3 q hq (by simpa using hlt)⟩, ?_⟩
      rw [hl']; exact toks_splice (m := [.operand d, .bin op, .operand e]) h hy
    · exact ⟨[([u], true), ([b true], false)], _, _, _, rfl, hidle, pre.length, by omega, k2 hv, fun q hq hlt => k3 q hq (by simpa using hlt)⟩

theorem eval_idle (H : Evaluates Is neg bin x tag u b check) {l : List Ast} {d : D} (h : Toks Is l [.operand d]) :
    Idle (evalLevels u b) tag l := by
  have hb : ∀ t p, Inapplicable [b t] tag l p := fun t p => H.b_idle t l _ p h fun op _ he => by simp at he
  intro a ha p hp
  simp only [evalLevels, List.mem_cons, List.not_mem_nil, or_false] at ha
  rcases ha with rfl | rfl | rfl
  · exact H.u_idle l _ p h fun he => by
      have := List.mem_of_getElem? he
      simp at this
  · exact hb true p
  · exact hb false p

/-- The result of evaluating a list of ASTs. -/
def Gives (Is : Ast → Tok D → Prop) (x : Panic) (tag : Value) (u : Sem) (b : Bool → Sem) (check : Sem) (l : List Ast) : Option D → Prop
  | some v => ∃ y, Is y (.operand v) ∧ Produces (evalLevels u b) check tag l (.ok [y])
  | none => ProdPanics (evalLevels u b) check tag l x

theorem gives_step (H : Evaluates Is neg bin x tag u b check) {l l' : List Ast} {r : Option D} (h : ProdStep (evalLevels u b) tag l (.ok l'))
    (hg : Gives Is x tag u b check l' r) (hf : ∀ y, l' = [y] → ∃ v, r = some v ∧ Is y (.operand v)) : Gives Is x tag u b check l r := by
  by_cases hl : l'.length = 1
  · obtain ⟨y, rfl⟩ := List.length_eq_one_iff.1 hl
    obtain ⟨v, rfl, hv⟩ := hf y rfl
    exact ⟨y, hv, .last h (H.accepts _ hl)⟩
  · have hd := H.declines _ hl
    cases r with
    | none => exact .next h hd hg
    | some v =>
      obtain ⟨y, h1, h2⟩ := hg
      exact ⟨y, h1, .next h hd h2⟩
end

/-! ### Chains -/

/-- The tokens of `rest`. -/
def restToks (rest : List (BinOp × Signed D)) : List (Tok D) := rest.flatMap fun y => .bin y.1 :: y.2.toks

theorem applySigns_comm (neg : D → D) (n : Nat) (d : D) : applySigns neg n (neg d) = neg (applySigns neg n d) := by
  induction n with
  | zero => rfl
  | succ n ih => simp only [applySigns, ih]

/-- All operands are unsigned. -/
def Plain (rest : List (BinOp × Signed D)) : Prop := ∀ y ∈ rest, y.2.1 = 0

theorem plain_toks {rest : List (BinOp × Signed D)} (h : Plain rest) : ∀ t ∈ restToks rest, t ≠ .neg := by
  intro t ht
  simp only [restToks, List.mem_flatMap, List.mem_cons] at ht
  obtain ⟨y, hy, ht⟩ := ht
  have := h y hy
  rcases ht with rfl | ht
  · simp
  · simp only [Signed.toks, this, List.replicate_zero, List.nil_append, List.mem_singleton] at ht
    rw [ht]; simp

/-- The rightmost signed operand. -/
theorem rightmost_signed (rest : List (BinOp × Signed D)) :
    Plain rest ∨ ∃ r1 op k d r2, rest = r1 ++ (op, (k + 1, d)) :: r2 ∧ Plain r2 := by
  induction rest with
  | nil => exact .inl fun y hy => (by cases hy)
  | cons y ys ih =>
    rcases ih with ih | ⟨r1, op, k, d, r2, rfl, h2⟩
    · obtain ⟨op, k, d⟩ := y
      cases k with
      | zero =>
        refine .inl fun z hz => ?_
        rcases List.mem_cons.1 hz with rfl | hz
        · rfl
        · exact ih z hz
      | succ k => exact .inr ⟨[], op, k, d, ys, rfl, ih⟩
    · exact .inr ⟨y :: r1, op, k, d, r2, rfl, h2⟩

/-- The leftmost product. -/
theorem leftmost_tight (rest : List (BinOp × D)) :
    (∀ y ∈ rest, y.1.tight = false) ∨ ∃ r1 op d r2, rest = r1 ++ (op, d) :: r2 ∧ op.tight = true ∧ ∀ y ∈ r1, y.1.tight = false := by
  induction rest with
  | nil => exact .inl fun y hy => (by cases hy)
  | cons y ys ih =>
    obtain ⟨op, d⟩ := y
    cases ht : op.tight with
    | true => exact .inr ⟨[], op, d, ys, rfl, ht, fun y hy => (by cases hy)⟩
    | false =>
      rcases ih with ih | ⟨r1, op', d', r2, rfl, h1, h2⟩
      · refine .inl fun z hz => ?_
        rcases List.mem_cons.1 hz with rfl | hz
        · exact ht
        · exact ih z hz
      · refine .inr ⟨(op, d) :: r1, op', d', r2, rfl, h1, fun z hz => ?_⟩
        rcases List.mem_cons.1 hz with rfl | hz
        · exact ht
        · exact h2 z hz

/-- An unsigned chain. -/
def unsigned (rest : List (BinOp × D)) : List (BinOp × Signed D) := rest.map fun y => (y.1, (0, y.2))

theorem plain_unsigned {rest : List (BinOp × Signed D)} (h : Plain rest) : ∃ r, rest = unsigned r := by
  refine ⟨rest.map fun y => (y.1, y.2.2), ?_⟩
  simp only [unsigned, List.map_map]
  conv => lhs; rw [← List.map_id rest]
  refine List.map_congr_left fun y hy => ?_
  have := h y hy
  obtain ⟨op, k, d⟩ := y
  cases this
  rfl

theorem unsigned_value (neg : D → D) (bin : BinOp → D → D → Option D) (d : D) (r : List (BinOp × D)) :
    chainValue neg bin (0, d) (unsigned r) = (products bin d r).bind fun s => fromLeft bin s.1 s.2 := by
  simp only [chainValue, unsigned, List.map_map, applySigns]
  congr 2
  conv => rhs; rw [← List.map_id r]
  exact List.map_congr_left fun y _ => rfl

theorem unsigned_toks (r : List (BinOp × D)) : restToks (unsigned r) = r.flatMap fun y => [.bin y.1, .operand y.2] := by
  induction r with
  | nil => rfl
  | cons y ys ih =>
    simp only [restToks, unsigned, List.map_cons, List.flatMap_cons, Signed.toks, List.replicate_zero, List.nil_append] at ih ⊢
    rw [ih]

theorem products_loose {bin : BinOp → D → D → Option D} (d : D) {r : List (BinOp × D)} (h : ∀ y ∈ r, y.1.tight = false) :
    products bin d r = some (d, r) := by
  induction r generalizing d with
  | nil => rfl
  | cons y ys ih =>
    obtain ⟨op, e⟩ := y
    have : op.tight = false := h (op, e) (by simp)
    simp only [products, this, Bool.false_eq_true, if_false]
    rw [ih e fun z hz => h z (by simp [hz])]
    rfl

theorem products_first {bin : BinOp → D → D → Option D} (d e v : D) {op : BinOp} {r : List (BinOp × D)} (ht : op.tight = true) :
    (bin op d e = some v → products bin d ((op, e) :: r) = products bin v r) ∧
    (bin op d e = none → products bin d ((op, e) :: r) = none) := by
  constructor <;> intro h <;> simp only [products, ht, if_true, h] <;> rfl

theorem products_after {bin : BinOp → D → D → Option D} (d0 a : D) {r1 : List (BinOp × D)} {op1 : BinOp} {r : List (BinOp × D)}
    (ha : ∀ y ∈ r1, y.1.tight = false) (h1 : op1.tight = false) :
    products bin d0 (r1 ++ (op1, a) :: r) = (products bin a r).map fun x => (d0, r1 ++ (op1, x.1) :: x.2) := by
  induction r1 generalizing d0 with
  | nil => simp only [List.nil_append, products, h1, Bool.false_eq_true, if_false]
  | cons y ys ih =>
    obtain ⟨op, e⟩ := y
    have : op.tight = false := ha (op, e) (by simp)
    simp only [List.cons_append, products, this, Bool.false_eq_true, if_false]
    rw [ih e fun z hz => ha z (by simp [hz])]
    simp [Option.map_map, Function.comp_def]

theorem eval_chain {Is : Ast → Tok D → Prop} {neg : D → D} {bin : BinOp → D → D → Option D} {x : Panic} {tag : Value}
    {u : Sem} {b : Bool → Sem} {check : Sem} (H : Evaluates Is neg bin x tag u b check) (n : Nat) (l : List Ast)
    (x0 : Signed D) (rest : List (BinOp × Signed D)) (hn : l.length ≤ n) (h : Toks Is l (chainToks x0 rest)) :
    Gives Is x tag u b check l (chainValue neg bin x0 rest) := by
  induction n generalizing l x0 rest with
  | zero =>
    have := toks_length h
    simp [chainToks, Signed.toks] at this
    omega
  | succ n ih =>
    have hlen := toks_length h
    -- one step towards a shorter chain with the same value
    have go : ∀ l' x0' rest', ProdStep (evalLevels u b) tag l (.ok l') → Toks Is l' (chainToks x0' rest') →
        l'.length < l.length → chainValue neg bin x0' rest' = chainValue neg bin x0 rest →
        Gives Is x tag u b check l (chainValue neg bin x0 rest) := by
      intro l' x0' rest' h1 h2 h3 h4
      refine gives_step H h1 (h4 ▸ ih l' x0' rest' (by omega) h2) fun y hy => ?_
      subst hy
      have := toks_length h2
      obtain ⟨k, d⟩ := x0'
      cases k with
      | succ k => simp [chainToks, Signed.toks] at this; omega
      | zero =>
        cases rest' with
        | cons y ys => simp [chainToks, Signed.toks] at this
        | nil =>
          refine ⟨d, h4.symm, ?_⟩
          cases h2 with
          | cons h _ => exact h
    rcases rightmost_signed rest with hp | ⟨r1, op, k, d, r2, rfl, hp⟩
    · obtain ⟨k, d⟩ := x0
      cases k with
      | succ k =>
        -- a sign before the first operand
        have e : chainToks (k + 1, d) rest = List.replicate k .neg ++ ([.neg, .operand d] ++ restToks rest) := by
          simp [chainToks, Signed.toks, restToks, List.replicate_succ']
        rw [e] at h
        obtain ⟨l', h1, h2⟩ := eval_unary H h (plain_toks hp)
        refine go l' (k, neg d) rest h1 ?_ ?_ ?_
        · simpa [chainToks, Signed.toks, restToks] using h2
        · rw [toks_length h2, toks_length h]; simp
        · simp only [chainValue, applySigns, applySigns_comm]
      | zero =>
        obtain ⟨r, rfl⟩ := plain_unsigned hp
        have e0 : chainToks (0, d) (unsigned r) = .operand d :: r.flatMap fun y => [.bin y.1, .operand y.2] := by
          rw [← unsigned_toks]; rfl
        rw [e0] at h
        rw [unsigned_value] at go ⊢
        have hneg : ∀ (r : List (BinOp × D)), ∀ t ∈ (r.flatMap fun y => [.bin y.1, .operand y.2] : List (Tok D)), t ≠ .neg := by
          intro r t ht
          simp only [List.mem_flatMap, List.mem_cons, List.not_mem_nil, or_false] at ht
          obtain ⟨y, _, rfl | rfl⟩ := ht <;> simp
        have hops : ∀ (r : List (BinOp × D)), (∀ y ∈ r, y.1.tight = false) → OpsAre false (r.flatMap fun y => [.bin y.1, .operand y.2] : List (Tok D)) := by
          intro r hr op ho
          simp only [List.mem_flatMap, List.mem_cons, List.not_mem_nil, or_false, reduceCtorEq] at ho
          obtain ⟨y, hy, he⟩ := ho
          cases he
          exact hr y hy
        have back : ∀ (d : D) (r : List (BinOp × D)), chainToks (0, d) (unsigned r) = .operand d :: r.flatMap fun y => [.bin y.1, .operand y.2] := by
          intro d r
          rw [← unsigned_toks]; rfl
        rcases leftmost_tight r with hr | ⟨r1, op, e, r2, rfl, ht, hr1⟩
        · rw [products_loose d hr] at go ⊢
          cases r with
          | nil =>
            cases h with
            | cons h h' =>
              cases h' with
              | nil => exact ⟨_, h, .idle (eval_idle H (.cons h .nil)) (H.accepts _ rfl)⟩
          | cons y ys =>
            obtain ⟨op, e⟩ := y
            have ht : op.tight = false := hr (op, e) (by simp)
            have hys : ∀ y ∈ ys, y.1.tight = false := fun y hy => hr y (by simp [hy])
            obtain ⟨k1, k2⟩ := eval_binary (pre := []) (post := ys.flatMap fun (y : BinOp × D) => [.bin y.1, .operand y.2]) (d := d) (e := e) (op := op) H h
              (fun op ho => (by cases ho)) (hneg ys) (fun _ => hops ys hys)
            simp only [Option.bind_some, fromLeft] at go ⊢
            cases hb : bin op d e with
            | none => exact .step (k2 hb)
            | some v =>
              rw [hb] at go
              obtain ⟨l', h1, h2⟩ := k1 v hb
              refine go l' (0, v) (unsigned ys) h1 ?_ ?_ ?_
              · rw [back]; exact h2
              · rw [toks_length h2, toks_length h]; simp
              · rw [unsigned_value, products_loose v hys]; rfl
        · -- the leftmost product
          rcases List.eq_nil_or_concat r1 with rfl | ⟨r1', ⟨op1, a⟩, rfl⟩
          · obtain ⟨k1, k2⟩ := eval_binary (pre := []) (post := r2.flatMap fun (y : BinOp × D) => [.bin y.1, .operand y.2]) (d := d) (e := e) (op := op) H h
              (fun op ho => (by cases ho)) (hneg r2) (fun hf => by rw [ht] at hf; cases hf)
            rw [List.nil_append] at go ⊢
            cases hb : bin op d e with
            | none =>
              rw [(products_first d e d ht).2 hb]
              exact .step (k2 hb)
            | some v =>
              rw [(products_first d e v ht).1 hb] at go ⊢
              obtain ⟨l', h1, h2⟩ := k1 v hb
              refine go l' (0, v) (unsigned r2) h1 ?_ ?_ (unsigned_value ..)
              · rw [back]; exact h2
              · rw [toks_length h2, toks_length h]; simp
          · rw [List.concat_eq_append] at *
            have h1t : op1.tight = false := hr1 (op1, a) (by simp)
            have hr1' : ∀ y ∈ r1', y.1.tight = false := fun y hy => hr1 y (by simp [hy])
            have e1 : (Tok.operand d :: (r1' ++ [(op1, a)] ++ (op, e) :: r2).flatMap fun y => [.bin y.1, .operand y.2]) =
                (.operand d :: (r1'.flatMap fun y => [.bin y.1, .operand y.2]) ++ [.bin op1]) ++
                  ([.operand a, .bin op, .operand e] ++ (r2.flatMap fun y => [.bin y.1, .operand y.2])) := by
              simp
            rw [e1] at h
            have hpre : OpsAre false (.operand d :: (r1'.flatMap fun y => [.bin y.1, .operand y.2]) ++ [.bin op1]) := by
              intro op' ho
              simp only [List.cons_append, List.mem_cons, List.mem_append, List.not_mem_nil, or_false, reduceCtorEq, false_or] at ho
              rcases ho with ho | ho
              · exact hops r1' hr1' op' ho
              · cases ho; exact h1t
            obtain ⟨k1, k2⟩ := eval_binary H h (by rw [ht]; exact hpre)
              (by
                intro t ht'
                simp only [List.cons_append, List.mem_cons, List.mem_append, List.not_mem_nil, or_false] at ht'
                rcases ht' with rfl | (ht' | rfl) | ht'
                · simp
                · exact hneg r1' t ht'
                · simp
                · exact hneg r2 t ht')
              (fun hf => by rw [ht] at hf; cases hf)
            rw [List.append_assoc, List.singleton_append] at go ⊢
            rw [products_after d a hr1' h1t] at go ⊢
            cases hb : bin op a e with
            | none =>
              rw [(products_first a e d ht).2 hb]
              exact .step (k2 hb)
            | some v =>
              rw [(products_first a e v ht).1 hb] at go ⊢
              obtain ⟨l', h1, h2⟩ := k1 v hb
              refine go l' (0, d) (unsigned (r1' ++ (op1, v) :: r2)) h1 ?_ ?_ ?_
              · rw [back]
                simpa using h2
              · rw [toks_length h2, toks_length h]; simp
              · rw [unsigned_value, products_after d v hr1' h1t]
    · -- a sign before a later operand
      have e : chainToks x0 (r1 ++ (op, (k + 1, d)) :: r2) =
          (chainToks x0 r1 ++ .bin op :: List.replicate k .neg) ++ ([.neg, .operand d] ++ restToks r2) := by
        simp [chainToks, Signed.toks, restToks, List.replicate_succ']
      rw [e] at h
      obtain ⟨l', h1, h2⟩ := eval_unary H h (plain_toks hp)
      refine go l' x0 (r1 ++ (op, (k, neg d)) :: r2) h1 ?_ ?_ ?_
      · simpa [chainToks, Signed.toks, restToks] using h2
      · rw [toks_length h2, toks_length h]; simp
      · simp only [chainValue, List.map_append, List.map_cons, applySigns, applySigns_comm]

end Takenoco
