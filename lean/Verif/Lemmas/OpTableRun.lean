import Verif.Lemmas.OpTable
/-
The production rule of a table of operators computes the value of an expression.
-/
namespace Takenoco.OpTable
open Spec Spec.Ops

/-! ### A rule that fails -/

theorem otrans_fails {env : Env} {l : List Ast} {p n : Nat} {a : List Ast} {g : Gram} {f : TSem} {e : Err}
    (h : OHits (den env g) l p n a) (hf : ∀ c, ∃ b, f c a = .ok (b, some e)) :
    OFails (den env (.trans g [.fn f])) l p e := fun c hc => by
  obtain ⟨c', h1, h2, h3⟩ := h (enter ":base:Trans" c) ⟨hc.slice, hc.pos, rfl⟩
  rw [den_trans, trans_matched_eq h1]
  have h3 : c'.stack = c.stack ++ a := h3
  simp only [List.map_cons, List.map_nil, denTr_fn, variadic, List.isEmpty_cons, Bool.false_eq_true, if_false, applyTransforms]
  rw [if_neg (by rw [h3]; simp)]
  simp only [h3, List.drop_left, applyTrs]
  obtain ⟨b, hb⟩ := hf _
  rw [hb]
  exact ⟨_, rfl⟩

theorem fails_of_fails {l : List Ast} {p : Nat} {q : Sem} {tag : Value} {e : Err} (h : OFails q l p e) :
    ∃ o, q (overAsts tag l p) = .ok (o, some e) := by
  obtain ⟨c', h1⟩ := h (overAsts tag l p) ⟨rfl, rfl, rfl⟩
  cases hq : q (overAsts tag l p) with
  | panic y => rw [hq] at h1; cases h1
  | timeout => rw [hq] at h1; cases h1
  | ok oe =>
    obtain ⟨o, e'⟩ := oe
    rw [hq] at h1
    cases e' with
    | some e' => cases h1; exact ⟨_, rfl⟩
    | none =>
      simp only [Outcome.of] at h1
      cases hs : o.status <;> rw [hs] at h1 <;> cases h1

/-- A rule that gives an operand, which may depend on the context. -/
theorem otrans_gives {env : Env} {l : List Ast} {p n : Nat} {a : List Ast} {g : Gram} {f : TSem} {P : Ast → Prop} {tag : Value}
    (h : OHits (den env g) l p n a) (hf : ∀ c, ∃ y, P y ∧ f c a = .ok ([y], none)) :
    ∃ o y, P y ∧ den env (.trans g [.fn f]) (overAsts tag l p) = .ok (o, none) ∧ o.status = .matched ∧ o.pos = p + n ∧ o.stack = [y] := by
  obtain ⟨c', h1, h2, h3⟩ := h (enter ":base:Trans" (overAsts tag l p)) ⟨rfl, rfl, rfl⟩
  rw [den_trans, trans_matched_eq h1]
  have h3 : c'.stack = a := by rw [h3]; rfl
  simp only [List.map_cons, List.map_nil, denTr_fn, variadic, List.isEmpty_cons, Bool.false_eq_true, if_false, applyTransforms]
  rw [if_neg (by simp [overAsts])]
  simp only [h3, overAsts, List.length_nil, List.drop_zero, List.take_zero, applyTrs]
  obtain ⟨y, hy, he⟩ := hf _
  rw [he]
  exact ⟨_, y, hy, rfl, h2.ok, h2.pos, rfl⟩

/-! ### The rule of a level -/

section
variable {D : Type} {T : Table} {Opd : Ast → D → Prop} {app : Nat → Bytes → List D → Except Failure D} {env : Env} {l : List Ast} {p : Nat}

/-- The index of the operator among the ASTs that the rule takes. -/
def place : Fixity → Nat
  | .pre => 0
  | _ => 1

/-- The rule without its transformer. -/
def items (L : OpLevel) : List Gram :=
  match L.fixity with
    | .left | .right => [Formula.anyOperand, Formula.isOperator L.fixity.cls L.ops, Formula.anyOperand]
    | .pre => [Formula.isOperator L.fixity.cls L.ops, Formula.anyOperand]
    | .post => [Formula.anyOperand, Formula.isOperator L.fixity.cls L.ops]
    | .cond => [Formula.anyOperand, Formula.isOperator L.fixity.cls L.ops, Formula.anyOperand,
        Formula.isOperator sepCls [b! ":"], Formula.anyOperand]

theorem rule_eq (L : OpLevel) : L.rule = .trans (.flatGroup (items L)) [.fn L.tr] := rfl

theorem anyOp_misses {cls : String} {ops : List Bytes} {gs : List Gram} (h : ∀ a, l[p + 1]? = some a → NotOp cls ops a) :
    OSeqMisses ((Formula.anyOperand :: Formula.isOperator cls ops :: gs).map (den env)) l p := by
  cases hp : l[p]? with
  | none => exact .head (anyOperand_misses hp)
  | some a => exact .tail (anyOperand_hits hp) (.head (isOperator_misses h))

theorem rule_misses {L : OpLevel} (h : ∀ a, l[p + place L.fixity]? = some a → NotOp L.fixity.cls L.ops a) :
    OMisses (den env L.rule) l p := by
  rw [rule_eq]
  refine otrans_misses (oflat_misses ?_)
  unfold items
  cases hf : L.fixity with
  | pre => rw [hf] at h; exact .head (isOperator_misses h)
  | left => rw [hf] at h; exact anyOp_misses h
  | right => rw [hf] at h; exact anyOp_misses h
  | post => rw [hf] at h; exact anyOp_misses h
  | cond => rw [hf] at h; exact anyOp_misses h

theorem miss (H : Proper T Opd app) {i : Nat} {L : OpLevel} (hL : T[i]? = some L) {ts : List (OpTok D)}
    (h : Matching (IsTok T Opd) l ts) (hn : ∀ s, ts[p + place L.fixity]? ≠ some (.op i s)) (tag : Value) :
    Inapplicable [den env L.rule] tag l p := by
  refine inapplicable_of_misses (rule_misses fun a ha => ?_)
  obtain ⟨t, h1, h2⟩ := (each_get h _).2 a ha
  cases t with
  | operand d => exact .inl (H.operands a d h2 _)
  | colon => exact .inl (by rw [h2.1]; cases L.fixity <;> decide)
  | op j s =>
    obtain ⟨M, hM, hs, hc, hv⟩ := h2
    by_cases he : a.cls = L.fixity.cls
    · refine .inr ⟨s, hv, fun hs' => ?_⟩
      have := H.once i j L M s hL hM (by rw [← he, hc]) hs' hs
      subst this
      exact hn s h1
    · exact .inl he

theorem hits_one {q : Sem} {qs : List Sem} {a : Ast} {n : Nat} {b : List Ast} (h1 : OHits q l p 1 [a]) (h2 : OSeqHits qs l (p + 1) n b) :
    OSeqHits (q :: qs) l p (n + 1) (a :: b) := by
  have := OSeqHits.cons h1 h2
  rwa [Nat.add_comm 1 n] at this

/-- The ASTs of an operator and its operands are taken. -/
theorem items_hit (H : Proper T Opd app) {i : Nat} {L : OpLevel} (hL : T[i]? = some L) {s : Bytes} {ds : List D}
    (hd : ds.length = L.fixity.arity) {pre post : List (OpTok D)}
    (h : Matching (IsTok T Opd) l (pre ++ (form L.fixity i s ds ++ post))) :
    OHits (den env (.flatGroup (items L))) l pre.length (form L.fixity i s ds).length
      ((l.drop pre.length).take (form L.fixity i s ds).length) := by
  have get : ∀ k t, (form L.fixity i s ds)[k]? = some t →
      ∃ a, l[pre.length + k]? = some a ∧ ((l.drop pre.length).take (form L.fixity i s ds).length)[k]? = some a ∧ IsTok T Opd a t := by
    intro k t hk
    have hlt : k < (form L.fixity i s ds).length := (List.getElem?_eq_some_iff.1 hk).1
    obtain ⟨a, h1, h2⟩ := (each_get h (pre.length + k)).1 t (by
      rw [List.getElem?_append_right (by omega), show pre.length + k - pre.length = k by omega, List.getElem?_append_left hlt, hk])
    refine ⟨a, h1, ?_, h2⟩
    rw [List.getElem?_take_of_lt hlt, List.getElem?_drop, h1]
  have len := each_length (each_middle h)
  have isop : ∀ a, IsTok T Opd a (.op i s) → a.cls = L.fixity.cls ∧ a.val = .str s ∧ s ∈ L.ops := by
    rintro a ⟨M, hM, hs, hc, hv⟩
    rw [hL] at hM; injection hM with hM; subst hM
    exact ⟨hc, hv, hs⟩
  refine oflat_hits ?_
  have two : ∀ x y, ds = [x, y] → OSeqHits ([Formula.anyOperand, Formula.isOperator L.fixity.cls L.ops, Formula.anyOperand].map (den env)) l
      pre.length (form L.fixity i s ds).length ((l.drop pre.length).take (form L.fixity i s ds).length) := by
    rintro x y rfl
    obtain ⟨a, a1, a2, a3⟩ := get 0 _ rfl
    obtain ⟨o, o1, o2, o3⟩ := get 1 _ rfl
    obtain ⟨b, b1, b2, b3⟩ := get 2 _ rfl
    obtain ⟨oc, ov, os⟩ := isop o o3
    generalize (l.drop pre.length).take _ = m at len a2 o2 b2
    obtain rfl : m = [a, o, b] := by
      match m, len with
      | [_, _, _], _ => simp at a2 o2 b2; simp [a2, o2, b2]
    exact hits_one (anyOperand_hits a1) (hits_one (isOperator_hits o1 oc ov os) (hits_one (anyOperand_hits b1) (.nil _ _)))
  unfold items
  cases hf : L.fixity with
  | left =>
    rw [hf] at hd
    match ds, hd with
    | [x, y], _ => have := two x y rfl; rw [hf] at this; exact this
  | right =>
    rw [hf] at hd
    match ds, hd with
    | [x, y], _ => have := two x y rfl; rw [hf] at this; exact this
  | pre =>
    rw [hf] at hd get len isop
    match ds, hd with
    | [x], _ =>
      obtain ⟨o, o1, o2, o3⟩ := get 0 _ rfl
      obtain ⟨a, a1, a2, a3⟩ := get 1 _ rfl
      obtain ⟨oc, ov, os⟩ := isop o o3
      generalize (l.drop pre.length).take _ = m at len a2 o2
      obtain rfl : m = [o, a] := by
        match m, len with
        | [_, _], _ => simp at a2 o2; simp [a2, o2]
      exact hits_one (isOperator_hits o1 oc ov os) (hits_one (anyOperand_hits a1) (.nil _ _))
  | post =>
    rw [hf] at hd get len isop
    match ds, hd with
    | [x], _ =>
      obtain ⟨a, a1, a2, a3⟩ := get 0 _ rfl
      obtain ⟨o, o1, o2, o3⟩ := get 1 _ rfl
      obtain ⟨oc, ov, os⟩ := isop o o3
      generalize (l.drop pre.length).take _ = m at len a2 o2
      obtain rfl : m = [a, o] := by
        match m, len with
        | [_, _], _ => simp at a2 o2; simp [a2, o2]
      exact hits_one (anyOperand_hits a1) (hits_one (isOperator_hits o1 oc ov os) (.nil _ _))
  | cond =>
    rw [hf] at hd get len isop
    match ds, hd with
    | [x, y, z], _ =>
      obtain ⟨a, a1, a2, a3⟩ := get 0 _ rfl
      obtain ⟨o, o1, o2, o3⟩ := get 1 _ rfl
      obtain ⟨b, b1, b2, b3⟩ := get 2 _ rfl
      obtain ⟨q, q1, q2, q3⟩ := get 3 _ rfl
      obtain ⟨c, c1, c2, c3⟩ := get 4 _ rfl
      obtain ⟨oc, ov, os⟩ := isop o o3
      generalize (l.drop pre.length).take _ = m at len a2 o2 b2 q2 c2
      obtain rfl : m = [a, o, b, q, c] := by
        match m, len with
        | [_, _, _, _, _], _ => simp at a2 o2 b2 q2 c2; simp [a2, o2, b2, q2, c2]
      exact hits_one (anyOperand_hits a1) (hits_one (isOperator_hits o1 oc ov os) (hits_one (anyOperand_hits b1)
        (hits_one (isOperator_hits q1 q3.1 q3.2 (by simp)) (hits_one (anyOperand_hits c1) (.nil _ _)))))

/-- What the rule of a level does to an operator and its operands. -/
theorem hit (H : Proper T Opd app) {i : Nat} {L : OpLevel} (hL : T[i]? = some L) {s : Bytes} (hs : s ∈ L.ops) {ds : List D}
    (hd : ds.length = L.fixity.arity) {pre post : List (OpTok D)}
    (h : Matching (IsTok T Opd) l (pre ++ (form L.fixity i s ds ++ post))) (tag : Value) :
    match app i s ds with
    | .ok d => ∃ y, Opd y d ∧ AppliesAt [den env L.rule] tag l pre.length
        (.ok (l.take pre.length ++ [y] ++ l.drop (pre.length + (form L.fixity i s ds).length)))
    | .error (.err e) => AppliesAt [den env L.rule] tag l pre.length (.error e)
    | .error (.panic x) => PanicsAt [den env L.rule] tag l pre.length x := by
  have hi := items_hit (env := env) H hL hd h
  have hm := each_middle h
  have hdoes := fun c => H.does i L s ds _ c hL hs hd hm
  have nil : Inapplicable [] tag l pre.length := fun a ha => (by cases ha)
  have hlen := each_length h
  simp only [List.length_append] at hlen
  rw [rule_eq]
  cases ha : app i s ds with
  | ok d =>
    simp only [ha] at hdoes
    -- the operand may depend on the context
    have key : ∃ o y, Opd y d ∧ den env (.trans (.flatGroup (items L)) [.fn L.tr]) (overAsts tag l pre.length) = .ok (o, none) ∧
        o.status = .matched ∧ o.pos = pre.length + (form L.fixity i s ds).length ∧ o.stack = [y] := by
      exact otrans_gives hi hdoes
    obtain ⟨o, y, hy, h1, h2, h3, h4⟩ := key
    refine ⟨y, hy, ?_⟩
    have := AppliesAt.rewrite (rules := [_]) (tag := tag) (asts := l) (p := pre.length) (pre := []) (post := []) rfl nil h1 h2 (by omega)
    rwa [h3, h4] at this
  | error f =>
    cases f with
    | err e =>
      simp only [ha] at hdoes
      obtain ⟨o, ho⟩ := fails_of_fails (tag := tag) (otrans_fails hi hdoes)
      exact .fail (pre := []) (post := []) rfl nil ho
    | panic x =>
      simp only [ha] at hdoes
      exact .rule (pre := []) (post := []) rfl nil (panics_of_panics (otrans_panics hi hdoes))

/-! ### All steps -/

/-- The rules of the table as parsers. -/
noncomputable abbrev levels (env : Env) (T : Table) : List (List Sem × Bool) := T.map fun L => ([den env L.rule], L.fixity.rtol)

theorem idle_of (H : Proper T Opd app) {ts : List (OpTok D)} (h : Matching (IsTok T Opd) l ts) (tag : Value) (i : Nat) (hf : From i ts) :
    Idle ((levels env T).take i) tag l := by
  intro a ha p _
  obtain ⟨k, hk⟩ := List.getElem?_of_mem ha
  have hlt : k < i := by
    have := (List.getElem?_eq_some_iff.1 hk).1
    simp only [List.length_take] at this
    omega
  rw [List.getElem?_take_of_lt hlt, List.getElem?_map] at hk
  cases hT : T[k]? with
  | none => rw [hT] at hk; cases hk
  | some L =>
    rw [hT] at hk
    cases hk
    exact miss H hT h (fun s hs => absurd (hf k s (List.mem_of_getElem? hs)) (by omega)) tag

/-- A list of tokens has a tightest operator, if it has any. -/
theorem tightest (ts : List (OpTok D)) (m : Nat) : From m ts ∨ ∃ i, i < m ∧ From i ts ∧ Has i ts := by
  induction m with
  | zero => exact .inl fun j s h => Nat.zero_le _
  | succ m ih =>
    rcases ih with h | ⟨i, h1, h2⟩
    · by_cases hm : Has m ts
      · exact .inr ⟨m, by omega, h, hm⟩
      · exact .inl (h.succ hm)
    · exact .inr ⟨i, by omega, h2⟩

/-- Rewriting the list ends as the value of the expression says. -/
def Ends (env : Env) (T : Table) (Opd : Ast → D → Prop) (app : Nat → Bytes → List D → Except Failure D) (tag : Value) (l : List Ast) (e : Term D) : Prop :=
  (∀ d, e.value app = .ok d → ∃ y, Opd y d ∧ Produces (levels env T) (den env Formula.checkG) tag l (.ok [y])) ∧
  (∀ f, e.value app = .error f → ∃ f', Breaks app e f' ∧
    match f' with
    | .err x => Produces (levels env T) (den env Formula.checkG) tag l (.error x)
    | .panic x => ProdPanics (levels env T) (den env Formula.checkG) tag l x)

theorem form_length {f : Fixity} {i : Nat} {s : Bytes} {ds : List D} (h : ds.length = f.arity) : 2 ≤ (form f i s ds).length := by
  cases f <;> simp only [Fixity.arity] at h
  · match ds, h with
    | [_, _], _ => simp [form]
  · match ds, h with
    | [_, _], _ => simp [form]
  · match ds, h with
    | [_], _ => simp [form]
  · match ds, h with
    | [_], _ => simp [form]
  · match ds, h with
    | [_, _, _], _ => simp [form]

/-- In the middle of the form, the operator is the only one of its level. -/
theorem form_op {f : Fixity} {i : Nat} {s : Bytes} {ds : List D} (h : ds.length = f.arity) (k : Nat) (s' : Bytes)
    (hk : (form f i s ds)[k]? = some (.op i s')) : k = place f := by
  cases f <;> simp only [Fixity.arity] at h
  · match ds, h, hk with
    | [_, _], _, hk => match k, hk with
      | 1, _ => rfl
      | k + 3, hk => simp [form] at hk
  · match ds, h, hk with
    | [_, _], _, hk => match k, hk with
      | 1, _ => rfl
      | k + 3, hk => simp [form] at hk
  · match ds, h, hk with
    | [_], _, hk => match k, hk with
      | 0, _ => rfl
      | k + 2, hk => simp [form] at hk
  · match ds, h, hk with
    | [_], _, hk => match k, hk with
      | 1, _ => rfl
      | k + 2, hk => simp [form] at hk
  · match ds, h, hk with
    | [_, _, _], _, hk => match k, hk with
      | 1, _ => rfl
      | k + 5, hk => simp [form] at hk

theorem toks_pos (e : Term D) : 1 ≤ e.toks.length := by
  cases e <;> simp [Term.toks] <;> omega

theorem one_tok {e : Term D} (h : e.toks.length = 1) : ∃ d, e = .operand d := by
  cases e with
  | operand d => exact ⟨d, rfl⟩
  | inf j s l r => have := toks_pos l; simp only [Term.toks, List.length_append, List.length_cons] at h; omega
  | pre j s e => have := toks_pos e; simp only [Term.toks, List.length_cons] at h; omega
  | post j s e => have := toks_pos e; simp only [Term.toks, List.length_append, List.length_cons] at h; omega
  | cond j s c a b => have := toks_pos c; simp only [Term.toks, List.length_append, List.length_cons] at h; omega

theorem ends (H : Proper T Opd app) (tag : Value) (n : Nat) (l : List Ast) (e : Term D) (hn : l.length ≤ n) (hw : Word T T.length e)
    (h : Matching (IsTok T Opd) l e.toks) : Ends env T Opd app tag l e := by
  induction n generalizing l e with
  | zero =>
    have := each_length h
    cases e <;> simp [Term.toks] at this <;> omega
  | succ n ih =>
    rcases tightest e.toks T.length with hf | ⟨i, hi, hf, hh⟩
    · obtain ⟨d, rfl⟩ := leaf hw hf
      have hidle := idle_of (env := env) H h tag T.length hf
      rw [List.take_of_length_le (by simp)] at hidle
      have hlen := each_length h
      refine ⟨fun d' hd => ?_, fun f hf => by cases hf⟩
      cases hd
      cases h with
      | cons h1 h2 => cases h2; exact ⟨_, h1, .idle hidle (checkG_accepts rfl)⟩
    · have hL : T[i]? = some T[i] := List.getElem?_eq_getElem hi
      generalize T[i] = L at hL
      obtain ⟨pre, post, plug, x, s, ds, rfl, k1, k2, k3, k4, k5, k6, k7⟩ := redex (app := app) hL hw hf hh
      have ht := k1.toks x
      rw [k2] at ht
      rw [ht] at h
      have hstep := hit (env := env) H hL k3 k4 h tag
      have hidle := idle_of (env := env) H h tag i (ht ▸ hf)
      have hlen := each_length h
      simp only [List.length_append] at hlen
      have h2 := form_length (i := i) (s := s) k4
      have hsplit : levels env T = (levels env T).take i ++ ([den env L.rule], L.fixity.rtol) :: (levels env T).drop (i + 1) := by
        have : (levels env T)[i]? = some ([den env L.rule], L.fixity.rtol) := by rw [List.getElem?_map, hL]; rfl
        obtain ⟨hlt, he⟩ := List.getElem?_eq_some_iff.1 this
        rw [← he, List.getElem_cons_drop hlt, List.take_append_drop]
      have hfirst : ∀ q, q ≤ l.length → (if L.fixity.rtol then pre.length < q else q < pre.length) → Inapplicable [den env L.rule] tag l q := by
        intro q _ hq
        refine miss H hL h (fun s' hs' => ?_) tag
        have hpl : place L.fixity ≤ 1 := by cases L.fixity <;> decide
        cases hr : L.fixity.rtol with
        | true =>
          simp only [hr, if_true] at hq k7
          rw [List.getElem?_append_right (by omega)] at hs'
          by_cases hin : q + place L.fixity - pre.length < (form L.fixity i s ds).length
          · rw [List.getElem?_append_left hin] at hs'
            have := form_op k4 _ _ hs'
            omega
          · rw [List.getElem?_append_right (by omega)] at hs'
            exact k7 ⟨s', List.mem_of_getElem? hs'⟩
        | false =>
          simp only [hr, Bool.false_eq_true, if_false] at hq k7
          by_cases hin : q + place L.fixity < pre.length
          · rw [List.getElem?_append_left hin] at hs'
            exact k7 ⟨s', List.mem_of_getElem? hs'⟩
          · rw [List.getElem?_append_right (by omega), List.getElem?_append_left (by omega)] at hs'
            have := form_op k4 _ _ hs'
            omega
      have hpos : pre.length ≤ l.length := by omega
      cases ha : app i s ds with
      | error f =>
        rw [ha] at hstep k5
        have hb := k1.fails x f (k6 f ha)
        obtain ⟨f', hf'⟩ := k1.bad x f k5
        refine ⟨fun d hd => (by rw [hf'] at hd; cases hd), fun f0 _ => ⟨f, hb, ?_⟩⟩
        cases f with
        | err e => exact .fail ⟨_, _, _, _, hsplit, hidle, pre.length, hpos, hstep, hfirst⟩
        | panic x => exact .step ⟨_, _, _, _, hsplit, hidle, pre.length, hpos, hstep, hfirst⟩
      | ok d =>
        rw [ha] at hstep k5
        obtain ⟨y, hy, hap⟩ := hstep
        have hprod : ProdStep (levels env T) tag l _ := ⟨_, _, _, _, hsplit, hidle, pre.length, hpos, hap, hfirst⟩
        have hval := k1.value x (.operand d) k5
        have htoks : (plug (.operand d)).toks = pre ++ (.operand d :: post) := k1.toks _
        have hnew : Matching (IsTok T Opd) (l.take pre.length ++ [y] ++ l.drop (pre.length + (form L.fixity i s ds).length)) (plug (.operand d)).toks := by
          rw [htoks]; exact each_splice h hy
        generalize l.take pre.length ++ [y] ++ l.drop (pre.length + (form L.fixity i s ds).length) = l' at hprod hnew
        have hlen' := each_length hnew
        rw [htoks] at hlen'
        simp only [List.length_append, List.length_cons] at hlen'
        have hrec := ih l' (plug (.operand d)) (by omega) (k1.word d) hnew
        by_cases hone : l'.length = 1
        · have hacc : Accepts (den env Formula.checkG) tag l' := checkG_accepts hone
          obtain ⟨d', hd'⟩ := one_tok (e := plug (.operand d)) (by rw [← each_length hnew, hone])
          rw [hd'] at hval hnew
          cases hnew with
          | @cons y' _ _ _ h1 h2 =>
            cases h2
            refine ⟨fun d0 h0 => ?_, fun f h0 => (by rw [hval] at h0; cases h0)⟩
            rw [hval] at h0
            cases h0
            exact ⟨y', h1, .last hprod hacc⟩
        · have hdec : Declines (den env Formula.checkG) tag l' := checkG_declines hone
          refine ⟨fun d' hd' => ?_, fun f hf => ?_⟩
          · rw [hval] at hd'
            obtain ⟨y', h1, h2⟩ := hrec.1 d' hd'
            exact ⟨y', h1, .next hprod hdec h2⟩
          · rw [hval] at hf
            obtain ⟨f', h1, h2⟩ := hrec.2 f hf
            refine ⟨f', k1.back d x f' k5 h1, ?_⟩
            cases f' with
            | err e => exact .next hprod hdec h2
            | panic x => exact .next hprod hdec h2
end

end Takenoco.OpTable
