import Verif.Lemmas.AstEq
import Verif.Lemmas.BigStep
import Verif.Spec.Text
/-
C29–C33: object parsers, equality of ASTs, ToSlice, Match.
-/
namespace Takenoco
open Spec

/-! ### C29: object terminals -/

/-- `w` can be compared with every element of `oc` without a panic. -/
def Comparable (src : SliceSrc) (w : Value) (oc : List Value) : Prop := ∀ s ∈ oc, ∃ b, src.itemEquals w s = .ok b

theorem anyEquals_true {eq : Value → Value → Out Bool} {w : Value} {oc : List Value}
    (hc : ∀ s ∈ oc, ∃ b, eq w s = .ok b) (h : ∃ s ∈ oc, eq w s = .ok true) : anyEquals eq w oc = .ok true := by
  induction oc with
  | nil => obtain ⟨s, hs, _⟩ := h; cases hs
  | cons x xs ih =>
    unfold anyEquals
    obtain ⟨b, hb⟩ := hc x (by simp)
    rw [hb]
    cases b with
    | true => rfl
    | false =>
      obtain ⟨s, hs, he⟩ := h
      rcases List.mem_cons.1 hs with rfl | hs
      · rw [hb] at he; cases he
      · exact ih (fun y hy => hc y (by simp [hy])) ⟨s, hs, he⟩

theorem anyEquals_false {eq : Value → Value → Out Bool} {w : Value} {oc : List Value}
    (h : ∀ s ∈ oc, eq w s = .ok false) : anyEquals eq w oc = .ok false := by
  induction oc with
  | nil => rfl
  | cons x xs ih =>
    unfold anyEquals
    rw [h x (by simp)]
    exact ih fun y hy => h y (by simp [hy])

theorem comparable_false {eq : Value → Value → Out Bool} {w : Value} {oc : List Value}
    (hc : ∀ s ∈ oc, ∃ b, eq w s = .ok b) (h : ¬ ∃ s ∈ oc, eq w s = .ok true) : ∀ s ∈ oc, eq w s = .ok false := by
  intro s hs
  obtain ⟨b, hb⟩ := hc s hs
  cases b with
  | true => exact absurd ⟨s, hs, hb⟩ h
  | false => exact hb

/-- `Any` consumes the next element, if there is one. -/
theorem C29_any (c : Ctx) (src : SliceSrc) (hs : c.slice = some src) :
    (∀ w, src.items[c.pos]? = some w → objAny c = .ok (objAdvance ":object:Any" .any w 1 c, none)) ∧
    (src.items[c.pos]? = none → objAny c = .ok (refuse ":object:Any" c, none)) := by
  obtain ⟨_, _, _, _, _, _, _, _, _⟩ := c
  cases hs
  unfold objAny lightParser withSlice
  simp only
  refine ⟨fun w hw => ?_, fun hw => ?_⟩ <;> simp only [hw] <;> rfl

/-- `End` matches at the end of the source and nowhere else; it consumes and pushes nothing. -/
theorem C29_end (c : Ctx) (src : SliceSrc) (hs : c.slice = some src) :
    (c.pos = src.items.length →
      objEnd c = .ok ({ c with status := .matched, len := 0, qty := 1, cls := ":object:End" }, none)) ∧
    (c.pos ≠ src.items.length → objEnd c = .ok (refuse ":object:End" c, none)) := by
  obtain ⟨_, _, _, _, _, _, _, _, _⟩ := c
  cases hs
  unfold objEnd lightParser withSlice
  simp only
  refine ⟨fun h => ?_, fun h => ?_⟩
  · simp only [h, if_true]; rfl
  · simp only [h, if_false]; rfl

/-- `ObjClass` consumes the next element if it equals one of the given values. -/
theorem C29_objClass (oc : List Value) (c : Ctx) (src : SliceSrc) (hs : c.slice = some src) :
    (∀ w, src.items[c.pos]? = some w → Comparable src w oc →
      ((∃ s ∈ oc, src.itemEquals w s = .ok true) → objClass oc c = .ok (objAdvance ":object:ObjClass" .any w 1 c, none)) ∧
      ((¬ ∃ s ∈ oc, src.itemEquals w s = .ok true) → objClass oc c = .ok (refuse ":object:ObjClass" c, none))) ∧
    (src.items[c.pos]? = none → objClass oc c = .ok (refuse ":object:ObjClass" c, none)) := by
  obtain ⟨_, _, _, _, _, _, _, _, _⟩ := c
  cases hs
  unfold objClass lightParser withSlice
  simp only
  refine ⟨fun w hw hc => ⟨fun h => ?_, fun h => ?_⟩, fun hw => ?_⟩
  · simp only [hw, anyEquals_true hc h]; rfl
  · simp only [hw, anyEquals_false (comparable_false hc h)]; rfl
  · simp only [hw]; rfl

/-- `ObjClassN` consumes the next element if it equals none of the given values. (The AST carries the type tag
"string", whatever the element is.) -/
theorem C29_objClassN (oc : List Value) (c : Ctx) (src : SliceSrc) (hs : c.slice = some src) :
    (∀ w, src.items[c.pos]? = some w → Comparable src w oc →
      ((∃ s ∈ oc, src.itemEquals w s = .ok true) → objClassN oc c = .ok (refuse ":object:ObjClassN" c, none)) ∧
      ((¬ ∃ s ∈ oc, src.itemEquals w s = .ok true) →
        objClassN oc c = .ok (objAdvance ":object:ObjClassN" .string w 1 c, none))) ∧
    (src.items[c.pos]? = none → objClassN oc c = .ok (refuse ":object:ObjClassN" c, none)) := by
  obtain ⟨_, _, _, _, _, _, _, _, _⟩ := c
  cases hs
  unfold objClassN lightParser withSlice
  simp only
  refine ⟨fun w hw hc => ⟨fun h => ?_, fun h => ?_⟩, fun hw => ?_⟩
  · simp only [hw, anyEquals_true hc h]; rfl
  · simp only [hw, anyEquals_false (comparable_false hc h)]; rfl
  · simp only [hw]; rfl

/-- `ObjClassFn` consumes the next element if the predicate holds of it. -/
theorem C29_objClassFn (fn : Value → Out Bool) (c : Ctx) (src : SliceSrc) (hs : c.slice = some src) :
    (∀ w, src.items[c.pos]? = some w →
      (fn w = .ok true → objClassFn fn c = .ok (objAdvance ":object:ObjClassFn" .any w 1 c, none)) ∧
      (fn w = .ok false → objClassFn fn c = .ok (refuse ":object:ObjClassFn" c, none))) ∧
    (src.items[c.pos]? = none → objClassFn fn c = .ok (refuse ":object:ObjClassFn" c, none)) := by
  obtain ⟨_, _, _, _, _, _, _, _, _⟩ := c
  cases hs
  unfold objClassFn lightParser withSlice
  simp only
  refine ⟨fun w hw => ⟨fun h => ?_, fun h => ?_⟩, fun hw => ?_⟩
  · simp only [hw, h]; rfl
  · simp only [hw, h]; rfl
  · simp only [hw]; rfl

/-- A source for the examples: numbers compared as such. -/
private def nums (l : List Nat) : SliceSrc where
  items := l.map .opaque
  itemEquals a b := match a, b with
    | .opaque x, .opaque y => .ok (x == y)
    | _, _ => .panic .typeAssert
  accepts _ := true

example : objClass [.opaque 5, .opaque 7] (newObjCtx (nums [7, 8]) .nil) =
    .ok (objAdvance ":object:ObjClass" .any (.opaque 7) 1 (newObjCtx (nums [7, 8]) .nil), none) :=
  ((C29_objClass [.opaque 5, .opaque 7] _ _ rfl).1 _ rfl (by simp [nums, Comparable])).1 ⟨.opaque 7, by simp, rfl⟩
example : objClassN [.opaque 5, .opaque 7] (newObjCtx (nums [8, 7]) .nil) =
    .ok (objAdvance ":object:ObjClassN" .string (.opaque 8) 1 (newObjCtx (nums [8, 7]) .nil), none) := rfl

/-! ### C30: object Seq -/

theorem objSeqLoop_ok {eq : Value → Value → Out Bool} {ws ss : List Value}
    (h : ∀ w ∈ ws, ∀ s ∈ ss, ∃ b, eq w s = .ok b) : objSeqLoop eq ws ss = .ok () := by
  induction ws generalizing ss with
  | nil => cases ss <;> rfl
  | cons w ws ih =>
    cases ss with
    | nil => rfl
    | cons s ss =>
      unfold objSeqLoop
      obtain ⟨b, hb⟩ := h w (by simp) s (by simp)
      rw [hb]
      cases b with
      | true => exact ih fun x hx y hy => h x (by simp [hx]) y (by simp [hy])
      | false => rfl

/-- Elements and values are equal one by one. -/
inductive AllEqual (src : SliceSrc) : List Value → List Value → Prop where
  | nil : AllEqual src [] []
  | cons {w s : Value} {ws ss : List Value} : src.itemEquals w s = .ok true → AllEqual src ws ss → AllEqual src (w :: ws) (s :: ss)

theorem objSeqLoop_equal {src : SliceSrc} {ws ss : List Value} (h : AllEqual src ws ss) :
    objSeqLoop src.itemEquals ws ss = .ok () := by
  induction h with
  | nil => rfl
  | cons h _ ih => unfold objSeqLoop; rw [h]; exact ih

/-- `Seq(v1..vn)` matches when the next `n` elements are equal to `v1..vn`, and does not match when less than
`n` are left. Missing from C30: it does match when they are not equal (`C30_seq_false`, `C30_seq_exact`). -/
theorem C30_seq_partial (seq : List Value) (c : Ctx) (src : SliceSrc) (hs : c.slice = some src) :
    (∀ w rest, src.items.drop c.pos = w ++ rest → c.pos ≤ src.items.length → AllEqual src w seq →
      objSeq seq c = .ok (objAdvance ":object:Seq" .listOfAny (.slice w) seq.length c, none)) ∧
    (src.items.length < c.pos + seq.length → objSeq seq c = .ok (refuse ":object:Seq" c, none)) := by
  obtain ⟨_, _, pos, _, _, _, _, _, _⟩ := c
  cases hs
  unfold objSeq lightParser withSlice
  simp only
  refine ⟨fun w rest hw hp he => ?_, fun h => ?_⟩
  · have hl : w.length = seq.length := by
      clear hw
      induction he with
      | nil => rfl
      | cons _ _ ih => simp [ih]
    have hlen := congrArg List.length hw
    rw [List.length_drop, List.length_append] at hlen
    have ht : (src.items.drop pos).take seq.length = w := by rw [hw, ← hl, List.take_left]
    simp only [ht, objSeqLoop_equal he]
    rw [if_pos (by omega)]
    rfl
  · rw [if_neg (by omega)]; rfl

/-- What the code does: as long as the comparisons do not panic, it matches iff `n` elements are left, whatever
they are. -/
theorem C30_seq_exact (seq : List Value) (c : Ctx) (src : SliceSrc) (hs : c.slice = some src)
    (hc : ∀ w ∈ src.items, ∀ s ∈ seq, ∃ b, src.itemEquals w s = .ok b) (h : c.pos + seq.length ≤ src.items.length) :
    objSeq seq c = .ok (objAdvance ":object:Seq" .listOfAny (.slice ((src.items.drop c.pos).take seq.length)) seq.length c, none) := by
  obtain ⟨_, _, pos, _, _, _, _, _, _⟩ := c
  cases hs
  unfold objSeq lightParser withSlice
  simp only
  rw [if_pos h, objSeqLoop_ok fun w hw s hs' => hc w (List.mem_of_mem_drop (List.mem_of_mem_take hw)) s hs']
  rfl

/-- `Seq(5)` matches the element 7. -/
theorem C30_seq_false : ∃ o, Outcome.of (objSeq [.opaque 5] (newObjCtx (nums [7]) .nil)) = .matched o ∧ o.pos = 1 ∧
    ¬ AllEqual (nums [7]) [.opaque 7] [.opaque 5] := by
  refine ⟨_, rfl, rfl, ?_⟩
  intro h
  cases h with
  | cons h _ => cases h

example : objSeq [.opaque 7, .opaque 8] (newObjCtx (nums [7, 8, 9]) .nil) =
    .ok (objAdvance ":object:Seq" .listOfAny (.slice [.opaque 7, .opaque 8]) 2 (newObjCtx (nums [7, 8, 9]) .nil), none) :=
  (C30_seq_partial _ _ _ rfl).1 [.opaque 7, .opaque 8] [.opaque 9] rfl (by decide) (.cons rfl (.cons rfl .nil))

/-! ### C31: equality of ASTs -/

/-- On well-typed ASTs `ItemEquals` does not panic and decides `AstEq`: class name, type and value agree,
recursively. -/
theorem C31_itemEquals {a b : Ast} (ha : WellTyped a) (hb : WellTyped b) :
    (astItemEquals (.ast a) (.ast b) = .ok true ↔ AstEq a b) ∧
    (astItemEquals (.ast a) (.ast b) = .ok false ↔ ¬ AstEq a b) := by
  obtain ⟨x, e, i⟩ := itemEquals_decides ha hb
  simp only [astItemEquals, e, Out.ok.injEq, i]
  refine ⟨trivial, ?_⟩
  rw [← i]; cases x <;> simp

/-- Opcode and source position do not count. -/
theorem C31_ignores {a b : Ast} (o o' : UInt64) (p p' l l' : Nat) :
    AstEq a b ↔ AstEq { a with opCode := o, pos := p, len := l } { b with opCode := o', pos := p', len := l' } := by
  constructor
  · intro h
    cases h with
    | cons h1 h2 => exact .cons h1 h2
    | list h => exact .list h
    | leaf h1 h2 h3 => exact .leaf h1 h2 h3
  · intro h
    obtain ⟨ao, an, at', av, ap, al⟩ := a
    obtain ⟨bo, bn, bt, bv, bp, bl⟩ := b
    cases h with
    | cons h1 h2 => exact .cons h1 h2
    | list h => exact .list h
    | leaf h1 h2 h3 => exact .leaf h1 h2 h3

theorem cls_eq {a b : Ast} (h : AstEq a b) : a.cls = b.cls := by cases h <;> rfl

theorem C31_symm {a b : Ast} (h : AstEq a b) : AstEq b a := AstEq.symm h
theorem C31_trans {a b c : Ast} (h : AstEq a b) (h' : AstEq b c) : AstEq a c := AstEq.trans h h'

/-- Reflexivity, for ASTs without NaN and functions. Missing from C31: the others, where it fails
(`C31_nan_false`). -/
theorem C31_refl_partial {a : Ast} (hw : WellTyped a) (hr : ReflexiveAst a) : AstEq a a := AstEq.refl hw hr

/-- An AST holding NaN, or a function, is not equal to itself. -/
theorem C31_nan_false (cls : String) :
    astItemEquals (.ast ⟨0, cls, .float, .float 0x7ff8000000000000, 0, 0⟩) (.ast ⟨0, cls, .float, .float 0x7ff8000000000000, 0, 0⟩) = .ok false ∧
    ∀ id, astItemEquals (.ast ⟨0, cls, .function, .func id, 0, 0⟩) (.ast ⟨0, cls, .function, .func id, 0, 0⟩) = .ok false := by
  refine ⟨?_, fun id => ?_⟩
  · simp [astItemEquals, Ast.itemEquals, Value.deepEq]; decide
  · simp [astItemEquals, Ast.itemEquals, Value.deepEq]

/-- Without the typing condition the comparison can panic. -/
theorem C31_untyped_panics : astItemEquals (.ast ⟨0, "", .astCons, .nil, 0, 0⟩) (.ast ⟨0, "", .astCons, .nil, 0, 0⟩) = .panic .typeAssert := by
  simp [astItemEquals, Ast.itemEquals, Value.itemEqualsCons]

/-- Two nested lists that differ in opcodes and positions only. -/
example : AstEq ⟨1, "g", .listOfAst, .list [⟨7, "x", .int, .int 3, 5, 1⟩], 0, 0⟩ ⟨2, "g", .listOfAst, .list [⟨8, "x", .int, .int 3, 9, 4⟩], 3, 1⟩ :=
  .list (.cons (.leaf (by decide) (by decide) .int) .nil)
/-- ... and two that differ in a class name inside. -/
example : ¬ AstEq ⟨1, "g", .listOfAst, .list [⟨7, "x", .int, .int 3, 5, 1⟩], 0, 0⟩ ⟨1, "g", .listOfAst, .list [⟨7, "y", .int, .int 3, 5, 1⟩], 0, 0⟩ := by
  intro h
  cases h with
  | list h => cases h with
    | cons h _ => exact absurd (cls_eq h) (by decide)
  | leaf _ h _ => exact absurd rfl h
example : WellTyped ⟨1, "g", .listOfAst, .list [⟨7, "x", .int, .int 3, 5, 1⟩], 0, 0⟩ :=
  .list (.cons (.leaf (by decide) (by decide)) .nil)

/-! ### C32: ToSlice -/

/-- `ToSlice` makes one AST of the ASTs; its value is the list of their values in order. The values have to be
acceptable to the source's `Set`. -/
theorem C32_toSlice (c : Ctx) (src : SliceSrc) (hs : c.slice = some src) (asts : List Ast)
    (ha : ∀ a ∈ asts, src.accepts a.val = true) :
    ∃ b vs, toSlice c asts = .ok ([b], none) ∧ b.val = .slice vs ∧ b.ty = .listOfAny ∧ vs.length = asts.length ∧
      (∀ (i : Nat) (a : Ast), asts[i]? = some a → vs[i]? = some a.val) ∧
      (∀ a, asts.head? = some a → b.cls = a.cls ∧ b.pos = a.pos ∧ b.len = a.len) := by
  unfold toSlice
  simp only [hs]
  cases asts with
  | nil => exact ⟨_, _, rfl, rfl, rfl, rfl, by simp, by simp⟩
  | cons a as =>
    have hall : (a :: as).all (fun w => src.accepts w.val) = true := List.all_eq_true.2 ha
    simp only [hall, if_true]
    refine ⟨_, _, rfl, rfl, rfl, by simp, fun i x hx => ?_, fun x hx => ?_⟩
    · rw [List.getElem?_map, hx]; rfl
    · cases hx; exact ⟨rfl, rfl, rfl⟩

/-- A value that the source does not accept makes it panic; so does a string source. -/
theorem C32_toSlice_panics (c : Ctx) (asts : List Ast) :
    (c.slice = none → toSlice c asts = .panic .nilDeref) ∧
    (∀ src, c.slice = some src → (∃ a ∈ asts, src.accepts a.val = false) → toSlice c asts = .panic .typeAssert) := by
  unfold toSlice
  refine ⟨fun h => by simp only [h], fun src h ⟨a, ha, hf⟩ => ?_⟩
  simp only [h]
  cases asts with
  | nil => cases ha
  | cons x xs =>
    have hall : ¬ (x :: xs).all (fun w => src.accepts w.val) = true := by
      intro h
      have := List.all_eq_true.1 h a ha
      rw [hf] at this; cases this
    simp only [hall]
    rfl

/-- In a production rule, where the source is a list of ASTs, the values have to be ASTs; then, and only then, `ToSlice` succeeds. -/
theorem C32_asts (c : Ctx) (l : List Ast) (hs : c.slice = some (astSliceSrc l)) (asts : List Ast) :
    ((∀ a ∈ asts, ∃ b, a.val = .ast b) → ∃ b vs, toSlice c asts = .ok ([b], none) ∧ b.val = .slice vs ∧ vs.length = asts.length ∧
      ∀ (i : Nat) (a : Ast), asts[i]? = some a → vs[i]? = some a.val) ∧
    ((∃ a ∈ asts, ∀ b, a.val ≠ .ast b) → toSlice c asts = .panic .typeAssert) := by
  constructor
  · intro h
    obtain ⟨b, vs, h1, h2, _, h3, h4, _⟩ := C32_toSlice c _ hs asts fun a ha => by
      obtain ⟨b, hb⟩ := h a ha
      simp only [astSliceSrc, hb]
    exact ⟨b, vs, h1, h2, h3, h4⟩
  · rintro ⟨a, ha, hb⟩
    refine (C32_toSlice_panics c asts).2 _ hs ⟨a, ha, ?_⟩
    simp only [astSliceSrc]

example : ∃ b, toSlice (newObjCtx (astSliceSrc []) .nil) [{ Ast.zero with val := .ast Ast.zero }] = .ok ([b], none) ∧ b.val = .slice [.ast Ast.zero] :=
  ⟨_, rfl, rfl⟩
example : ∃ b, toSlice (newObjCtx (nums []) .nil) [{ Ast.zero with val := .opaque 1 }, { Ast.zero with val := .opaque 2 }] = .ok ([b], none) ∧
    b.val = .slice [.opaque 1, .opaque 2] := ⟨_, rfl, rfl⟩

/-! ### C33: Match -/

/-- The first case whose guard holds decides: its transformers are run on exactly the top `n` ASTs, which are
replaced by the result; the stack below and the position stay. -/
theorem C33_match_takes (n : Nat) (pre post : List ((List Ast → Bool) × List TSem)) (guard : List Ast → Bool) (trs : List TSem)
    (c : Ctx) (bottom top out : List Ast) (hst : c.stack = bottom ++ top) (hn : top.length = n)
    (hpre : ∀ x ∈ pre, x.1 c.stack = false) (hg : guard c.stack = true)
    (hp : Pipe { c with len := 0, status := .unmatched } trs top (.ok out)) :
    matchP n (pre ++ (guard, trs) :: post) c =
      .ok ({ c with stack := bottom ++ out, len := 0, qty := 1, status := .matched, cls := "Match" }, none) := by
  have hlen : c.stack.length - n = bottom.length := by rw [hst, List.length_append]; omega
  have ha := applyTrs_pipe hp
  simp only at ha
  unfold matchP lightParser
  rw [matchFn_skip hpre, matchFn_take hg (by rw [hst, List.length_append]; omega), hlen, hst]
  rw [List.drop_left, List.take_left]
  simp only [hst] at ha
  rw [ha]
  rfl

/-- An error of a transformer of that case is the error of `Match`. -/
theorem C33_match_fails (n : Nat) (pre post : List ((List Ast → Bool) × List TSem)) (guard : List Ast → Bool) (trs : List TSem)
    (c : Ctx) (bottom top : List Ast) (e : Err) (hst : c.stack = bottom ++ top) (hn : top.length = n)
    (hpre : ∀ x ∈ pre, x.1 c.stack = false) (hg : guard c.stack = true)
    (hp : Pipe { c with len := 0, status := .unmatched } trs top (.error e)) :
    matchP n (pre ++ (guard, trs) :: post) c = .ok ({ c with len := 0, status := .error, cls := "Match" }, some e) := by
  have hlen : c.stack.length - n = bottom.length := by rw [hst, List.length_append]; omega
  obtain ⟨l, ha⟩ := applyTrs_pipe hp
  unfold matchP lightParser
  rw [matchFn_skip hpre, matchFn_take hg (by rw [hst, List.length_append]; omega), hlen]
  have hd : c.stack.drop bottom.length = top := by rw [hst, List.drop_left]
  rw [hd, ha]
  rfl

/-- If no guard holds, `Match` is unmatched and changes neither stack nor position. -/
theorem C33_match_none (n : Int) (cases : List ((List Ast → Bool) × List TSem)) (c : Ctx)
    (h : ∀ x ∈ cases, x.1 c.stack = false) :
    matchP n cases c = .ok ({ c with len := 0, status := .unmatched, cls := "Match" }, none) := by
  unfold matchP lightParser
  rw [matchFn_none h]
  rfl

/-- With fewer than `n` ASTs on the stack (or negative `n`) a guard that holds leads to a panic. -/
theorem C33_match_panics (n : Int) (pre post : List ((List Ast → Bool) × List TSem)) (guard : List Ast → Bool) (trs : List TSem)
    (c : Ctx) (hn : ¬ (0 ≤ n ∧ n ≤ c.stack.length)) (hpre : ∀ x ∈ pre, x.1 c.stack = false) (hg : guard c.stack = true) :
    matchP n (pre ++ (guard, trs) :: post) c = .panic .index := by
  unfold matchP lightParser
  rw [matchFn_skip hpre, matchFn_range hg hn]

/-- The guards `TopIs…` look at the value of the last AST only, and at its dynamic type. -/
theorem C33_topIs (asts : List Ast) :
    (∀ vs, topIsStr vs asts = true ↔ ∃ as a s, asts = as ++ [a] ∧ a.val = .str s ∧ s ∈ vs) ∧
    (∀ vs, topIsInt vs asts = true ↔ ∃ as a s, asts = as ++ [a] ∧ a.val = .int s ∧ s ∈ vs) ∧
    (∀ vs, topIsUint vs asts = true ↔ ∃ as a s, asts = as ++ [a] ∧ a.val = .uint s ∧ s ∈ vs) ∧
    (∀ vs, topIsRune vs asts = true ↔ ∃ as a s, asts = as ++ [a] ∧ a.val = .rune s ∧ s ∈ vs) ∧
    (∀ vs, topIsBool vs asts = true ↔ ∃ as a s, asts = as ++ [a] ∧ a.val = .bool s ∧ s ∈ vs) ∧
    (∀ vs, topIsFloat vs asts = true ↔ ∃ as a s t, asts = as ++ [a] ∧ a.val = .float s ∧ t ∈ vs ∧ FloatEq s t) ∧
    (∀ vs, topIs vs asts = true ↔ ∃ as a v, asts = as ++ [a] ∧ v ∈ vs ∧ ValEq a.val v) := by
  have hsplit : asts = [] ∨ ∃ as a, asts = as ++ [a] := by
    rcases List.eq_nil_or_concat asts with h | ⟨as, a, h⟩
    · exact .inl h
    · exact .inr ⟨as, a, by simpa using h⟩
  rcases hsplit with rfl | ⟨as, a, rfl⟩
  · simp [topIsStr, topIsInt, topIsUint, topIsRune, topIsBool, topIsFloat, topIs, topVal]
  · have htop : topVal (as ++ [a]) = some a.val := by simp [topVal]
    have inj : ∀ (bs : List Ast) (b : Ast), as ++ [a] = bs ++ [b] → a = b := fun bs b h => by
      have := List.append_inj_right' h rfl
      simpa using this
    simp only [topIsStr, topIsInt, topIsUint, topIsRune, topIsBool, topIsFloat, topIs, htop]
    refine ⟨?_, ?_, ?_, ?_, ?_, ?_, ?_⟩
    all_goals intro vs
    iterate 5
      · constructor
        · intro h
          split at h
          · rename_i s hs
            simp only [Option.some.injEq] at hs
            rw [List.any_eq_true] at h
            obtain ⟨x, hx, he⟩ := h
            simp at he; subst he
            exact ⟨as, a, _, rfl, hs, hx⟩
          · cases h
        · rintro ⟨bs, b, s, he, hb, hs⟩
          have := inj _ _ he; subst this
          rw [hb]
          simp only
          rw [List.any_eq_true]
          exact ⟨s, hs, by simp⟩
    · constructor
      · intro h
        split at h
        · rename_i s hs
          simp only [Option.some.injEq] at hs
          rw [List.any_eq_true] at h
          obtain ⟨x, hx, he⟩ := h
          exact ⟨as, a, s, x, rfl, hs, hx, (floatEq_iff _ _).1 he⟩
        · cases h
      · rintro ⟨bs, b, s, t, he, hb, ht, hf⟩
        have := inj _ _ he; subst this
        rw [hb]
        simp only
        rw [List.any_eq_true]
        exact ⟨t, ht, (floatEq_iff _ _).2 hf⟩
    · rw [List.any_eq_true]
      constructor
      · rintro ⟨x, hx, he⟩; exact ⟨as, a, x, rfl, hx, (valEq_iff _ _).1 he⟩
      · rintro ⟨bs, b, v, he, hv, hq⟩
        have := inj _ _ he; subst this
        exact ⟨v, hv, (valEq_iff _ _).2 hq⟩

example (a b : Ast) (c : Ctx) (hc : c.stack = [a, b]) :
    matchP 1 [(topIsAny, [erase])] c =
      .ok ({ c with stack := [a], len := 0, qty := 1, status := .matched, cls := "Match" }, none) :=
  C33_match_takes 1 [] [] topIsAny [erase] c [a] [b] [] hc rfl (by simp) rfl (.step rfl .done)

end Takenoco
