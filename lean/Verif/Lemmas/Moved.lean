import Verif.Lemmas.Relational
/-
Terminals, transformers and production rules do not depend on the place in the source.
-/
namespace Takenoco
open Spec

theorem Spec.SameBut.refl (a : Ast) : SameBut a a := .mk rfl rfl rfl (.refl _)

theorem Spec.Each.refl {α : Type} {R : α → α → Prop} (h : ∀ a, R a a) : ∀ l : List α, Each R l l
  | [] => .nil
  | a :: l => .cons (h a) (Spec.Each.refl h l)

theorem sameButs_each {l m : List Ast} : SameButs l m ↔ Each SameBut l m := by
  constructor
  · intro h
    induction l generalizing m with
    | nil => cases h; exact .nil
    | cons a l ih => cases h with | cons h1 h2 => exact .cons h1 (ih h2)
  · intro h
    induction h with
    | nil => exact .nil
    | cons h _ ih => exact .cons h ih

theorem sameVal_str {s : Bytes} {v : Value} (h : SameVal (.str s) v) : v = .str s := by cases h; rfl
theorem sameVal_str' {s : Bytes} {v : Value} (h : SameVal v (.str s)) : v = .str s := by cases h; rfl
theorem sameVal_int {s : Int64} {v : Value} (h : SameVal (.int s) v) : v = .int s := by cases h; rfl
theorem sameVal_rune {s : Int32} {v : Value} (h : SameVal (.rune s) v) : v = .rune s := by cases h; rfl

theorem sameVal_cases {v w : Value} (h : SameVal v w) : w = v ∨ (∃ a b c d, v = .cons a b ∧ w = .cons c d) ∨ (∃ l m, v = .list l ∧ w = .list m) ∨
    (∃ a b, v = .ast a ∧ w = .ast b) := by
  cases h with
  | refl => exact .inl rfl
  | cons => exact .inr (.inl ⟨_, _, _, _, rfl, rfl⟩)
  | list => exact .inr (.inr (.inl ⟨_, _, rfl, rfl⟩))
  | ast => exact .inr (.inr (.inr ⟨_, _, rfl, rfl⟩))

/-! ### Terminals -/

section
variable {Q : Bytes → Prop} {pre : Bytes} {below : List Ast}

theorem unm_moved {c c' : Ctx} (h : Linked (MovedBy Q pre) SameBut below c c') : Linked (MovedBy Q pre) SameBut below (unm c) (unm c') := h.setStatus _

theorem pushStr_moved {c c' : Ctx} (h : Linked (MovedBy Q pre) SameBut below c c') (cls : String) (v : Bytes) (k : Nat) :
    Linked (MovedBy Q pre) SameBut below (pushStr cls v k c) (pushStr cls v k c') := by
  obtain ⟨⟨h1, h2, hq⟩, _, st, h3, h4⟩ := h
  refine ⟨⟨h1, ?_, hq⟩, rfl, st ++ [{ Ast.zero with cls := cls, ty := .string, val := .str v, pos := c'.pos, len := c'.len }], ?_,
    h4.append (.cons (.mk rfl rfl rfl (.refl _)) .nil)⟩
  · simp only [cursorOf, pushStr] at h2 ⊢; omega
  · simp only [pushStr, h3, List.append_assoc]

theorem drop_moved {c c' : Ctx} (h : MovedBy Q pre (cursorOf c) (cursorOf c')) : c'.str.drop c'.pos = c.str.drop c.pos := by
  have h1 : c'.str = pre ++ c.str := h.1
  have h2 : c'.pos = pre.length + c.pos := h.2.1
  rw [h1, h2, List.drop_append, List.drop_eq_nil_of_le (by omega), Nat.add_sub_cancel_left, List.nil_append]

theorem hasPrefixAt_moved {c c' : Ctx} (h : MovedBy Q pre (cursorOf c) (cursorOf c')) (s : Bytes) : hasPrefixAt s c' = hasPrefixAt s c := by
  unfold hasPrefixAt
  rw [drop_moved h]
  have h1 : c'.str = pre ++ c.str := h.1
  have h2 : c'.pos = pre.length + c.pos := h.2.1
  congr 1
  rw [h1, h2]
  simp only [List.length_append, decide_eq_decide]
  omega

theorem charFn_moved (cls : String) (p : Nat → Bool) : Respects (MovedBy Q pre) SameBut below (charFn cls p) := by
  intro c c' h
  unfold charFn
  rw [drop_moved h.cursor]
  have h1 : c'.str = pre ++ c.str := h.cursor.1
  have h2 : c'.pos = pre.length + c.pos := h.cursor.2.1
  by_cases hl : c.str.length < c.pos
  · rw [if_pos hl, if_pos (by rw [h1, h2]; simp; omega)]; exact .panic
  · rw [if_neg hl, if_neg (by rw [h1, h2]; simp; omega)]
    simp only
    split
    · exact .ok ⟨rfl, unm_moved h⟩
    · split
      · exact .ok ⟨rfl, pushStr_moved h _ _ _⟩
      · exact .ok ⟨rfl, unm_moved h⟩

theorem charClassFn'_moved (cc : List Bytes) (c c' : Ctx) (h : Linked (MovedBy Q pre) SameBut below c c') :
    OutR (LinkedRes (MovedBy Q pre) SameBut below) (charClassFn' c cc) (charClassFn' c' cc) := by
  induction cc with
  | nil => exact .ok ⟨rfl, unm_moved h⟩
  | cons s cc ih =>
    unfold charClassFn'
    rw [hasPrefixAt_moved h.cursor]
    split
    · exact .ok ⟨rfl, pushStr_moved h _ _ _⟩
    · exact ih

theorem zero_each {K : Cursor → Cursor → Prop} (hK : ∀ c c' n, K (cursorOf c) (cursorOf c') → K (cursorOf { c with len := n }) (cursorOf { c' with len := n })) (asts : List Ast) :
    Respects K SameBut below (zeroP asts) := by
  refine light_respects fun c c' h => ?_
  obtain ⟨h1, _, st, h3, h4⟩ := h
  refine .ok ⟨rfl, hK c c' 0 h1, rfl, st ++ asts.map (fun a => { a with pos := c'.pos, len := c'.len }), ?_, h4.append ?_⟩
  · simp only [h3, List.append_assoc]
  · clear h3 h4 h1
    induction asts with
    | nil => exact .nil
    | cons a l ih => exact .cons (.mk rfl rfl rfl (.refl _)) ih

theorem forward_respects {p : Sem} (h : ForwardTerm p) : Respects (MovedBy Q pre) SameBut below p := by
  cases h with
  | error msg => exact light_respects fun c c' h => .ok ⟨rfl, h.cursor, rfl, h.stack⟩
  | unmatched => exact light_respects fun c c' h => .ok ⟨rfl, h.cursor, rfl, h.stack⟩
  | zero asts => exact zero_each (fun _ _ _ h => h) asts
  | any => exact light_respects (charFn_moved _ _)
  | «end» =>
    refine light_respects fun c c' h => ?_
    have h1 : c'.str = pre ++ c.str := h.cursor.1
    have h2 : c'.pos = pre.length + c.pos := h.cursor.2.1
    by_cases hp : c.pos = c.str.length
    · rw [if_pos hp, if_pos (by rw [h1, h2, hp]; simp)]; exact .ok ⟨rfl, h.cursor, rfl, h.stack⟩
    · rw [if_neg hp, if_neg (by rw [h1, h2]; simp; exact hp)]; exact .ok ⟨rfl, unm_moved h⟩
  | seq s =>
    refine light_respects fun c c' h => ?_
    rw [hasPrefixAt_moved h.cursor]
    split
    · exact .ok ⟨rfl, pushStr_moved h _ _ _⟩
    · exact .ok ⟨rfl, unm_moved h⟩
  | seqI orbit s =>
    refine light_respects fun c c' h => ?_
    simp only
    rw [drop_moved h.cursor]
    have h1 : c'.str = pre ++ c.str := h.cursor.1
    have h2 : c'.pos = pre.length + c.pos := h.cursor.2.1
    by_cases hp : c.pos + s.length ≤ c.str.length
    · have hp' : c'.pos + s.length ≤ c'.str.length := by rw [h1, h2]; simp; omega
      rw [if_pos hp, if_pos hp']
      by_cases hq : equalFold orbit ((c.str.drop c.pos).take s.length).length ((c.str.drop c.pos).take s.length) s = true
      · rw [if_pos hq, if_pos hq]; exact .ok ⟨rfl, pushStr_moved h _ _ _⟩
      · rw [if_neg hq, if_neg hq]; exact .ok ⟨rfl, unm_moved h⟩
    · rw [if_neg hp, if_neg (by rw [h1, h2]; simp; omega)]
      exact .ok ⟨rfl, unm_moved h⟩
  | charRange cr => exact light_respects (charFn_moved _ _)
  | charRangeN cr => exact light_respects (charFn_moved _ _)
  | charClass cc => exact light_respects (charClassFn'_moved cc)
  | charClassN cc =>
    refine light_respects fun c c' h => ?_
    simp only [hasPrefixAt_moved h.cursor]
    split
    · exact .ok ⟨rfl, unm_moved h⟩
    · exact charFn_moved _ _ c c' h
  | charClassFn fn => exact light_respects (charFn_moved _ _)
  | whitespace => exact light_respects (charFn_moved _ _)
  | whitespaceNoLineBreak => exact light_respects (charFn_moved _ _)
  | lineBreak => exact light_respects (charFn_moved _ _)
  | alpha => exact light_respects (charFn_moved _ _)
  | number => exact light_respects (charFn_moved _ _)
  | alnum => exact light_respects (charFn_moved _ _)
  | binNumber => exact light_respects (charFn_moved _ _)
  | octNumber => exact light_respects (charFn_moved _ _)
  | hexNumber => exact light_respects (charFn_moved _ _)

theorem prevRune_moved {s : Bytes} (hs : StartsClean s) : ∀ i, 0 < i → i ≤ s.length → prevRune (pre ++ s) (pre.length + i) = prevRune s i
  | 0, h, _ => absurd h (by omega)
  | i + 1, _, hl => by
    rw [← Nat.add_assoc]
    unfold prevRune
    have e : (pre ++ s).getD (pre.length + i) 0 = s.getD i 0 := by
      simp only [List.getD_eq_getElem?_getD, List.getElem?_append_right (Nat.le_add_right _ _), Nat.add_sub_cancel_left]
    have e2 : (pre ++ s).drop (pre.length + i) = s.drop i := by
      rw [List.drop_append, List.drop_eq_nil_of_le (by omega), Nat.add_sub_cancel_left, List.nil_append]
    rw [e, e2]
    by_cases hb : isLeadByte (s.getD i 0).toNat = true
    · rw [if_pos hb, if_pos hb]
    · rw [if_neg hb, if_neg hb]
      cases i with
      | zero =>
        cases s with
        | nil => simp at hl
        | cons b s =>
          exact absurd (by simp only [List.getD_cons_zero, isLeadByte, decide_eq_true_eq]; rcases hs b s rfl with h | h <;> omega) hb
      | succ i => exact prevRune_moved hs (i + 1) (by omega) (by omega)

theorem decodeRune_pos {s : Bytes} (h : s ≠ []) : (decodeRune s).2 ≠ 0 := by
  have := decodeRune_len_pos h
  omega

theorem wordBoundary_moved {isW : Nat → Bool} (hpre : EndsClean isW pre) (hQ : ∀ s, Q s → StartsClean s) : Respects (MovedBy Q pre) SameBut below (wordBoundaryFn isW) := by
  intro c c' h
  have h1 : c'.str = pre ++ c.str := h.cursor.1
  have h2 : c'.pos = pre.length + c.pos := h.cursor.2.1
  have h3 : StartsClean c.str := hQ _ h.cursor.2.2
  have hy : ∀ s, OutR (LinkedRes (MovedBy Q pre) SameBut below) (.ok ({ c with len := 0, status := s }, none)) (.ok ({ c' with len := 0, status := s }, none)) :=
    fun s => .ok ⟨rfl, h.cursor, rfl, h.stack⟩
  unfold wordBoundaryFn
  simp only
  rw [drop_moved h.cursor]
  by_cases hl : c.str.length < c.pos
  · have hl' : c'.str.length < c'.pos := by rw [h1, h2]; simp; omega
    rw [if_pos hl, if_pos hl']; exact .panic
  · have hl' : ¬ c'.str.length < c'.pos := by rw [h1, h2]; simp; omega
    rw [if_neg hl, if_neg hl']
    by_cases hp : c.pos = 0
    · rw [if_pos hp]
      rcases hpre with rfl | ⟨t, b, rfl, hb, hw⟩
      · have hp' : c'.pos = 0 := by rw [h2, hp]; rfl
        rw [if_pos hp']
        split
        · exact hy _
        · exact hy _
      · have e1 : prevRune c'.str c'.pos = (b.toNat, 1) := by
          have e : (t ++ b :: c.str).getD t.length 0 = b := by simp
          rw [h1, h2, hp, List.length_append, Nat.add_zero]
          simp only [List.append_assoc, List.cons_append, List.nil_append, List.length_cons, List.length_nil, Nat.zero_add, prevRune]
          rw [e, if_pos (by simp only [isLeadByte, decide_eq_true_eq]; omega)]
          simp only [List.drop_left]
          unfold decodeRune
          simp only
          rw [if_pos (by omega)]
        have hp' : ¬ c'.pos = 0 := by rw [h2]; simp
        rw [if_neg hp', e1]
        simp only
        by_cases hs : c.str = []
        · have he : c'.pos = c'.str.length := by rw [h1, h2, hp, hs]; simp
          have hz : ¬ (0 < (decodeRune (c.str.drop c.pos)).2 ∧ isW (decodeRune (c.str.drop c.pos)).1 = true) := by rw [hs]; simp [decodeRune]
          have hw' : ¬ (0 < 1 ∧ isW b.toNat = true) := by rw [hw]; simp
          rw [if_pos he, if_neg hz, if_neg hw']
          exact hy _
        · have he : ¬ c'.pos = c'.str.length := by rw [h1, h2, hp]; simpa using hs
          rw [if_neg he]
          have hpos := decodeRune_pos (s := c.str.drop c.pos) (by rw [hp]; exact hs)
          have hn : (decodeRune (c.str.drop c.pos)).2 ≠ 0 ∧ 1 ≠ 0 := ⟨hpos, by decide⟩
          rw [if_pos hn]
          by_cases hch : isW (decodeRune (c.str.drop c.pos)).1 = true
          · have k1 : 0 < (decodeRune (c.str.drop c.pos)).2 ∧ isW (decodeRune (c.str.drop c.pos)).1 = true := ⟨by omega, hch⟩
            rw [if_pos k1, if_pos (Or.inr ⟨by simp [hw], hch⟩)]; exact hy _
          · have k1 : ¬ (0 < (decodeRune (c.str.drop c.pos)).2 ∧ isW (decodeRune (c.str.drop c.pos)).1 = true) := fun h => hch h.2
            rw [if_neg k1, if_neg (by simp [hw, hch])]; exact hy _
    · have hp' : ¬ c'.pos = 0 := by rw [h2]; omega
      rw [if_neg hp, if_neg hp']
      have e1 : prevRune c'.str c'.pos = prevRune c.str c.pos := by rw [h1, h2]; exact prevRune_moved h3 _ (by omega) (by omega)
      rw [e1]
      by_cases he : c.pos = c.str.length
      · have he' : c'.pos = c'.str.length := by rw [h1, h2, he]; simp
        rw [if_pos he, if_pos he']
        split
        · exact hy _
        · exact hy _
      · have he' : ¬ c'.pos = c'.str.length := by rw [h1, h2]; simpa using he
        rw [if_neg he, if_neg he']
        repeat' split
        all_goals exact hy _

/-! ### Terminals of production rules -/

theorem each_items {l m : List Ast} (h : Each SameBut l m) (i : Nat) :
    (((astSliceSrc l).items[i]? = none ∧ (astSliceSrc m).items[i]? = none) ∨
      ∃ a b, (astSliceSrc l).items[i]? = some (.ast a) ∧ (astSliceSrc m).items[i]? = some (.ast b) ∧ SameBut a b) := by
  simp only [astSliceSrc, List.getElem?_map]
  rcases h.get i with ⟨h1, h2⟩ | ⟨a, b, h1, h2, h3⟩
  · exact .inl ⟨by rw [h1]; rfl, by rw [h2]; rfl⟩
  · exact .inr ⟨a, b, by rw [h1]; rfl, by rw [h2]; rfl, h3⟩

theorem pushObj_same {c c' : Ctx} (h : Linked (SameAsts SameBut) SameBut below c c') (cls : String) (ty : AstType) {a b : Ast} (hab : SameBut a b) (k : Nat) :
    Linked (SameAsts SameBut) SameBut below (pushObj cls ty (.ast a) k c) (pushObj cls ty (.ast b) k c') := by
  obtain ⟨⟨l, m, h1, h2, h3, h4, h5⟩, _, st, h6, h7⟩ := h
  refine ⟨⟨l, m, h1, h2, h3, h4, ?_⟩, rfl, st ++ [{ Ast.zero with cls := cls, ty := ty, val := .ast b, pos := c'.pos, len := c'.len }], ?_,
    h7.append (.cons (.mk rfl rfl rfl (.ast hab)) .nil)⟩
  · simp only [cursorOf, pushObj] at h5 ⊢; omega
  · simp only [pushObj, h6, List.append_assoc]

theorem withSlice_same {f : SliceSrc → Ctx → Out PRes}
    (hf : ∀ l m c c', Each SameBut l m → Linked (SameAsts SameBut) SameBut below c c' → c'.pos = c.pos →
      OutR (LinkedRes (SameAsts SameBut) SameBut below) (f (astSliceSrc l) c) (f (astSliceSrc m) c')) :
    Respects (SameAsts SameBut) SameBut below (withSlice f) := by
  intro c c' h
  obtain ⟨l, m, h1, h2, h3, h4, h5⟩ := id h.cursor
  unfold withSlice
  have h2 : c.slice = some (astSliceSrc l) := h2
  have h3 : c'.slice = some (astSliceSrc m) := h3
  have h6 := hf l m _ _ h1 (h.setStatus .unmatched) h5
  rw [h2] at h6 ⊢
  rw [h3] at h6 ⊢
  exact h6

theorem blind_respects {p : Sem} (h : BlindTerm p) : Respects (SameAsts SameBut) SameBut below p := by
  cases h with
  | error msg => exact light_respects fun c c' h => .ok ⟨rfl, h.cursor, rfl, h.stack⟩
  | unmatched => exact light_respects fun c c' h => .ok ⟨rfl, h.cursor, rfl, h.stack⟩
  | zero asts => exact zero_each (fun _ _ _ h => h) asts
  | start =>
    refine light_respects fun c c' h => ?_
    obtain ⟨_, _, _, _, _, _, h5⟩ := id h.cursor
    have h5 : c'.pos = c.pos := h5
    by_cases hp : c.pos = 0
    · rw [if_pos hp, if_pos (h5.trans hp)]; exact .ok ⟨rfl, h.cursor, rfl, h.stack⟩
    · rw [if_neg hp, if_neg (fun hq => hp (h5.symm.trans hq))]; exact .ok ⟨rfl, h.setStatus _⟩
  | any =>
    refine light_respects (withSlice_same fun l m c c' hl h hp => ?_)
    rw [hp]
    rcases each_items hl c.pos with ⟨h1, h2⟩ | ⟨a, b, h1, h2, h3⟩
    · rw [h1, h2]; exact .ok ⟨rfl, h⟩
    · rw [h1, h2]; exact .ok ⟨rfl, pushObj_same h _ _ h3 _⟩
  | «end» =>
    refine light_respects (withSlice_same fun l m c c' hl h hp => ?_)
    have e : (astSliceSrc m).items.length = (astSliceSrc l).items.length := by simp [astSliceSrc, hl.length]
    by_cases hq : c.pos = (astSliceSrc l).items.length
    · rw [if_pos hq, if_pos (by rw [hp, e, hq])]; exact .ok ⟨rfl, h.cursor, rfl, h.stack⟩
    · rw [if_neg hq, if_neg (by rw [hp, e]; exact hq)]; exact .ok ⟨rfl, h⟩
  | objClassFn fn hfn =>
    refine light_respects (withSlice_same fun l m c c' hl h hp => ?_)
    rw [hp]
    rcases each_items hl c.pos with ⟨h1, h2⟩ | ⟨a, b, h1, h2, h3⟩
    · rw [h1, h2]; exact .ok ⟨rfl, h⟩
    · rw [h1, h2]
      simp only
      rw [hfn a b h3]
      split
      · exact .ok ⟨rfl, pushObj_same h _ _ h3 _⟩
      · exact .ok ⟨rfl, h⟩
      · exact .panic
      · exact .timeout
end

/-! ### Transformers -/

/-- The relation on what transformers return. -/
abbrev SameAnswer (r r' : List Ast × Option Err) : Prop := r'.2 = r.2 ∧ (r.2 = none → Each SameBut r.1 r'.1)

theorem concatLoop_same {l m : List Ast} (h : Each SameBut l m) (acc : Bytes) : concatLoop acc m = concatLoop acc l := by
  induction h generalizing acc with
  | nil => rfl
  | @cons a b l m h _ ih =>
    cases h with
    | mk h1 h2 h3 h4 =>
      unfold concatLoop
      rw [h3]
      split
      · rfl
      · have : asStr b.val = asStr a.val := by
          rcases sameVal_cases h4 with e | ⟨_, _, _, _, e1, e2⟩ | ⟨_, _, e1, e2⟩ | ⟨_, _, e1, e2⟩
          · rw [e]
          all_goals rw [e1, e2]; rfl
        rw [this]
        split <;> simp [ih]

theorem asStr_same {v w : Value} (h : SameVal v w) : asStr w = asStr v := by
  rcases sameVal_cases h with e | ⟨_, _, _, _, e1, e2⟩ | ⟨_, _, e1, e2⟩ | ⟨_, _, e1, e2⟩
  · rw [e]
  all_goals rw [e1, e2]; rfl

theorem rewriteHead_blind {f : Ast → Ast} (hf : ∀ a b, SameBut a b → SameBut (f a) (f b)) : Blind (rewriteHead f) := by
  intro c c' l m h
  cases h with
  | nil => exact .ok ⟨rfl, fun _ => .nil⟩
  | cons h1 h2 => exact .ok ⟨rfl, fun _ => .cons (hf _ _ h1) h2⟩

theorem concat_blind : Blind concat := by
  intro c c' l m h
  unfold concat
  cases h with
  | nil => exact .ok ⟨rfl, fun _ => .cons (.refl _) .nil⟩
  | @cons a b l m h1 h2 =>
    simp only
    rw [concatLoop_same (.cons h1 h2)]
    cases h1 with
    | mk h1 h2 h3 h4 =>
      split
      · exact .panic
      · exact .timeout
      · exact .ok ⟨rfl, fun h => nomatch h⟩
      · exact .ok ⟨rfl, fun _ => .cons (.mk rfl h2 rfl (.refl _)) .nil⟩

theorem afterConcat_blind {f : Bytes → Ast → Out (List Ast × Option Err)} (hf : ∀ s a b, SameBut a b → OutR SameAnswer (f s a) (f s b)) : Blind (afterConcat f) := by
  intro c c' l m h
  unfold afterConcat
  have h1 := concat_blind c c' l m h
  revert h1
  generalize concat c l = x, concat c' m = y
  intro h1
  cases h1 with
  | panic => exact .panic
  | timeout => exact .timeout
  | @ok r r' hr =>
    obtain ⟨l, e⟩ := r
    obtain ⟨m, e'⟩ := r'
    obtain ⟨h2, h3⟩ := hr
    simp only at h2 h3
    subst h2
    cases e' with
    | some e => exact .ok ⟨rfl, fun h => nomatch h⟩
    | none =>
      cases h3 rfl with
      | nil => exact .panic
      | @cons a b _ _ h4 h5 =>
        simp only
        rw [asStr_same (match h4 with | .mk _ _ _ h => h)]
        split
        · exact hf _ _ _ h4
        · exact .panic
        · exact .timeout

theorem setStr_same {a b : Ast} (h : SameBut a b) (v : Value) : SameBut { a with val := v } { b with val := v } := by
  cases h with
  | mk h1 h2 h3 h4 => exact .mk h1 h2 h3 (.refl _)

theorem setTyVal_same {a b : Ast} (h : SameBut a b) (ty : AstType) (v : Value) : SameBut { a with ty := ty, val := v } { b with ty := ty, val := v } := by
  cases h with
  | mk h1 h2 h3 h4 => exact .mk h1 h2 rfl (.refl _)

theorem fromHead_blind {ty : AstType} {f : Value → Out Value} (hf : ∀ v w, SameVal v w → f w = f v) : Blind (fromHead ty f) := by
  intro c c' l m h
  unfold fromHead
  cases h with
  | nil => exact .panic
  | cons h1 h2 =>
    cases h1 with
    | mk h1 h2 h3 h4 =>
      simp only
      rw [hf _ _ h4]
      split
      · exact .ok ⟨rfl, fun _ => .cons (.mk rfl h2 rfl (.refl _)) .nil⟩
      · exact .panic
      · exact .timeout

theorem each_dropLast {l m : List Ast} (h : Each SameBut l m) : Each SameBut l.dropLast m.dropLast := by
  rw [List.dropLast_eq_take, List.dropLast_eq_take, h.length]
  exact h.take _

theorem each_getLast {l m : List Ast} (h : Each SameBut l m) :
    (l.getLast? = none ∧ m.getLast? = none) ∨ ∃ a b, l.getLast? = some a ∧ m.getLast? = some b ∧ SameBut a b := by
  rw [List.getLast?_eq_getElem?, List.getLast?_eq_getElem?, h.length]
  exact h.get _

/-- The transformers of the library but `ToSlice` return the same but for the places. -/
theorem libTr_blind {t : TSem} (h : LibTr t) (hs : t ≠ toSlice) : Blind t := by
  cases h with
  | erase => exact fun _ _ _ _ _ => .ok ⟨rfl, fun _ => .nil⟩
  | transformError s => exact fun _ _ _ _ _ => .ok ⟨rfl, fun h => nomatch h⟩
  | groupingTransform => exact fun _ _ _ _ h => .ok ⟨rfl, fun _ => .cons (.mk rfl rfl rfl (.list (sameButs_each.2 h))) .nil⟩
  | toSlice => exact absurd rfl hs
  | setOpCodeAndClassName => exact rewriteHead_blind fun a b h => by cases h with | mk h1 h2 h3 h4 => exact .mk rfl rfl h3 h4
  | setOpCode => exact rewriteHead_blind fun a b h => by cases h with | mk h1 h2 h3 h4 => exact .mk rfl h2 h3 h4
  | changeClassName => exact rewriteHead_blind fun a b h => by cases h with | mk h1 h2 h3 h4 => exact .mk h1 rfl h3 h4
  | setValue => exact rewriteHead_blind fun a b h => setTyVal_same h _ _
  | pop => exact fun _ _ _ _ h => .ok ⟨rfl, fun _ => each_dropLast h⟩
  | exchange =>
    intro c c' l m h
    unfold exchange
    simp only
    by_cases hl : 2 ≤ l.length
    · rw [if_pos hl, if_pos (by rw [h.length]; exact hl)]
      have key : ∀ l : List Ast, 2 ≤ l.length → (do
          let w ← goSet (l.take (l.length - 2)) (l.length - 2) (← goGet l (l.length - 1))
          let w ← goSet w (l.length - 1) (← goGet l (l.length - 2))
          return (w, none) : Out (List Ast × Option Err)) = .panic .index := by
        intro l hl
        have e1 : goGet l (l.length - 1) = .ok l[l.length - 1] := by
          unfold goGet; rw [List.getElem?_eq_getElem (by omega)]
        rw [e1]
        simp only [Out.bind_ok, goSet]
        rw [if_neg (by rw [List.length_take]; omega)]
        rfl
      rw [key l hl, key m (by rw [h.length]; exact hl)]
      exact .panic
    · rw [if_neg hl, if_neg (by rw [h.length]; exact hl)]
      exact .ok ⟨rfl, fun _ => h⟩
  | roll n =>
    intro c c' l m h
    unfold roll
    have e : ∀ l : List Ast, (if 0 ≤ n then if n < l.length then (.ok (l, none) : Out (List Ast × Option Err)) else .ok (l, none)
        else if -n < l.length then .ok (l, none) else .ok (l, none)) = .ok (l, none) := by
      intro l; repeat' split
      all_goals rfl
    rw [e, e]
    exact .ok ⟨rfl, fun _ => h⟩
  | concat => exact concat_blind
  | trim => exact afterConcat_blind fun s a b h => .ok ⟨rfl, fun _ => .cons (setStr_same h _) .nil⟩
  | trimStart => exact afterConcat_blind fun s a b h => .ok ⟨rfl, fun _ => .cons (setStr_same h _) .nil⟩
  | trimEnd => exact afterConcat_blind fun s a b h => .ok ⟨rfl, fun _ => .cons (setStr_same h _) .nil⟩
  | parseIntRadix base =>
    refine afterConcat_blind fun s a b h => ?_
    split
    · exact .ok ⟨rfl, fun h => nomatch h⟩
    · exact .ok ⟨rfl, fun _ => .cons (setTyVal_same h _ _) .nil⟩
  | parseUintRadix base =>
    refine afterConcat_blind fun s a b h => ?_
    cases s with
    | nil => exact .panic
    | cons x s =>
      simp only
      split
      · exact .ok ⟨rfl, fun h => nomatch h⟩
      · exact .ok ⟨rfl, fun _ => .cons (setTyVal_same h _ _) .nil⟩
  | parseFloat pf =>
    refine afterConcat_blind fun s a b h => ?_
    split
    · exact .ok ⟨rfl, fun h => nomatch h⟩
    · exact .ok ⟨rfl, fun _ => .cons (setTyVal_same h _ _) .nil⟩
  | runeFromInt => refine fromHead_blind fun v w h => ?_; rcases sameVal_cases h with e | ⟨_, _, _, _, e1, e2⟩ | ⟨_, _, e1, e2⟩ | ⟨_, _, e1, e2⟩ <;> simp_all
  | intFromRune => refine fromHead_blind fun v w h => ?_; rcases sameVal_cases h with e | ⟨_, _, _, _, e1, e2⟩ | ⟨_, _, e1, e2⟩ | ⟨_, _, e1, e2⟩ <;> simp_all
  | stringFromInt => refine fromHead_blind fun v w h => ?_; rcases sameVal_cases h with e | ⟨_, _, _, _, e1, e2⟩ | ⟨_, _, e1, e2⟩ | ⟨_, _, e1, e2⟩ <;> simp_all
  | stringFromRune => refine fromHead_blind fun v w h => ?_; rcases sameVal_cases h with e | ⟨_, _, _, _, e1, e2⟩ | ⟨_, _, e1, e2⟩ | ⟨_, _, e1, e2⟩ <;> simp_all
  | padFraction =>
    intro c c' l m h
    unfold Extra.padFraction
    rcases each_getLast h with ⟨h1, h2⟩ | ⟨a, b, h1, h2, h3⟩
    · rw [h1, h2]; exact .panic
    · rw [h1, h2]
      simp only
      rw [asStr_same (match h3 with | .mk _ _ _ h => h)]
      split
      · exact .ok ⟨rfl, fun _ => .cons (.refl _) .nil⟩
      · exact .panic
      · exact .timeout

theorem blind_respectsT {t : TSem} (h : Blind t) (K : Cursor → Cursor → Prop) (below : List Ast) : RespectsT K SameBut below t :=
  fun c c' l m _ hl => h c c' l m hl

/-! ### Production rules -/

inductive SearchSame : Search → Search → Prop where
  | noMatch : SearchSame .noMatch .noMatch
  | rewritten {l m : List Ast} : Each SameBut l m → SearchSame (.rewritten l) (.rewritten m)
  | err (e : Err) : SearchSame (.err e) (.err e)

abbrev RuleOk (p : Sem) : Prop := Respects (SameAsts SameBut) SameBut [] p

theorem newObjCtx_linked {l m : List Ast} (h : Each SameBut l m) (t t' : Value) (p : Nat) :
    Linked (SameAsts SameBut) SameBut [] { newObjCtx (astSliceSrc l) t with pos := p } { newObjCtx (astSliceSrc m) t' with pos := p } :=
  ⟨⟨l, m, h, rfl, rfl, rfl, rfl⟩, rfl, [], rfl, .nil⟩

theorem tryRules_same {l m : List Ast} (h : Each SameBut l m) (t t' : Value) (p : Nat) {rules : List Sem} (hr : ∀ r ∈ rules, RuleOk r) :
    OutR SearchSame (tryRules (newObjCtx (astSliceSrc l) t) l p rules) (tryRules (newObjCtx (astSliceSrc m) t') m p rules) := by
  induction rules with
  | nil => exact .ok .noMatch
  | cons r rules ih =>
    have ih := ih fun q hq => hr q (by simp [hq])
    unfold tryRules
    have h1 := hr r (by simp) _ _ (newObjCtx_linked h t t' p)
    revert h1
    generalize r { newObjCtx (astSliceSrc l) t with pos := p } = x, r { newObjCtx (astSliceSrc m) t' with pos := p } = y
    intro h1
    cases h1 with
    | panic => exact .panic
    | timeout => exact .timeout
    | @ok r r' hr =>
      obtain ⟨o, e⟩ := r
      obtain ⟨o', e'⟩ := r'
      obtain ⟨h2, h3⟩ := hr
      simp only at h2 h3
      subst h2
      cases e' with
      | some e => exact .ok (.err e)
      | none =>
        simp only
        rw [h3.status]
        split
        · exact ih
        · obtain ⟨_, _, _, _, _, _, h5⟩ := id h3.cursor
          have h5 : o'.pos = o.pos := h5
          obtain ⟨st, h6, h7⟩ := h3.stack
          rw [h5, h.length]
          split
          · exact .panic
          · refine .ok (.rewritten ?_)
            rw [h6]
            exact ((h.take _).append h7).append (h.drop _)

theorem tryPositions_same {l m : List Ast} (h : Each SameBut l m) (t t' : Value) {rules : List Sem} (hr : ∀ r ∈ rules, RuleOk r) (rtol : Bool) : ∀ k i,
    OutR SearchSame (tryPositions (newObjCtx (astSliceSrc l) t) l rules rtol k i) (tryPositions (newObjCtx (astSliceSrc m) t') m rules rtol k i)
  | 0, i => .ok .noMatch
  | k + 1, i => by
    unfold tryPositions
    rw [h.length]
    have h1 := tryRules_same h t t' (if rtol then l.length - i else i) hr
    have ih := tryPositions_same h t t' hr rtol k (i + 1)
    revert h1
    generalize tryRules (newObjCtx (astSliceSrc l) t) l _ rules = x, tryRules (newObjCtx (astSliceSrc m) t') m _ rules = y
    intro h1
    cases h1 with
    | panic => exact .panic
    | timeout => exact .timeout
    | ok h2 =>
      cases h2 with
      | noMatch => exact ih
      | rewritten h => exact .ok (.rewritten h)
      | err e => exact .ok (.err e)

theorem tryPrecedences_same {l m : List Ast} (h : Each SameBut l m) (t t' : Value) {ps : List (List Sem × Bool)} (hp : ∀ p ∈ ps, ∀ r ∈ p.1, RuleOk r) :
    OutR SearchSame (tryPrecedences t l ps) (tryPrecedences t' m ps) := by
  induction ps with
  | nil => exact .ok .noMatch
  | cons p ps ih =>
    obtain ⟨rules, rtol⟩ := p
    unfold tryPrecedences
    rw [h.length]
    have h1 := tryPositions_same h t t' (hp (rules, rtol) (by simp)) rtol (l.length + 1) 0
    have ih := ih fun q hq => hp q (by simp [hq])
    revert h1
    generalize tryPositions (newObjCtx (astSliceSrc l) t) l _ _ _ _ = x, tryPositions (newObjCtx (astSliceSrc m) t') m _ _ _ _ = y
    intro h1
    cases h1 with
    | panic => exact .panic
    | timeout => exact .timeout
    | ok h2 =>
      cases h2 with
      | noMatch => exact ih
      | rewritten h => exact .ok (.rewritten h)
      | err e => exact .ok (.err e)

theorem checkHolds_same {l m : List Ast} (h : Each SameBut l m) {check : Sem} (hc : RuleOk check) (t t' : Value) : checkHolds check t' m = checkHolds check t l := by
  unfold checkHolds
  have h1 := hc _ _ (newObjCtx_linked h t t' 0)
  revert h1
  show OutR _ (check (newObjCtx (astSliceSrc l) t)) (check (newObjCtx (astSliceSrc m) t')) → _
  generalize check (newObjCtx (astSliceSrc l) t) = x, check (newObjCtx (astSliceSrc m) t') = y
  intro h1
  cases h1 with
  | panic => rfl
  | timeout => rfl
  | @ok r r' hr =>
    obtain ⟨o, e⟩ := r
    obtain ⟨o', e'⟩ := r'
    obtain ⟨h2, h3⟩ := hr
    simp only at h2 h3
    subst h2
    simp only
    rw [h3.status]

theorem productionLoop_same {ps : List (List Sem × Bool)} (hp : ∀ p ∈ ps, ∀ r ∈ p.1, RuleOk r) {check : Sem} (hc : RuleOk check) (t t' : Value) :
    ∀ n l m, Each SameBut l m → OutR SameAnswer (productionLoop ps check t n l) (productionLoop ps check t' n m)
  | 0, _, _, _ => .timeout
  | n + 1, l, m, h => by
    unfold productionLoop
    have h1 := tryPrecedences_same h t t' hp
    revert h1
    generalize tryPrecedences t l ps = x, tryPrecedences t' m ps = y
    intro h1
    cases h1 with
    | panic => exact .panic
    | timeout => exact .timeout
    | ok h2 =>
      cases h2 with
      | noMatch =>
        simp only
        rw [checkHolds_same h hc t t']
        split
        · exact .panic
        · exact .timeout
        · exact .ok ⟨rfl, fun _ => h⟩
        · exact .ok ⟨rfl, fun h => nomatch h⟩
      | rewritten h' =>
        simp only
        rw [checkHolds_same h' hc t t']
        split
        · exact .panic
        · exact .timeout
        · exact .ok ⟨rfl, fun _ => h'⟩
        · exact productionLoop_same hp hc t t' n _ _ h'
      | err e => exact .ok ⟨rfl, fun h => nomatch h⟩

theorem blindGram_steady {T : TSem → Prop} : ∀ {g : Gram}, BlindGram T g → Steady BlindTerm (BlindTr T) (fun _ => False) False g
  | _, .prim h => .prim h
  | _, .flatGroup h => .flatGroup fun g hg => blindGram_steady (h g hg)
  | _, .group h => .group fun g hg => blindGram_steady (h g hg)
  | _, .first h => .first fun g hg => blindGram_steady (h g hg)
  | _, .lookAhead h => .lookAhead fun g hg => blindGram_steady (h g hg)
  | _, .lookAheadN h => .lookAheadN fun g hg => blindGram_steady (h g hg)
  | _, .repeat h => .repeat fun g hg => blindGram_steady (h g hg)
  | _, .trans h ht => .trans (blindGram_steady h) ht

theorem grouping_blind : Blind groupingTransform := libTr_blind .groupingTransform (fun h => by
  have := congrFun (congrFun h (newStrCtx [])) []
  cases this)

theorem blindTr_blind {T : TSem → Prop} (hT : ∀ t, T t → Blind t) (env : Env) (n : Nat) : ∀ t, BlindTr T t → Blind (runTr env n t) := by
  induction n using Nat.strongRecOn with
  | _ n ih =>
    intro t ht
    cases n with
    | zero => intro c c' l m h; rw [runTr.eq_def]; exact .timeout
    | succ n =>
      rw [runTr.eq_def]
      cases ht with
      | fn h => exact hT _ h
      | @production precs check hp hc =>
        have key : ∀ g, BlindGram T g → RuleOk (run env n g) := fun g hg =>
          run_respects (fun p hp => blind_respects hp) (fun f h => h.elim) (blind_respectsT grouping_blind _ _) (fun h => h.elim) n
            (fun m hm t ht => blind_respectsT (ih m (by omega) t ht) _ _) g (blindGram_steady hg)
        intro c c' l m h
        refine productionLoop_same ?_ (key _ hc) _ _ _ _ _ h
        intro p hp' r hr
        obtain ⟨p, hp2, rfl⟩ := List.mem_map.1 hp'
        obtain ⟨g, hg, rfl⟩ := List.mem_map.1 hr
        exact key g (hp p hp2 g hg)

end Takenoco
