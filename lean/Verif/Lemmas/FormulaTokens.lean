import Verif.Lemmas.ExprChain
import Verif.Lemmas.Runs
import Verif.Lemmas.RpnRules
import Verif.Lemmas.Strconv
import Verif.Props.Literals
/-
The tokens of the formula and torpn examples: white space, numbers and operators.
-/
namespace Takenoco
open Spec Formula

/-! ### First with a panic -/

/-- The first of the parsers that is not unmatched panics. -/
inductive OnePanics : List Sem → Bytes → Bytes → Panic → Prop where
  | here {p : Sem} {ps : List Sem} {pre s : Bytes} {x : Panic} : Panics p pre s x → OnePanics (p :: ps) pre s x
  | there {p : Sem} {ps : List Sem} {pre s : Bytes} {x : Panic} : Misses p pre s → OnePanics ps pre s x → OnePanics (p :: ps) pre s x

theorem OnePanics.choice {ps : List Sem} {pre s : Bytes} {x : Panic} (h : OnePanics ps pre s x) (c : Ctx) (hc : At c pre s) :
    Choice ps c (.panicked x) := by
  induction h with
  | here h => exact .take (h c hc) (by simp)
  | there h _ ih => exact .skip (h c hc) (ih hc)

theorem first_panics {env : Env} {gs : List Gram} {pre s : Bytes} {x : Panic} (h : OnePanics (gs.map (den env)) pre s x) :
    Panics (den env (.first gs)) pre s x := fun c hc => by
  have := h.choice _ (hc.enter ":base:First")
  rw [den_first, first_of (by intro hn; rw [hn] at h; cases h) this]; rfl

section
variable {env : Env}

/-! ### White space -/

/-- The text does not start with white space. -/
def NotWhite (s : Bytes) : Prop := ∀ ch n, NextChar s ch n → ¬ White ch

theorem notWhite_nil : NotWhite [] := fun _ _ h => (nextChar_nil h).elim

theorem notWhite_ascii {b : UInt8} {s : Bytes} (hb : b < 0x80) (h : b ∉ [0x09, 0x0a, 0x0b, 0x0c, 0x0d, 0x20]) : NotWhite (b :: s) := by
  intro ch n hn hw
  obtain ⟨h1, _⟩ := nextChar_ascii hb hn
  unfold White at hw
  have hlt : b.toNat < 0x80 := by simpa using UInt8.lt_iff_toNat_lt.1 hb
  simp only [List.mem_cons, List.not_mem_nil, or_false, not_or] at hw h
  have e : ∀ k : UInt8, b ≠ k → b.toNat ≠ k.toNat := fun k hk he => hk (UInt8.toNat_inj.1 he)
  rcases hw with rfl | rfl | rfl | rfl | rfl | rfl | rfl | rfl
  · exact e _ h.1 h1.symm
  · exact e _ h.2.1 h1.symm
  · exact e _ h.2.2.1 h1.symm
  · exact e _ h.2.2.2.1 h1.symm
  · exact e _ h.2.2.2.2.1 h1.symm
  · exact e _ h.2.2.2.2.2 h1.symm
  · simp at h1; omega
  · simp at h1; omega

theorem blanks_run {b s : Bytes} (h : Blanks b) (hs : NotWhite s) : ∃ t, CharRun White (b ++ s) b t s := by
  obtain ⟨t, ht, rfl⟩ := h
  refine ⟨t, ?_⟩
  induction t with
  | nil => exact .stop hs
  | cons ch t ih =>
    have h1 : NextChar (utf8s (ch :: t) ++ s) ch (utf8 ch).length := by
      rw [utf8s_cons, List.append_assoc]; exact .char ch _
    have h2 := CharRun.next h1 (ht ch (by simp)) (w := utf8s t) (t := t) (rest := s) (by
      rw [utf8s_cons, List.append_assoc, List.drop_left]; exact ih fun c hc => ht c (by simp [hc]))
    have e : (utf8s (ch :: t) ++ s).take (utf8 ch).length = utf8 ch := by
      rw [utf8s_cons, List.append_assoc, List.take_left]
    rw [e] at h2; exact h2

theorem sp0_hits {b s : Bytes} (h : Blanks b) (hs : NotWhite s) (pre : Bytes) : Hits (den env (Gram.erased sp0)) pre b s (· = []) := by
  obtain ⟨t, ht⟩ := blanks_run h hs
  exact erased_hits (erased_hits (charRun_star C18_whitespace ht pre))

theorem blanks_first {b s : Bytes} (h : Blanks b) : b = [] ∨ ∃ ch n, NextChar (b ++ s) ch n ∧ White ch := by
  obtain ⟨t, ht, rfl⟩ := h
  cases t with
  | nil => exact .inl rfl
  | cons ch t => exact .inr ⟨ch, _, by rw [utf8s_cons, List.append_assoc]; exact .char ch _, ht ch (by simp)⟩

/-! ### Word boundaries -/

theorem wordBoundary_hits {pre s : Bytes} {b : UInt8} (hb : b < 0x80) (hw : isWord b.toNat = true)
    (hs : ∀ ch n, NextChar s ch n → isWord ch.toNat = false) : Hits (den env (.prim wordBoundary)) (pre ++ [b]) [] s (· = []) := by
  intro c hc
  have hlt : b.toNat < 0x80 := by simpa using UInt8.lt_iff_toNat_lt.1 hb
  rw [List.nil_append] at hc
  have h1 : c.pos = pre.length + 1 := by rw [hc.pos]; simp
  have h2 : c.str = pre ++ b :: s := by rw [hc.str]; simp
  have hprev : prevRune c.str c.pos = (b.toNat, 1) := by
    rw [h1, prevRune, h2, getD_mid]
    have : isLeadByte b.toNat = true := by unfold isLeadByte; simp; omega
    rw [if_pos this, List.drop_left]
    unfold decodeRune; simp [hlt]
  have key : wordBoundaryFn isWord c = .ok ({ c with len := 0, status := .matched }, none) := by
    unfold wordBoundaryFn
    have hle : ¬ c.str.length < c.pos := by have := hc.le; omega
    simp only [hle, if_false, hprev, hc.drop]
    rw [if_neg (by omega)]
    by_cases hn : s = []
    · subst hn
      rw [if_pos (by rw [h1, h2]; simp), if_pos ⟨by omega, hw⟩]
    · rw [if_neg (by rw [h1, h2]; simp; cases s with | nil => exact absurd rfl hn | cons _ _ => simp)]
      obtain ⟨ch, n, hch⟩ := nextChar_total hn
      rw [(nextChar_decode hch).2, hs ch n hch]
      have : n ≠ 0 := by
        have := nextChar_drop_lt hch
        intro h0; subst h0; simp at this
      simp [this, hw]
  refine ⟨_, by rw [den_prim]; unfold wordBoundary; rw [light_matched _ key rfl]; rfl, ?_⟩
  exact ⟨⟨by simpa using hc.str, by simpa using hc.pos, rfl⟩, rfl, rfl, [], by simp, rfl⟩

/-! ### Numbers -/

/-- The AST of a number. -/
def NumberAst (v : Int64) (a : Ast) : Prop := a.cls = "Number" ∧ a.ty = .int ∧ a.val = .int v

/-- The text does not continue a number. -/
def NoDigit (s : Bytes) : Prop := ∀ b s', s = b :: s' → or_ isDec b = false

theorem takeWhile_stop {B : UInt8 → Bool} {w s : Bytes} (hw : w.takeWhile B = w) (hs : ∀ b s', s = b :: s' → B b = false) :
    (w ++ s).takeWhile B = w := by
  induction w with
  | nil =>
    cases s with
    | nil => rfl
    | cons b s' => simp [hs b s' rfl]
  | cons a w ih =>
    rw [List.takeWhile_cons] at hw
    rw [List.cons_append, List.takeWhile_cons]
    split at hw
    · rename_i ha; rw [if_pos ha, ih (by simpa using hw)]
    · cases hw

theorem natRun_append {w s : Bytes} (h1 : StartsWith isDec w) (h2 : natRun w = w) (hs : NoDigit s) : natRun (w ++ s) = w := by
  obtain ⟨b, w', rfl, hb⟩ := h1
  by_cases h0 : b = 0x30
  · subst h0
    simp only [natRun, List.cons_append, List.cons.injEq, true_and] at h2 ⊢
    exact takeWhile_stop h2 fun b s' e => by have := hs b s' e; unfold or_ at this; simp at this; simpa using this.2
  · have e1 : ∀ t, natRun (b :: t) = digitRun isDec (b :: t) := fun t => by
      unfold natRun
      split
      · rename_i h; cases h; exact absurd rfl h0
      · rfl
    rw [e1] at h2
    rw [List.cons_append, e1, ← List.cons_append]
    exact takeWhile_stop h2 hs

theorem dec_not_sign {b : UInt8} (hb : isDec b = true) : isSign b = false := by
  unfold isDec at hb; unfold isSign
  simp only [Bool.and_eq_true, decide_eq_true_eq, Bool.or_eq_false_iff, beq_eq_false_iff_ne, UInt8.le_iff_toNat_le] at hb ⊢
  simp at hb
  exact ⟨fun e => by subst e; simp at hb, fun e => by subst e; simp at hb⟩

theorem lexInteger_some {s : Bytes} (h : StartsWith isDec (s.drop (signRun s).length)) :
    ∃ n, Lex.integer s = some n ∧ s.take n = signRun s ++ natRun (s.drop (signRun s).length) := by
  obtain ⟨k, h1, h2, h3⟩ := lexSign s
  obtain ⟨n, h4, h5⟩ := lexNat_some h
  refine ⟨k + n, ?_, ?_⟩
  · unfold Lex.integer Lex.seq
    rw [h1]; simp only
    rw [h3, h4]; rfl
  · rw [take_add_drop, h2, h3, h5]

theorem lexInteger_none {s : Bytes} (h : ¬ StartsWith isDec (s.drop (signRun s).length)) : Lex.integer s = none := by
  obtain ⟨k, h1, h2, h3⟩ := lexSign s
  unfold Lex.integer Lex.seq
  rw [h1]; simp only
  rw [h3, lexNat_none h]; rfl

theorem integer_hits {w s : Bytes} {sg : Bytes} (hsg : sg = [] ∨ sg = [0x2b] ∨ sg = [0x2d]) (h1 : StartsWith isDec w) (h2 : natRun w = w) (hs : NoDigit s) (pre : Bytes) :
    Hits (den env Extra.integerNumberStr) pre (sg ++ w) s (fun l => ∃ a, l = [a] ∧ a.val = .str (withoutUnderscores (sg ++ w))) := by
  have hrun : signRun (sg ++ w ++ s) = sg := by
    obtain ⟨b, w', rfl, hb⟩ := h1
    have := dec_not_sign hb
    rcases hsg with rfl | rfl | rfl
    · simp [signRun, this]
    · simp [signRun, isSign]
    · simp [signRun, isSign]
  have hu : (sg ++ w ++ s).drop (signRun (sg ++ w ++ s)).length = w ++ s := by
    rw [hrun, List.append_assoc, List.drop_left]
  have hst : StartsWith isDec (w ++ s) := by
    obtain ⟨b, w', rfl, hb⟩ := h1
    exact ⟨b, w' ++ s, rfl, hb⟩
  obtain ⟨n, e1, e2⟩ := lexInteger_some (s := sg ++ w ++ s) (by rw [hu]; exact hst)
  rw [hu, hrun, natRun_append h1 h2 hs] at e2
  obtain ⟨e3, e4⟩ := (lexes_integer (env := env) pre _).1 n e1
  have e5 : (sg ++ w ++ s).drop n = s := by
    have := List.take_append_drop n (sg ++ w ++ s)
    rw [e2] at this
    exact List.append_cancel_left this
  rw [e2, e5] at e4
  refine trans_hits (by simp) e4 fun c' l hl => ?_
  obtain ⟨vs, hv, he⟩ := hl
  obtain ⟨l', f1, a, f2, f3, f4, f5, _⟩ := concat_named (env := env) (name := ":extra:IntegerNumberStr") c' l hv
  exact ⟨l', f1, a, f2, by rw [f5, he, noUnderscore_eq]⟩

theorem integer_misses {s : Bytes} (h : ¬ StartsWith isDec (s.drop (signRun s).length)) (pre : Bytes) : Misses (den env Extra.integerNumberStr) pre s :=
  trans_misses ((lexes_integer (env := env) pre s).2 (lexInteger_none h))

theorem number_misses {s : Bytes} (h : ¬ StartsWith isDec (s.drop (signRun s).length)) (pre : Bytes) : Misses (den env numberG) pre s :=
  trans_misses (flat_misses (.head (integer_misses h pre)))

theorem int64_ofInt_neg {n : Nat} (h : n ≤ 2 ^ 63) : Int64.ofInt (-(n : Int)) = int64Neg (Int64.ofInt n) := by
  by_cases hn : n = 2 ^ 63
  · subst hn; decide
  · unfold int64Neg
    rw [Int64.toInt_ofInt_of_le (by omega) (by omega)]

theorem or_dec_word {b : UInt8} (h : or_ isDec b = true) : b < 0x80 ∧ isWord b.toNat = true := by
  unfold or_ isDec at h
  unfold isWord inRange
  simp only [Bool.or_eq_true, Bool.and_eq_true, decide_eq_true_eq, beq_iff_eq, UInt8.le_iff_toNat_le, UInt8.lt_iff_toNat_lt] at h ⊢
  rcases h with h | h
  · simp at h ⊢; omega
  · subst h; simp

theorem mem_of_takeWhile {B : UInt8 → Bool} {s : Bytes} {b : UInt8} (h : b ∈ s.takeWhile B) : B b = true := by
  induction s with
  | nil => cases h
  | cons a s ih =>
    rw [List.takeWhile_cons] at h
    split at h
    · rename_i ha
      rcases List.mem_cons.1 h with rfl | h
      · exact ha
      · exact ih h
    · cases h

theorem natRun_last {w : Bytes} (h1 : StartsWith isDec w) (h2 : natRun w = w) : ∃ p b, w = p ++ [b] ∧ or_ isDec b = true := by
  have hall : ∀ b ∈ w, or_ isDec b = true := by
    obtain ⟨b, w', rfl, hb⟩ := h1
    unfold natRun at h2
    split at h2
    · rename_i heq
      injection heq with h3 h4
      subst h3 h4
      simp only [List.cons.injEq, true_and] at h2
      intro b hb
      simp only [List.mem_cons] at hb
      rcases hb with rfl | hb
      · rfl
      · rw [← h2] at hb
        have := mem_of_takeWhile hb
        unfold or_; simp [this]
    · intro b hb
      rw [← h2] at hb
      exact mem_of_takeWhile hb
  rcases List.eq_nil_or_concat w with rfl | ⟨p, b, rfl⟩
  · obtain ⟨_, _, h, _⟩ := h1; cases h
  · exact ⟨p, b, by simp, hall b (by simp)⟩

/-- No word character follows. -/
def NoWord (s : Bytes) : Prop := ∀ ch n, NextChar s ch n → isWord ch.toNat = false

theorem noWord_noDigit {s : Bytes} (h : NoWord s) : NoDigit s := by
  intro b s' he
  subst he
  cases hb : or_ isDec b with
  | false => rfl
  | true =>
    obtain ⟨h1, h2⟩ := or_dec_word hb
    obtain ⟨ch, h3, _, h4⟩ := nextChar_of_ascii s' h1
    have := h ch 1 h4
    rw [h3, h2] at this; cases this

theorem noWord_blanks {b s : Bytes} (hb : Blanks b) (h : NoWord s) : NoWord (b ++ s) := by
  rcases blanks_first (s := s) hb with rfl | ⟨ch, n, h1, h2⟩
  · exact h
  · intro ch' n' h'
    obtain ⟨rfl, rfl⟩ := nextChar_unique h1 h'
    unfold White at h2
    simp only [List.mem_cons, List.not_mem_nil, or_false] at h2
    rcases h2 with rfl | rfl | rfl | rfl | rfl | rfl | rfl | rfl <;> rfl

/-- The signs of a number and the value. -/
inductive SignedValue (n : Nat) : Bytes → Int → Int64 → Prop where
  | none : n < 2 ^ 63 → SignedValue n [] n (Int64.ofInt n)
  | plus : n < 2 ^ 63 → SignedValue n [0x2b] n (Int64.ofInt n)
  | minus : n ≤ 2 ^ 63 → SignedValue n [0x2d] (-n) (int64Neg (Int64.ofInt n))

/-- A number with or without sign. -/
theorem number_hits {sg w b s : Bytes} {n : Nat} {i : Int} {v : Int64} (hsg : SignedValue n sg i v)
    (hw : DigitsText w n) (hb : Blanks b) (hs : NotWhite s) (hs' : NoWord s) (pre : Bytes) :
    Hits (den env numberG) pre (sg ++ w ++ b) s (fun l => ∃ a, l = [a] ∧ NumberAst v a) := by
  have h1 := integer_hits (env := env) (s := b ++ s) (sg := sg) (by cases hsg <;> simp) hw.start hw.shape
    (noWord_noDigit (noWord_blanks hb hs')) pre
  obtain ⟨p, d, hp, hd⟩ := natRun_last hw.start hw.shape
  obtain ⟨hd1, hd2⟩ := or_dec_word hd
  have h2 := wordBoundary_hits (env := env) (pre := pre ++ sg ++ p) hd1 hd2 (noWord_blanks hb hs')
  have e : pre ++ (sg ++ w) = pre ++ sg ++ p ++ [d] := by rw [hp]; simp
  rw [← e] at h2
  have h3 := sp0_hits (env := env) hb hs (pre ++ (sg ++ w) ++ [])
  have h4 := flat_hits (env := env) (gs := [Extra.integerNumberStr, .prim wordBoundary, Gram.erased sp0])
    (SeqHits.cons h1 (SeqHits.cons (w1 := []) h2 (SeqHits.single h3)))
  refine trans_hits (by simp) h4 fun c l hl => ?_
  obtain ⟨x, y, rfl, ⟨a, rfl, ha⟩, y1, y2, rfl, rfl, rfl⟩ := hl
  have hp : parseInt (withoutUnderscores (sg ++ w)) 10 = .ok i := by
    refine (parseInt_iff (base := 10) (by omega) (by omega) _ _).2 ?_
    cases hsg with
    | none h => exact ⟨.none hw.value, by omega, by omega⟩
    | plus h => exact ⟨.plus (base := 10) hw.value, by omega, by omega⟩
    | minus h => exact ⟨.minus (base := 10) hw.value, by omega, by omega⟩
  refine ⟨[{ Ast.zero with ty := .int, cls := "Number", val := .int v }], ?_, _, rfl, rfl, rfl, rfl⟩
  have hv : Int64.ofInt i = v := by
    cases hsg with
    | none h => rfl
    | plus h => rfl
    | minus h => exact int64_ofInt_neg h
  simp [denTr_fn, applyTrs, numberTr, ha, asStr, hp, hv]

/-! ### Operators -/

/-- The AST of an operator. -/
def OpAst (cls : String) (b : UInt8) (a : Ast) : Prop := a.cls = cls ∧ a.val = .str [b]

theorem operator_hits {bs : List UInt8} {o : UInt8} (ho : bs.contains o = true) {name : String} {b s : Bytes} (hb : Blanks b) (hs : NotWhite s) (pre : Bytes) :
    Hits (den env (.trans (.flatGroup [.prim (charClass (bs.map fun b => [b])), Gram.erased sp0]) [.fn (changeClassName name)])) pre (o :: b) s
      (fun l => ∃ a, l = [a] ∧ OpAst name o a) := by
  have h1 := (byteLike_class (env := env) bs).1 pre o (b ++ s) ho
  have h2 := sp0_hits (env := env) hb hs (pre ++ [o])
  have h3 := flat_hits (env := env) (gs := [.prim (charClass (bs.map fun b => [b])), Gram.erased sp0]) (SeqHits.cons h1 (SeqHits.single h2))
  refine trans_hits (by simp) h3 fun c l hl => ?_
  obtain ⟨x, y, rfl, hx, rfl⟩ := hl
  cases hx with
  | @cons a l v vs h4 h5 h6 =>
    cases h6
    exact ⟨[{ a with cls := name }], by simp [denTr_fn, applyTrs, changeClassName, rewriteHead], _, rfl, rfl, h5⟩

theorem operator_misses {bs : List UInt8} {name : String} {s : Bytes} (h : ∀ b s', s = b :: s' → bs.contains b = false) (pre : Bytes) :
    Misses (den env (.trans (.flatGroup [.prim (charClass (bs.map fun b => [b])), Gram.erased sp0]) [.fn (changeClassName name)])) pre s :=
  trans_misses (flat_misses (.head ((byteLike_class (env := env) bs).2 pre s h)))

theorem unary_hits {b s : Bytes} (hb : Blanks b) (hs : NotWhite s) (pre : Bytes) :
    Hits (den env unaryOperator) pre (0x2d :: b) s (fun l => ∃ a, l = [a] ∧ OpAst "UnaryOperator" 0x2d a) :=
  operator_hits (bs := [0x2d]) rfl hb hs pre

theorem unary_misses {s : Bytes} (h : ∀ s', s ≠ 0x2d :: s') (pre : Bytes) : Misses (den env unaryOperator) pre s :=
  operator_misses (bs := [0x2d]) (fun b s' e => by
    have : b ≠ 0x2d := fun hb => h s' (by rw [e, hb])
    simpa using this) pre

theorem binary_hits {op : BinOp} {b s : Bytes} (hb : Blanks b) (hs : NotWhite s) (pre : Bytes) :
    Hits (den env binaryOperator) pre (op.char :: b) s (fun l => ∃ a, l = [a] ∧ OpAst "BinaryOperator" op.char a) :=
  operator_hits (bs := [0x2b, 0x2d, 0x2a, 0x2f]) (by cases op <;> rfl) hb hs pre

theorem binary_misses {s : Bytes} (h : s = [] ∨ ∃ s', s = 0x29 :: s') (pre : Bytes) : Misses (den env binaryOperator) pre s :=
  operator_misses (bs := [0x2b, 0x2d, 0x2a, 0x2f]) (fun b s' e => by
    rcases h with rfl | ⟨s'', rfl⟩
    · cases e
    · cases e; rfl) pre

end
end Takenoco
