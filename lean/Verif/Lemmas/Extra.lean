import Verif.Lemmas.Lexer
import Verif.Props.StrTerminals
import Verif.Spec.Literals
import Verif.Model.Extra
/-
The literals of package extra as lexers.
-/
namespace Takenoco
open Spec Extra

section
variable {env : Env}

theorem byteLike_range {lo hi : Nat} (B : UInt8 → Bool) (hhi : hi < 0x80) (hB : ∀ b, B b = true ↔ lo ≤ b.toNat ∧ b.toNat ≤ hi)
    (h_ : B 0x5f = false) : ByteLike (den env (range lo hi)) B byteVal := by
  refine byteLike_one (C17_charRange [rr lo hi]) B (fun b hb => ?_) (fun ch b he hb => ?_) (fun ch hch => ?_) h_
  · have := (hB b).1 hb; rw [UInt8.lt_iff_toNat_lt]; simp; omega
  · simp [hB b, he, InRanges]
  · simp [InRanges]; omega

theorem byteLike_number : ByteLike (den env (.prim number)) isDec byteVal := by
  have hB : ∀ b : UInt8, isDec b = true ↔ 0x30 ≤ b.toNat ∧ b.toNat ≤ 0x39 := fun b => by
    simp [isDec, UInt8.le_iff_toNat_le]
  refine byteLike_one C18_number isDec (fun b hb => ?_) (fun ch b he hb => ?_) (fun ch hch => ?_) rfl
  · have := (hB b).1 hb; rw [UInt8.lt_iff_toNat_lt]; simp; omega
  · simp only [hB b, char_le_iff, he]; rfl
  · simp only [char_le_iff]; intro h; have h2 := h.2; simp at h2; omega

theorem byteLike_alpha : ByteLike (den env (.prim alpha)) isLetter byteVal := by
  have hB : ∀ b : UInt8, isLetter b = true ↔ (0x41 ≤ b.toNat ∧ b.toNat ≤ 0x5a) ∨ (0x61 ≤ b.toNat ∧ b.toNat ≤ 0x7a) := fun b => by
    simp [isLetter, UInt8.le_iff_toNat_le]
  refine byteLike_one C18_alpha isLetter (fun b hb => ?_) (fun ch b he hb => ?_) (fun ch hch => ?_) rfl
  · have := (hB b).1 hb; rw [UInt8.lt_iff_toNat_lt]; simp; omega
  · simp only [hB b, char_le_iff, he]; rfl
  · simp only [char_le_iff]; intro h; simp at h; omega

theorem byteLike_alnum : ByteLike (den env (.prim alnum)) (fun b => isDec b || isLetter b) byteVal := by
  have hB : ∀ b : UInt8, (isDec b || isLetter b) = true ↔ (0x30 ≤ b.toNat ∧ b.toNat ≤ 0x39) ∨ (0x41 ≤ b.toNat ∧ b.toNat ≤ 0x5a) ∨ (0x61 ≤ b.toNat ∧ b.toNat ≤ 0x7a) := fun b => by
    simp [isLetter, isDec, UInt8.le_iff_toNat_le]
  refine byteLike_one C18_alnum _ (fun b hb => ?_) (fun ch b he hb => ?_) (fun ch hch => ?_) rfl
  · have := (hB b).1 hb; rw [UInt8.lt_iff_toNat_lt]; simp; omega
  · simp only [hB b, char_le_iff, he]; simp; omega
  · simp only [char_le_iff]; intro h; simp at h; omega

theorem byteChoice_nil : ByteChoice [] (fun _ => false) byteVal := fun _ => rfl

theorem byteLike_first2 {g h : Gram} {B1 B2 : UInt8 → Bool} (hg : ByteLike (den env g) B1 byteVal) (hh : ByteLike (den env h) B2 byteVal) :
    ByteLike (den env (.first [g, h])) (fun b => B1 b || B2 b) byteVal :=
  byteLike_or (by simp) (byteChoice_cons hg (byteChoice_cons hh byteChoice_nil (fun b => (Bool.or_false _).symm)) fun b => rfl)

theorem byteLike_digit_ : ByteLike (den env digitOr_) (or_ isDec) byteVal := byteLike_first2 byteLike_number byteLike_underscore

theorem lexes_digitLit {g h : Gram} {D : UInt8 → Bool} (hg : ByteLike (den env g) D byteVal) (hh : ByteLike (den env h) (or_ D) byteVal) :
    Lexes (den env (.flatGroup [g, Gram.star [h]])) (Lex.seq (Lex.byte D) (Lex.run (or_ D))) :=
  lexes_flat (lexesSeq_cons (lexes_byte hg) (lexesSeq_single (lexes_star hh)))

theorem lexes_digits : Lexes (den env digits) (Lex.seq (Lex.byte isDec) (Lex.run (or_ isDec))) := lexes_digitLit byteLike_number byteLike_digit_

def Lex.zero : Lex := Lex.seq (Lex.byte (· == 0x30)) (Lex.run (· == 0x5f))

theorem lexes_zeroLit : Lexes (den env zeroLit) Lex.zero :=
  lexes_flat (lexesSeq_cons (lexes_byte ((byteLike_one_class [0x30] (by decide)).congr (fun b => by rw [Bool.eq_iff_iff]; simp) fun _ _ => rfl))
    (lexesSeq_single (lexes_star byteLike_underscore)))

theorem lexes_sign : Lexes (den env plusMinus) (Lex.byte isSign) :=
  lexes_byte ((byteLike_one_class [0x2b, 0x2d] (by decide)).congr (fun b => by rw [Bool.eq_iff_iff]; simp [isSign]) fun _ _ => rfl)

/-- A number without sign. -/
def Lex.nat : Lex := Lex.alt Lex.zero (Lex.seq (Lex.byte isDec) (Lex.run (or_ isDec)))

theorem lexes_nat : Lexes (den env (.first [zeroLit, digits])) Lex.nat :=
  lexes_first (by simp) (lexesAlt_cons lexes_zeroLit (lexesAlt_single lexes_digits))

theorem lexes_optSign : Lexes (den env (Gram.opt [plusMinus])) (Lex.byte isSign).opt := lexes_opt (lexesSeq_single lexes_sign)

def Lex.integer : Lex := Lex.seq (Lex.byte isSign).opt Lex.nat

theorem lexes_integer : Lexes (den env (.flatGroup [Gram.opt [plusMinus], .first [zeroLit, digits]])) Lex.integer :=
  lexes_flat (lexesSeq_cons lexes_optSign (lexesSeq_single lexes_nat))

def Lex.expo : Lex := Lex.seq (Lex.byte fun b => b == 0x45 || b == 0x65) (Lex.seq (Lex.byte isSign).opt (Lex.seq (Lex.byte isDec) (Lex.run (or_ isDec))))

theorem lexes_expo : Lexes (den env exponentStr) Lex.expo :=
  lexes_flat (lexesSeq_cons
    (lexes_byte ((byteLike_one_class [0x45, 0x65] (by decide)).congr (fun b => by rw [Bool.eq_iff_iff]; simp) fun _ _ => rfl))
    (lexesSeq_cons lexes_optSign (lexesSeq_single lexes_digits)))

theorem lexes_dot : Lexes (den env dot) (Lex.byte (· == 0x2e)) :=
  lexes_byte ((byteLike_one_class [0x2e] (by decide)).congr (fun b => by rw [Bool.eq_iff_iff]; simp) fun _ _ => rfl)

def Lex.float : Lex := Lex.seq (Lex.byte isSign).opt
  (Lex.alt (Lex.seq Lex.nat (Lex.seq (Lex.seq (Lex.byte (· == 0x2e)) (Lex.run (or_ isDec))) Lex.expo.opt))
    (Lex.alt (Lex.seq (Lex.byte (· == 0x2e)) (Lex.seq (Lex.run1 (or_ isDec)) Lex.expo.opt)) (Lex.seq Lex.nat Lex.expo)))

theorem lexes_float : Lexes (den env (.flatGroup [
      Gram.opt [plusMinus],
      .first [
        .flatGroup [
          .first [zeroLit, digits],
          .flatGroup [dot, Gram.star [digitOr_]],
          Gram.opt [exponentStr]],
        .flatGroup [dot, Gram.plus [digitOr_], Gram.opt [exponentStr]],
        .flatGroup [.first [zeroLit, digits], exponentStr]]])) Lex.float :=
  lexes_flat (lexesSeq_cons lexes_optSign (lexesSeq_single (lexes_first (by simp)
    (lexesAlt_cons
      (lexes_flat (lexesSeq_cons lexes_nat (lexesSeq_cons (lexes_flat (lexesSeq_cons lexes_dot (lexesSeq_single (lexes_star byteLike_digit_))))
        (lexesSeq_single (lexes_opt (lexesSeq_single lexes_expo))))))
      (lexesAlt_cons
        (lexes_flat (lexesSeq_cons lexes_dot (lexesSeq_cons (lexes_plus byteLike_digit_) (lexesSeq_single (lexes_opt (lexesSeq_single lexes_expo))))))
        (lexesAlt_single (lexes_flat (lexesSeq_cons lexes_nat (lexesSeq_single lexes_expo)))))))))

def Lex.numeric : Lex := Lex.seq (Lex.byte isSign).opt (Lex.seq
  (Lex.alt (Lex.seq Lex.nat (Lex.opt (Lex.seq (Lex.byte (· == 0x2e)) (Lex.run (or_ isDec)))))
    (Lex.seq (Lex.byte (· == 0x2e)) (Lex.run1 (or_ isDec)))) Lex.expo.opt)

theorem lexes_numeric : Lexes (den env (.flatGroup [
      Gram.opt [plusMinus],
      .first [
        .flatGroup [.first [zeroLit, digits], Gram.opt [dot, Gram.star [digitOr_]]],
        .flatGroup [dot, Gram.plus [digitOr_]]],
      Gram.opt [exponentStr]])) Lex.numeric :=
  lexes_flat (lexesSeq_cons lexes_optSign (lexesSeq_cons (lexes_first (by simp)
    (lexesAlt_cons (lexes_flat (lexesSeq_cons lexes_nat (lexesSeq_single (lexes_opt (lexesSeq_cons lexes_dot (lexesSeq_single (lexes_star byteLike_digit_)))))))
      (lexesAlt_single (lexes_flat (lexesSeq_cons lexes_dot (lexesSeq_single (lexes_plus byteLike_digit_)))))))
    (lexesSeq_single (lexes_opt (lexesSeq_single lexes_expo)))))

/-! ### From lexers to statements about contexts -/

theorem noUnderscore_eq (w : Bytes) : noUnderscore w = withoutUnderscores w := rfl

theorem lexes_consumes {g : Gram} {L : Lex} {name : String} (h : Lexes (den env g) L) (c : Ctx) (hs : c.status = .matched) (hc : c.pos ≤ c.str.length) :
    (∀ n, L (c.str.drop c.pos) = some n → n ≤ (c.str.drop c.pos).length ∧
      Consumes (den env (.trans g [.fn concat, .fn (changeClassName name)])) c ((c.str.drop c.pos).take n) name (withoutUnderscores ((c.str.drop c.pos).take n))) ∧
    (L (c.str.drop c.pos) = none → Outcome.of (den env (.trans g [.fn concat, .fn (changeClassName name)]) c) = .unmatched) := by
  have hat := At.of hc hs
  constructor
  · intro n hn
    obtain ⟨h1, h2⟩ := (h (c.str.take c.pos) (c.str.drop c.pos)).1 n hn
    refine ⟨h1, ?_⟩
    have h3 : Hits (den env (.trans g [.fn concat, .fn (changeClassName name)])) (c.str.take c.pos) ((c.str.drop c.pos).take n) ((c.str.drop c.pos).drop n)
        (fun l => ∃ a, l = [a] ∧ a.cls = name ∧ a.ty = .string ∧ a.val = .str (withoutUnderscores ((c.str.drop c.pos).take n))) :=
      trans_hits (by simp) h2 fun c' l hl => by
        obtain ⟨vs, hv, he⟩ := hl
        obtain ⟨l', e1, a, e2, e3, e4, e5, _⟩ := concat_named (env := env) (name := name) c' l hv
        exact ⟨l', e1, a, e2, e3, e4, by rw [e5, he, noUnderscore_eq]⟩
    obtain ⟨o, e1, e2⟩ := h3 c (by rw [List.take_append_drop]; exact hat)
    obtain ⟨new, e3, a, e4, e5⟩ := e2.stack
    have e6 := e2.at_.drop
    have hlen : ((c.str.drop c.pos).take n).length = n := by rw [List.length_take]; omega
    refine ⟨o, a, e1, ?_, ?_, ?_, by rw [e3, e4], e5⟩
    · rw [e2.at_.str]; simp only [List.append_assoc, List.take_append_drop]
    · rw [e6, List.take_append_drop]
    · rw [e2.at_.pos, List.length_append, List.length_take, Nat.min_eq_left hc]
  · intro hn
    exact trans_misses ((h _ _).2 hn) c hat

/-- Parsers that are unmatched unless the lexer matches. -/
theorem lexes_matched {g : Gram} {L : Lex} {name : String} (h : Lexes (den env g) L) {c o : Ctx} (hs : c.status = .matched) (hc : c.pos ≤ c.str.length)
    (hm : Outcome.of (den env (.trans g [.fn concat, .fn (changeClassName name)]) c) = .matched o) :
    ∃ n, L (c.str.drop c.pos) = some n ∧ n ≤ (c.str.drop c.pos).length ∧ o.pos = c.pos + n ∧
      ∃ a, o.stack = c.stack ++ [a] ∧ a.cls = name ∧ a.ty = .string ∧ a.val = .str (withoutUnderscores ((c.str.drop c.pos).take n)) := by
  have hk := lexes_consumes (name := name) h c hs hc
  cases hL : L (c.str.drop c.pos) with
  | none => rw [hk.2 hL] at hm; cases hm
  | some n =>
    obtain ⟨hn, o', a, h1, h2, h3, h4, h5, h6⟩ := hk.1 n hL
    rw [h1] at hm; cases hm
    refine ⟨n, rfl, hn, ?_, a, h5, h6⟩
    rw [h4, List.length_take, Nat.min_eq_left hn]

end
end Takenoco
