import Verif.Lemmas.StrTransformers
import Verif.Lemmas.Decimal
/-
C23–C28: the transformers.
-/
namespace Takenoco
open Spec

/-! ### C23: Concat and Trim -/

/-- A type tag "string" goes with a string value. -/
def WellTagged (asts : List Ast) : Prop := ∀ a ∈ asts, a.ty = .string → ∃ s, a.val = .str s

/-- `Concat` on strings: one AST with the concatenation, class name and position of the first. -/
theorem C23_concat {asts : List Ast} {vs : List Bytes} (h : Texts asts vs) (c : Ctx) :
    concat c asts = .ok ([summary asts .string (.str vs.flatten)], none) := concat_texts h c

/-- `Concat` fails iff some AST is not a string, and otherwise succeeds; it never panics. -/
theorem C23_concat_fails (asts : List Ast) (hw : WellTagged asts) (c : Ctx) :
    ((∃ e, concat c asts = .ok ([], some e)) ↔ ∃ a ∈ asts, a.ty ≠ .string) ∧
    ((∃ a, concat c asts = .ok ([a], none)) ↔ ∀ a ∈ asts, a.ty = .string) := by
  by_cases h : ∃ a ∈ asts, a.ty ≠ .string
  · obtain ⟨as, b, bs, h1, h2, h3⟩ := firstBad h
    have e := concat_bad hw h1 h2 h3 c
    refine ⟨⟨fun _ => h, fun _ => ⟨_, e⟩⟩, fun ⟨a, ha⟩ => ?_, fun hall => ?_⟩
    · rw [e] at ha; cases ha
    · obtain ⟨a, ha, hb⟩ := h; exact absurd (hall a ha) hb
  · have hall : ∀ a ∈ asts, a.ty = .string := fun a ha => Decidable.byContradiction fun hn => h ⟨a, ha, hn⟩
    obtain ⟨vs, hv⟩ := texts_of fun a ha => ⟨hall a ha, hw a ha (hall a ha)⟩
    have e := concat_texts hv c
    refine ⟨⟨fun ⟨x, hx⟩ => ?_, fun h' => absurd h' h⟩, fun _ => hall, fun _ => ⟨_, e⟩⟩
    rw [e] at hx; cases hx

/-- `Trim` strips the longest white space prefix and suffix of the concatenation. -/
theorem C23_trim {asts : List Ast} {vs : List Bytes} (h : Texts asts vs) (c : Ctx) :
    ∃ t, Trimmed vs.flatten t ∧ trim c asts = .ok ([summary asts .string (.str t)], none) :=
  ⟨_, trimBoth_spec _, by unfold trim; rw [afterConcat_texts h]; cases asts <;> rfl⟩

/-- `TrimStart` strips the longest white space prefix. -/
theorem C23_trimStart {asts : List Ast} {vs : List Bytes} (h : Texts asts vs) (c : Ctx) :
    ∃ t, TrimmedStart vs.flatten t ∧ trimStart c asts = .ok ([summary asts .string (.str t)], none) :=
  ⟨_, trimLeft_spec _, by unfold trimStart; rw [afterConcat_texts h]; cases asts <;> rfl⟩

/-- `TrimEnd` strips the longest white space suffix. -/
theorem C23_trimEnd {asts : List Ast} {vs : List Bytes} (h : Texts asts vs) (c : Ctx) :
    ∃ t, TrimmedEnd vs.flatten t ∧ trimEnd c asts = .ok ([summary asts .string (.str t)], none) :=
  ⟨_, trimRight_spec _, by unfold trimEnd; rw [afterConcat_texts h]; cases asts <;> rfl⟩

/-- There is only one way to strip a prefix completely. -/
theorem C23_trimmedStart_unique {s t t' : Bytes} (h : TrimmedStart s t) (h' : TrimmedStart s t') : t = t' := by
  obtain ⟨⟨ws, h1, rfl⟩, h2⟩ := h
  obtain ⟨⟨ws', h1', e⟩, h2'⟩ := h'
  induction ws generalizing ws' with
  | nil => exact (trimmedStart_self ⟨⟨ws', h1', e⟩, h2'⟩ h2).symm
  | cons ch ws ih =>
    cases ws' with
    | nil =>
      refine absurd ⟨ch, utf8s ws ++ t, h1 ch (by simp), ?_⟩ h2'
      rw [← List.append_assoc, ← utf8s_cons]; exact e.symm
    | cons ch' ws' =>
      rw [utf8s_cons, utf8s_cons, List.append_assoc, List.append_assoc] at e
      have hd := congrArg decodeRune e
      rw [decode_utf8, decode_utf8] at hd
      have hch : ch = ch' := char_toNat_inj (congrArg Prod.fst hd)
      subst hch
      exact ih (fun x hx => h1 x (by simp [hx])) ws' (fun x hx => h1' x (by simp [hx])) (List.append_cancel_left e)

/-- Trimming fails exactly like `Concat`. -/
theorem C23_trim_fails (asts : List Ast) (hw : WellTagged asts) (h : ∃ a ∈ asts, a.ty ≠ .string) (c : Ctx) :
    ∃ e, trim c asts = .ok ([], some e) ∧ trimStart c asts = .ok ([], some e) ∧ trimEnd c asts = .ok ([], some e) := by
  obtain ⟨as, b, bs, h1, h2, h3⟩ := firstBad h
  have e := concat_bad hw h1 h2 h3 c
  refine ⟨.concatBadType b.ty, ?_, ?_, ?_⟩
  · unfold trim afterConcat; rw [e]
  · unfold trimStart afterConcat; rw [e]
  · unfold trimEnd afterConcat; rw [e]

/-- Trimming is idempotent: applying it to its own result changes nothing. -/
theorem C23_trim_idempotent {T : TSem} (hT : T = trim ∨ T = trimStart ∨ T = trimEnd) {asts out : List Ast} {c c' : Ctx}
    (hw : WellTagged asts) (h : T c asts = .ok (out, none)) : T c' out = .ok (out, none) := by
  by_cases hb : ∃ a ∈ asts, a.ty ≠ .string
  · obtain ⟨e, h1, h2, h3⟩ := C23_trim_fails asts hw hb c
    rcases hT with rfl | rfl | rfl
    · rw [h1] at h; cases h
    · rw [h2] at h; cases h
    · rw [h3] at h; cases h
  · have hall : ∀ a ∈ asts, a.ty = .string := fun a ha => Decidable.byContradiction fun hn => hb ⟨a, ha, hn⟩
    obtain ⟨vs, hv⟩ := texts_of fun a ha => ⟨hall a ha, hw a ha (hall a ha)⟩
    have key : ∀ f : Bytes → Bytes, (∀ s, f (f s) = f s) →
        afterConcat (fun s a => .ok ([{ a with val := .str (f s) }], none)) c asts = .ok (out, none) →
        afterConcat (fun s a => .ok ([{ a with val := .str (f s) }], none)) c' out = .ok (out, none) := by
      intro f hf h
      rw [afterConcat_texts hv] at h
      have h' := (Prod.mk.inj (Out.ok.inj h)).1
      subst h'
      have ht : Texts [{ summary asts .string (.str vs.flatten) with val := .str (f vs.flatten) }] [f vs.flatten] :=
        .cons (by cases asts <;> rfl) rfl .nil
      rw [afterConcat_texts ht]
      simp only [List.flatten_cons, List.flatten_nil, List.append_nil, hf]
      cases asts <;> rfl
    rcases hT with rfl | rfl | rfl
    · exact key _ trimBoth_idem h
    · exact key _ trimLeft_idem h
    · exact key _ trimRight_idem h

/-- The tokens used in the examples. -/
private def tok (s : Bytes) (p : Nat) : Ast := { Ast.zero with cls := "t", ty := .string, val := .str s, pos := p }

example (c : Ctx) : concat c [tok (b! "ab") 3, tok (b! "c") 5] =
    .ok ([{ Ast.zero with cls := "t", ty := .string, val := .str (b! "abc"), pos := 3 }], none) :=
  C23_concat (vs := [b! "ab", b! "c"]) (.cons rfl rfl (.cons rfl rfl .nil)) c
example : trim (newStrCtx []) [tok (b! "\t  ") 0, tok (b! " x y\u0085 ") 3] =
    .ok ([tok (b! "x y") 0], none) := by cbv
/-- A byte 0x85 or 0xa0 that is part of another character stays. -/
example : trim (newStrCtx []) [tok (b! "à ") 0] = .ok ([tok (b! "à") 0], none) := by cbv

/-! ### C24: numbers -/

/-- `ParseIntRadix` yields exactly the value of a signed numeral that fits into 64 bits. -/
theorem C24_parseInt_accepts {base : Nat} (h2 : 2 ≤ base) (hb : base ≤ 36) {asts : List Ast} {vs : List Bytes}
    (h : Texts asts vs) {v : Int} (hv : SignedNumeral base vs.flatten v) (hlo : -2 ^ 63 ≤ v) (hhi : v < 2 ^ 63) (c : Ctx) :
    ∃ i : Int64, i.toInt = v ∧ parseIntRadix base c asts = .ok ([summary asts .int (.int i)], none) := by
  refine ⟨Int64.ofInt v, Int64.toInt_ofInt_of_le hlo hhi, ?_⟩
  unfold parseIntRadix
  rw [afterConcat_texts h]
  simp only [(parseInt_iff h2 hb vs.flatten v).2 ⟨hv, hlo, hhi⟩]
  cases asts <;> rfl

/-- Otherwise it fails. -/
theorem C24_parseInt_rejects {base : Nat} (h2 : 2 ≤ base) (hb : base ≤ 36) {asts : List Ast} {vs : List Bytes}
    (h : Texts asts vs) (hn : ∀ v, SignedNumeral base vs.flatten v → v < -2 ^ 63 ∨ 2 ^ 63 ≤ v) (c : Ctx) :
    ∃ e, parseIntRadix base c asts = .ok ([], some e) := by
  unfold parseIntRadix
  rw [afterConcat_texts h]
  cases hp : parseInt vs.flatten base with
  | error e => exact ⟨_, rfl⟩
  | ok v =>
    have := (parseInt_iff h2 hb vs.flatten v).1 hp
    have := hn v this.1
    omega

/-- A numeral with an optional plus sign. -/
inductive PlusNumeral (base : Nat) : Bytes → Nat → Prop where
  | none {s : Bytes} {n : Nat} : Numeral base s n → PlusNumeral base s n
  | plus {s : Bytes} {n : Nat} : Numeral base s n → PlusNumeral base (b! "+" ++ s) n

theorem plusNumeral_iff {base : Nat} (hb : base ≤ 36) (c : UInt8) (cs : Bytes) (n : Nat) :
    PlusNumeral base (c :: cs) n ↔ Numeral base (if c = 0x2b then cs else c :: cs) n := by
  constructor
  · intro h
    generalize hs : c :: cs = s at h
    cases h with
    | none h => subst hs; rw [if_neg (h.head hb).1]; exact h
    | plus h => simp at hs; obtain ⟨rfl, rfl⟩ := hs; exact h
  · intro h
    by_cases hc : c = 0x2b
    · rw [if_pos hc] at h; subst hc; exact .plus h
    · rw [if_neg hc] at h; exact .none h

/-- `ParseUintRadix` yields exactly the value of a numeral, possibly with a plus sign, that fits into 64
bits. -/
theorem C24_parseUint_accepts {base : Nat} (h2 : 2 ≤ base) (hb : base ≤ 36) {asts : List Ast} {vs : List Bytes}
    (h : Texts asts vs) {n : Nat} (hv : PlusNumeral base vs.flatten n) (hn : n < 2 ^ 64) (c : Ctx) :
    ∃ u : UInt64, u.toNat = n ∧ parseUintRadix base c asts = .ok ([summary asts .uint (.uint u)], none) := by
  refine ⟨UInt64.ofNat n, UInt64.toNat_ofNat_of_lt' hn, ?_⟩
  unfold parseUintRadix
  rw [afterConcat_texts h]
  generalize hs : vs.flatten = s at hv
  cases s with
  | nil => generalize hs' : ([] : Bytes) = s' at hv
           cases hv with
           | none h => exact absurd hs'.symm (dig_of_numeral h).1
           | plus h => simp at hs'
  | cons b bs =>
    simp only [(parseUint_iff h2 hb _ n).2 ⟨(plusNumeral_iff hb b bs n).1 hv, hn⟩]
    cases asts <;> rfl

/-- Otherwise it fails, provided that the string is not empty. Missing from C24: on the empty string it
panics (`C24_parseUint_panics`). -/
theorem C24_parseUint_rejects_partial {base : Nat} (h2 : 2 ≤ base) (hb : base ≤ 36) {asts : List Ast} {vs : List Bytes}
    (h : Texts asts vs) (hne : vs.flatten ≠ []) (hn : ∀ n, PlusNumeral base vs.flatten n → 2 ^ 64 ≤ n) (c : Ctx) :
    ∃ e, parseUintRadix base c asts = .ok ([], some e) := by
  unfold parseUintRadix
  rw [afterConcat_texts h]
  generalize vs.flatten = s at *
  cases s with
  | nil => exact absurd rfl hne
  | cons b bs =>
    simp only
    cases hp : parseUint (if b = 0x2b then bs else b :: bs) base with
    | error e => exact ⟨_, rfl⟩
    | ok n =>
      have h1 := (parseUint_iff h2 hb _ n).1 hp
      have := hn n ((plusNumeral_iff hb b bs n).2 h1.1)
      omega

/-- "They never panic" is false: `ParseUint` panics on the empty string, for every radix. -/
theorem C24_parseUint_panics (base : Int) {asts : List Ast} {vs : List Bytes} (h : Texts asts vs)
    (he : vs.flatten = []) (c : Ctx) : parseUintRadix base c asts = .panic .index := by
  unfold parseUintRadix
  rw [afterConcat_texts h, he]

/-- `ParseInt` inverts decimal formatting of every int64. -/
theorem C24_parseInt_decimal (i : Int64) {asts : List Ast} {vs : List Bytes} (h : Texts asts vs)
    (hv : vs.flatten = decimalText i.toInt) (c : Ctx) :
    parseIntT c asts = .ok ([summary asts .int (.int i)], none) := by
  obtain ⟨j, hj, e⟩ := C24_parseInt_accepts (base := 10) (by decide) (by decide) h (v := i.toInt)
    (by rw [hv]; exact signed_decimal _) (Int64.le_toInt i) (Int64.toInt_lt i) c
  rw [Int64.toInt_inj] at hj
  subst hj
  exact e

/-- `ParseUint` inverts decimal formatting of every uint64. -/
theorem C24_parseUint_decimal (u : UInt64) {asts : List Ast} {vs : List Bytes} (h : Texts asts vs)
    (hv : vs.flatten = decimalText u.toNat) (c : Ctx) :
    parseUintT c asts = .ok ([summary asts .uint (.uint u)], none) := by
  obtain ⟨j, hj, e⟩ := C24_parseUint_accepts (base := 10) (by decide) (by decide) h (n := u.toNat)
    (by rw [hv]
        have : decimalText (u.toNat : Int) = decimal u.toNat := utf8s_decimal _
        rw [this]; exact .none (numeral_decimal _)) u.toNat_lt c
  rw [UInt64.toNat_inj] at hj
  subst hj
  exact e

example (c : Ctx) : parseIntT c [tok (b! "-9223372036854775808") 0] =
    .ok ([{ tok [] 0 with ty := .int, val := .int (-9223372036854775808) }], none) := by
  have h := C24_parseInt_decimal (-9223372036854775808) (asts := [tok (b! "-9223372036854775808") 0])
    (vs := [b! "-9223372036854775808"]) (.cons rfl rfl .nil) (by cbv) c
  exact h
/-- Digits of radix 36, capital and small letters. -/
example : SignedNumeral 36 (b! "-zZ") (-1295) :=
  .minus (.snoc (.digit (v := 35) ⟨by decide, .inl (by decide)⟩) (v := 35) ⟨by decide, .inr (by decide)⟩)
/-- 2^63 does not fit. -/
example (c : Ctx) : ∃ e, parseIntRadix 10 c [tok (b! "9223372036854775808") 0] = .ok ([], some e) :=
  C24_parseInt_rejects (base := 10) (by decide) (by decide) (vs := [b! "9223372036854775808"]) (.cons rfl rfl .nil)
    (fun v hv => by
      have h : parseInt (b! "9223372036854775808") (10 : Nat) ≠ .ok v := by
        have e : parseInt (b! "9223372036854775808") (10 : Nat) = .error .range := by cbv
        rw [e]; simp
      rw [Ne, parseInt_iff (by decide) (by decide)] at h
      have hv' : SignedNumeral 10 (b! "9223372036854775808") v := hv
      have : ¬ (-2 ^ 63 ≤ v ∧ v < 2 ^ 63) := fun hr => h ⟨hv', hr⟩
      omega) c
example (c : Ctx) : parseUintT c [] = .panic .index := C24_parseUint_panics 10 .nil rfl c

/-! ### C25: runes -/

/-- `IntFromRune` after `RuneFromInt` is the identity on values that fit into a rune (int32). -/
theorem C25_int_rune_int (a : Ast) (as : List Ast) (i : Int64) (ha : a.val = .int i)
    (hlo : -2 ^ 31 ≤ i.toInt) (hhi : i.toInt < 2 ^ 31) (c c' : Ctx) :
    ∃ b, runeFromInt c (a :: as) = .ok ([b], none) ∧
      intFromRune c' [b] = .ok ([summary (a :: as) .string (.int i)], none) := by
  refine ⟨summary (a :: as) .any (.rune i.toInt32), by unfold runeFromInt fromHead; simp only [ha]; rfl, ?_⟩
  unfold intFromRune fromHead
  simp only [summary]
  have : i.toInt32.toInt64 = i := by
    rw [← Int64.toInt_inj, Int32.toInt_toInt64, Int64.toInt_toInt32]
    rw [Int.bmod_eq_of_le]
    · omega
    · omega
  rw [this]; rfl

/-- `StringFromInt` is `StringFromRune` after `RuneFromInt`. -/
theorem C25_stringFromInt (a : Ast) (as : List Ast) (i : Int64) (ha : a.val = .int i) (c c' : Ctx) :
    ∃ b, runeFromInt c (a :: as) = .ok ([b], none) ∧ stringFromRune c' [b] = stringFromInt c (a :: as) := by
  refine ⟨summary (a :: as) .any (.rune i.toInt32), by unfold runeFromInt fromHead; simp only [ha]; rfl, ?_⟩
  unfold stringFromInt stringFromRune fromHead
  simp only [ha, summary]

theorem runeToString_char {r : Int32} {ch : Char} (h : r.toInt = ch.toNat) : runeToString r = utf8 ch := by
  unfold runeToString
  rw [if_neg (by omega), h, Int.toNat_natCast, encode_char]

theorem runeToString_bad {r : Int32} (h : ∀ ch : Char, r.toInt ≠ ch.toNat) : runeToString r = utf8 '�' := by
  unfold runeToString
  have e : utf8 '�' = [0xef, 0xbf, 0xbd] := by decide
  rw [e]
  split
  · decide
  · have hs : ¬ isScalar r.toInt.toNat := by
      intro hs
      obtain ⟨ch, hch⟩ := exists_char hs
      exact h ch (by omega)
    unfold encodeRune
    rw [if_neg (by unfold isScalar at hs; omega), if_neg (by unfold isScalar at hs; omega), if_neg hs]

/-- `StringFromRune` yields the UTF-8 encoding of the character, U+FFFD for anything else. -/
theorem C25_stringFromRune (a : Ast) (as : List Ast) (r : Int32) (ha : a.val = .rune r) (c : Ctx) :
    (∀ ch : Char, r.toInt = ch.toNat →
      stringFromRune c (a :: as) = .ok ([summary (a :: as) .string (.str (utf8 ch))], none)) ∧
    ((∀ ch : Char, r.toInt ≠ ch.toNat) →
      stringFromRune c (a :: as) = .ok ([summary (a :: as) .string (.str (utf8 '�'))], none)) := by
  unfold stringFromRune fromHead
  simp only [ha]
  exact ⟨fun ch h => by rw [runeToString_char h]; rfl, fun h => by rw [runeToString_bad h]; rfl⟩

/-- `StringFromInt` on values that fit into 32 bits. Missing from C25: for other values the upper bits are
dropped first, so the result need not be U+FFFD (`C25_stringFromInt_false`). -/
theorem C25_stringFromInt_partial (a : Ast) (as : List Ast) (i : Int64) (ha : a.val = .int i)
    (hlo : -2 ^ 31 ≤ i.toInt) (hhi : i.toInt < 2 ^ 31) (c : Ctx) :
    (∀ ch : Char, i.toInt = ch.toNat →
      stringFromInt c (a :: as) = .ok ([summary (a :: as) .string (.str (utf8 ch))], none)) ∧
    ((∀ ch : Char, i.toInt ≠ ch.toNat) →
      stringFromInt c (a :: as) = .ok ([summary (a :: as) .string (.str (utf8 '�'))], none)) := by
  have hr : i.toInt32.toInt = i.toInt := by
    rw [Int64.toInt_toInt32, Int.bmod_eq_of_le]
    · omega
    · omega
  unfold stringFromInt fromHead
  simp only [ha]
  exact ⟨fun ch h => by rw [runeToString_char (hr.trans h)]; rfl,
    fun h => by rw [runeToString_bad (fun ch => by rw [hr]; exact h ch)]; rfl⟩

/-- All int64 values: what counts is the value modulo 2^32. -/
theorem C25_stringFromInt_exact (a : Ast) (as : List Ast) (i : Int64) (ha : a.val = .int i) (c : Ctx) :
    (∀ ch : Char, i.toInt % 2 ^ 32 = ch.toNat →
      stringFromInt c (a :: as) = .ok ([summary (a :: as) .string (.str (utf8 ch))], none)) ∧
    ((∀ ch : Char, i.toInt % 2 ^ 32 ≠ ch.toNat) →
      stringFromInt c (a :: as) = .ok ([summary (a :: as) .string (.str (utf8 '�'))], none)) := by
  have hr : i.toInt32.toInt = i.toInt.bmod (2 ^ 32) := Int64.toInt_toInt32 i
  have key : ∀ ch : Char, i.toInt32.toInt = ch.toNat ↔ i.toInt % 2 ^ 32 = ch.toNat := by
    intro ch
    have hs := char_scalar ch
    unfold isScalar at hs
    rw [hr, Int.bmod_def]
    split <;> omega
  unfold stringFromInt fromHead
  simp only [ha]
  exact ⟨fun ch h => by rw [runeToString_char ((key ch).2 h)]; rfl,
    fun h => by rw [runeToString_bad (fun ch hc => h ch ((key ch).1 hc))]; rfl⟩

/-- 2^32 + 65 is no character but becomes "A". -/
theorem C25_stringFromInt_false (c : Ctx) :
    (∀ ch : Char, (4294967361 : Int64).toInt ≠ ch.toNat) ∧
    ∃ b, stringFromInt c [{ Ast.zero with ty := .int, val := .int 4294967361 }] = .ok ([b], none) ∧ b.val = .str (b! "A") := by
  refine ⟨fun ch => ?_, _, rfl, rfl⟩
  have hs := char_scalar ch
  have : (4294967361 : Int64).toInt = 4294967361 := by decide
  unfold isScalar at hs
  rw [this]; omega

example (c : Ctx) : stringFromInt c [{ Ast.zero with ty := .int, val := .int 0x3042 }] =
    .ok ([{ Ast.zero with ty := .string, val := .str (b! "あ") }], none) :=
  (C25_stringFromInt_partial { Ast.zero with ty := .int, val := .int 0x3042 } [] 0x3042 rfl (by decide) (by decide) c).1 'あ'
    (by decide)
/-- A surrogate. -/
example (c : Ctx) : stringFromInt c [{ Ast.zero with ty := .int, val := .int 0xd800 }] =
    .ok ([{ Ast.zero with ty := .string, val := .str (b! "�") }], none) := rfl

/-! ### C26: head-rewriting transformers -/

/-- The transformer never fails, leaves the empty list alone, and replaces the first AST by one related to it
as `R` says; the others stay. -/
def RewritesHead (T : TSem) (R : Ast → Ast → Prop) : Prop :=
  (∀ c, T c [] = .ok ([], none)) ∧ ∀ c a as, ∃ b, T c (a :: as) = .ok (b :: as, none) ∧ R a b

theorem C26_setOpCode (op : UInt64) : RewritesHead (setOpCode op) fun a b =>
    b.opCode = op ∧ b.cls = a.cls ∧ b.ty = a.ty ∧ b.val = a.val ∧ b.pos = a.pos ∧ b.len = a.len :=
  ⟨fun _ => rfl, fun _ _ _ => ⟨_, rfl, rfl, rfl, rfl, rfl, rfl, rfl⟩⟩
theorem C26_changeClassName (name : String) : RewritesHead (changeClassName name) fun a b =>
    b.opCode = a.opCode ∧ b.cls = name ∧ b.ty = a.ty ∧ b.val = a.val ∧ b.pos = a.pos ∧ b.len = a.len :=
  ⟨fun _ => rfl, fun _ _ _ => ⟨_, rfl, rfl, rfl, rfl, rfl, rfl, rfl⟩⟩
theorem C26_setOpCodeAndClassName (op : UInt64) (name : String) : RewritesHead (setOpCodeAndClassName op name) fun a b =>
    b.opCode = op ∧ b.cls = name ∧ b.ty = a.ty ∧ b.val = a.val ∧ b.pos = a.pos ∧ b.len = a.len :=
  ⟨fun _ => rfl, fun _ _ _ => ⟨_, rfl, rfl, rfl, rfl, rfl, rfl, rfl⟩⟩
theorem C26_setValue (ty : AstType) (v : Value) : RewritesHead (setValue ty v) fun a b =>
    b.opCode = a.opCode ∧ b.cls = a.cls ∧ b.ty = ty ∧ b.val = v ∧ b.pos = a.pos ∧ b.len = a.len :=
  ⟨fun _ => rfl, fun _ _ _ => ⟨_, rfl, rfl, rfl, rfl, rfl, rfl, rfl⟩⟩

example (c : Ctx) : setValue .int (.int 7) c [tok (b! "a") 3, tok (b! "b") 4] =
    .ok ([{ tok [] 3 with ty := .int, val := .int 7 }, tok (b! "b") 4], none) := rfl

/-! ### C27: Push, Pop, Prepend -/

/-- `b` is `a` but for the source position. -/
def SameToken (a b : Ast) : Prop := b.opCode = a.opCode ∧ b.cls = a.cls ∧ b.ty = a.ty ∧ b.val = a.val

/-- The `i`-th call of one `Push(a)`, whatever the calls before: the input followed by `a` with the source
position of the last input AST. Missing from C27: the position when the input is empty, which depends on
the calls before (`C27_push_history`). -/
theorem C27_push_partial (a : Ast) (h : List (List Ast)) (i : Nat) (x : List Ast) (hx : h[i]? = some x) :
    ∃ b, (calls pushStep a h)[i]? = some (x ++ [b]) ∧ SameToken a b ∧
      ∀ l, x.getLast? = some l → b.pos = l.pos ∧ b.len = l.len := by
  have key : ∀ (h : List (List Ast)) (i : Nat) (s : Ast), SameToken a s → h[i]? = some x →
      ∃ b, (calls pushStep s h)[i]? = some (x ++ [b]) ∧ SameToken a b ∧
        ∀ l, x.getLast? = some l → b.pos = l.pos ∧ b.len = l.len := by
    intro h
    induction h with
    | nil => intro i s _ hx; simp at hx
    | cons y ys ih =>
      intro i s hs hx
      have step : SameToken a (pushStep s y).2 := by
        unfold pushStep; simp only
        cases y.getLast? <;> exact hs
      cases i with
      | zero =>
        simp only [List.getElem?_cons_zero, Option.some.injEq] at hx
        subst hx
        refine ⟨(pushStep s y).2, by simp [calls, pushStep], step, fun l hl => ?_⟩
        unfold pushStep
        simp only [hl, and_self]
      | succ i =>
        simp only [List.getElem?_cons_succ] at hx
        unfold calls
        simp only [List.getElem?_cons_succ]
        exact ih i _ step hx
  exact key h i a ⟨rfl, rfl, rfl, rfl⟩ hx

/-- Likewise for `Prepend`. -/
theorem C27_prepend_partial (a : Ast) (h : List (List Ast)) (i : Nat) (x : List Ast) (hx : h[i]? = some x) :
    ∃ b, (calls prependStep a h)[i]? = some (b :: x) ∧ SameToken a b ∧
      ∀ l, x.head? = some l → b.pos = l.pos ∧ b.len = l.len := by
  have key : ∀ (h : List (List Ast)) (i : Nat) (s : Ast), SameToken a s → h[i]? = some x →
      ∃ b, (calls prependStep s h)[i]? = some (b :: x) ∧ SameToken a b ∧
        ∀ l, x.head? = some l → b.pos = l.pos ∧ b.len = l.len := by
    intro h
    induction h with
    | nil => intro i s _ hx; simp at hx
    | cons y ys ih =>
      intro i s hs hx
      have step : SameToken a (prependStep s y).2 := by
        unfold prependStep; simp only
        cases y <;> exact hs
      cases i with
      | zero =>
        simp only [List.getElem?_cons_zero, Option.some.injEq] at hx
        subst hx
        refine ⟨(prependStep s y).2, by simp [calls, prependStep], step, fun l hl => ?_⟩
        cases y with
        | nil => simp at hl
        | cons z zs => simp at hl; subst hl; exact ⟨rfl, rfl⟩
      | succ i =>
        simp only [List.getElem?_cons_succ] at hx
        unfold calls
        simp only [List.getElem?_cons_succ]
        exact ih i _ step hx
  exact key h i a ⟨rfl, rfl, rfl, rfl⟩ hx

/-- The first call on the empty list pushes `a` itself. -/
theorem C27_push_first (a : Ast) : (pushStep a []).1 = [a] ∧ (prependStep a []).1 = [a] := ⟨rfl, rfl⟩

/-- `Pop` after `Push` gives back the input, at every call. -/
theorem C27_pop_push (a : Ast) (h : List (List Ast)) (i : Nat) (x : List Ast) (hx : h[i]? = some x) (c : Ctx) :
    ∃ y, (calls pushStep a h)[i]? = some y ∧ pop c y = .ok (x, none) := by
  obtain ⟨b, hb, _⟩ := C27_push_partial a h i x hx
  exact ⟨_, hb, by simp [pop]⟩

/-- `Pop` removes the last AST and leaves the empty list alone. -/
theorem C27_pop (c : Ctx) (as : List Ast) (a : Ast) : pop c (as ++ [a]) = .ok (as, none) ∧ pop c [] = .ok ([], none) := by
  simp [pop]

/-- The result of a call does depend on the calls before: pushing onto the empty list after pushing behind a
token at position 3 yields an AST at position 3. -/
theorem C27_push_history : ∃ a x, calls pushStep a [x, []] ≠ [(pushStep a x).1, (pushStep a []).1] := by
  refine ⟨Ast.zero, [tok [] 3], fun h => ?_⟩
  have := congrArg (fun l : List (List Ast) => (l.getD 1 []).map (·.pos)) h
  exact absurd this (by decide)
theorem C27_prepend_history : ∃ a x, calls prependStep a [x, []] ≠ [(prependStep a x).1, (prependStep a []).1] := by
  refine ⟨Ast.zero, [tok [] 3], fun h => ?_⟩
  have := congrArg (fun l : List (List Ast) => (l.getD 1 []).map (·.pos)) h
  exact absurd this (by decide)

example : (calls pushStep (tok (b! "x") 0) [[tok (b! "a") 3, tok (b! "b") 4]]) =
    [[tok (b! "a") 3, tok (b! "b") 4, tok (b! "x") 4]] := rfl

/-! ### C28: Exchange and Roll -/

/-- The list with its last two elements swapped. -/
def swapLast {α : Type} (l : List α) : List α :=
  match l.reverse with
  | a :: b :: r => r.reverse ++ [a, b]
  | _ => l

/-- The list rotated by `n`, to the left for positive `n`. -/
def rotate {α : Type} (n : Int) (l : List α) : List α :=
  l.drop (n % l.length).toNat ++ l.take (n % l.length).toNat

/-- `Exchange` leaves lists with less than two ASTs alone. Missing from C28: all others, where it panics
(`C28_exchange_panics`). -/
theorem C28_exchange_partial (c : Ctx) (asts : List Ast) (h : asts.length < 2) :
    exchange c asts = .ok (swapLast asts, none) := by
  unfold exchange
  match asts, h with
  | [], _ => rfl
  | [_], _ => rfl

/-- `Exchange` panics whenever there is something to exchange. -/
theorem C28_exchange_panics (c : Ctx) (asts : List Ast) (h : 2 ≤ asts.length) : exchange c asts = .panic .index := by
  unfold exchange
  simp only [h, if_true]
  have hg : ∀ i, i < asts.length → ∃ a, goGet asts i = .ok a := by
    intro i hi
    unfold goGet
    rw [List.getElem?_eq_getElem hi]
    exact ⟨_, rfl⟩
  obtain ⟨a, ha⟩ := hg (asts.length - 1) (by omega)
  rw [ha]
  simp only [Out.bind_ok]
  unfold goSet
  rw [if_neg (by rw [List.length_take]; omega)]
  rfl

/-- `Roll` rotates when there is nothing to do. Missing from C28: all other numbers, where it still returns its
input (`C28_roll_identity`, `C28_roll_false`). -/
theorem C28_roll_partial (n : Int) (c : Ctx) (asts : List Ast) (h : n % asts.length = 0) :
    roll n c asts = .ok (rotate n asts, none) := by
  unfold roll rotate
  rw [h]
  simp

/-- `Roll` never changes anything. -/
theorem C28_roll_identity (n : Int) (c : Ctx) (asts : List Ast) : roll n c asts = .ok (asts, none) := by
  unfold roll
  repeat' split
  all_goals rfl

/-- Rotating two ASTs by one: `Roll` is wrong. -/
theorem C28_roll_false (c : Ctx) : ∃ asts : List Ast, roll 1 c asts ≠ .ok (rotate 1 asts, none) := by
  refine ⟨[tok (b! "a") 0, tok (b! "b") 1], ?_⟩
  rw [C28_roll_identity]
  intro h
  have := congrArg (fun l : List Ast => l.map (·.pos)) (Prod.mk.inj (Out.ok.inj h)).1
  exact absurd this (by decide)

example : rotate 2 [0, 1, 2, 3, 4] = [2, 3, 4, 0, 1] := by decide
example : rotate (-2) [0, 1, 2, 3, 4] = [3, 4, 0, 1, 2] := by decide
example : swapLast [0, 1, 2, 3] = [0, 1, 3, 2] := by decide

end Takenoco
