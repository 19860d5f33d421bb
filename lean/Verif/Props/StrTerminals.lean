import Verif.Lemmas.Text
/-
C16-C19: the terminal parsers over text, stated with Lean's own UTF-8 encoder.
-/
namespace Takenoco
open Spec

/-! ### C16: literals -/

/-- `Seq(s)` where the source continues with `s`. -/
theorem C16_seq_matches (s : Bytes) (c : Ctx) (hc : c.pos ≤ c.str.length) (h : s <+: c.str.drop c.pos) :
    seqS s c = .ok (advance ":string:Seq" s s.length c, none) := by
  rw [seqS_eq, if_pos ((hasPrefixAt_iff s c hc).2 h)]; rfl

/-- `Seq(s)` where it does not. -/
theorem C16_seq_unmatched (s : Bytes) (c : Ctx) (hc : c.pos ≤ c.str.length)
    (h : ¬ s <+: c.str.drop c.pos) : seqS s c = .ok (refuse ":string:Seq" c, none) := by
  rw [seqS_eq, if_neg (fun hh => h ((hasPrefixAt_iff s c hc).1 hh))]; rfl

/-- `Seq(s)` matches iff the source continues with `s`. -/
theorem C16_seq_iff (s : Bytes) (c : Ctx) (hc : c.pos ≤ c.str.length) :
    (∃ o, Outcome.of (seqS s c) = .matched o) ↔ s <+: c.str.drop c.pos := by
  constructor
  · intro ⟨o, ho⟩
    apply Classical.byContradiction
    intro h
    rw [C16_seq_unmatched s c hc h] at ho
    cases ho
  · intro h
    exact ⟨_, by rw [C16_seq_matches s c hc h]; rfl⟩

/-- `CharClass`: the first of its strings with which the source continues. -/
theorem C16_charClass_matches (pre post : List Bytes) (s : Bytes) (c : Ctx) (hc : c.pos ≤ c.str.length)
    (hpre : ∀ t ∈ pre, ¬ t <+: c.str.drop c.pos) (h : s <+: c.str.drop c.pos) :
    charClass (pre ++ s :: post) c = .ok (advance ":string:CharClass" s s.length c, none) := by
  rw [charClass_eq]
  have : (pre ++ s :: post).find? (fun s => hasPrefixAt s c) = some s := by
    rw [List.find?_append, List.find?_eq_none.2 (fun t ht hh => hpre t ht ((hasPrefixAt_iff t c hc).1 hh))]
    simp [(hasPrefixAt_iff s c hc).2 h]
  rw [this]; rfl

/-- `CharClass` where the source continues with none of its strings. -/
theorem C16_charClass_unmatched (ss : List Bytes) (c : Ctx) (hc : c.pos ≤ c.str.length)
    (h : ∀ t ∈ ss, ¬ t <+: c.str.drop c.pos) :
    charClass ss c = .ok (refuse ":string:CharClass" c, none) := by
  rw [charClass_eq, List.find?_eq_none.2 (fun t ht hh => h t ht ((hasPrefixAt_iff t c hc).1 hh))]; rfl

/-- The first match is taken even though a later string is longer: the order matters. -/
example : charClass [b! "x", b! "a", b! "ab"] (newStrCtx (b! "abc")) =
    .ok (advance ":string:CharClass" (b! "a") 1 (newStrCtx (b! "abc")), none) :=
  C16_charClass_matches [b! "x"] [b! "ab"] (b! "a") _ (by decide) (by decide) (by decide)

example : ¬ ∃ o, Outcome.of (seqS (b! "abd") (newStrCtx (b! "abc"))) = .matched o := by
  rw [C16_seq_iff _ _ (by decide)]; decide

/-! ### C17: negated terminals -/

/-- A character is in one of the ranges. -/
def InRanges (rs : List RuneRange) (ch : Char) : Prop :=
  ∃ r ∈ rs, r.start ≤ (ch.toNat : Int) ∧ (ch.toNat : Int) ≤ r.end

theorem C17_charRange (rs : List RuneRange) :
    CharTerminal (charRange rs) ":string:CharRange" (InRanges rs) :=
  charTerminal_of _ _ _ fun ch => by simp [inRanges, InRanges]

theorem C17_charRangeN (rs : List RuneRange) :
    CharTerminal (charRangeN rs) ":string:CharRangeN" (fun ch => ¬ InRanges rs ch) :=
  charTerminal_of _ _ _ fun ch => by simp [inRanges, InRanges]

/-- `CharClassN`: before the end of the source it consumes one character unless the source continues with
one of the strings; at the end it never matches. -/
theorem C17_charClassN (ss : List Bytes) (c : Ctx) (hc : c.pos ≤ c.str.length) :
    (∀ ch n, NextChar (c.str.drop c.pos) ch n → (∀ t ∈ ss, ¬ t <+: c.str.drop c.pos) →
      charClassN ss c = .ok (advance ":string:CharClassN" (utf8 ch) n c, none)) ∧
    (∀ t ∈ ss, t <+: c.str.drop c.pos → charClassN ss c = .ok (refuse ":string:CharClassN" c, none)) ∧
    (c.pos = c.str.length → charClassN ss c = .ok (refuse ":string:CharClassN" c, none)) := by
  rw [charClassN_eq ss c hc]
  refine ⟨fun ch n hn h => ?_, fun t ht h => ?_, fun he => ?_⟩
  · obtain ⟨hne, hd⟩ := nextChar_decode hn
    have hlt : c.pos < c.str.length := by
      rcases Nat.lt_or_ge c.pos c.str.length with h | h
      · exact h
      · exact absurd (List.drop_eq_nil_of_le h) hne
    have hall : ss.all (fun s => !hasPrefixAt s c) = true := by
      rw [List.all_eq_true]
      intro t ht
      cases hp : hasPrefixAt t c with
      | false => rfl
      | true => exact absurd ((hasPrefixAt_iff t c hc).1 hp) (h t ht)
    rw [if_pos ⟨hlt, hall⟩, hd]
    simp only [encode_char]; rfl
  · rw [if_neg (fun hh => ?_)]; · rfl
    have := List.all_eq_true.1 hh.2 t ht
    rw [(hasPrefixAt_iff t c hc).2 h] at this
    cases this
  · rw [if_neg (by omega)]; rfl

/-- Before the end of the source exactly one of `CharRange(rs)` and `CharRangeN(rs)` matches, and whichever
it is consumes the same one character. -/
theorem C17_complement (rs : List RuneRange) (c : Ctx) (hc : c.pos < c.str.length) :
    ∃ ch n, NextChar (c.str.drop c.pos) ch n ∧
      ((charRange rs c = .ok (advance ":string:CharRange" (utf8 ch) n c, none) ∧
        charRangeN rs c = .ok (refuse ":string:CharRangeN" c, none)) ∨
       (charRange rs c = .ok (refuse ":string:CharRange" c, none) ∧
        charRangeN rs c = .ok (advance ":string:CharRangeN" (utf8 ch) n c, none))) := by
  have hne : c.str.drop c.pos ≠ [] := fun h => by
    have := congrArg List.length h; rw [List.length_drop, List.length_nil] at this; omega
  obtain ⟨ch, n, hn⟩ := nextChar_total hne
  refine ⟨ch, n, hn, ?_⟩
  have h1 := C17_charRange rs c (by omega)
  have h2 := C17_charRangeN rs c (by omega)
  by_cases hS : InRanges rs ch
  · exact .inl ⟨h1.1 ch n hn hS, h2.2.1 ch n hn (not_not_intro hS)⟩
  · exact .inr ⟨h1.2.1 ch n hn hS, h2.1 ch n hn hS⟩

/-- At the end of the source neither matches. -/
theorem C17_at_end (rs : List RuneRange) (c : Ctx) (hc : c.pos = c.str.length) :
    charRange rs c = .ok (refuse ":string:CharRange" c, none) ∧
    charRangeN rs c = .ok (refuse ":string:CharRangeN" c, none) :=
  ⟨(C17_charRange rs c (by omega)).2.2 hc, (C17_charRangeN rs c (by omega)).2.2 hc⟩

/-- 'é' is two bytes and outside `a-z`, so the complement takes both bytes. -/
example : charRangeN [⟨0x61, 0x7a⟩] (newStrCtx (b! "éa")) =
    .ok (advance ":string:CharRangeN" (b! "é") 2 (newStrCtx (b! "éa")), none) :=
  (C17_charRangeN _ (newStrCtx (b! "éa")) (by decide)).1 'é' 2
    (.char 'é' (b! "a")) (by simp [InRanges])

example : charClassN [b! "\"\"", b! ","] (newStrCtx (b! "\"a")) =
    .ok (advance ":string:CharClassN" (b! "\"") 1 (newStrCtx (b! "\"a")), none) :=
  (C17_charClassN _ (newStrCtx (b! "\"a")) (by decide)).1 '"' 1 (.char '"' (b! "a")) (by decide)

/-! ### C18: character classes -/

theorem C18_any : CharTerminal anyS ":string:Any" (fun _ => True) :=
  charTerminal_of _ _ _ fun ch => by simp

/-- Tab, the line breaks, space, NEL and no-break space. -/
theorem C18_whitespace : CharTerminal whitespace ":string:Whitespace"
    (fun ch => ch ∈ ['\t', '\n', '\x0b', '\x0c', '\r', ' ', '\u0085', '\u00a0']) :=
  charTerminal_of _ _ _ fun ch => by
    have e : ∀ x : Char, ch = x ↔ ch.toNat = x.toNat := fun x => ⟨congrArg _, char_toNat_inj⟩
    simp [isWhitespace, e, or_assoc]

theorem C18_whitespaceNoLineBreak : CharTerminal whitespaceNoLineBreak ":string:WhitespaceNoLineBreak"
    (fun ch => ch ∈ ['\t', ' ', '\u00a0']) :=
  charTerminal_of _ _ _ fun ch => by
    have e : ∀ x : Char, ch = x ↔ ch.toNat = x.toNat := fun x => ⟨congrArg _, char_toNat_inj⟩
    simp [isWhitespaceNoLineBreak, e, or_assoc]

theorem C18_lineBreak : CharTerminal lineBreak ":string:LineBreak"
    (fun ch => ch ∈ ['\n', '\x0b', '\x0c', '\r', '\u0085']) :=
  charTerminal_of _ _ _ fun ch => by
    have e : ∀ x : Char, ch = x ↔ ch.toNat = x.toNat := fun x => ⟨congrArg _, char_toNat_inj⟩
    simp [isLineBreak, e, or_assoc]

theorem char_le_iff (a b : Char) : a ≤ b ↔ a.toNat ≤ b.toNat := by
  rw [Char.le_def]; exact UInt32.le_iff_toNat_le

theorem C18_alpha : CharTerminal alpha ":string:Alpha"
    (fun ch => ('A' ≤ ch ∧ ch ≤ 'Z') ∨ ('a' ≤ ch ∧ ch ≤ 'z')) :=
  charTerminal_of _ _ _ fun ch => by simp [isAlpha, inRange, char_le_iff]

theorem C18_number : CharTerminal number ":string:Number" (fun ch => '0' ≤ ch ∧ ch ≤ '9') :=
  charTerminal_of _ _ _ fun ch => by simp [isNumber, inRange, char_le_iff]

theorem C18_alnum : CharTerminal alnum ":string:Alnum"
    (fun ch => ('A' ≤ ch ∧ ch ≤ 'Z') ∨ ('a' ≤ ch ∧ ch ≤ 'z') ∨ ('0' ≤ ch ∧ ch ≤ '9')) :=
  charTerminal_of _ _ _ fun ch => by simp [isAlnum, inRange, char_le_iff, or_assoc]

theorem C18_binNumber : CharTerminal binNumber ":string:BinNumber" (fun ch => '0' ≤ ch ∧ ch ≤ '1') :=
  charTerminal_of _ _ _ fun ch => by simp [isBin, inRange, char_le_iff]

theorem C18_octNumber : CharTerminal octNumber ":string:OctNumber" (fun ch => '0' ≤ ch ∧ ch ≤ '7') :=
  charTerminal_of _ _ _ fun ch => by simp [isOct, inRange, char_le_iff]

theorem C18_hexNumber : CharTerminal hexNumber ":string:HexNumber"
    (fun ch => ('0' ≤ ch ∧ ch ≤ '9') ∨ ('A' ≤ ch ∧ ch ≤ 'F') ∨ ('a' ≤ ch ∧ ch ≤ 'f')) :=
  charTerminal_of _ _ _ fun ch => by simp [isHex, inRange, char_le_iff, or_assoc]

/-- `CharClassFn(f)`: exactly the characters the user's predicate accepts. -/
theorem C18_charClassFn (f : Nat → Bool) :
    CharTerminal (charClassFn f) ":string:CharClassFn" (fun ch => f ch.toNat = true) :=
  charTerminal_of _ _ _ fun _ => Iff.rfl

/-- `End`. -/
theorem C18_end (c : Ctx) : (∃ o, Outcome.of (endS c) = .matched o) ↔ c.pos = c.str.length := by
  rw [endS_eq]
  by_cases h : c.pos = c.str.length
  · rw [if_pos h]; exact ⟨fun _ => h, fun _ => ⟨_, rfl⟩⟩
  · rw [if_neg h]; exact ⟨fun ⟨o, ho⟩ => (by cases ho), fun hh => absurd hh h⟩

/-- For terminals whose sets are related pointwise, so are their matches. -/
theorem charTerminal_matches {p : Sem} {cls : String} {S : Char → Prop} (h : CharTerminal p cls S) (c : Ctx)
    (hc : c.pos ≤ c.str.length) :
    (∃ o, Outcome.of (p c) = .matched o) ↔ ∃ ch n, NextChar (c.str.drop c.pos) ch n ∧ S ch := by
  constructor
  · intro ⟨o, ho⟩
    rcases Nat.lt_or_ge c.pos c.str.length with hlt | hge
    · have hne : c.str.drop c.pos ≠ [] := fun h => by
        have := congrArg List.length h; rw [List.length_drop, List.length_nil] at this; omega
      obtain ⟨ch, n, hn⟩ := nextChar_total hne
      refine ⟨ch, n, hn, Classical.byContradiction fun hS => ?_⟩
      rw [(h c hc).2.1 ch n hn hS] at ho
      cases ho
    · rw [(h c hc).2.2 (by omega)] at ho; cases ho
  · intro ⟨ch, n, hn, hS⟩
    exact ⟨_, by rw [(h c hc).1 ch n hn hS]; rfl⟩

/-- `Whitespace` matches iff `WhitespaceNoLineBreak` or `LineBreak` does, and never both do. -/
theorem C18_whitespace_partition (c : Ctx) (hc : c.pos ≤ c.str.length) :
    ((∃ o, Outcome.of (whitespace c) = .matched o) ↔
      (∃ o, Outcome.of (whitespaceNoLineBreak c) = .matched o) ∨ (∃ o, Outcome.of (lineBreak c) = .matched o)) ∧
    ¬ ((∃ o, Outcome.of (whitespaceNoLineBreak c) = .matched o) ∧ (∃ o, Outcome.of (lineBreak c) = .matched o)) := by
  rw [charTerminal_matches C18_whitespace c hc, charTerminal_matches C18_whitespaceNoLineBreak c hc,
    charTerminal_matches C18_lineBreak c hc]
  constructor
  · constructor
    · rintro ⟨ch, n, hn, hS⟩
      simp only [List.mem_cons, List.not_mem_nil, or_false] at hS
      rcases hS with h | h | h | h | h | h | h | h <;> subst h
      · exact .inl ⟨_, n, hn, by simp⟩
      · exact .inr ⟨_, n, hn, by simp⟩
      · exact .inr ⟨_, n, hn, by simp⟩
      · exact .inr ⟨_, n, hn, by simp⟩
      · exact .inr ⟨_, n, hn, by simp⟩
      · exact .inl ⟨_, n, hn, by simp⟩
      · exact .inr ⟨_, n, hn, by simp⟩
      · exact .inl ⟨_, n, hn, by simp⟩
    · rintro (⟨ch, n, hn, hS⟩ | ⟨ch, n, hn, hS⟩)
      · refine ⟨ch, n, hn, ?_⟩
        simp only [List.mem_cons, List.not_mem_nil, or_false] at hS ⊢
        rcases hS with h | h | h <;> simp [h]
      · refine ⟨ch, n, hn, ?_⟩
        simp only [List.mem_cons, List.not_mem_nil, or_false] at hS ⊢
        rcases hS with h | h | h | h | h <;> simp [h]
  · rintro ⟨⟨ch, n, hn, hS⟩, ⟨ch', n', hn', hS'⟩⟩
    have e := (nextChar_decode hn).2.symm.trans (nextChar_decode hn').2
    have : ch = ch' := char_toNat_inj (congrArg Prod.fst e)
    subst this
    simp only [List.mem_cons, List.not_mem_nil, or_false] at hS hS'
    rcases hS with h | h | h <;> subst h <;> revert hS' <;> decide

/-- `Alnum` matches iff `Alpha` or `Number` does. -/
theorem C18_alnum_union (c : Ctx) (hc : c.pos ≤ c.str.length) :
    (∃ o, Outcome.of (alnum c) = .matched o) ↔
      (∃ o, Outcome.of (alpha c) = .matched o) ∨ (∃ o, Outcome.of (number c) = .matched o) := by
  rw [charTerminal_matches C18_alnum c hc, charTerminal_matches C18_alpha c hc,
    charTerminal_matches C18_number c hc]
  constructor
  · rintro ⟨ch, n, hn, h | h | h⟩
    · exact .inl ⟨ch, n, hn, .inl h⟩
    · exact .inl ⟨ch, n, hn, .inr h⟩
    · exact .inr ⟨ch, n, hn, h⟩
  · rintro (⟨ch, n, hn, h | h⟩ | ⟨ch, n, hn, h⟩)
    · exact ⟨ch, n, hn, .inl h⟩
    · exact ⟨ch, n, hn, .inr (.inl h)⟩
    · exact ⟨ch, n, hn, .inr (.inr h)⟩

/-- NEL is a line break of two bytes; the no-break space is not a line break. -/
example : lineBreak (newStrCtx (b! "\u0085x")) =
    .ok (advance ":string:LineBreak" (b! "\u0085") 2 (newStrCtx (b! "\u0085x")), none) :=
  (C18_lineBreak (newStrCtx (b! "\u0085x")) (by decide)).1 '\u0085' 2 (.char '\u0085' (b! "x")) (by decide)

example : ¬ ∃ o, Outcome.of (lineBreak (newStrCtx (b! "\u00a0"))) = .matched o := by
  intro ⟨o, ho⟩
  rw [(C18_lineBreak (newStrCtx (b! "\u00a0")) (by decide)).2.1 '\u00a0' 2 (.char '\u00a0' []) (by decide)] at ho
  cases ho

/-! ### C19: UTF-8 stepping -/

/-- Every nonempty byte string has exactly one next character. -/
theorem C19_next_unique {s : Bytes} (hs : s ≠ []) :
    ∃ ch n, NextChar s ch n ∧ ∀ ch' n', NextChar s ch' n' → ch' = ch ∧ n' = n := by
  obtain ⟨ch, n, h⟩ := nextChar_total hs
  refine ⟨ch, n, h, fun ch' n' h' => ?_⟩
  have e := (nextChar_decode h').2.symm.trans (nextChar_decode h).2
  exact ⟨char_toNat_inj (congrArg Prod.fst e), congrArg Prod.snd e⟩

/-- The library's decoder returns exactly that character. -/
theorem C19_decode {s : Bytes} (hs : s ≠ []) (ch : Char) (n : Nat) :
    decodeRune s = (ch.toNat, n) ↔ NextChar s ch n :=
  ⟨fun h => nextChar_iff.2 ⟨hs, h⟩, fun h => (nextChar_decode h).2⟩

/-- It consumes between 1 and 4 bytes and never runs past the end. -/
theorem C19_width {s : Bytes} (hs : s ≠ []) :
    1 ≤ (decodeRune s).2 ∧ (decodeRune s).2 ≤ 4 ∧ (decodeRune s).2 ≤ s.length :=
  ⟨decodeRune_len_pos hs, decodeRune_len_le4 s, decodeRune_len_le s⟩

/-- Decoding an encoded character gives it back, whatever follows. -/
theorem C19_decode_encode (ch : Char) (rest : Bytes) :
    decodeRune (encodeRune ch.toNat ++ rest) = (ch.toNat, (encodeRune ch.toNat).length) := by
  rw [encode_char]; exact decode_utf8 ch rest

/-- The encoder is the UTF-8 encoder of Lean's core library. -/
theorem C19_encode (ch : Char) : encodeRune ch.toNat = String.utf8EncodeChar ch := encode_char ch

/-- Re-encoding a decoded character gives the consumed bytes, unless the decoder reported an error (which
it does by returning U+FFFD with width 1, or width 0 at the end). -/
theorem C19_encode_decode (s : Bytes) (r n : Nat) (h : decodeRune s = (r, n)) (hok : ¬ (r = 0xfffd ∧ n ≤ 1)) :
    encodeRune r = s.take n := by
  have : DecodesWell s := by
    constructor
    · intro h'; rw [h] at h'
      have h1 := congrArg Prod.fst h'; have h2 := congrArg Prod.snd h'
      exact hok ⟨h1, by simp only at h2; omega⟩
    · intro h'; rw [h] at h'
      have h1 := congrArg Prod.fst h'; have h2 := congrArg Prod.snd h'
      exact hok ⟨h1, by simp only at h2; omega⟩
  have := encode_decode this
  rw [h] at this
  exact this

/-- An encoded U+FFFD is not an error: it has width 3. -/
example : decodeRune (b! "�x") = (0xfffd, 3) ∧ decodeRune [0xff, 0x41] = (0xfffd, 1) := by decide
/-- Overlong forms and surrogates are not characters. -/
example : NextChar [0xc0, 0x80] '�' 1 ∧ NextChar [0xed, 0xa0, 0x80] '�' 1 :=
  ⟨(C19_decode (by decide) _ _).1 (by decide), (C19_decode (by decide) _ _).1 (by decide)⟩

end Takenoco
