import Verif.Lemmas.UnicodeIdent
import Verif.Props.StrTerminals2
/-
C62: `UnicodeIdentifierStr`. C63: no word boundary of `UnicodeWordBoundary` inside of an identifier.
-/
namespace Takenoco
open Spec Extra

section
variable {env : Env} (tab : UnicodeTables)

theorem idStart_iff (ch : Char) : idStart tab ch.toNat = true ↔ StartsId tab ch := by
  simp only [idStart, StartsId, Reserved, Bool.and_eq_true, Bool.or_eq_true, Bool.not_eq_true', not_or, Bool.not_eq_true, or_assoc, and_assoc]

theorem char_toNat_iff (ch d : Char) : ch.toNat = d.toNat ↔ ch = d := ⟨fun h => Char.ext (UInt32.toNat_inj.1 h), fun h => h ▸ rfl⟩

theorem idContinue_iff (ch : Char) : idContinue tab ch.toNat = true ↔ ContinuesId tab ch := by
  have h1 : ch.toNat = 0x200c ↔ ch = '\u200c' := char_toNat_iff ch '\u200c'
  have h2 : ch.toNat = 0x200d ↔ ch = '\u200d' := char_toNat_iff ch '\u200d'
  simp only [idContinue, ContinuesId, Reserved, Bool.and_eq_true, Bool.or_eq_true, Bool.not_eq_true', not_or, Bool.not_eq_true, or_assoc, and_assoc,
    beq_iff_eq, h1, h2]

theorem idFirst_like : CharLike (den env (.first [.prim (charClass [b! "_", b! "$"]), .prim (charClassFn (idStart tab))])) (IdFirst tab) := by
  refine (CharLike.first2 (charLike_class (bs := [0x5f, 0x24]) (by decide)) (CharLike.of (C18_charClassFn (idStart tab)))).congr fun ch => ?_
  have h1 : ch.toNat = 0x5f ↔ ch = '_' := char_toNat_iff ch '_'
  have h2 : ch.toNat = 0x24 ↔ ch = '$' := char_toNat_iff ch '$'
  simp [IdFirst, idStart_iff, h1, h2, or_assoc]

theorem idRest_like : CharLike (den env (.first [.prim (charClass [b! "$"]), .prim (charClassFn (idContinue tab))])) (IdRest tab) := by
  refine (CharLike.first2 (charLike_class (bs := [0x24]) (by decide)) (CharLike.of (C18_charClassFn (idContinue tab)))).congr fun ch => ?_
  have h2 : ch.toNat = 0x24 ↔ ch = '$' := char_toNat_iff ch '$'
  simp [IdRest, idContinue_iff, h2]

/-- The two parts of an identifier. -/
abbrev uidentParts : List Gram :=
  [Gram.one [.first [.prim (charClass [b! "_", b! "$"]), .prim (charClassFn (idStart tab))]],
   Gram.star [.first [.prim (charClass [b! "$"]), .prim (charClassFn (idContinue tab))]]]

/-- `UnicodeIdentifierStr` matches iff a character that may start an identifier comes next. It consumes this character
and the maximal run of those that may follow, and yields their text: a malformed byte in it, when the tables admit U+FFFD,
is replaced. -/
theorem C62_identifier (c : Ctx) (hs : c.status = .matched) (hc : c.pos ≤ c.str.length) (s : Bytes) (hsu : c.str.drop c.pos = s) :
    (∀ ch n w t rest, NextChar s ch n → IdFirst tab ch → CharRun (IdRest tab) (s.drop n) w t rest →
      Consumes (den env (unicodeIdentifierStr tab)) c (s.take n ++ w) ":extra:IdentifierStr" (utf8s (ch :: t))) ∧
    ((∀ ch n, NextChar s ch n → ¬ IdFirst tab ch) → Outcome.of (den env (unicodeIdentifierStr tab) c) = .unmatched) := by
  have hat := At.of hc hs
  rw [hsu] at hat
  constructor
  · intro ch n w t rest hn hf hr
    have hl : (s.take n).length = n := by rw [List.length_take]; have := nextChar_le hn; omega
    have he : s.take n ++ (w ++ rest) = s := by rw [← charRun_eq hr, List.take_append_drop]
    have h1 : Hits (den env (.flatGroup (uidentParts tab))) (c.str.take c.pos) (s.take n ++ w) rest (Texts · ([utf8 ch] ++ t.map utf8)) :=
      (flat_hits (gs := uidentParts tab) (SeqHits.cons (one_hits (gs := [_]) (SeqHits.single
        ((idFirst_like tab).1 _ (s.take n) (w ++ rest) ch (by rw [he, hl]; exact hn) hf)))
        (SeqHits.single ((idRest_like tab).star hr _)))).mono fun l hl => both_texts hl
    have h2 := trans_hits (env := env) (ts := [.fn concat, .fn (changeClassName ":extra:IdentifierStr")]) (by simp) h1
      (R := fun l => ∃ a, l = [a] ∧ a.cls = ":extra:IdentifierStr" ∧ a.ty = .string ∧ a.val = .str (utf8s (ch :: t))) fun c' l hl => by
        obtain ⟨l', e1, a, e2, e3, e4, e5, _⟩ := concat_named (env := env) (name := ":extra:IdentifierStr") c' l hl
        exact ⟨l', e1, a, e2, e3, e4, by rw [e5]; simp [utf8s, List.flatMap_def]⟩
    obtain ⟨o, e1, e2⟩ := h2 c (by rw [List.append_assoc, he]; exact hat)
    obtain ⟨new, e3, a, e4, e5⟩ := e2.stack
    refine ⟨o, a, e1, ?_, ?_, ?_, by rw [e3, e4], e5⟩
    · rw [e2.at_.str, List.append_assoc, List.append_assoc, he]; exact hat.str.symm
    · rw [e2.at_.drop, hsu, List.append_assoc, he]
    · rw [e2.at_.pos, List.length_append, List.length_take, Nat.min_eq_left hc]
  · intro h
    exact trans_misses (flat_misses (gs := uidentParts tab) (.head (one_misses (gs := [_]) (.head ((idFirst_like tab).2 _ s h))))) c hat

/-- For every source one of the two cases holds. -/
theorem C62_cases (s : Bytes) : (∀ ch n, NextChar s ch n → ¬ IdFirst tab ch) ∨
    ∃ ch n w t rest, NextChar s ch n ∧ IdFirst tab ch ∧ CharRun (IdRest tab) (s.drop n) w t rest := by
  by_cases h : ∃ ch n, NextChar s ch n ∧ IdFirst tab ch
  · obtain ⟨ch, n, h1, h2⟩ := h
    obtain ⟨w, t, rest, h3⟩ := charRun_total (IdRest tab) (s.drop n)
    exact .inr ⟨ch, n, w, t, rest, h1, h2, h3⟩
  · exact .inl fun ch n h1 h2 => h ⟨ch, n, h1, h2⟩

/-- In a source of UTF-8 the identifier is taken as it stands. -/
theorem C62_text (pre s : Bytes) (ch : Char) (t : List Char) (hf : IdFirst tab ch) (ht : ∀ x ∈ t, IdRest tab x)
    (hrest : ∀ x n, NextChar s x n → ¬ IdRest tab x) (c : Ctx) (hs : c.status = .matched) (hc : c.str = pre ++ (utf8s (ch :: t) ++ s))
    (hp : c.pos = pre.length) :
    Consumes (den env (unicodeIdentifierStr tab)) c (utf8s (ch :: t)) ":extra:IdentifierStr" (utf8s (ch :: t)) := by
  have hd : c.str.drop c.pos = utf8 ch ++ (utf8s t ++ s) := by rw [hc, hp, List.drop_left, utf8s_cons, List.append_assoc]
  have := (C62_identifier (env := env) tab c hs (by rw [hc, hp]; simp) _ hd).1 ch _ _ t s (.char ch _) hf
    (by rw [List.drop_left]; exact charRun_text ht hrest)
  rwa [List.take_left, ← utf8s_cons] at this

end

theorem word_of_rest {tab : UnicodeTables} {ch : Char} (h : IdRest tab ch) (hd : ch ≠ '$') : isUnicodeWord tab ch.toNat = true := by
  have := (idContinue_iff tab ch).2 (h.resolve_left hd)
  simp only [idContinue, isUnicodeWord, Bool.and_eq_true, Bool.or_eq_true] at this ⊢
  grind

theorem word_of_first {tab : UnicodeTables} (hst : Standard tab) {ch : Char} (h : IdFirst tab ch) (hd : ch ≠ '$') :
    isUnicodeWord tab ch.toNat = true := by
  apply word_of_rest (.inr _) hd
  obtain rfl | h | h := h
  · exact ⟨.inr (.inr (.inr (.inr (.inl hst.underscore.1)))), hst.underscore.2⟩
  · exact absurd h hd
  · exact ⟨.inl h.1, h.2⟩

/-- For the tables of the Unicode standard, an identifier that `UnicodeIdentifierStr` takes contains no boundary of
`UnicodeWordBoundary`, as long as no `$` stands next to the place, and the character before it is one that
`UnicodeWordBoundary` finds (C22). The full claim has no such exceptions; `C63_dollar_false` refutes it. -/
theorem C63_no_boundary_partial (tab : UnicodeTables) (hst : Standard tab) (before after t u : List Char) (ch : Char) (x y : Char)
    (hf : IdFirst tab ch) (ht : ∀ z ∈ t, IdRest tab z) (hsplit : ch :: t = (u ++ [x]) ++ y :: after) (hx : x ≠ '$') (hy : y ≠ '$') (hfx : Found x)
    (rest : List Char) (c : Ctx) (hc : c.str = utf8s (before ++ (ch :: t) ++ rest)) (hp : c.pos = (utf8s (before ++ (u ++ [x]))).length) :
    ∃ o, unicodeWordBoundary tab c = .ok (o, none) ∧ o.status = .unmatched := by
  have hxW : isUnicodeWord tab x.toNat = true := by
    cases u with
    | nil => simp only [List.nil_append, List.cons_append, List.cons.injEq] at hsplit; exact word_of_first hst (hsplit.1 ▸ hf) hx
    | cons z u =>
      simp only [List.cons_append, List.cons.injEq] at hsplit
      exact word_of_rest (ht x (by rw [hsplit.2]; simp)) hx
  have hyW : isUnicodeWord tab y.toNat = true := by
    refine word_of_rest (ht y ?_) hy
    cases u with
    | nil => simp only [List.nil_append, List.cons_append, List.cons.injEq] at hsplit; rw [hsplit.2]; simp
    | cons z u =>
      simp only [List.cons_append, List.cons.injEq] at hsplit
      rw [hsplit.2]; simp
  obtain ⟨_, h2⟩ := C22_unicodeWordBoundary_partial tab (before ++ (u ++ [x])) (y :: after ++ rest) c (by rw [hc, hsplit]; simp [utf8s]) hp
    (by intro z hz; simp [List.getLast?_append] at hz; exact hz ▸ hfx)
  refine ⟨_, h2 ?_, rfl⟩
  unfold Boundary
  simp [List.getLast?_append, hxW, hyW]

/-- For the tables of the Unicode standard `$` is no word character, though the comment at util.go:7-8 names it as one:
the test for reserved characters excludes it again. -/
theorem C63_dollar_not_word (tab : UnicodeTables) (hst : Standard tab) : isUnicodeWord tab '$'.toNat = false := by
  unfold isUnicodeWord
  rw [hst.dollar, Bool.not_true, Bool.and_false, Bool.false_and]

/-- So the claim is false: `a$b` is one identifier, and after its first character there is a boundary. -/
theorem C63_dollar_false (tab : UnicodeTables) (hst : Standard tab) (ha : StartsId tab 'a') (hb : StartsId tab 'b') :
    Consumes (den noEnv (unicodeIdentifierStr tab)) (newStrCtx (b! "a$b")) (b! "a$b") ":extra:IdentifierStr" (b! "a$b") ∧
    ∃ o, unicodeWordBoundary tab { newStrCtx (b! "a$b") with pos := 1 } = .ok (o, none) ∧ o.status = .matched := by
  constructor
  · exact C62_text tab [] [] 'a' ['$', 'b'] (.inr (.inr ha)) (by
      intro x hx; simp only [List.mem_cons, List.not_mem_nil, or_false] at hx
      obtain rfl | rfl := hx
      · exact .inl rfl
      · exact .inr ⟨.inl hb.1, hb.2⟩) (fun _ _ h => (nextChar_nil h).elim) _ rfl rfl rfl
  · obtain ⟨h1, _⟩ := C22_unicodeWordBoundary_partial tab ['a'] ['$', 'b'] { newStrCtx (b! "a$b") with pos := 1 } rfl rfl
      (by intro z hz; simp at hz; subst hz; decide)
    refine ⟨_, h1 ?_, rfl⟩
    have hW := word_of_first hst (.inr (.inr ha) : IdFirst tab 'a') (by decide)
    rintro hB
    obtain ⟨ch, e, h⟩ := hB.1 ⟨'a', rfl, hW⟩
    cases e
    rw [C63_dollar_not_word tab hst] at h
    cases h

/-- The tables for ASCII and the two Greek letters of the examples. -/
def exTables : UnicodeTables where
  L n := (0x41 ≤ n && n ≤ 0x5a) || (0x61 ≤ n && n ≤ 0x7a) || n == 0x3b1 || n == 0x3b2
  Nl _ := false
  Other_ID_Start _ := false
  Mn n := n == 0x301
  Mc _ := false
  Nd n := 0x30 ≤ n && n ≤ 0x39
  Pc n := n == 0x5f
  Other_ID_Continue _ := false
  Pattern_Syntax n := (0x21 ≤ n && n ≤ 0x2f) || (0x3a ≤ n && n ≤ 0x40) || (0x5b ≤ n && n ≤ 0x5e) || n == 0x60 || (0x7b ≤ n && n ≤ 0x7e)
  Pattern_White_Space n := (9 ≤ n && n ≤ 13) || n == 0x20

theorem exTables_standard : Standard exTables := ⟨⟨rfl, by unfold Reserved; decide⟩, rfl⟩

/-- `$α_1-b`: the identifier ends before the minus sign. -/
example : Consumes (den noEnv (unicodeIdentifierStr exTables)) (newStrCtx (utf8s ['$', 'α', '_', '1', '-', 'b'])) (utf8s ['$', 'α', '_', '1']) ":extra:IdentifierStr"
    (utf8s ['$', 'α', '_', '1']) :=
  C62_text exTables [] (utf8s ['-', 'b']) '$' ['α', '_', '1'] (.inr (.inl rfl))
    (by intro x hx; simp only [List.mem_cons, List.not_mem_nil, or_false] at hx
        unfold IdRest ContinuesId Reserved
        obtain rfl | rfl | rfl := hx <;> decide)
    (notNext_char (ch := '-') (by unfold IdRest ContinuesId Reserved; decide)) _ rfl (by simp [newStrCtx, utf8s]) rfl

/-- A digit starts no identifier. -/
example : Outcome.of (den noEnv (unicodeIdentifierStr exTables) (newStrCtx (b! "1a"))) = .unmatched :=
  (C62_identifier exTables (newStrCtx (b! "1a")) rfl (by decide) _ rfl).2
    (notNext_char (ch := '1') (s := utf8s ['a']) (by unfold IdFirst StartsId Reserved; decide))

/-- Between `α` and `1` in `(α1)` there is no boundary. -/
example : ∃ o, unicodeWordBoundary exTables { newStrCtx (utf8s ['(', 'α', '1', ')']) with pos := 3 } = .ok (o, none) ∧ o.status = .unmatched :=
  C63_no_boundary_partial exTables exTables_standard ['('] [] ['1'] [] 'α' 'α' '1' (by unfold IdFirst StartsId Reserved; decide)
    (by intro z hz; simp at hz; subst hz; unfold IdRest ContinuesId Reserved; decide) rfl (by decide) (by decide) (by decide) [')'] _ rfl rfl

example : StartsId exTables 'a' ∧ StartsId exTables 'b' := by unfold StartsId Reserved; decide

#print axioms C62_identifier
#print axioms C62_cases
#print axioms C62_text
#print axioms C63_no_boundary_partial
#print axioms C63_dollar_not_word
#print axioms C63_dollar_false

end Takenoco
