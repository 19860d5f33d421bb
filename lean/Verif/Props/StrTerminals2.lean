import Verif.Spec.Grammar
import Verif.Lemmas.WordBoundary
import Verif.Lemmas.SeqI
import Verif.Model.Extra
/-
C21 (token positions), C22 (word boundaries), C52 (SeqI).
-/
namespace Takenoco
open Spec

/-! ### C22 -/

/-- The word characters of `WordBoundary`. -/
def WordChar (ch : Char) : Prop :=
  ('A' ≤ ch ∧ ch ≤ 'Z') ∨ ('a' ≤ ch ∧ ch ≤ 'z') ∨ ('0' ≤ ch ∧ ch ≤ '9') ∨ ch = '_' ∨ ch = '$'

theorem isWord_iff (ch : Char) : isWord ch.toNat = true ↔ WordChar ch := by
  have e : ∀ x : Char, ch = x ↔ ch.toNat = x.toNat := fun x => ⟨congrArg _, char_toNat_inj⟩
  have le : ∀ a b : Char, a ≤ b ↔ a.toNat ≤ b.toNat := fun a b => by
    rw [Char.le_def]; exact UInt32.le_iff_toNat_le
  simp [isWord, inRange, WordChar, e, le, or_assoc]

/-- Where the character before the position does not start with the byte 0xf1, 0xf2 or 0xf4 (that is, lies
outside U+40000..U+BFFFF and U+100000..U+10FFFF), `WordBoundary` matches exactly at word boundaries, and
changes neither the position nor the stack. The missing part (those characters) is false of the code:
`C22_wordBoundary_false`. -/
theorem C22_wordBoundary_partial (t u : List Char) (c : Ctx) (hs : c.str = utf8s (t ++ u))
    (hp : c.pos = (utf8s t).length) (hf : ∀ ch, t.getLast? = some ch → Found ch) :
    (Boundary WordChar t u →
      wordBoundary c = .ok ({ c with len := 0, status := .matched, qty := 1, cls := ":string:WordBoundary" }, none)) ∧
    (¬ Boundary WordChar t u →
      wordBoundary c = .ok ({ c with len := 0, status := .unmatched, cls := ":string:WordBoundary" }, none)) := by
  have hW : (fun ch : Char => isWord ch.toNat = true) = WordChar := funext fun ch => propext (isWord_iff ch)
  obtain ⟨h1, h2, -⟩ := wordBoundary_text ":string:WordBoundary" isWord t u c hs hp
  rw [hW] at h1 h2
  have key : (t = [] ∨ t.filter (fun ch => decide (Found ch)) ≠ []) ∧
      (t.filter fun ch => decide (Found ch)).getLast? = t.getLast? := lastFound hf
  unfold Boundary at *
  rw [key.2] at h1 h2
  exact ⟨h1 key.1, h2 key.1⟩

/-- The same for `UnicodeWordBoundary`, over any tables. -/
theorem C22_unicodeWordBoundary_partial (tab : Extra.UnicodeTables) (t u : List Char) (c : Ctx)
    (hs : c.str = utf8s (t ++ u)) (hp : c.pos = (utf8s t).length) (hf : ∀ ch, t.getLast? = some ch → Found ch) :
    (Boundary (fun ch => Extra.isUnicodeWord tab ch.toNat = true) t u → Extra.unicodeWordBoundary tab c =
      .ok ({ c with len := 0, status := .matched, qty := 1, cls := ":string:WordBoundary" }, none)) ∧
    (¬ Boundary (fun ch => Extra.isUnicodeWord tab ch.toNat = true) t u → Extra.unicodeWordBoundary tab c =
      .ok ({ c with len := 0, status := .unmatched, cls := ":string:WordBoundary" }, none)) := by
  obtain ⟨h1, h2, -⟩ := wordBoundary_text ":string:WordBoundary" (Extra.isUnicodeWord tab) t u c hs hp
  have key : (t = [] ∨ t.filter (fun ch => decide (Found ch)) ≠ []) ∧
      (t.filter fun ch => decide (Found ch)).getLast? = t.getLast? := lastFound hf
  unfold Boundary at *
  rw [key.2] at h1 h2
  exact ⟨h1 key.1, h2 key.1⟩

/-- Exactly what `WordBoundary` does on any valid text: it looks at the last character before the position
that does not start with 0xf1, 0xf2 or 0xf4. If there are characters before the position but all of them
start so, it never matches. -/
theorem C22_wordBoundary_exact (t u : List Char) (c : Ctx) (hs : c.str = utf8s (t ++ u))
    (hp : c.pos = (utf8s t).length) :
    (∃ o, Outcome.of (wordBoundary c) = .matched o) ↔
      (t = [] ∨ ∃ ch ∈ t, Found ch) ∧ Boundary WordChar (t.filter fun ch => decide (Found ch)) u := by
  have hW : (fun ch : Char => isWord ch.toNat = true) = WordChar := funext fun ch => propext (isWord_iff ch)
  obtain ⟨h1, h2, h3⟩ := wordBoundary_text ":string:WordBoundary" isWord t u c hs hp
  rw [hW] at h1 h2
  have hex : (∃ ch ∈ t, Found ch) ↔ t.filter (fun ch => decide (Found ch)) ≠ [] := by
    rw [ne_eq, List.filter_eq_nil_iff]; simp
  rw [hex]
  by_cases hb : Boundary WordChar (t.filter fun ch => decide (Found ch)) u
  · by_cases ht : t = [] ∨ t.filter (fun ch => decide (Found ch)) ≠ []
    · exact ⟨fun _ => ⟨ht, hb⟩, fun _ => ⟨_, by unfold wordBoundary; rw [h1 ht hb]; rfl⟩⟩
    · refine ⟨fun ⟨o, ho⟩ => ?_, fun h => absurd h.1 ht⟩
      rw [not_or] at ht
      unfold wordBoundary at ho
      rw [h3 ht.1 (Classical.not_not.1 ht.2)] at ho
      cases ho
  · refine ⟨fun ⟨o, ho⟩ => ?_, fun h => absurd h.2 hb⟩
    unfold wordBoundary at ho
    by_cases ht : t = [] ∨ t.filter (fun ch => decide (Found ch)) ≠ []
    · rw [h2 ht hb] at ho; cases ho
    · rw [not_or] at ht
      rw [h3 ht.1 (Classical.not_not.1 ht.2)] at ho
      cases ho

/-- After "a" and U+40000 at the end of the text there is no word boundary, but `WordBoundary` matches;
between U+40000 and "a" there is one, but it does not match. -/
theorem C22_wordBoundary_false :
    (¬ Boundary WordChar ['a', Char.ofNat 0x40000] [] ∧
      ∃ o, Outcome.of (wordBoundary { newStrCtx (utf8s ['a', Char.ofNat 0x40000]) with pos := 5 }) = .matched o) ∧
    (Boundary WordChar [Char.ofNat 0x40000] ['a'] ∧
      Outcome.of (wordBoundary { newStrCtx (utf8s [Char.ofNat 0x40000, 'a']) with pos := 4 }) = .unmatched) := by
  refine ⟨⟨?_, _, rfl⟩, ?_, rfl⟩
  · simp [Boundary, WordChar]
  · simp [Boundary, WordChar]

/-- "héy!": no boundary inside the word according to `Unicode`, but é is no ASCII word character. -/
example : ∃ o, Outcome.of (wordBoundary { newStrCtx (b! "héy!") with pos := 1 }) = .matched o :=
  (C22_wordBoundary_exact ['h'] ['é', 'y', '!'] _ rfl rfl).2 (by
    refine ⟨.inr ⟨'h', by simp, by decide⟩, ?_⟩
    simp [Boundary, WordChar, Found])

/-! ### C21 -/

/-- Whenever a terminal matches, it pushes one AST carrying the source position where the token starts; the
token ends where the parser leaves off, and the returned context carries its length. The part of C21 on
the length in the AST is false (`C21_length_false`): the AST carries the length of the token before
(`a.len = c.len`). -/
theorem C21_position_partial {p : Sem} (hp : TokenParser p) {c o : Ctx} (h : Outcome.of (p c) = .matched o) :
    ∃ a, o.stack = c.stack ++ [a] ∧ a.pos = c.pos ∧ a.ty = .string ∧ o.pos = c.pos + o.len ∧ a.len = c.len := by
  have chars : ∀ (cls : String) (q : Nat → Bool), Outcome.of (lightParser cls (charFn cls q) c) = .matched o →
      ∃ a, o.stack = c.stack ++ [a] ∧ a.pos = c.pos ∧ a.ty = .string ∧ o.pos = c.pos + o.len ∧ a.len = c.len := by
    intro cls q h
    by_cases hc : c.str.length < c.pos
    · rw [charFn_panic _ _ _ _ hc] at h; cases h
    · rw [charFn_eq _ _ _ _ (by omega)] at h
      split at h
      · cases h; exact ⟨_, rfl, rfl, rfl, rfl, rfl⟩
      · cases h
  cases hp with
  | seq s =>
    rw [seqS_eq] at h
    split at h
    · cases h; exact ⟨_, rfl, rfl, rfl, rfl, rfl⟩
    · cases h
  | seqI orbit s =>
    rw [seqIS_eq] at h
    split at h
    · cases h; exact ⟨_, rfl, rfl, rfl, rfl, rfl⟩
    · cases h
  | charClass cc =>
    rw [charClass_eq] at h
    split at h
    · cases h; exact ⟨_, rfl, rfl, rfl, rfl, rfl⟩
    · cases h
  | charClassN cc =>
    unfold charClassN at h
    by_cases ha : cc.any (fun s => hasPrefixAt s c) = true
    · simp only [lightParser, ha, if_true] at h; cases h
    · refine chars ":string:CharClassN" (fun _ => true) ?_
      simp only [lightParser, ha] at h ⊢
      exact h
  | _ => exact chars _ _ h

/-- The AST of a token does not carry its length: the AST of `Seq("ab")` at the start has length 0, and
that of the token after it has length 2 although it is one byte long. -/
theorem C21_length_false :
    ∃ o, Outcome.of (flatGroup [seqS (b! "ab"), seqS (b! "c")] (newStrCtx (b! "abc"))) = .matched o ∧
      o.stack.map (fun a => (a.pos, a.len)) = [(0, 0), (2, 2)] := ⟨_, rfl, rfl⟩

example : ∃ a, ({ (advance ":string:Alpha" (b! "a") 1 (newStrCtx (b! "ab"))) with qty := 1 } : Ctx).stack = [] ++ [a] ∧
    a.pos = 0 :=
  have ⟨a, h1, h2, _⟩ := C21_position_partial .alpha (c := newStrCtx (b! "ab")) (o := advance ":string:Alpha" (b! "a") 1 (newStrCtx (b! "ab"))) rfl
  ⟨a, h1, h2⟩

/-! ### C52 -/

/-- `SeqI(s)` looks at the next `len(s)` bytes; it matches iff they are equal to `s` up to case, and the AST
keeps their spelling. `orbit` is the simple case folding of non-ASCII characters (`unicode.SimpleFold`). -/
theorem C52_seqI_matches (orbit : Nat → Nat → Bool) (s w rest : Bytes) (c : Ctx) (hc : c.pos ≤ c.str.length)
    (hw : c.str.drop c.pos = w ++ rest) (hl : w.length = s.length) (h : FoldEq orbit w s) :
    seqIS orbit s c = .ok (advance ":string:SeqI" w s.length c, none) := by
  have ht : (c.str.drop c.pos).take s.length = w := by rw [hw, ← hl, List.take_left]
  have hlen : c.pos + s.length ≤ c.str.length := by
    have := congrArg List.length hw
    rw [List.length_drop, List.length_append] at this; omega
  rw [seqIS_eq, ht, if_pos ⟨hlen, (equalFold_iff orbit _ w s (by omega)).2 h⟩]; rfl

/-- Otherwise, in particular when fewer than `len(s)` bytes are left, it does not match. -/
theorem C52_seqI_unmatched (orbit : Nat → Nat → Bool) (s : Bytes) (c : Ctx) (hc : c.pos ≤ c.str.length)
    (h : ∀ w rest, c.str.drop c.pos = w ++ rest → w.length = s.length → ¬ FoldEq orbit w s) :
    seqIS orbit s c = .ok (refuse ":string:SeqI" c, none) := by
  rw [seqIS_eq, if_neg ?_]
  · rfl
  · rintro ⟨hl, he⟩
    have e : ((c.str.drop c.pos).take s.length).length = s.length := by
      rw [List.length_take, List.length_drop]; omega
    exact h _ _ (List.take_append_drop s.length _).symm e ((equalFold_iff orbit _ _ s (by omega)).1 he)

/-- For ASCII strings this is ASCII case-insensitivity. -/
theorem C52_ascii (orbit : Nat → Nat → Bool) (w s : Bytes) (hw : ∀ b ∈ w, b < 0x80) (hs : ∀ b ∈ s, b < 0x80) :
    FoldEq orbit w s ↔ w.map asciiLower = s.map asciiLower := foldEq_ascii orbit w s hw hs

/-- Equality up to case of a string with itself needs no folding. -/
theorem C52_refl (orbit : Nat → Nat → Bool) (s : Bytes) : FoldEq orbit s s := by
  generalize hn : s.length = n
  induction n using Nat.strongRecOn generalizing s with
  | _ n ih =>
    by_cases h : s = []
    · subst h; exact .nil
    · obtain ⟨ch, k, hk⟩ := nextChar_total h
      exact .cons hk hk (.inl rfl) (ih _ (by rw [← hn]; exact nextChar_drop_lt hk) _ rfl)

example (orbit : Nat → Nat → Bool) : seqIS orbit (b! "SeLect") (newStrCtx (b! "sELECT *")) =
    .ok (advance ":string:SeqI" (b! "sELECT") 6 (newStrCtx (b! "sELECT *")), none) :=
  C52_seqI_matches orbit (b! "SeLect") (b! "sELECT") (b! " *") _ (by decide) rfl rfl
    ((C52_ascii orbit _ _ (by decide) (by decide)).2 (by decide))

/-- '[' and '{' differ by the case bit but are no letters. -/
example (orbit : Nat → Nat → Bool) : ¬ FoldEq orbit (b! "[") (b! "{") := by
  rw [C52_ascii orbit _ _ (by decide) (by decide)]; decide

end Takenoco
