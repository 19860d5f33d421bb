import Verif.Lemmas.Text
/-
The backward search of the word-boundary parsers on valid UTF-8.
-/
namespace Takenoco
open Spec

theorem utf8s_append (a b : List Char) : utf8s (a ++ b) = utf8s a ++ utf8s b := List.flatMap_append ..

theorem utf8s_cons (ch : Char) (t : List Char) : utf8s (ch :: t) = utf8 ch ++ utf8s t := rfl

theorem utf8s_single (ch : Char) : utf8s [ch] = utf8 ch := by simp [utf8s]

/-- The characters whose lead byte the backward search recognises: all but those starting with 0xf1, 0xf2
or 0xf4. -/
def Found (ch : Char) : Prop :=
  ch.toNat < 0x40000 ∨ (0xc0000 ≤ ch.toNat ∧ ch.toNat < 0x100000)

instance (ch : Char) : Decidable (Found ch) := by unfold Found; infer_instance

/-- Induction from the right end of a list. -/
theorem list_rev_ind {α : Type} {P : List α → Prop} (nil : P []) (snoc : ∀ l a, P l → P (l ++ [a])) (l : List α) : P l := by
  have : ∀ r : List α, P r.reverse := by
    intro r
    induction r with
    | nil => exact nil
    | cons a r ih => rw [List.reverse_cons]; exact snoc _ a ih
  have h := this l.reverse
  rwa [List.reverse_reverse] at h

/-- The first byte of a character is a lead byte for the search iff the character is `Found`; the others
never are. -/
theorem utf8_bytes (ch : Char) : ∃ b0 bs, utf8 ch = b0 :: bs ∧
    (isLeadByte b0.toNat = true ↔ Found ch) ∧ ∀ b ∈ bs, isLeadByte b.toNat = false := by
  rw [← encode_char]
  have hs := char_scalar ch
  have hs' := hs
  unfold isScalar at hs'
  unfold encodeRune Found isLeadByte
  generalize ch.toNat = v at *
  have cont : ∀ x, x < 64 → decide ((0x80 + x).toUInt8.toNat ≤ 127 ∨ 194 ≤ (0x80 + x).toUInt8.toNat ∧
      (0x80 + x).toUInt8.toNat ≤ 240 ∨ (0x80 + x).toUInt8.toNat = 243) = false := by
    intro x hx
    rw [toUInt8_toNat, Nat.mod_eq_of_lt (by omega)]
    simp; omega
  by_cases h1 : v < 0x80
  · simp only [h1, if_true]
    refine ⟨_, _, rfl, ?_, by simp⟩
    rw [toUInt8_toNat, Nat.mod_eq_of_lt (by omega), decide_eq_true_eq]
    omega
  by_cases h2 : v < 0x800
  · simp only [h1, h2, if_true, if_false]
    refine ⟨_, _, rfl, ?_, ?_⟩
    · rw [toUInt8_toNat, Nat.mod_eq_of_lt (by omega), decide_eq_true_eq]
      omega
    · intro b hb
      simp only [List.mem_cons, List.not_mem_nil, or_false] at hb
      subst hb
      exact cont _ (by omega)
  by_cases h3 : v < 0x10000
  · simp only [h1, h2, h3, hs, if_true, if_false]
    refine ⟨_, _, rfl, ?_, ?_⟩
    · rw [toUInt8_toNat, Nat.mod_eq_of_lt (by omega), decide_eq_true_eq]
      omega
    · intro b hb
      simp only [List.mem_cons, List.not_mem_nil, or_false] at hb
      rcases hb with hb | hb <;> subst hb <;> exact cont _ (by omega)
  · simp only [h1, h2, h3, hs, if_true, if_false]
    refine ⟨_, _, rfl, ?_, ?_⟩
    · rw [toUInt8_toNat, Nat.mod_eq_of_lt (by omega), decide_eq_true_eq]
      omega
    · intro b hb
      simp only [List.mem_cons, List.not_mem_nil, or_false] at hb
      rcases hb with hb | hb | hb <;> subst hb <;> exact cont _ (by omega)

theorem getD_mid (x : Bytes) (b : UInt8) (y : Bytes) : (x ++ b :: y).getD x.length 0 = b := by
  simp

theorem prevRune_skip (x cs y : Bytes) (h : ∀ b ∈ cs, isLeadByte b.toNat = false) :
    prevRune (x ++ cs ++ y) (x.length + cs.length) = prevRune (x ++ cs ++ y) x.length := by
  induction cs using list_rev_ind generalizing y with
  | nil => simp
  | snoc cs b ih =>
    have hb : isLeadByte b.toNat = false := h b (by simp)
    have hl : x.length + (cs ++ [b]).length = (x.length + cs.length) + 1 := by simp; omega
    rw [hl, prevRune]
    have hg : (x ++ (cs ++ [b]) ++ y).getD (x.length + cs.length) 0 = b := by
      have := getD_mid (x ++ cs) b y
      rw [List.length_append] at this
      rw [← this]; simp
    rw [hg, hb, if_neg (by simp)]
    have := ih (b :: y) (fun b hb => h b (by simp [hb]))
    have e : x ++ (cs ++ [b]) ++ y = x ++ cs ++ b :: y := by simp
    rw [e]; exact this

/-- What the backward search finds: the last `Found` character before the position. -/
theorem prevRune_eq (t : List Char) (rest : Bytes) :
    prevRune (utf8s t ++ rest) (utf8s t).length =
      match (t.filter fun ch => decide (Found ch)).getLast? with
      | some ch => (ch.toNat, (utf8 ch).length)
      | none => (0, 0) := by
  induction t using list_rev_ind generalizing rest with
  | nil => simp [utf8s, prevRune]
  | snoc t ch ih =>
    obtain ⟨b0, bs, hb, hlead, hcont⟩ := utf8_bytes ch
    have e : utf8s (t ++ [ch]) = utf8s t ++ [b0] ++ bs := by
      rw [utf8s_append, utf8s_single, hb]; simp
    have hl : (utf8s (t ++ [ch])).length = (utf8s t ++ [b0]).length + bs.length := by rw [e]; simp; omega
    rw [hl, e, prevRune_skip _ _ _ hcont, List.length_append, List.length_singleton, prevRune]
    have e2 : utf8s t ++ [b0] ++ bs ++ rest = utf8s t ++ b0 :: (bs ++ rest) := by simp
    rw [e2, getD_mid]
    have e3 : (utf8s t ++ b0 :: (bs ++ rest)).drop (utf8s t).length = utf8 ch ++ rest := by
      rw [List.drop_left, hb]; simp
    by_cases hf : Found ch
    · rw [if_pos (hlead.2 hf), e3, decode_utf8]
      simp [hf]
    · rw [if_neg (fun h => hf (hlead.1 h)), ih]
      simp [hf]

theorem bool_ne_iff (a b : Bool) : (a = true ∧ ¬ b = true) ∨ (¬ a = true ∧ b = true) ↔ ¬ (a = true ↔ b = true) := by
  cases a <;> cases b <;> simp

/-- What the word-boundary parsers see: characters with lead byte 0xf1, 0xf2, 0xf4 before the position do
not exist for them. -/
theorem wordBoundary_text (cls : String) (isW : Nat → Bool) (t u : List Char) (c : Ctx)
    (hs : c.str = utf8s (t ++ u)) (hp : c.pos = (utf8s t).length) :
    ((t = [] ∨ t.filter (fun ch => decide (Found ch)) ≠ []) →
      Boundary (fun ch => isW ch.toNat = true) (t.filter fun ch => decide (Found ch)) u →
      lightParser cls (wordBoundaryFn isW) c =
        .ok ({ c with len := 0, status := .matched, qty := 1, cls := cls }, none)) ∧
    ((t = [] ∨ t.filter (fun ch => decide (Found ch)) ≠ []) →
      ¬ Boundary (fun ch => isW ch.toNat = true) (t.filter fun ch => decide (Found ch)) u →
      lightParser cls (wordBoundaryFn isW) c =
        .ok ({ c with len := 0, status := .unmatched, cls := cls }, none)) ∧
    (t ≠ [] → t.filter (fun ch => decide (Found ch)) = [] →
      lightParser cls (wordBoundaryFn isW) c =
        .ok ({ c with len := 0, status := .unmatched, cls := cls }, none)) := by
  have hlen : ¬ c.str.length < c.pos := by rw [hs, hp, utf8s_append, List.length_append]; omega
  have hdrop : c.str.drop c.pos = utf8s u := by rw [hs, hp, utf8s_append, List.drop_left]
  have hpos0 : c.pos = 0 ↔ t = [] := by
    rw [hp]
    constructor
    · intro h
      cases t with
      | nil => rfl
      | cons ch t =>
        have := utf8_length_pos ch
        rw [utf8s_cons, List.length_append] at h; omega
    · rintro rfl; rfl
  have hend : c.pos = c.str.length ↔ u = [] := by
    rw [hs, hp, utf8s_append, List.length_append]
    constructor
    · intro h
      cases u with
      | nil => rfl
      | cons ch u =>
        have := utf8_length_pos ch
        rw [utf8s_cons, List.length_append] at h; omega
    · rintro rfl; rfl
  have hprev : prevRune c.str c.pos =
      match (t.filter fun ch => decide (Found ch)).getLast? with
      | some ch => (ch.toNat, (utf8 ch).length)
      | none => (0, 0) := by
    rw [hs, hp, utf8s_append]; exact prevRune_eq t _
  have hnext : decodeRune (utf8s u) = match u.head? with
      | some ch => (ch.toNat, (utf8 ch).length)
      | none => (runeError, 0) := by
    cases u with
    | nil => rfl
    | cons ch u => exact decode_utf8 ch _
  have yes : ∀ o, wordBoundaryFn isW c = .ok ({ c with len := 0, status := .matched }, none) → 
      o = ({ c with len := 0, status := .matched, qty := 1, cls := cls } : Ctx) →
      lightParser cls (wordBoundaryFn isW) c = .ok (o, none) := by
    intro o h ho; subst ho; exact light_matched _ h rfl
  have no : ∀ o, wordBoundaryFn isW c = .ok ({ c with len := 0, status := .unmatched }, none) → 
      o = ({ c with len := 0, status := .unmatched, cls := cls } : Ctx) →
      lightParser cls (wordBoundaryFn isW) c = .ok (o, none) := by
    intro o h ho; subst ho; exact light_unmatched _ h rfl
  have e : wordBoundaryFn isW c =
      if c.pos = 0 then
        if 0 < (decodeRune (utf8s u)).2 ∧ isW (decodeRune (utf8s u)).1 then
          .ok ({ c with len := 0, status := .matched }, none)
        else .ok ({ c with len := 0, status := .unmatched }, none)
      else if c.pos = c.str.length then
        if 0 < (prevRune c.str c.pos).2 ∧ isW (prevRune c.str c.pos).1 then
          .ok ({ c with len := 0, status := .matched }, none)
        else .ok ({ c with len := 0, status := .unmatched }, none)
      else if (decodeRune (utf8s u)).2 ≠ 0 ∧ (prevRune c.str c.pos).2 ≠ 0 then
        if (isW (prevRune c.str c.pos).1 ∧ ¬ isW (decodeRune (utf8s u)).1) ∨
            (¬ isW (prevRune c.str c.pos).1 ∧ isW (decodeRune (utf8s u)).1) then
          .ok ({ c with len := 0, status := .matched }, none)
        else .ok ({ c with len := 0, status := .unmatched }, none)
      else .ok ({ c with len := 0, status := .unmatched }, none) := by
    simp only [wordBoundaryFn, hlen, if_false, hdrop]
  simp only [hpos0, hend] at e
  refine ⟨fun ht hb => yes _ ?_ rfl, fun ht hb => no _ ?_ rfl, fun ht hf => no _ ?_ rfl⟩
  · rw [e]; clear e yes no
    unfold Boundary at hb
    by_cases h0 : t = []
    · subst h0
      cases u with
      | nil => simp at hb
      | cons ch u =>
        have := utf8_length_pos ch
        simp only [List.head?_cons] at hnext
        simp at hb
        rw [if_pos rfl, if_pos ⟨by rw [hnext]; exact this, by rw [hnext]; exact hb⟩]
    · rcases ht with ht | ht
      · exact absurd ht h0
      · rw [if_neg h0]
        cases hl : (t.filter fun ch => decide (Found ch)).getLast? with
        | none => exact absurd (List.getLast?_eq_none_iff.1 hl) ht
        | some p =>
          rw [hl] at hprev hb
          have hpl := utf8_length_pos p
          simp only [Option.some.injEq, exists_eq_left'] at hb
          cases u with
          | nil =>
            simp at hb
            rw [if_pos rfl, if_pos ⟨by rw [hprev]; exact hpl, by rw [hprev]; exact hb⟩]
          | cons ch u =>
            have := utf8_length_pos ch
            simp only [List.head?_cons] at hnext
            simp only [List.head?_cons, Option.some.injEq, exists_eq_left'] at hb
            rw [if_neg (by simp), if_pos (by rw [hnext, hprev]; simp only; omega), hnext, hprev,
              if_pos ((bool_ne_iff _ _).2 hb)]
  · rw [e]; clear e yes no
    unfold Boundary at hb
    by_cases h0 : t = []
    · subst h0
      cases u with
      | nil => simp [hnext]
      | cons ch u =>
        have := utf8_length_pos ch
        simp only [List.head?_cons] at hnext
        simp at hb
        simp [hnext, hb]
    · rcases ht with ht | ht
      · exact absurd ht h0
      · rw [if_neg h0]
        cases hl : (t.filter fun ch => decide (Found ch)).getLast? with
        | none => exact absurd (List.getLast?_eq_none_iff.1 hl) ht
        | some p =>
          rw [hl] at hprev hb
          have hpl := utf8_length_pos p
          simp only [Option.some.injEq, exists_eq_left'] at hb
          cases u with
          | nil =>
            simp at hb
            simp [hprev, hb]
          | cons ch u =>
            have := utf8_length_pos ch
            simp only [List.head?_cons] at hnext
            simp only [List.head?_cons, Option.some.injEq, exists_eq_left'] at hb
            rw [if_neg (by simp), if_pos (by rw [hnext, hprev]; simp only; omega), hnext, hprev,
              if_neg (fun h => hb ((bool_ne_iff _ _).1 h))]
  · rw [e]; clear e yes no
    rw [hf] at hprev
    simp only [List.getLast?_nil] at hprev
    simp [ht, hprev]

theorem lastFound {t : List Char} (hf : ∀ ch, t.getLast? = some ch → Found ch) :
    (t = [] ∨ t.filter (fun ch => decide (Found ch)) ≠ []) ∧
      (t.filter fun ch => decide (Found ch)).getLast? = t.getLast? := by
  induction t using list_rev_ind with
  | nil => exact ⟨.inl rfl, rfl⟩
  | snoc t ch _ =>
    have h : Found ch := hf ch (by simp)
    simp [h]

end Takenoco
