import Verif.Lemmas.Position
/-
C40: `GetLineAndColPosition`.
-/
namespace Takenoco
open Spec

/-- **C40.** The line and the column, both counted from 1, the offset of the line, and the shown excerpt. -/
theorem C40_position (src : Bytes) (pos : Nat) (tabSize : Nat) (ls : List (Bytes × Bytes)) (last rest tail : Bytes)
    (hpos : pos ≤ src.length) (hl : Lines (src.take pos) ls last) (hr : src.drop pos = rest ++ tail) (hrest : NoBreak rest)
    (htail : ∀ b, tail.head? = some b → b = 0x0d ∨ b = 0x0a) :
    getLineAndCol src pos tabSize =
      .ok { line := ls.length + 1, col := last.length + 1, lineIndex := pos - last.length, position := pos,
            errSource := display tabSize ls last rest } := by
  obtain ⟨hlast, hls⟩ := lines_shape hl
  have ht := lines_flatLines hl
  have hlen : (flatLines ls).length + last.length = pos := by
    have := congrArg List.length ht
    rw [List.length_take, List.length_append] at this; omega
  have hsrc : src = flatLines ls ++ last ++ (rest ++ tail) := by rw [← ht, ← hr, List.take_append_drop]
  have hcut : ∀ pre post, flatLines ls = pre ++ post → (src.take (pos + rest.length)).drop pre.length = post ++ last ++ rest := by
    intro pre post he
    have : src = pre ++ (post ++ last ++ rest) ++ tail := by rw [hsrc, he]; simp
    rw [this, List.take_append_of_le_length (by rw [he] at hlen; simp at hlen ⊢; omega)]
    have e : pos + rest.length = (pre ++ (post ++ last ++ rest)).length := by rw [he] at hlen; simp at hlen ⊢; omega
    rw [e, List.take_length, List.drop_left]
  have hguide : (((last.length + 1 : Nat) : Int) - 1 + last.count 0x09 * ((tabSize : Int) - 1)) = ((expandTabs tabSize last).length : Int) := by
    rw [expand_length]; push_cast; omega
  have hg : (if ((expandTabs tabSize last).length : Int) < 0 then 0 else ((expandTabs tabSize last).length : Int)) = (expandTabs tabSize last).length := if_neg (by omega)
  unfold getLineAndCol
  rw [if_neg (by omega), lineLoop_lines hl, hr, restOfLine_eq hrest htail]
  simp only [Nat.zero_add]
  rw [if_neg (by omega : ¬ (tabSize : Int) < 0), Nat.add_comm 1 last.length, hguide, hg]
  simp only [Int.toNat_natCast, replaceAll_expand]
  have hnb := expand_noBreak (n := tabSize) hlast
  have hnr := expand_noBreak (n := tabSize) hrest
  have hX : NoBreak (expandTabs tabSize (last ++ rest)) := by
    rw [expand_append]; intro b hb
    rcases List.mem_append.1 hb with hb | hb
    · exact hnb b hb
    · exact hnr b hb
  have hno : ∀ {s : Bytes}, NoBreak s → (0x0a : UInt8) ∉ s ∧ (0x0d : UInt8) ∉ s := fun h => ⟨fun h' => (h _ h').2 rfl, fun h' => (h _ h').1 rfl⟩
  congr 1
  rw [show 1 + ls.length = ls.length + 1 by omega, show pos - last.length = (flatLines ls).length by omega]
  congr 1
  rcases List.eq_nil_or_concat ls with rfl | ⟨init, x, rfl⟩
  · rw [if_pos rfl]
    have := hcut [] [] rfl
    simp only [List.length_nil, List.nil_append] at this
    rw [this, display]
    simp only [List.getLast?_nil, List.contains_iff_mem, (hno hX).1, (hno hX).2, if_false]
  · obtain ⟨l, b⟩ := x
    obtain ⟨h1, h2⟩ := hls (l, b) (by simp)
    have hl' := expand_noBreak (n := tabSize) h1
    have := hcut (flatLines init) (l ++ b) (by simp [flatLines])
    have e0 : ∀ m n : Nat, (if init ++ [(l, b)] = [] then m else n) = n := by simp
    rw [List.concat_eq_append, e0, List.dropLast_concat, this, display, List.getLast?_concat]
    simp only
    have hE : expandTabs tabSize (l ++ b ++ last ++ rest) = expandTabs tabSize l ++ b ++ expandTabs tabSize (last ++ rest) := by
      rw [List.append_assoc, expand_append, expand_append, expand_break h2]
    rw [hE]
    clear hE
    generalize expandTabs tabSize (last ++ rest) = X at *
    generalize expandTabs tabSize l = L at *
    have hm : ∀ c, c ∈ L ++ b ++ X ↔ c ∈ L ∨ c ∈ b ∨ c ∈ X := by simp
    rcases h2 with rfl | rfl | rfl
    · rw [if_pos (by simp), if_neg (by decide), List.append_assoc]
      have := replaceFirst_at (c := 0x0a) (r := b! "\n > | ") (s := L ++ [0x0d]) (t := X) (by simp [(hno hl').1])
      simp only [List.append_assoc, List.cons_append, List.nil_append] at this ⊢
      rw [this]; simp
    · rw [if_pos (by simp), if_neg (by decide), List.append_assoc]
      have := replaceFirst_at (c := 0x0a) (r := b! "\n > | ") (s := L) (t := X) (hno hl').1
      simp only [List.append_assoc, List.cons_append, List.nil_append] at this ⊢
      rw [this]; simp
    · rw [if_neg (by simp [(hno hl').1, (hno hX).1]), if_pos (by simp), if_pos rfl, List.append_assoc]
      have := replaceFirst_at (c := 0x0d) (r := b! "\r > | ") (s := L) (t := X) (hno hl').2
      simp only [List.append_assoc, List.cons_append, List.nil_append] at this ⊢
      rw [this]; simp

/-- C40. Any text, followed by its rest of the line, is of the required form. -/
theorem C40_rest_exists (t : Bytes) : ∃ rest tail, t = rest ++ tail ∧ NoBreak rest ∧ ∀ b, tail.head? = some b → b = 0x0d ∨ b = 0x0a := by
  induction t with
  | nil => exact ⟨[], [], rfl, by simp [NoBreak], by simp⟩
  | cons c t ih =>
    by_cases h : c = 0x0d ∨ c = 0x0a
    · exact ⟨[], c :: t, rfl, by simp [NoBreak], by simpa using h⟩
    · obtain ⟨rest, tail, h1, h2, h3⟩ := ih
      refine ⟨c :: rest, tail, by rw [h1]; rfl, ?_, h3⟩
      intro b hb
      rcases List.mem_cons.1 hb with rfl | hb
      · exact ⟨fun e => h (.inl e), fun e => h (.inr e)⟩
      · exact h2 b hb

/-- C40. Every text has lines, in exactly one way. -/
theorem C40_lines_exist (t : Bytes) : ∃ ls last, Lines t ls last ∧ ∀ ls' last', Lines t ls' last' → ls' = ls ∧ last' = last := by
  obtain ⟨ls, last, h⟩ : ∃ ls last, Lines t ls last := by
    induction hn : t.length using Nat.strongRecOn generalizing t with
    | ind n ih =>
      obtain ⟨rest, tail, h1, h2, h3⟩ := C40_rest_exists t
      subst hn
      cases tail with
      | nil => exact ⟨[], t, by rw [h1, List.append_nil]; exact .last h2⟩
      | cons c tail =>
        have hlt : tail.length < t.length := by rw [h1]; simp; omega
        by_cases hcr : c = 0x0d ∧ tail.head? = some 0x0a
        · obtain ⟨rfl, hh⟩ := hcr
          cases tail with
          | nil => cases hh
          | cons d tail =>
            obtain rfl : d = 0x0a := by simpa using hh
            obtain ⟨ls, last, h⟩ := ih tail.length (by simp at hlt; omega) tail rfl
            exact ⟨(rest, [0x0d, 0x0a]) :: ls, last, by
              rw [h1]; simpa using Lines.line h2 (.inl rfl) (by simp) h⟩
        · obtain ⟨ls, last, h⟩ := ih tail.length hlt tail rfl
          refine ⟨(rest, [c]) :: ls, last, ?_⟩
          have := Lines.line h2 (b := [c]) (by rcases h3 c rfl with rfl | rfl <;> simp [IsBreak]) (fun e hh => hcr ⟨by simpa using e, hh⟩) h
          rw [h1]; simpa using this
  refine ⟨ls, last, h, fun ls' last' h' => ?_⟩
  have split : ∀ {l l' x x' : Bytes}, NoBreak l → NoBreak l' → (∀ b, x.head? = some b → b = 0x0d ∨ b = 0x0a) → (∀ b, x'.head? = some b → b = 0x0d ∨ b = 0x0a) →
      l ++ x = l' ++ x' → l = l' ∧ x = x' := by
    intro l
    induction l with
    | nil =>
      intro l' x x' h1 h2 h3 h4 he
      cases l' with
      | nil => exact ⟨rfl, he⟩
      | cons c l' =>
        have := h3 c (by rw [List.nil_append] at he; rw [he]; rfl)
        have h5 := h2 c (by simp)
        rcases this with e | e
        · exact absurd e h5.1
        · exact absurd e h5.2
    | cons c l ih =>
      intro l' x x' h1 h2 h3 h4 he
      cases l' with
      | nil =>
        have := h4 c (by rw [List.nil_append] at he; rw [← he]; rfl)
        have h5 := h1 c (by simp)
        rcases this with e | e
        · exact absurd e h5.1
        · exact absurd e h5.2
      | cons d l' =>
        simp only [List.cons_append, List.cons.injEq] at he
        obtain ⟨h6, h7⟩ := ih (fun b hb => h1 b (by simp [hb])) (fun b hb => h2 b (by simp [hb])) h3 h4 he.2
        exact ⟨by rw [he.1, h6], h7⟩
  have hb : ∀ {b t : Bytes}, IsBreak b → ∀ c, (b ++ t).head? = some c → c = 0x0d ∨ c = 0x0a := by
    intro b t hb c hc
    rcases hb with rfl | rfl | rfl <;> simp at hc <;> simp [← hc]
  induction h generalizing ls' last' with
  | @last l hl =>
    generalize hx : l = x at h'
    cases h' with
    | last h1 => subst hx; exact ⟨rfl, rfl⟩
    | @line l' b' t' ls' last' h1 h2 h3 h4 =>
      rw [List.append_assoc] at hx
      have := (split hl h1 (x := []) (by simp) (hb h2) (by rw [List.append_nil]; exact hx)).2
      rcases h2 with rfl | rfl | rfl <;> simp at this
  | @line l b t ls last hl hbr ht hrec ih =>
    generalize hx : l ++ b ++ t = x at h'
    cases h' with
    | last h1 =>
      rw [List.append_assoc] at hx
      have := (split hl h1 (x := b ++ t) (x' := []) (hb hbr) (by simp) (by rw [List.append_nil]; exact hx)).2
      rcases hbr with rfl | rfl | rfl <;> simp at this
    | @line l' b' t' ls' last' h1 h2 h3 h4 =>
      rw [List.append_assoc, List.append_assoc] at hx
      obtain ⟨rfl, hx⟩ := split hl h1 (hb hbr) (hb h2) hx
      have : b = b' ∧ t = t' := by
        rcases hbr with rfl | rfl | rfl <;> rcases h2 with rfl | rfl | rfl <;> simp at hx ⊢
        · exact hx
        · subst hx; exact absurd rfl (h3 rfl)
        · exact hx
        · subst hx; exact absurd rfl (ht rfl)
        · exact hx
      obtain ⟨rfl, rfl⟩ := this
      obtain ⟨rfl, rfl⟩ := ih _ _ h4
      exact ⟨rfl, rfl⟩

/-- C40. The call panics for a position outside of the source, and for a negative tab size. -/
theorem C40_panics (src : Bytes) (pos : Nat) (tabSize : Int) : (∃ x, getLineAndCol src pos tabSize = .panic x) ↔ src.length < pos ∨ tabSize < 0 := by
  unfold getLineAndCol
  by_cases h : src.length < pos
  · simp [h]
  · by_cases ht : tabSize < 0
    · simp [h, ht]
    · simp [h, ht]

/-- "ab\r\n\tcd\nef" at "d": line 2, column 3. -/
example : getLineAndCol (b! "ab\r\n\tcd\nef") 6 4 =
    .ok { line := 2, col := 3, lineIndex := 4, position := 6, errSource := b! "   | ab\r\n > |     cd\n   |      ^^^^" } := by
  have : Lines (b! "ab\r\n\tc") [(b! "ab", b! "\r\n")] (b! "\tc") :=
    .line (l := b! "ab") (b := b! "\r\n") (t := b! "\tc") (by simp [NoBreak]) (.inl rfl) (by decide) (.last (by simp [NoBreak]))
  exact C40_position (b! "ab\r\n\tcd\nef") 6 4 _ _ (b! "d") (b! "\nef") (by decide) this rfl (by simp [NoBreak]) (by decide)

end Takenoco
