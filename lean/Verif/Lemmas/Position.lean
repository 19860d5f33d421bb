import Verif.Model.Util
import Verif.Spec.Lines
/-
The loops of `GetLineAndColPosition`.
-/
namespace Takenoco
open Spec

theorem lineLoop_plain {l : Bytes} (h : NoBreak l) (i : Nat) (st : LineState) (t : Bytes) :
    lineLoop i st (l ++ t) = lineLoop (i + l.length) { st with col := st.col + l.length, nTabs := st.nTabs + l.count 0x09 } t := by
  induction l generalizing i st with
  | nil => simp
  | cons c l ih =>
    have hc := h c (by simp)
    have hl : NoBreak l := fun b hb => h b (by simp [hb])
    rw [List.cons_append, lineLoop.eq_def]
    simp only []
    rw [if_neg hc.1, if_neg hc.2]
    split
    · rename_i h9
      rw [ih hl]; subst h9
      simp only [List.length_cons, List.count_cons_self]
      congr 1
      · omega
      · congr 1 <;> omega
    · rename_i h9
      rw [ih hl, List.count_cons_of_ne (by simpa using h9)]
      simp only [List.length_cons]
      congr 1
      · omega
      · congr 1; omega

theorem lineLoop_break {b t : Bytes} (hb : IsBreak b) (ht : b = [0x0d] → t.head? ≠ some 0x0a) (i : Nat) (st : LineState) :
    lineLoop i st (b ++ t) =
      lineLoop (i + b.length) { prevLineIndex := st.lineIndex, lineIndex := i + b.length, line := st.line + 1, col := 1, nTabs := 0 } t := by
  rcases hb with rfl | rfl | rfl
  · simp [lineLoop]
  · rw [List.singleton_append, lineLoop.eq_def]; simp
  · cases t with
    | nil => simp [lineLoop]
    | cons d t =>
      have : d ≠ 0x0a := by simpa using ht rfl
      simp [lineLoop, this]

def flatLines (ls : List (Bytes × Bytes)) : Bytes := ls.flatMap fun x => x.1 ++ x.2

theorem lines_flatLines {t last : Bytes} {ls : List (Bytes × Bytes)} (h : Lines t ls last) : t = flatLines ls ++ last := by
  induction h with
  | last _ => rfl
  | line _ _ _ _ ih => rw [ih]; simp [flatLines]

theorem lineLoop_lines {t last : Bytes} {ls : List (Bytes × Bytes)} (h : Lines t ls last) (i p n : Nat) :
    lineLoop i ⟨p, i, n, 1, 0⟩ t = ⟨if ls = [] then p else i + (flatLines ls.dropLast).length, i + (flatLines ls).length, n + ls.length, 1 + last.length, last.count 0x09⟩ := by
  induction h generalizing i p n with
  | @last l hl =>
    have := lineLoop_plain hl i ⟨p, i, n, 1, 0⟩ []
    simp only [List.append_nil] at this
    rw [this]; simp [lineLoop, flatLines]
  | @line l b t ls last hl hb ht _ ih =>
    rw [List.append_assoc, lineLoop_plain hl, lineLoop_break hb ht]
    simp only
    rw [ih]
    have e : (flatLines ((l, b) :: ls)).length = l.length + b.length + (flatLines ls).length := by simp [flatLines]; omega
    congr 1
    · cases ls with
      | nil => simp [flatLines]
      | cons x xs =>
        have : (flatLines ((l, b) :: x :: xs).dropLast).length = l.length + b.length + (flatLines (x :: xs).dropLast).length := by simp [flatLines]; omega
        simp only [reduceCtorEq, ↓reduceIte, this]; omega
    · omega
    · simp; omega

theorem restOfLine_eq {rest tail : Bytes} (h : NoBreak rest) (ht : ∀ b, tail.head? = some b → b = 0x0d ∨ b = 0x0a) :
    restOfLine (rest ++ tail) = rest.length := by
  induction rest with
  | nil =>
    cases tail with
    | nil => rfl
    | cons b t => simp [restOfLine, ht b rfl]
  | cons c rest ih =>
    have := h c (by simp)
    simp [restOfLine, this.1, this.2, ih fun b hb => h b (by simp [hb])]

theorem replaceAll_expand (n : Nat) (s : Bytes) : replaceAll 0x09 (List.replicate n 0x20) s = expandTabs n s := by
  induction s with
  | nil => rfl
  | cons c s ih => rw [expandTabs, ← ih]; simp [replaceAll]

theorem expand_append (n : Nat) (s t : Bytes) : expandTabs n (s ++ t) = expandTabs n s ++ expandTabs n t := by
  induction s with
  | nil => rfl
  | cons c s ih => simp [expandTabs, ih]

theorem expand_noBreak {n : Nat} {s : Bytes} (h : NoBreak s) : NoBreak (expandTabs n s) := by
  induction s with
  | nil => exact h
  | cons c s ih =>
    intro b hb
    rw [expandTabs, List.mem_append] at hb
    rcases hb with hb | hb
    · split at hb
      · rw [List.mem_replicate] at hb; rw [hb.2]; decide
      · simp only [List.mem_singleton] at hb; subst hb; exact h b (by simp)
    · exact ih (fun b hb => h b (by simp [hb])) b hb

theorem expand_length (n : Nat) (s : Bytes) : ((expandTabs n s).length : Int) = s.length + s.count 0x09 * ((n : Int) - 1) := by
  induction s with
  | nil => simp [expandTabs]
  | cons c s ih =>
    rw [expandTabs, List.length_append]
    split
    · rename_i h; subst h
      rw [List.count_cons_self]
      push_cast
      rw [ih, List.length_replicate, Int.add_mul]
      simp; omega
    · rename_i h
      rw [List.count_cons_of_ne (by simpa using h)]
      push_cast
      rw [ih]; simp; omega

theorem expand_break {n : Nat} {b : Bytes} (h : IsBreak b) : expandTabs n b = b := by rcases h with rfl | rfl | rfl <;> rfl

theorem replaceFirst_at {c : UInt8} {r s t : Bytes} (h : c ∉ s) : replaceFirst c r (s ++ c :: t) = s ++ r ++ t := by
  induction s with
  | nil => simp [replaceFirst]
  | cons d s ih =>
    have hd : d ≠ c := fun e => h (by simp [e])
    simp [replaceFirst, hd, ih fun h' => h (by simp [h'])]

theorem lines_shape {t last : Bytes} {ls : List (Bytes × Bytes)} (h : Lines t ls last) : NoBreak last ∧ ∀ x ∈ ls, NoBreak x.1 ∧ IsBreak x.2 := by
  induction h with
  | last hl => exact ⟨hl, by simp⟩
  | line hl hb _ _ ih =>
    refine ⟨ih.1, fun x hx => ?_⟩
    rcases List.mem_cons.1 hx with rfl | hx
    · exact ⟨hl, hb⟩
    · exact ih.2 x hx

end Takenoco
