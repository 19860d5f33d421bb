import Verif.Lemmas.Logic
import Verif.Lemmas.SeqI
import Verif.Spec.Identifier
/-
Repetitions of terminals for one character.
-/
namespace Takenoco
open Spec

theorem nextChar_le {s : Bytes} {ch : Char} {n : Nat} (h : NextChar s ch n) : n ≤ s.length := by
  cases h with
  | char ch rest => simp only [List.length_append]; omega
  | bad h _ =>
    cases s with
    | nil => exact absurd rfl h
    | cons b s => simp

theorem nextChar_nil {ch : Char} {n : Nat} (h : NextChar [] ch n) : False := by
  have := nextChar_drop_lt h; simp at this

theorem charRun_eq {S : Char → Prop} {s w rest : Bytes} {t : List Char} (h : CharRun S s w t rest) : s = w ++ rest := by
  induction h with
  | stop => rfl
  | @next s w rest t ch n _ _ _ ih => rw [List.append_assoc, ← ih, List.take_append_drop]

theorem charRun_total (S : Char → Prop) (s : Bytes) : ∃ w t rest, CharRun S s w t rest := by
  by_cases h : ∃ ch n, NextChar s ch n ∧ S ch
  · obtain ⟨ch, n, h1, h2⟩ := h
    have := nextChar_drop_lt h1
    obtain ⟨w, t, rest, h3⟩ := charRun_total S (s.drop n)
    exact ⟨_, _, _, .next h1 h2 h3⟩
  · exact ⟨[], [], s, .stop fun ch n h1 h2 => h ⟨ch, n, h1, h2⟩⟩
termination_by s.length
decreasing_by assumption

section
variable {env : Env}

theorem charRun_iter {p : Sem} {cls : String} {S : Char → Prop} (hp : CharTerminal p cls S) {s w rest : Bytes} {t : List Char}
    (h : CharRun S s w t rest) (pre : Bytes) :
    ∃ Q, Iter [den env (.prim p)] t.length pre w rest Q ∧ ∀ l, Q l → Texts l (t.map utf8) := by
  induction h generalizing pre with
  | stop h => exact ⟨_, .stop (.head (charTerminal_misses hp h)), fun l hl => nil_texts hl⟩
  | @next s w rest t ch n h1 h2 h3 ih =>
    obtain ⟨Q, h4, h5⟩ := ih (pre ++ s.take n)
    have hl : (s.take n).length = n := by rw [List.length_take]; have := nextChar_le h1; omega
    have he : s.take n ++ (w ++ rest) = s := by rw [← charRun_eq h3, List.take_append_drop]
    refine ⟨_, .next (.single (charTerminal_hits hp (ch := ch) (by rw [he, hl]; exact h1) h2)) h4, fun l hl => ?_⟩
    obtain ⟨x, y, rfl, h6, h7⟩ := hl
    exact texts_append h6.text (h5 y h7)

theorem charRun_star {p : Sem} {cls : String} {S : Char → Prop} (hp : CharTerminal p cls S) {s w rest : Bytes} {t : List Char}
    (h : CharRun S s w t rest) (pre : Bytes) : Hits (den env (Gram.star [.prim p])) pre w rest (Texts · (t.map utf8)) := by
  obtain ⟨Q, h1, h2⟩ := charRun_iter (env := env) hp h pre
  exact (star_hits (gs := [.prim p]) h1).mono h2

theorem reads_charRun {s : Bytes} {t : List Char} (h : Reads s t) : CharRun (fun _ => True) s s t [] := by
  induction h with
  | nil => exact .stop fun ch n h => (nextChar_nil h).elim
  | @cons s ch n t h1 _ ih =>
    have := CharRun.next (S := fun _ => True) h1 trivial ih
    rwa [List.take_append_drop] at this

theorem reads_total (s : Bytes) : ∃ t, Reads s t := by
  by_cases hs : s = []
  · subst hs; exact ⟨[], .nil⟩
  · obtain ⟨ch, n, h⟩ := nextChar_total hs
    have := nextChar_drop_lt h
    obtain ⟨t, ht⟩ := reads_total (s.drop n)
    exact ⟨_, .cons h ht⟩
termination_by s.length
decreasing_by assumption

theorem reads_unique {s : Bytes} {t u : List Char} (h : Reads s t) (h' : Reads s u) : t = u := by
  induction h generalizing u with
  | nil =>
    cases h' with
    | nil => rfl
    | cons h _ => exact (nextChar_nil h).elim
  | @cons s ch n t h1 _ ih =>
    cases h' with
    | nil => exact (nextChar_nil h1).elim
    | cons h2 h3 =>
      obtain ⟨rfl, rfl⟩ := nextChar_unique h1 h2
      rw [ih h3]

theorem reads_utf8s (t : List Char) : Reads (utf8s t) t := by
  induction t with
  | nil => exact .nil
  | cons ch t ih =>
    have h1 : NextChar (utf8s (ch :: t)) ch (utf8 ch).length := .char ch (utf8s t)
    refine .cons h1 ?_
    have : (utf8s (ch :: t)).drop (utf8 ch).length = utf8s t := by
      show (utf8 ch ++ utf8s t).drop (utf8 ch).length = _
      rw [List.drop_left]
    rw [this]; exact ih

end
end Takenoco
