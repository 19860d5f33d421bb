import Verif.Props.StrTerminals
import Verif.Lemmas.Total
import Verif.Spec.CharConst
/-
`CharClass` and `CharClassN` with single characters are terminals for one character.
-/
namespace Takenoco
open Spec

theorem next_of_prefix {ch : Char} {s : Bytes} (h : utf8 ch <+: s) : NextChar s ch (utf8 ch).length := by
  obtain ⟨r, rfl⟩ := h; exact .char ch r

theorem next_cases {s : Bytes} {ch : Char} {n : Nat} (h : NextChar s ch n) (hb : ch ≠ '�') : utf8 ch <+: s ∧ n = (utf8 ch).length := by
  cases h with
  | char ch rest => exact ⟨⟨rest, rfl⟩, rfl⟩
  | bad => exact absurd rfl hb

theorem charClass_chars (cs : List Char) (hb : '�' ∉ cs) : CharTerminal (charClass (cs.map utf8)) ":string:CharClass" (· ∈ cs) := by
  intro c hc
  have other : ∀ ch n, NextChar (c.str.drop c.pos) ch n → ∀ ch', utf8 ch' <+: c.str.drop c.pos → ch' = ch := fun ch n h ch' h' =>
    (nextChar_unique (next_of_prefix h') h).1
  refine ⟨fun ch n hn hS => ?_, fun ch n hn hS => ?_, fun he => ?_⟩
  · obtain ⟨pre, post, rfl, hpre⟩ := List.eq_append_cons_of_mem hS
    obtain ⟨h1, rfl⟩ := next_cases hn fun h => hb (h ▸ hS)
    rw [List.map_append, List.map_cons]
    refine C16_charClass_matches _ _ _ c hc (fun t ht hp => ?_) h1
    obtain ⟨ch', hm, rfl⟩ := List.mem_map.1 ht
    exact hpre (other ch _ hn ch' hp ▸ hm)
  · refine C16_charClass_unmatched _ c hc fun t ht hp => ?_
    obtain ⟨ch', hm, rfl⟩ := List.mem_map.1 ht
    exact hS (other ch n hn ch' hp ▸ hm)
  · refine C16_charClass_unmatched _ c hc fun t ht hp => ?_
    obtain ⟨ch', hm, rfl⟩ := List.mem_map.1 ht
    rw [he, List.drop_length] at hp
    exact nextChar_nil (next_of_prefix hp)

theorem charClassN_chars (cs : List Char) (hb : '�' ∉ cs) : CharTerminal (charClassN (cs.map utf8)) ":string:CharClassN" (· ∉ cs) := by
  intro c hc
  obtain ⟨h1, h2, h3⟩ := C17_charClassN (cs.map utf8) c hc
  refine ⟨fun ch n hn hS => h1 ch n hn fun t ht hp => ?_, fun ch n hn hS => ?_, h3⟩
  · obtain ⟨ch', hm, rfl⟩ := List.mem_map.1 ht
    exact hS ((nextChar_unique (next_of_prefix hp) hn).1 ▸ hm)
  · have hS : ch ∈ cs := Classical.not_not.1 hS
    exact h2 (utf8 ch) (List.mem_map.2 ⟨ch, hS, rfl⟩) (next_cases hn fun h => hb (h ▸ hS)).1

theorem same_of_terminals {p q : Sem} {a b : String} {S : Char → Prop} (hp : CharTerminal p a S) (hq : CharTerminal q b S) : SameUpToClass p q a b := by
  intro c hc
  by_cases he : c.pos = c.str.length
  · exact .inr ⟨(hp c hc).2.2 he, (hq c hc).2.2 he⟩
  · obtain ⟨ch, n, hn⟩ := nextChar_total (s := c.str.drop c.pos) (by simp; omega)
    by_cases hS : S ch
    · exact .inl ⟨utf8 ch, n, (nextChar_width hn).1, (hp c hc).1 ch n hn hS, (hq c hc).1 ch n hn hS⟩
    · exact .inr ⟨(hp c hc).2.1 ch n hn hS, (hq c hc).2.1 ch n hn hS⟩

theorem complementary_of_terminals {p q : Sem} {a b : String} {S : Char → Prop} (hp : CharTerminal p a S) (hq : CharTerminal q b (¬ S ·)) :
    Complementary p q a b := by
  intro c hc
  refine ⟨fun he => ⟨(hp c hc).2.2 he, (hq c hc).2.2 he⟩, fun hlt => ?_⟩
  obtain ⟨ch, n, hn⟩ := nextChar_total (s := c.str.drop c.pos) (by simp; omega)
  refine ⟨ch, n, hn, ?_⟩
  by_cases hS : S ch
  · exact .inl ⟨(hp c hc).1 ch n hn hS, (hq c hc).2.1 ch n hn (not_not_intro hS)⟩
  · exact .inr ⟨(hp c hc).2.1 ch n hn hS, (hq c hc).1 ch n hn hS⟩

end Takenoco
