import Verif.Lemmas.CsvParse
import Verif.Lemmas.Bytes
import Verif.Props.StrTerminals
/-
Parsers that take one character of a set, for `UnicodeIdentifierStr`.
-/
namespace Takenoco
open Spec

/-- Takes one character of `S`. -/
def CharLike (p : Sem) (S : Char → Prop) : Prop :=
  (∀ pre w rest ch, NextChar (w ++ rest) ch w.length → S ch → Hits p pre w rest (Texts · [utf8 ch])) ∧
  (∀ pre s, NotNext S s → Misses p pre s)

section
variable {env : Env}

theorem CharLike.of {p : Sem} {cls : String} {S : Char → Prop} (h : CharTerminal p cls S) : CharLike (den env (.prim p)) S :=
  ⟨fun _ _ _ _ hn hS => (charTerminal_hits h hn hS).mono fun _ hl => hl.text, fun _ _ hs => charTerminal_misses h hs⟩

theorem CharLike.first2 {g h : Gram} {S T : Char → Prop} (hg : CharLike (den env g) S) (hh : CharLike (den env h) T) :
    CharLike (den env (.first [g, h])) (fun ch => S ch ∨ T ch) := by
  constructor
  · intro pre w rest ch hn hS
    by_cases h1 : S ch
    · exact first_hits (gs := [g, h]) (.here (hg.1 _ _ _ _ hn h1))
    · refine first_hits (gs := [g, h]) (.there (hg.2 _ _ fun ch' n' hn' => ?_) (.here (hh.1 _ _ _ _ hn (hS.resolve_left h1))))
      rw [← (nextChar_unique hn hn').1]; exact h1
  · intro pre s hs
    refine first_misses (by simp) fun x hx => ?_
    simp only [List.mem_cons, List.not_mem_nil, or_false] at hx
    obtain rfl | rfl := hx
    · exact hg.2 _ _ fun ch n hn h1 => hs ch n hn (.inl h1)
    · exact hh.2 _ _ fun ch n hn h1 => hs ch n hn (.inr h1)

theorem CharLike.iter {g : Gram} {S : Char → Prop} (hp : CharLike (den env g) S) {s w rest : Bytes} {t : List Char}
    (h : CharRun S s w t rest) (pre : Bytes) :
    ∃ Q, Iter [den env g] t.length pre w rest Q ∧ ∀ l, Q l → Texts l (t.map utf8) := by
  induction h generalizing pre with
  | stop h => exact ⟨_, .stop (.head (hp.2 _ _ h)), fun l hl => nil_texts hl⟩
  | @next s w rest t ch n h1 h2 h3 ih =>
    obtain ⟨Q, h4, h5⟩ := ih (pre ++ s.take n)
    have hl : (s.take n).length = n := by rw [List.length_take]; have := nextChar_le h1; omega
    have he : s.take n ++ (w ++ rest) = s := by rw [← charRun_eq h3, List.take_append_drop]
    refine ⟨_, .next (.single (hp.1 _ _ _ ch (by rw [he, hl]; exact h1) h2)) h4, fun l hl => ?_⟩
    obtain ⟨x, y, rfl, h6, h7⟩ := hl
    exact texts_append h6 (h5 y h7)

theorem CharLike.star {g : Gram} {S : Char → Prop} (hp : CharLike (den env g) S) {s w rest : Bytes} {t : List Char}
    (h : CharRun S s w t rest) (pre : Bytes) : Hits (den env (Gram.star [g])) pre w rest (Texts · (t.map utf8)) := by
  obtain ⟨Q, h1, h2⟩ := hp.iter h pre
  exact (star_hits (gs := [g]) h1).mono h2

theorem charLike_class {bs : List UInt8} (hbs : ∀ b ∈ bs, b < 0x80) :
    CharLike (den env (.prim (charClass (bs.map fun b => [b])))) (fun ch => ∃ b ∈ bs, ch.toNat = b.toNat) := by
  have h := byteLike_class (env := env) bs
  constructor
  · rintro pre w rest ch hn ⟨b, hb, he⟩
    have hu := utf8_ascii (hbs b hb) he
    have hw : w = [b] := by
      generalize hs : w ++ rest = s at hn
      generalize hm : w.length = m at hn
      cases hn with
      | char ch rest' =>
        rw [hu] at hs hm
        match w, hm with
        | [x], _ => simp only [List.cons_append, List.nil_append, List.cons.injEq] at hs; rw [hs.1]
      | bad =>
        have := hbs b hb
        have h2 : (0xfffd : Nat) = b.toNat := he
        have := b.toNat_lt
        omega
    rw [hw, hu]
    exact h.1 pre b rest (by simpa using hb)
  · intro pre s hs
    refine h.2 pre s fun b s' e => ?_
    subst e
    rw [Bool.eq_false_iff]
    intro hb
    have hb : b ∈ bs := by simpa using hb
    obtain ⟨ch, h1, _, h3⟩ := nextChar_of_ascii s' (hbs b hb)
    exact hs ch 1 h3 ⟨b, hb, h1⟩

theorem CharLike.congr {p : Sem} {S T : Char → Prop} (h : CharLike p S) (hST : ∀ ch, S ch ↔ T ch) : CharLike p T := by
  have : S = T := funext fun ch => propext (hST ch)
  rwa [← this]

end
end Takenoco
