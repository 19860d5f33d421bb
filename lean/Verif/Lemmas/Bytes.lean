import Verif.Lemmas.Logic
/-
Parsers that look at one ASCII character, and their repetitions.
-/
namespace Takenoco
open Spec

theorem nextChar_ascii {b : UInt8} {s : Bytes} {ch : Char} {n : Nat} (hb : b < 0x80) (h : NextChar (b :: s) ch n) :
    ch.toNat = b.toNat ∧ n = 1 := by
  have h := (nextChar_decode h).2
  have hlt : b.toNat < 0x80 := by simpa using UInt8.lt_iff_toNat_lt.1 hb
  have : decodeRune (b :: s) = (b.toNat, 1) := by unfold decodeRune; simp [hlt]
  rw [this] at h
  exact ⟨(congrArg Prod.fst h).symm, (congrArg Prod.snd h).symm⟩

theorem utf8_ascii {ch : Char} {b : UInt8} (hb : b < 0x80) (h : ch.toNat = b.toNat) : utf8 ch = [b] := by
  rw [← encode_char, h]
  have : b.toNat < 0x80 := by simpa using UInt8.lt_iff_toNat_lt.1 hb
  unfold encodeRune
  simp [this]

theorem nextChar_of_ascii {b : UInt8} (s : Bytes) (hb : b < 0x80) : ∃ ch : Char, ch.toNat = b.toNat ∧ utf8 ch = [b] ∧ NextChar (b :: s) ch 1 := by
  obtain ⟨ch, n, h⟩ := nextChar_total (s := b :: s) (by simp)
  obtain ⟨h1, rfl⟩ := nextChar_ascii hb h
  exact ⟨ch, h1, utf8_ascii hb h1, h⟩

theorem nextChar_nonascii {b : UInt8} {s : Bytes} {ch : Char} {n : Nat} (hb : ¬ b < 0x80) (h : NextChar (b :: s) ch n) : 0x80 ≤ ch.toNat := by
  apply Classical.byContradiction
  intro hlt
  generalize hs : b :: s = s' at h
  cases h with
  | char ch rest =>
    have : utf8 ch = [UInt8.ofNat ch.toNat] := by
      apply utf8_ascii
      · rw [UInt8.lt_iff_toNat_lt]; simp; omega
      · simp; omega
    rw [this] at hs
    cases hs
    apply hb
    rw [UInt8.lt_iff_toNat_lt]; simp; omega
  | bad => exact hlt (by decide)

/-- The parser looks at one byte: it consumes a byte in `B` and pushes string ASTs with the values `f`; it is unmatched
otherwise. -/
def ByteLike (p : Sem) (B : UInt8 → Bool) (f : UInt8 → List Bytes) : Prop :=
  (∀ pre b s, B b = true → Hits p pre [b] s (Texts · (f b))) ∧ (∀ pre s, (∀ b s', s = b :: s' → B b = false) → Misses p pre s)

section
variable {env : Env}

theorem byteLike_char {p : Sem} {cls : String} {S : Char → Prop} (h : CharTerminal p cls S) (B : UInt8 → Bool)
    (hB : ∀ b, B b = true → b < 0x80) (hS : ∀ ch b, ch.toNat = b.toNat → b < 0x80 → (S ch ↔ B b = true)) (hn : ∀ ch, 0x80 ≤ ch.toNat → ¬ S ch) :
    ByteLike (den env (.prim p)) B (fun b => [[b]]) := by
  constructor
  · intro pre b s hb
    obtain ⟨ch, h1, h2, h3⟩ := nextChar_of_ascii s (hB b hb)
    have := charTerminal_hits (env := env) h (pre := pre) (w := [b]) (rest := s) h3 ((hS ch b h1 (hB b hb)).2 hb)
    rw [h2] at this
    exact this.mono fun l hl => hl.text
  · intro pre s hs
    refine charTerminal_misses h fun ch n hch hSc => ?_
    cases s with
    | nil => exact (nextChar_decode hch).1 rfl
    | cons b s' =>
      by_cases hb : b < 0x80
      · obtain ⟨h1, _⟩ := nextChar_ascii hb hch
        exact absurd (hs b s' rfl) (by simpa using (hS ch b h1 hb).1 hSc)
      · exact hn ch (nextChar_nonascii hb hch) hSc

theorem byteLike_class (bs : List UInt8) : ByteLike (den env (.prim (charClass (bs.map fun b => [b])))) (fun b => bs.contains b) (fun b => [[b]]) := by
  constructor
  · intro pre b s hb
    replace hb : b ∈ bs := by simpa using hb
    have : ∃ a c, bs = a ++ b :: c ∧ b ∉ a := by
      induction bs with
      | nil => simp at hb
      | cons x xs ih =>
        by_cases hx : x = b
        · subst hx; exact ⟨[], xs, rfl, by simp⟩
        · obtain ⟨a, c, h3, h4⟩ := ih ((List.mem_cons.1 hb).resolve_left fun h => hx h.symm)
          exact ⟨x :: a, c, by rw [h3]; rfl, by simpa using ⟨fun h => hx h.symm, h4⟩⟩
    obtain ⟨a, c, h3, h4⟩ := this
    refine (charClass_hits (cc1 := a.map fun b => [b]) (cc2 := c.map fun b => [b]) (by rw [h3]; simp) ?_).mono fun l hl => hl.text
    intro x hx hp
    obtain ⟨y, hy, rfl⟩ := List.mem_map.1 hx
    obtain ⟨t, ht⟩ := hp
    cases ht
    exact h4 hy
  · intro pre s hs
    refine charClass_misses fun x hx hp => ?_
    obtain ⟨y, hy, rfl⟩ := List.mem_map.1 hx
    obtain ⟨t, ht⟩ := hp
    have := hs y t ht.symm
    simp [hy] at this

theorem byteLike_erased {g : Gram} {B : UInt8 → Bool} {f : UInt8 → List Bytes} (h : ByteLike (den env g) B f) :
    ByteLike (den env (Gram.erased g)) B (fun _ => []) :=
  ⟨fun pre b s hb => (erased_hits (h.1 pre b s hb)).mono fun _ hl => nil_texts hl, fun pre s hs => erased_misses (h.2 pre s hs)⟩

/-- An ordered choice between such parsers. -/
def ByteChoice : List Sem → (UInt8 → Bool) → (UInt8 → List Bytes) → Prop
  | [], B, _ => ∀ b, B b = false
  | p :: ps, B, f => ∃ B1 B2 f1 f2, ByteLike p B1 f1 ∧ ByteChoice ps B2 f2 ∧ (∀ b, B b = (B1 b || B2 b)) ∧
      (∀ b, f b = if B1 b then f1 b else f2 b)

theorem byteChoice_hits {ps : List Sem} {B : UInt8 → Bool} {f : UInt8 → List Bytes} (h : ByteChoice ps B f) (pre : Bytes) (b : UInt8) (s : Bytes)
    (hb : B b = true) : OneHits ps pre [b] s (Texts · (f b)) := by
  induction ps generalizing B f with
  | nil => rw [h b] at hb; cases hb
  | cons p ps ih =>
    obtain ⟨B1, B2, f1, f2, h1, h2, h3, h4⟩ := h
    by_cases h5 : B1 b = true
    · rw [h4 b, if_pos h5]; exact .here (h1.1 pre b s h5)
    · rw [h4 b, if_neg h5]
      refine .there (h1.2 pre _ fun b' s' he => ?_) (ih h2 ?_)
      · cases he; simpa using h5
      · rw [h3 b] at hb; simpa [h5] using hb

theorem byteChoice_misses {ps : List Sem} {B : UInt8 → Bool} {f : UInt8 → List Bytes} (h : ByteChoice ps B f) (pre s : Bytes)
    (hs : ∀ b s', s = b :: s' → B b = false) : ∀ p ∈ ps, Misses p pre s := by
  induction ps generalizing B f with
  | nil => intro p hp; cases hp
  | cons p ps ih =>
    obtain ⟨B1, B2, f1, f2, h1, h2, h3, h4⟩ := h
    intro q hq
    rcases List.mem_cons.1 hq with rfl | hq
    · refine h1.2 pre s fun b s' he => ?_
      have := hs b s' he
      rw [h3 b] at this
      simp at this; exact this.1
    · refine ih h2 (fun b s' he => ?_) q hq
      have := hs b s' he
      rw [h3 b] at this
      simp at this; exact this.2

theorem byteLike_first {gs : List Gram} {B : UInt8 → Bool} {f : UInt8 → List Bytes} (hne : gs ≠ []) (h : ByteChoice (gs.map (den env)) B f) :
    ByteLike (den env (.first gs)) B f :=
  ⟨fun pre b s hb => first_hits (byteChoice_hits h pre b s hb), fun pre s hs => first_misses hne fun g hg =>
    byteChoice_misses h pre s hs _ (List.mem_map.2 ⟨g, hg, rfl⟩)⟩

theorem ByteLike.congr {p : Sem} {B B' : UInt8 → Bool} {f f' : UInt8 → List Bytes} (h : ByteLike p B f) (hB : ∀ b, B b = B' b)
    (hf : ∀ b, B b = true → f b = f' b) : ByteLike p B' f' := by
  have : B = B' := funext hB
  subst this
  exact ⟨fun pre b s hb => hf b hb ▸ h.1 pre b s hb, h.2⟩

theorem byteLike_iter {p : Sem} {B : UInt8 → Bool} {f : UInt8 → List Bytes} (h : ByteLike p B f) (pre s : Bytes) :
    ∃ Q, Iter [p] (s.takeWhile B).length pre (s.takeWhile B) (s.dropWhile B) Q ∧ ∀ l, Q l → Texts l ((s.takeWhile B).flatMap f) := by
  induction s generalizing pre with
  | nil => exact ⟨_, .stop (.head (h.2 pre [] fun _ _ he => by cases he)), fun l hl => nil_texts hl⟩
  | cons b s ih =>
    by_cases hb : B b = true
    · obtain ⟨Q, h1, h2⟩ := ih (pre ++ [b])
      rw [List.takeWhile_cons_of_pos hb, List.dropWhile_cons_of_pos hb]
      refine ⟨_, .next (w1 := [b]) (.single (h.1 pre b _ hb)) h1, fun l hl => ?_⟩
      obtain ⟨x, y, rfl, h3, h4⟩ := hl
      exact texts_append h3 (h2 y h4)
    · rw [List.takeWhile_cons_of_neg (by simpa using hb), List.dropWhile_cons_of_neg (by simpa using hb)]
      exact ⟨_, .stop (.head (h.2 pre _ fun b' s' he => by cases he; simpa using hb)), fun l hl => nil_texts hl⟩

theorem byteLike_star {g : Gram} {B : UInt8 → Bool} {f : UInt8 → List Bytes} (h : ByteLike (den env g) B f) (pre s : Bytes) :
    Hits (den env (Gram.star [g])) pre (s.takeWhile B) (s.dropWhile B) (Texts · ((s.takeWhile B).flatMap f)) := by
  obtain ⟨Q, h1, h2⟩ := byteLike_iter h pre s
  exact (star_hits (gs := [g]) h1).mono h2

end
end Takenoco
