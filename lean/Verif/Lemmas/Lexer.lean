import Verif.Lemmas.Bytes
/-
Parsers that are described by a function giving the length of what they consume, the value being the consumed text
without underscores.
-/
namespace Takenoco
open Spec

abbrev Lex := Bytes → Option Nat

namespace Lex
/-- One after the other. -/
def seq (L M : Lex) : Lex := fun s => match L s with
  | none => none
  | some n => (M (s.drop n)).map (n + ·)
/-- The first that matches. -/
def alt (L M : Lex) : Lex := fun s => match L s with
  | none => M s
  | some n => some n
/-- At most once. -/
def opt (L : Lex) : Lex := fun s => match L s with
  | none => some 0
  | some n => some n
/-- One byte of a set. -/
def byte (B : UInt8 → Bool) : Lex := fun s => match s with
  | [] => none
  | b :: _ => if B b then some 1 else none
/-- As many bytes of a set as possible. -/
def run (B : UInt8 → Bool) : Lex := fun s => some (s.takeWhile B).length
/-- As many bytes of a set as possible, at least one. -/
def run1 (B : UInt8 → Bool) : Lex := fun s => match s with
  | [] => none
  | b :: s => if B b then some (s.takeWhile B).length.succ else none
end Lex

/-- The text without underscores. -/
def noUnderscore (w : Bytes) : Bytes := w.filter fun b => b != 0x5f

/-- String ASTs that make up this text. -/
def Pieces (w : Bytes) : List Ast → Prop := fun l => ∃ vs, Texts l vs ∧ vs.flatten = w

def Lexes (p : Sem) (L : Lex) : Prop :=
  ∀ pre s, (∀ n, L s = some n → n ≤ s.length ∧ Hits p pre (s.take n) (s.drop n) (Pieces (noUnderscore (s.take n)))) ∧ (L s = none → Misses p pre s)

def LexesSeq (ps : List Sem) (L : Lex) : Prop :=
  ∀ pre s, (∀ n, L s = some n → n ≤ s.length ∧ SeqHits ps pre (s.take n) (s.drop n) (Pieces (noUnderscore (s.take n)))) ∧ (L s = none → SeqMisses ps pre s)

theorem pieces_append {v w : Bytes} {l : List Ast} (h : Both (Pieces v) (Pieces w) l) : Pieces (v ++ w) l := by
  obtain ⟨a, b, rfl, ⟨vs, h1, h2⟩, ws, h3, h4⟩ := h
  exact ⟨vs ++ ws, texts_append h1 h3, by rw [List.flatten_append, h2, h4]⟩

theorem pieces_nil {l : List Ast} (h : l = []) : Pieces [] l := ⟨[], nil_texts h, rfl⟩

section
variable {env : Env}

theorem take_add_drop (s : Bytes) (n m : Nat) : s.take (n + m) = s.take n ++ (s.drop n).take m := List.take_add

theorem lexesSeq_single {p : Sem} {L : Lex} (h : Lexes p L) : LexesSeq [p] L := fun pre s =>
  ⟨fun n hn => ⟨((h pre s).1 n hn).1, .single ((h pre s).1 n hn).2⟩, fun hn => .head ((h pre s).2 hn)⟩

theorem lexesSeq_cons {p : Sem} {ps : List Sem} {L M : Lex} (h : Lexes p L) (hs : LexesSeq ps M) : LexesSeq (p :: ps) (Lex.seq L M) := by
  intro pre s
  unfold Lex.seq
  cases hL : L s with
  | none => exact ⟨fun n hn => by simp at hn, fun _ => .head ((h pre s).2 hL)⟩
  | some n =>
    obtain ⟨h1, h2⟩ := (h pre s).1 n hL
    simp only
    cases hM : M (s.drop n) with
    | none =>
      refine ⟨fun n hn => by simp at hn, fun _ => ?_⟩
      have := SeqMisses.tail h2 ((hs (pre ++ s.take n) (s.drop n)).2 hM)
      rwa [List.take_append_drop] at this
    | some m =>
      obtain ⟨h3, h4⟩ := (hs (pre ++ s.take n) (s.drop n)).1 m hM
      refine ⟨fun k hk => ?_, fun hk => by simp at hk⟩
      simp at hk; subst hk
      refine ⟨by simp at h3; omega, ?_⟩
      rw [take_add_drop, ← List.drop_drop]
      refine (SeqHits.cons (by rw [List.take_append_drop]; exact h2) h4).mono fun l hl => ?_
      unfold noUnderscore at hl ⊢
      rw [List.filter_append]
      exact pieces_append hl

theorem lexes_flat {gs : List Gram} {L : Lex} (h : LexesSeq (gs.map (den env)) L) : Lexes (den env (.flatGroup gs)) L := fun pre s =>
  ⟨fun n hn => ⟨((h pre s).1 n hn).1, flat_hits ((h pre s).1 n hn).2⟩, fun hn => flat_misses ((h pre s).2 hn)⟩

theorem lexes_opt {gs : List Gram} {L : Lex} (h : LexesSeq (gs.map (den env)) L) : Lexes (den env (Gram.opt gs)) L.opt := by
  intro pre s
  unfold Lex.opt
  cases hL : L s with
  | none =>
    refine ⟨fun n hn => ?_, fun hn => by cases hn⟩
    cases hn
    exact ⟨by omega, (opt_skips ((h pre s).2 hL)).mono fun l hl => pieces_nil hl⟩
  | some n =>
    refine ⟨fun k hk => ?_, fun hn => by cases hn⟩
    cases hk
    exact ⟨((h pre s).1 n hL).1, opt_hits ((h pre s).1 n hL).2⟩

/-- Ordered choice. -/
def LexesAlt : List Sem → Lex → Prop
  | [], L => ∀ s, L s = none
  | p :: ps, L => ∃ L1 L2, Lexes p L1 ∧ LexesAlt ps L2 ∧ ∀ s, L s = Lex.alt L1 L2 s

theorem lexesAlt_hits {ps : List Sem} {L : Lex} (h : LexesAlt ps L) (pre s : Bytes) :
    (∀ n, L s = some n → n ≤ s.length ∧ OneHits ps pre (s.take n) (s.drop n) (Pieces (noUnderscore (s.take n)))) ∧
    (L s = none → ∀ p ∈ ps, Misses p pre s) := by
  induction ps generalizing L with
  | nil => exact ⟨fun n hn => (by rw [h s] at hn; cases hn), fun _ p hp => by cases hp⟩
  | cons p ps ih =>
    obtain ⟨L1, L2, h1, h2, h3⟩ := h
    rw [h3 s]
    unfold Lex.alt
    cases hL : L1 s with
    | none =>
      refine ⟨fun n hn => ⟨((ih h2).1 n hn).1, .there ?_ ((ih h2).1 n hn).2⟩, fun hn q hq => ?_⟩
      · rw [List.take_append_drop]; exact (h1 pre s).2 hL
      · rcases List.mem_cons.1 hq with rfl | hq
        · exact (h1 pre s).2 hL
        · exact (ih h2).2 hn q hq
    | some n =>
      refine ⟨fun k hk => ?_, fun hn => by cases hn⟩
      cases hk
      exact ⟨((h1 pre s).1 n hL).1, .here ((h1 pre s).1 n hL).2⟩

theorem lexes_first {gs : List Gram} {L : Lex} (hne : gs ≠ []) (h : LexesAlt (gs.map (den env)) L) : Lexes (den env (.first gs)) L := fun pre s =>
  ⟨fun n hn => ⟨((lexesAlt_hits h pre s).1 n hn).1, first_hits ((lexesAlt_hits h pre s).1 n hn).2⟩, fun hn => first_misses hne fun g hg =>
    (lexesAlt_hits h pre s).2 hn _ (List.mem_map.2 ⟨g, hg, rfl⟩)⟩

theorem lexesAlt_nil : LexesAlt [] (fun _ => none) := fun _ => rfl
theorem lexesAlt_cons {p : Sem} {ps : List Sem} {L1 L2 : Lex} (h1 : Lexes p L1) (h2 : LexesAlt ps L2) : LexesAlt (p :: ps) (Lex.alt L1 L2) :=
  ⟨L1, L2, h1, h2, fun _ => rfl⟩
theorem lexesAlt_single {p : Sem} {L1 : Lex} (h1 : Lexes p L1) : LexesAlt [p] L1 :=
  ⟨L1, _, h1, lexesAlt_nil, fun s => by unfold Lex.alt; cases L1 s <;> rfl⟩

/-- The values of one byte: the byte, or nothing for an underscore. -/
def byteVal (b : UInt8) : List Bytes := if b = 0x5f then [] else [[b]]

theorem byteVal_flatten (b : UInt8) : (byteVal b).flatten = noUnderscore [b] := by
  unfold byteVal noUnderscore
  by_cases h : b = 0x5f
  · simp [h]
  · simp [h]

theorem flatMap_byteVal (w : Bytes) : (w.flatMap byteVal).flatten = noUnderscore w := by
  induction w with
  | nil => rfl
  | cons b w ih =>
    rw [List.flatMap_cons, List.flatten_append, ih, byteVal_flatten]
    unfold noUnderscore
    rw [← List.filter_append]; rfl

theorem lexes_byte {p : Sem} {B : UInt8 → Bool} (h : ByteLike p B byteVal) : Lexes p (Lex.byte B) := by
  intro pre s
  cases s with
  | nil => exact ⟨fun n hn => (by cases hn), fun _ => h.2 pre [] fun _ _ he => by cases he⟩
  | cons b s =>
    unfold Lex.byte
    by_cases hb : B b = true
    · simp only [hb, if_true]
      refine ⟨fun n hn => ?_, fun hn => by cases hn⟩
      cases hn
      exact ⟨by simp, (h.1 pre b s hb).mono fun l hl => ⟨_, hl, byteVal_flatten b⟩⟩
    · simp only [hb]
      exact ⟨fun n hn => (by cases hn), fun _ => h.2 pre _ fun b' s' he => by cases he; simpa using hb⟩

theorem take_takeWhile (s : Bytes) (B : UInt8 → Bool) : s.take (s.takeWhile B).length = s.takeWhile B :=
  (List.prefix_iff_eq_take.1 (List.takeWhile_prefix B)).symm

theorem drop_takeWhile (s : Bytes) (B : UInt8 → Bool) : s.drop (s.takeWhile B).length = s.dropWhile B := by
  have := List.takeWhile_append_dropWhile (p := B) (l := s)
  have h2 := List.drop_left (l₁ := s.takeWhile B) (l₂ := s.dropWhile B)
  rwa [this] at h2

theorem takeWhile_length_le (s : Bytes) (B : UInt8 → Bool) : (s.takeWhile B).length ≤ s.length :=
  (List.takeWhile_prefix B).length_le

theorem lexes_star {g : Gram} {B : UInt8 → Bool} (h : ByteLike (den env g) B byteVal) : Lexes (den env (Gram.star [g])) (Lex.run B) := by
  intro pre s
  refine ⟨fun n hn => ?_, fun hn => by cases hn⟩
  cases hn
  rw [take_takeWhile, drop_takeWhile]
  exact ⟨takeWhile_length_le s B, (byteLike_star h pre s).mono fun l hl => ⟨_, hl, flatMap_byteVal _⟩⟩

theorem lexes_plus {g : Gram} {B : UInt8 → Bool} (h : ByteLike (den env g) B byteVal) : Lexes (den env (Gram.plus [g])) (Lex.run1 B) := by
  intro pre s
  cases s with
  | nil => exact ⟨fun n hn => (by cases hn), fun _ => plus_misses (gs := [g]) (.head (h.2 pre [] fun _ _ he => by cases he))⟩
  | cons b s =>
    unfold Lex.run1
    by_cases hb : B b = true
    · simp only [hb, if_true]
      refine ⟨fun n hn => ?_, fun hn => by cases hn⟩
      cases hn
      refine ⟨by have := takeWhile_length_le s B; simp; omega, ?_⟩
      rw [Nat.succ_eq_add_one, List.take_succ_cons, List.drop_succ_cons, take_takeWhile, drop_takeWhile]
      obtain ⟨Q, h1, h2⟩ := byteLike_iter h pre (b :: s)
      rw [List.takeWhile_cons_of_pos hb, List.dropWhile_cons_of_pos hb] at h1
      refine (plus_hits (gs := [g]) h1).mono fun l hl => ⟨_, h2 l hl, ?_⟩
      rw [List.takeWhile_cons_of_pos hb]
      exact flatMap_byteVal _
    · simp only [hb]
      exact ⟨fun n hn => (by cases hn), fun _ => plus_misses (gs := [g]) (.head (h.2 pre _ fun b' s' he => by cases he; simpa using hb))⟩

theorem Lexes.congr {p : Sem} {L M : Lex} (h : Lexes p L) (hLM : ∀ s, L s = M s) : Lexes p M := by
  have : L = M := funext hLM
  rwa [← this]

/-! ### Bytes -/

theorem byteLike_one_class (bs : List UInt8) (h_ : 0x5f ∉ bs) : ByteLike (den env (.prim (charClass (bs.map fun b => [b])))) (fun b => bs.contains b) byteVal :=
  (byteLike_class bs).congr (fun _ => rfl) fun b hb => by
    have : b ≠ 0x5f := fun he => by subst he; simp at hb; exact h_ hb
    simp [byteVal, this]

theorem byteLike_underscore : ByteLike (den env (Gram.erased (.prim (charClass [b! "_"])))) (fun b => b == 0x5f) byteVal :=
  (byteLike_erased (byteLike_class [0x5f])).congr (fun b => by rw [Bool.eq_iff_iff]; simp) fun b hb => by simp at hb; simp [byteVal, hb]

theorem byteLike_one {p : Sem} {cls : String} {S : Char → Prop} (h : CharTerminal p cls S) (B : UInt8 → Bool)
    (hB : ∀ b, B b = true → b < 0x80) (hS : ∀ ch b, ch.toNat = b.toNat → b < 0x80 → (S ch ↔ B b = true)) (hn : ∀ ch, 0x80 ≤ ch.toNat → ¬ S ch)
    (h_ : B 0x5f = false) : ByteLike (den env (.prim p)) B byteVal :=
  (byteLike_char h B hB hS hn).congr (fun _ => rfl) fun b hb => by
    have : b ≠ 0x5f := fun he => by subst he; rw [h_] at hb; cases hb
    simp [byteVal, this]

theorem byteLike_or {gs : List Gram} (hne : gs ≠ []) {B : UInt8 → Bool}
    (h : ByteChoice (gs.map (den env)) B byteVal) : ByteLike (den env (.first gs)) B byteVal := byteLike_first hne h

theorem byteChoice_cons {p : Sem} {ps : List Sem} {B B1 B2 : UInt8 → Bool} (h : ByteLike p B1 byteVal) (hs : ByteChoice ps B2 byteVal)
    (hB : ∀ b, B b = (B1 b || B2 b)) : ByteChoice (p :: ps) B byteVal :=
  ⟨B1, B2, _, _, h, hs, hB, fun b => by split <;> rfl⟩

end
end Takenoco
