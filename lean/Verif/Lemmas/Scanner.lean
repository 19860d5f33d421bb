import Verif.Lemmas.Lexer
/-
Parsers that are described by a function giving the length of what they consume and the text they yield.
-/
namespace Takenoco
open Spec

abbrev Scan := Bytes → Option (Nat × Bytes)

namespace Scan
/-- One after the other. -/
def seq (L M : Scan) : Scan := fun s => match L s with
  | none => none
  | some (n, v) => match M (s.drop n) with
    | none => none
    | some (m, u) => some (n + m, v ++ u)
/-- The first that matches. -/
def alt (L M : Scan) : Scan := fun s => match L s with
  | none => M s
  | some r => some r
/-- At most once. -/
def opt (L : Scan) : Scan := fun s => match L s with
  | none => some (0, [])
  | some r => some r
/-- One byte of a set. -/
def byte (B : UInt8 → Bool) : Scan := fun s => match s with
  | [] => none
  | b :: _ => if B b then some (1, [b]) else none
/-- Nothing consumed, a given text yielded. -/
def const (v : Bytes) : Scan := fun _ => some (0, v)
/-- The yielded text changed. -/
def map (f : Bytes → Bytes) (L : Scan) : Scan := fun s => (L s).map fun r => (r.1, f r.2)
/-- As many bytes of a set as possible, at least `min`. -/
def run (min : Nat) (B : UInt8 → Bool) : Scan := fun s =>
  if min ≤ (s.takeWhile B).length then some ((s.takeWhile B).length, s.takeWhile B) else none
/-- As many bytes of a set as possible, at least `min`, at most `max`. -/
def runMax (min max : Nat) (B : UInt8 → Bool) : Scan := fun s => run min B (s.take max)
end Scan

def Scans (p : Sem) (L : Scan) : Prop :=
  ∀ pre s, (∀ n v, L s = some (n, v) → n ≤ s.length ∧ Hits p pre (s.take n) (s.drop n) (Pieces v)) ∧ (L s = none → Misses p pre s)

def ScansSeq (ps : List Sem) (L : Scan) : Prop :=
  ∀ pre s, (∀ n v, L s = some (n, v) → n ≤ s.length ∧ SeqHits ps pre (s.take n) (s.drop n) (Pieces v)) ∧ (L s = none → SeqMisses ps pre s)

section
variable {env : Env}

theorem scansSeq_single {p : Sem} {L : Scan} (h : Scans p L) : ScansSeq [p] L := fun pre s =>
  ⟨fun n v hn => ⟨((h pre s).1 n v hn).1, .single ((h pre s).1 n v hn).2⟩, fun hn => .head ((h pre s).2 hn)⟩

theorem scansSeq_cons {p : Sem} {ps : List Sem} {L M : Scan} (h : Scans p L) (hs : ScansSeq ps M) : ScansSeq (p :: ps) (Scan.seq L M) := by
  intro pre s
  unfold Scan.seq
  cases hL : L s with
  | none => exact ⟨fun n v hn => by simp at hn, fun _ => .head ((h pre s).2 hL)⟩
  | some r =>
    obtain ⟨n, v⟩ := r
    obtain ⟨h1, h2⟩ := (h pre s).1 n v hL
    simp only
    cases hM : M (s.drop n) with
    | none =>
      refine ⟨fun n v hn => by simp at hn, fun _ => ?_⟩
      have := SeqMisses.tail h2 ((hs (pre ++ s.take n) (s.drop n)).2 hM)
      rwa [List.take_append_drop] at this
    | some r =>
      obtain ⟨m, u⟩ := r
      obtain ⟨h3, h4⟩ := (hs (pre ++ s.take n) (s.drop n)).1 m u hM
      refine ⟨fun k x hk => ?_, fun hk => by simp at hk⟩
      simp only [Option.some.injEq, Prod.mk.injEq] at hk
      obtain ⟨rfl, rfl⟩ := hk
      refine ⟨by simp at h3; omega, ?_⟩
      rw [take_add_drop, ← List.drop_drop]
      exact (SeqHits.cons (by rw [List.take_append_drop]; exact h2) h4).mono fun l hl => pieces_append hl

theorem scans_flat {gs : List Gram} {L : Scan} (h : ScansSeq (gs.map (den env)) L) : Scans (den env (.flatGroup gs)) L := fun pre s =>
  ⟨fun n v hn => ⟨((h pre s).1 n v hn).1, flat_hits ((h pre s).1 n v hn).2⟩, fun hn => flat_misses ((h pre s).2 hn)⟩

theorem scans_opt {gs : List Gram} {L : Scan} (h : ScansSeq (gs.map (den env)) L) : Scans (den env (Gram.opt gs)) L.opt := by
  intro pre s
  unfold Scan.opt
  cases hL : L s with
  | none =>
    refine ⟨fun n v hn => ?_, fun hn => by cases hn⟩
    cases hn
    exact ⟨by omega, (opt_skips ((h pre s).2 hL)).mono fun l hl => pieces_nil hl⟩
  | some r =>
    refine ⟨fun k v hk => ?_, fun hn => by cases hn⟩
    cases hk
    exact ⟨((h pre s).1 _ _ hL).1, opt_hits ((h pre s).1 _ _ hL).2⟩

/-- Ordered choice. -/
def ScansAlt : List Sem → Scan → Prop
  | [], L => ∀ s, L s = none
  | p :: ps, L => ∃ L1 L2, Scans p L1 ∧ ScansAlt ps L2 ∧ ∀ s, L s = Scan.alt L1 L2 s

theorem scansAlt_hits {ps : List Sem} {L : Scan} (h : ScansAlt ps L) (pre s : Bytes) :
    (∀ n v, L s = some (n, v) → n ≤ s.length ∧ OneHits ps pre (s.take n) (s.drop n) (Pieces v)) ∧
    (L s = none → ∀ p ∈ ps, Misses p pre s) := by
  induction ps generalizing L with
  | nil => exact ⟨fun n v hn => (by rw [h s] at hn; cases hn), fun _ p hp => by cases hp⟩
  | cons p ps ih =>
    obtain ⟨L1, L2, h1, h2, h3⟩ := h
    rw [h3 s]
    unfold Scan.alt
    cases hL : L1 s with
    | none =>
      refine ⟨fun n v hn => ⟨((ih h2).1 n v hn).1, .there ?_ ((ih h2).1 n v hn).2⟩, fun hn q hq => ?_⟩
      · rw [List.take_append_drop]; exact (h1 pre s).2 hL
      · rcases List.mem_cons.1 hq with rfl | hq
        · exact (h1 pre s).2 hL
        · exact (ih h2).2 hn q hq
    | some r =>
      refine ⟨fun k v hk => ?_, fun hn => by cases hn⟩
      cases hk
      exact ⟨((h1 pre s).1 _ _ hL).1, .here ((h1 pre s).1 _ _ hL).2⟩

theorem scans_first {gs : List Gram} {L : Scan} (hne : gs ≠ []) (h : ScansAlt (gs.map (den env)) L) : Scans (den env (.first gs)) L := fun pre s =>
  ⟨fun n v hn => ⟨((scansAlt_hits h pre s).1 n v hn).1, first_hits ((scansAlt_hits h pre s).1 n v hn).2⟩, fun hn => first_misses hne fun g hg =>
    (scansAlt_hits h pre s).2 hn _ (List.mem_map.2 ⟨g, hg, rfl⟩)⟩

theorem scansAlt_nil : ScansAlt [] (fun _ => none) := fun _ => rfl
theorem scansAlt_cons {p : Sem} {ps : List Sem} {L1 L2 : Scan} (h1 : Scans p L1) (h2 : ScansAlt ps L2) : ScansAlt (p :: ps) (Scan.alt L1 L2) :=
  ⟨L1, L2, h1, h2, fun _ => rfl⟩
theorem scansAlt_single {p : Sem} {L1 : Scan} (h1 : Scans p L1) : ScansAlt [p] L1 :=
  ⟨L1, _, h1, scansAlt_nil, fun s => by unfold Scan.alt; cases L1 s <;> rfl⟩

/-- A terminal that yields the byte it consumes. -/
abbrev Bytely (p : Sem) (B : UInt8 → Bool) : Prop := ByteLike p B (fun b => [[b]])

theorem byteLike_bytely {p : Sem} {B : UInt8 → Bool} (h : ByteLike p B byteVal) (h_ : B 0x5f = false) : Bytely p B :=
  h.congr (fun _ => rfl) fun b h1 => by
    have : b ≠ 0x5f := fun he => by rw [he, h_] at h1; cases h1
    simp [byteVal, this]

theorem flatMap_single (w : Bytes) : (w.flatMap fun b => [[b]]).flatten = w := by
  induction w with
  | nil => rfl
  | cons b w ih => simp [ih]

theorem scans_byte {p : Sem} {B : UInt8 → Bool} (h : Bytely p B) : Scans p (Scan.byte B) := by
  intro pre s
  cases s with
  | nil => exact ⟨fun n v hn => (by cases hn), fun _ => h.2 pre [] fun _ _ he => by cases he⟩
  | cons b s =>
    unfold Scan.byte
    by_cases hb : B b = true
    · simp only [hb, if_true]
      refine ⟨fun n v hn => ?_, fun hn => by cases hn⟩
      cases hn
      exact ⟨by simp, (h.1 pre b s hb).mono fun l hl => ⟨_, hl, by simp⟩⟩
    · simp only [hb]
      exact ⟨fun n v hn => (by cases hn), fun _ => h.2 pre _ fun b' s' he => by cases he; simpa using hb⟩

theorem scans_seq1 (b : UInt8) : Scans (den env (.prim (seqS [b]))) (Scan.byte (· == b)) := by
  intro pre s
  cases s with
  | nil => exact ⟨fun n v hn => (by cases hn), fun _ => seqS_misses fun h => by simp at h⟩
  | cons a s =>
    unfold Scan.byte
    by_cases hb : a = b
    · subst hb
      simp only [BEq.rfl, if_true]
      refine ⟨fun n v hn => ?_, fun hn => by cases hn⟩
      cases hn
      exact ⟨by simp, (seqS_hits pre [a] s).mono fun l hl => ⟨_, hl.text, by simp⟩⟩
    · have : (a == b) = false := by simpa using hb
      simp only [this]
      exact ⟨fun n v hn => (by cases hn), fun _ => seqS_misses fun h => by
        obtain ⟨t, ht⟩ := h
        simp at ht; exact hb ht.1.symm⟩

theorem scans_const (v : Bytes) : Scans (den env (.prim (zeroP [{ Ast.zero with ty := .string, val := .str v }]))) (Scan.const v) := by
  intro pre s
  refine ⟨fun n u hn => ?_, fun hn => by cases hn⟩
  cases hn
  refine ⟨by omega, (zeroP_hits _ pre s).mono fun l hl => ?_⟩
  obtain ⟨n, rfl⟩ := hl
  exact ⟨[v], .cons rfl rfl .nil, by simp⟩

theorem scans_erased {g : Gram} {L : Scan} (h : Scans (den env g) L) : Scans (den env (Gram.erased g)) (L.map fun _ => []) := by
  intro pre s
  unfold Scan.map
  cases hL : L s with
  | none => exact ⟨fun n v hn => by simp at hn, fun _ => erased_misses ((h pre s).2 hL)⟩
  | some r =>
    refine ⟨fun n v hn => ?_, fun hn => by simp at hn⟩
    simp at hn
    obtain ⟨rfl, rfl⟩ := hn
    exact ⟨((h pre s).1 _ _ hL).1, (erased_hits ((h pre s).1 _ _ hL).2).mono fun l hl => pieces_nil hl⟩

/-- Any transformers that turn ASTs making up a text into ASTs making up another one. -/
theorem scans_trans {g : Gram} {L : Scan} {ts : List Tr} {f : Bytes → Bytes} (hne : ts ≠ []) (h : Scans (den env g) L)
    (ht : ∀ c l v, Pieces v l → ∃ l', applyTrs c (ts.map (denTr env)) l = .ok (l', none) ∧ Pieces (f v) l') :
    Scans (den env (.trans g ts)) (L.map f) := by
  intro pre s
  unfold Scan.map
  cases hL : L s with
  | none => exact ⟨fun n v hn => by simp at hn, fun _ => trans_misses ((h pre s).2 hL)⟩
  | some r =>
    refine ⟨fun n v hn => ?_, fun hn => by simp at hn⟩
    simp at hn
    obtain ⟨rfl, rfl⟩ := hn
    exact ⟨((h pre s).1 _ _ hL).1, trans_hits hne ((h pre s).1 _ _ hL).2 fun c l hl => ht c l _ hl⟩

theorem bytely_upto {p : Sem} {B : UInt8 → Bool} (h : Bytely p B) (w : Bytes) (hw : ∀ b ∈ w, B b = true) (pre rest : Bytes) :
    ∃ Q, Upto [p] w.length pre w rest Q ∧ ∀ l, Q l → Pieces w l := by
  induction w generalizing pre with
  | nil => exact ⟨_, .stop, fun l hl => pieces_nil hl⟩
  | cons b w ih =>
    obtain ⟨Q, h1, h2⟩ := ih (fun b hb => hw b (List.mem_cons_of_mem _ hb)) (pre ++ [b])
    refine ⟨_, .next (w1 := [b]) (.single (h.1 pre b _ (hw b (by simp)))) h1, fun l hl => ?_⟩
    obtain ⟨x, y, rfl, h3, h4⟩ := hl
    exact pieces_append (v := [b]) ⟨x, y, rfl, ⟨_, h3, by simp⟩, h2 y h4⟩

theorem mem_takeWhile {B : UInt8 → Bool} {s : Bytes} {b : UInt8} (h : b ∈ s.takeWhile B) : B b = true := by
  induction s with
  | nil => simp at h
  | cons a s ih =>
    by_cases ha : B a = true
    · rw [List.takeWhile_cons_of_pos ha] at h
      rcases List.mem_cons.1 h with rfl | h
      · exact ha
      · exact ih h
    · rw [List.takeWhile_cons_of_neg (by simpa using ha)] at h; simp at h

theorem scans_run {g : Gram} {B : UInt8 → Bool} (h : Bytely (den env g) B) (min : Nat) :
    Scans (den env (.repeat ⟨min, -1⟩ [g])) (Scan.run min B) := by
  intro pre s
  unfold Scan.run
  obtain ⟨Q, h1, h2⟩ := byteLike_iter h pre s
  by_cases hm : min ≤ (s.takeWhile B).length
  · rw [if_pos hm]
    refine ⟨fun n v hn => ?_, fun hn => by cases hn⟩
    cases hn
    rw [take_takeWhile, drop_takeWhile]
    refine ⟨takeWhile_length_le s B, (repeat_hits (gs := [g]) h1 (by simpa using hm) (.inl (by simp))).mono fun l hl => ⟨_, h2 l hl, flatMap_single _⟩⟩
  · rw [if_neg hm]
    refine ⟨fun n v hn => (by cases hn), fun _ => ?_⟩
    have := repeat_misses (env := env) (gs := [g]) (t := ⟨min, -1⟩) h1 (by simp; omega) (.inl (by simp))
    rwa [List.takeWhile_append_dropWhile] at this

theorem scans_runMax {g : Gram} {B : UInt8 → Bool} (h : Bytely (den env g) B) (min max : Nat) (hle : min ≤ max) :
    Scans (den env (.repeat ⟨min, max⟩ [g])) (Scan.runMax min max B) := by
  intro pre s
  unfold Scan.runMax
  by_cases hx : (s.takeWhile B).length < max
  · -- the run ends before the maximum
    have he : (s.take max).takeWhile B = s.takeWhile B := by
      clear h pre hle
      induction s generalizing max with
      | nil => simp
      | cons a s ih =>
        cases max with
        | zero => omega
        | succ max =>
          rw [List.take_succ_cons]
          by_cases ha : B a = true
          · rw [List.takeWhile_cons_of_pos ha] at hx ⊢
            rw [List.takeWhile_cons_of_pos ha, ih _ (by simp at hx; omega)]
          · rw [List.takeWhile_cons_of_neg (by simpa using ha), List.takeWhile_cons_of_neg (by simpa using ha)]
    unfold Scan.run
    rw [he]
    obtain ⟨Q, h1, h2⟩ := byteLike_iter h pre s
    by_cases hm : min ≤ (s.takeWhile B).length
    · rw [if_pos hm]
      refine ⟨fun n v hn => ?_, fun hn => by cases hn⟩
      cases hn
      rw [take_takeWhile, drop_takeWhile]
      refine ⟨takeWhile_length_le s B, (repeat_hits (gs := [g]) h1 (by simpa using hm) (.inr (by simpa using hx))).mono fun l hl => ⟨_, h2 l hl, flatMap_single _⟩⟩
    · rw [if_neg hm]
      refine ⟨fun n v hn => (by cases hn), fun _ => ?_⟩
      have := repeat_misses (env := env) (gs := [g]) (t := ⟨min, max⟩) h1 (by simp; omega) (.inr (by simpa using hx))
      rwa [List.takeWhile_append_dropWhile] at this
  · have he : (s.take max).takeWhile B = s.take max ∧ max ≤ s.length := by
      clear h pre hle
      induction s generalizing max with
      | nil => simp at hx ⊢; exact hx
      | cons a s ih =>
        cases max with
        | zero => simp
        | succ max =>
          by_cases ha : B a = true
          · rw [List.takeWhile_cons_of_pos ha] at hx
            obtain ⟨h1, h2⟩ := ih max (by simpa using hx)
            rw [List.take_succ_cons, List.takeWhile_cons_of_pos ha, h1]
            exact ⟨rfl, by simp; omega⟩
          · rw [List.takeWhile_cons_of_neg (by simpa using ha)] at hx; simp at hx
    unfold Scan.run
    have hl : (s.take max).length = max := by rw [List.length_take]; omega
    rw [he.1, hl, if_pos hle]
    refine ⟨fun n v hn => ?_, fun hn => by cases hn⟩
    cases hn
    obtain ⟨Q, h1, h2⟩ := bytely_upto h (s.take max) (fun b hb => mem_takeWhile (by rw [he.1]; exact hb)) pre (s.drop max)
    rw [hl] at h1
    exact ⟨he.2, (repeat_hits_max (gs := [g]) h1 (by simpa using hle) (by simp)).mono h2⟩

theorem Scans.congr {p : Sem} {L M : Scan} (h : Scans p L) (hLM : ∀ s, L s = M s) : Scans p M := by
  have : L = M := funext hLM
  rwa [← this]

end
end Takenoco
