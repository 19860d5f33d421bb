import Verif.Lemmas.BigStep
import Verif.Lemmas.StrTransformers
/-
A small program logic for parsers of string sources. It abstracts from the parts of a context that do not matter
(class name, quantity, length): a parser, started between the texts `pre` and `s`, consumes a prefix of `s` and pushes
ASTs, or is unmatched, or fails.
-/
namespace Takenoco
open Spec

/-- The context is between the texts `pre` and `s`. -/
structure At (c : Ctx) (pre s : Bytes) : Prop where
  str : c.str = pre ++ s
  pos : c.pos = pre.length
  ok : c.status = .matched

theorem At.enter {c : Ctx} {pre s : Bytes} (h : At c pre s) (cls : String) : At (enter cls c) pre s :=
  ⟨h.str, h.pos, rfl⟩

theorem At.le {c : Ctx} {pre s : Bytes} (h : At c pre s) : c.pos ≤ c.str.length := by
  rw [h.pos, h.str]; simp

theorem At.drop {c : Ctx} {pre s : Bytes} (h : At c pre s) : c.str.drop c.pos = s := by
  rw [h.pos, h.str]; simp

theorem At.of {c : Ctx} (h : c.pos ≤ c.str.length) (hs : c.status = .matched) :
    At c (c.str.take c.pos) (c.str.drop c.pos) :=
  ⟨by simp, by simp; omega, hs⟩

/-- From `c`, between `pre` and `w ++ rest`, to `c'`, behind `w`, with new ASTs satisfying `Q`. -/
structure Reached (c c' : Ctx) (pre w rest : Bytes) (Q : List Ast → Prop) : Prop where
  at_ : At c' (pre ++ w) rest
  slice : c'.slice = c.slice
  tag : c'.tag = c.tag
  stack : ∃ new, c'.stack = c.stack ++ new ∧ Q new

/-- Separating conjunction: the ASTs split into two parts. -/
def Both (Q R : List Ast → Prop) : List Ast → Prop := fun l => ∃ a b, l = a ++ b ∧ Q a ∧ R b

theorem Reached.trans {c c1 c2 : Ctx} {pre w1 w2 rest : Bytes} {Q R : List Ast → Prop}
    (h1 : Reached c c1 pre w1 (w2 ++ rest) Q) (h2 : Reached c1 c2 (pre ++ w1) w2 rest R) :
    Reached c c2 pre (w1 ++ w2) rest (Both Q R) := by
  obtain ⟨a, ha, hQ⟩ := h1.stack
  obtain ⟨b, hb, hR⟩ := h2.stack
  refine ⟨by rw [← List.append_assoc]; exact h2.at_, by rw [h2.slice, h1.slice], by rw [h2.tag, h1.tag], a ++ b, ?_, a, b, rfl, hQ, hR⟩
  rw [hb, ha, List.append_assoc]

theorem Reached.mono {c c' : Ctx} {pre w rest : Bytes} {Q R : List Ast → Prop} (h : Reached c c' pre w rest Q)
    (hQ : ∀ l, Q l → R l) : Reached c c' pre w rest R := by
  obtain ⟨l, hl, hq⟩ := h.stack
  exact ⟨h.at_, h.slice, h.tag, l, hl, hQ l hq⟩

/-- The fields that a context keeps apart from class name, quantity and length. -/
theorem Reached.congr {a c c' b : Ctx} {pre w rest : Bytes} {Q : List Ast → Prop} (h : Reached c c' pre w rest Q)
    (ha1 : a.slice = c.slice) (ha2 : a.tag = c.tag) (ha3 : a.stack = c.stack)
    (hb1 : b.slice = c'.slice) (hb2 : b.tag = c'.tag) (hb3 : b.stack = c'.stack) (hb4 : b.str = c'.str) (hb5 : b.pos = c'.pos)
    (hb6 : b.status = c'.status) : Reached a b pre w rest Q :=
  ⟨⟨by rw [hb4]; exact h.at_.str, by rw [hb5]; exact h.at_.pos, by rw [hb6]; exact h.at_.ok⟩, by rw [hb1, ha1]; exact h.slice,
    by rw [hb2, ha2]; exact h.tag, by rw [hb3, ha3]; exact h.stack⟩

/-- The parser consumes `w` and pushes ASTs satisfying `Q`. -/
def Hits (p : Sem) (pre w rest : Bytes) (Q : List Ast → Prop) : Prop :=
  ∀ c, At c pre (w ++ rest) → ∃ c', Outcome.of (p c) = .matched c' ∧ Reached c c' pre w rest Q

/-- The parser is unmatched. -/
def Misses (p : Sem) (pre s : Bytes) : Prop := ∀ c, At c pre s → Outcome.of (p c) = .unmatched

/-- The parser fails with an error satisfying `E`. -/
def Fails (p : Sem) (pre s : Bytes) (E : Option Err → Prop) : Prop :=
  ∀ c, At c pre s → ∃ c' e, Outcome.of (p c) = .failed c' e ∧ E e

/-- The parser panics. -/
def Panics (p : Sem) (pre s : Bytes) (x : Panic) : Prop := ∀ c, At c pre s → Outcome.of (p c) = .panicked x

/-- The same for a sequence of parsers. -/
def SeqHits (ps : List Sem) (pre w rest : Bytes) (Q : List Ast → Prop) : Prop :=
  ∀ c, At c pre (w ++ rest) → ∃ c', Seq ps c (.matched c') ∧ Reached c c' pre w rest Q
def SeqMisses (ps : List Sem) (pre s : Bytes) : Prop := ∀ c, At c pre s → Seq ps c .unmatched
def SeqFails (ps : List Sem) (pre s : Bytes) (E : Option Err → Prop) : Prop :=
  ∀ c, At c pre s → ∃ c' e, Seq ps c (.failed c' e) ∧ E e
def SeqPanics (ps : List Sem) (pre s : Bytes) (x : Panic) : Prop := ∀ c, At c pre s → Seq ps c (.panicked x)

theorem Hits.mono {p : Sem} {pre w rest : Bytes} {Q R : List Ast → Prop} (h : Hits p pre w rest Q) (hQ : ∀ l, Q l → R l) :
    Hits p pre w rest R := fun c hc =>
  let ⟨c', h1, h2⟩ := h c hc
  ⟨c', h1, h2.mono hQ⟩

theorem SeqHits.mono {ps : List Sem} {pre w rest : Bytes} {Q R : List Ast → Prop} (h : SeqHits ps pre w rest Q) (hQ : ∀ l, Q l → R l) :
    SeqHits ps pre w rest R := fun c hc =>
  let ⟨c', h1, h2⟩ := h c hc
  ⟨c', h1, h2.mono hQ⟩

/-! ### Sequences -/

theorem SeqHits.nil (pre rest : Bytes) : SeqHits [] pre [] rest (· = []) := fun c hc =>
  ⟨c, .done, ⟨by simpa using hc, rfl, rfl, [], by simp, rfl⟩⟩

theorem SeqHits.cons {p : Sem} {ps : List Sem} {pre w1 w2 rest : Bytes} {Q R : List Ast → Prop}
    (h1 : Hits p pre w1 (w2 ++ rest) Q) (h2 : SeqHits ps (pre ++ w1) w2 rest R) :
    SeqHits (p :: ps) pre (w1 ++ w2) rest (Both Q R) := fun c hc => by
  obtain ⟨c1, e1, r1⟩ := h1 c (by simpa using hc)
  obtain ⟨c2, e2, r2⟩ := h2 c1 r1.at_
  exact ⟨c2, .step e1 e2, r1.trans r2⟩

theorem SeqHits.single {p : Sem} {pre w rest : Bytes} {Q : List Ast → Prop} (h : Hits p pre w rest Q) : SeqHits [p] pre w rest Q := fun c hc => by
  obtain ⟨c1, e1, r1⟩ := h c hc
  exact ⟨c1, .step e1 .done, r1⟩

theorem SeqMisses.head {p : Sem} {ps : List Sem} {pre s : Bytes} (h : Misses p pre s) : SeqMisses (p :: ps) pre s :=
  fun c hc => .stop (h c hc) (fun _ h => by cases h)

theorem SeqMisses.tail {p : Sem} {ps : List Sem} {pre w s : Bytes} {Q : List Ast → Prop} (h1 : Hits p pre w s Q)
    (h2 : SeqMisses ps (pre ++ w) s) : SeqMisses (p :: ps) pre (w ++ s) := fun c hc =>
  let ⟨c1, e1, r1⟩ := h1 c hc
  .step e1 (h2 c1 r1.at_)

theorem SeqFails.head {p : Sem} {ps : List Sem} {pre s : Bytes} {E : Option Err → Prop} (h : Fails p pre s E) : SeqFails (p :: ps) pre s E :=
  fun c hc => let ⟨c', e, h1, h2⟩ := h c hc
  ⟨c', e, .stop h1 (fun _ h => by cases h), h2⟩

theorem SeqFails.tail {p : Sem} {ps : List Sem} {pre w s : Bytes} {Q : List Ast → Prop} {E : Option Err → Prop} (h1 : Hits p pre w s Q)
    (h2 : SeqFails ps (pre ++ w) s E) : SeqFails (p :: ps) pre (w ++ s) E := fun c hc =>
  let ⟨c1, e1, r1⟩ := h1 c hc
  let ⟨c', e, h3, h4⟩ := h2 c1 r1.at_
  ⟨c', e, .step e1 h3, h4⟩

theorem SeqPanics.head {p : Sem} {ps : List Sem} {pre s : Bytes} {x : Panic} (h : Panics p pre s x) : SeqPanics (p :: ps) pre s x :=
  fun c hc => .stop (h c hc) (fun _ h => by cases h)

theorem SeqPanics.tail {p : Sem} {ps : List Sem} {pre w s : Bytes} {Q : List Ast → Prop} {x : Panic} (h1 : Hits p pre w s Q)
    (h2 : SeqPanics ps (pre ++ w) s x) : SeqPanics (p :: ps) pre (w ++ s) x := fun c hc =>
  let ⟨c1, e1, r1⟩ := h1 c hc
  .step e1 (h2 c1 r1.at_)

/-! ### FlatGroup -/

section
variable {env : Env} {gs : List Gram} {pre w rest s : Bytes} {Q : List Ast → Prop} {E : Option Err → Prop} {x : Panic}

theorem flat_hits (h : SeqHits (gs.map (den env)) pre w rest Q) : Hits (den env (.flatGroup gs)) pre w rest Q := fun c hc => by
  obtain ⟨c', h1, h2⟩ := h _ (hc.enter ":base:FlatGroup")
  refine ⟨{ c' with qty := 1 }, ?_, h2.congr rfl rfl rfl rfl rfl rfl rfl rfl rfl⟩
  rw [den_flatGroup, flatGroup_of h1]; rfl

theorem flat_misses (h : SeqMisses (gs.map (den env)) pre s) : Misses (den env (.flatGroup gs)) pre s := fun c hc => by
  rw [den_flatGroup, flatGroup_of (h _ (hc.enter _))]; rfl

theorem flat_fails (h : SeqFails (gs.map (den env)) pre s E) : Fails (den env (.flatGroup gs)) pre s E := fun c hc => by
  obtain ⟨c', e, h1, h2⟩ := h _ (hc.enter _)
  refine ⟨c', e, ?_, h2⟩
  rw [den_flatGroup, flatGroup_of h1]; rfl

theorem flat_panics (h : SeqPanics (gs.map (den env)) pre s x) : Panics (den env (.flatGroup gs)) pre s x := fun c hc => by
  rw [den_flatGroup, flatGroup_of (h _ (hc.enter _))]; rfl

/-! ### First -/

/-- The first of the parsers that is not unmatched consumes `w`. -/
inductive OneHits : List Sem → Bytes → Bytes → Bytes → (List Ast → Prop) → Prop where
  | here {p : Sem} {ps : List Sem} {pre w rest : Bytes} {Q : List Ast → Prop} : Hits p pre w rest Q → OneHits (p :: ps) pre w rest Q
  | there {p : Sem} {ps : List Sem} {pre w rest : Bytes} {Q : List Ast → Prop} : Misses p pre (w ++ rest) → OneHits ps pre w rest Q →
      OneHits (p :: ps) pre w rest Q

theorem OneHits.choice {ps : List Sem} (h : OneHits ps pre w rest Q) (c : Ctx) (hc : At c pre (w ++ rest)) :
    ∃ c', Choice ps c (.matched c') ∧ Reached c c' pre w rest Q := by
  induction h with
  | here h => obtain ⟨c', h1, h2⟩ := h c hc; exact ⟨c', .take h1 (by simp), h2⟩
  | there h _ ih => obtain ⟨c', h1, h2⟩ := ih hc; exact ⟨c', .skip (h c hc) h1, h2⟩

theorem first_hits (h : OneHits (gs.map (den env)) pre w rest Q) : Hits (den env (.first gs)) pre w rest Q := fun c hc => by
  obtain ⟨c', h1, h2⟩ := h.choice _ (hc.enter ":base:First")
  refine ⟨{ c' with qty := 1 }, ?_, h2.congr rfl rfl rfl rfl rfl rfl rfl rfl rfl⟩
  rw [den_first, first_of (by intro hn; rw [hn] at h; cases h) h1]; rfl

theorem choice_misses {ps : List Sem} {c : Ctx} (h : ∀ p ∈ ps, Outcome.of (p c) = .unmatched) : Choice ps c .unmatched := by
  induction ps with
  | nil => exact .exhausted
  | cons p ps ih => exact .skip (h p (by simp)) (ih fun q hq => h q (by simp [hq]))

theorem first_misses (hne : gs ≠ []) (h : ∀ g ∈ gs, Misses (den env g) pre s) : Misses (den env (.first gs)) pre s := fun c hc => by
  have : Choice (gs.map (den env)) (enter ":base:First" c) .unmatched := choice_misses fun p hp => by
    obtain ⟨g, hg, rfl⟩ := List.mem_map.1 hp
    exact h g hg _ (hc.enter _)
  rw [den_first, first_of (by simpa using hne) this]; rfl

/-- The first of the parsers that is not unmatched fails. -/
inductive OneFails : List Sem → Bytes → Bytes → (Option Err → Prop) → Prop where
  | here {p : Sem} {ps : List Sem} {pre s : Bytes} {E : Option Err → Prop} : Fails p pre s E → OneFails (p :: ps) pre s E
  | there {p : Sem} {ps : List Sem} {pre s : Bytes} {E : Option Err → Prop} : Misses p pre s → OneFails ps pre s E →
      OneFails (p :: ps) pre s E

theorem OneFails.choice {ps : List Sem} (h : OneFails ps pre s E) (c : Ctx) (hc : At c pre s) :
    ∃ c' e, Choice ps c (.failed c' e) ∧ E e := by
  induction h with
  | here h => obtain ⟨c', e, h1, h2⟩ := h c hc; exact ⟨c', e, .take h1 (by simp), h2⟩
  | there h _ ih => obtain ⟨c', e, h1, h2⟩ := ih hc; exact ⟨c', e, .skip (h c hc) h1, h2⟩

theorem first_fails (h : OneFails (gs.map (den env)) pre s E) : Fails (den env (.first gs)) pre s E := fun c hc => by
  obtain ⟨c', e, h1, h2⟩ := h.choice _ (hc.enter ":base:First")
  refine ⟨c', e, ?_, h2⟩
  rw [den_first, first_of (by intro hn; rw [hn] at h; cases h) h1]; rfl

/-! ### Repetition -/

/-- The sequence matches a number of times, until it is unmatched. -/
inductive Iter (ps : List Sem) : Nat → Bytes → Bytes → Bytes → (List Ast → Prop) → Prop where
  | stop {pre rest : Bytes} : SeqMisses ps pre rest → Iter ps 0 pre [] rest (· = [])
  | next {n : Nat} {pre w1 w2 rest : Bytes} {Q R : List Ast → Prop} : SeqHits ps pre w1 (w2 ++ rest) Q → Iter ps n (pre ++ w1) w2 rest R →
      Iter ps (n + 1) pre (w1 ++ w2) rest (Both Q R)

theorem Reached.refl {c : Ctx} {pre rest : Bytes} (h : At c pre rest) : Reached c c pre [] rest (· = []) :=
  ⟨by simpa using h, rfl, rfl, [], by simp, rfl⟩

theorem Iter.reps {ps : List Sem} {n : Nat} (h : Iter ps n pre w rest Q) (k : Nat) (c : Ctx) (hc : At c pre (w ++ rest)) :
    ∃ c', Reps ps k c n c' ∧ Reached c c' pre w rest Q ∧ Seq ps c' .unmatched := by
  induction h generalizing k c with
  | stop h => exact ⟨c, .zero, .refl hc, h c hc⟩
  | @next n pre w1 w2 rest Q R h _ ih =>
    obtain ⟨c1, h1, h2⟩ := h c (by simpa using hc)
    obtain ⟨c2, h3, h4, h5⟩ := ih (k + 1) { c1 with qty := k } ⟨h2.at_.str, h2.at_.pos, h2.at_.ok⟩
    exact ⟨c2, .succ h1 h3, h2.trans (h4.congr rfl rfl rfl rfl rfl rfl rfl rfl rfl), h5⟩

theorem repeat_hits {t : Times} {n : Nat} (h : Iter (gs.map (den env)) n pre w rest Q) (hmin : t.min ≤ n) (hmax : t.max < 0 ∨ n < t.max) :
    Hits (den env (.repeat t gs)) pre w rest Q := fun c hc => by
  obtain ⟨c', h1, h2, h3⟩ := h.reps 0 _ (hc.enter ":base:Repeat")
  refine ⟨{ c' with qty := n }, ?_, h2.congr rfl rfl rfl rfl rfl rfl rfl rfl rfl⟩
  have : RepsHold t (gs.map (den env)) 0 (enter ":base:Repeat" c) (repEnd t (0 + n) c') :=
    ⟨n, c', h1, .inr ⟨fun h => by simp at h ⊢; omega, .unmatched, h3, fun _ h => (by cases h), .inl ⟨rfl, rfl⟩⟩⟩
  rw [den_repeat_outcome this (by simp [repEnd]; split <;> simp)]
  simp only [repEnd, Nat.zero_add, hmin, if_true]

theorem repeat_misses {t : Times} {n : Nat} (h : Iter (gs.map (den env)) n pre w rest Q) (hmin : n < t.min) (hmax : t.max < 0 ∨ n < t.max) :
    Misses (den env (.repeat t gs)) pre (w ++ rest) := fun c hc => by
  obtain ⟨c', h1, h2, h3⟩ := h.reps 0 _ (hc.enter ":base:Repeat")
  have : RepsHold t (gs.map (den env)) 0 (enter ":base:Repeat" c) (repEnd t (0 + n) c') :=
    ⟨n, c', h1, .inr ⟨fun h => by simp at h ⊢; omega, .unmatched, h3, fun _ h => (by cases h), .inl ⟨rfl, rfl⟩⟩⟩
  rw [den_repeat_outcome this (by simp [repEnd]; split <;> simp)]
  have : ¬ t.min ≤ n := by omega
  simp only [repEnd, Nat.zero_add, this, if_false]

/-- The sequence matches exactly `n` times, and then the repetition has reached its maximum. -/
inductive Upto (ps : List Sem) : Nat → Bytes → Bytes → Bytes → (List Ast → Prop) → Prop where
  | stop {pre rest : Bytes} : Upto ps 0 pre [] rest (· = [])
  | next {n : Nat} {pre w1 w2 rest : Bytes} {Q R : List Ast → Prop} : SeqHits ps pre w1 (w2 ++ rest) Q → Upto ps n (pre ++ w1) w2 rest R →
      Upto ps (n + 1) pre (w1 ++ w2) rest (Both Q R)

theorem Upto.reps {ps : List Sem} {n : Nat} (h : Upto ps n pre w rest Q) (k : Nat) (c : Ctx) (hc : At c pre (w ++ rest)) :
    ∃ c', Reps ps k c n c' ∧ Reached c c' pre w rest Q := by
  induction h generalizing k c with
  | stop => exact ⟨c, .zero, .refl hc⟩
  | @next n pre w1 w2 rest Q R h _ ih =>
    obtain ⟨c1, h1, h2⟩ := h c (by simpa using hc)
    obtain ⟨c2, h3, h4⟩ := ih (k + 1) { c1 with qty := k } ⟨h2.at_.str, h2.at_.pos, h2.at_.ok⟩
    exact ⟨c2, .succ h1 h3, h2.trans (h4.congr rfl rfl rfl rfl rfl rfl rfl rfl rfl)⟩

theorem repeat_hits_max {t : Times} {n : Nat} (h : Upto (gs.map (den env)) n pre w rest Q) (hmin : t.min ≤ n) (hmax : t.max = n) :
    Hits (den env (.repeat t gs)) pre w rest Q := fun c hc => by
  obtain ⟨c', h1, h2⟩ := h.reps 0 _ (hc.enter ":base:Repeat")
  refine ⟨{ c' with qty := n }, ?_, h2.congr rfl rfl rfl rfl rfl rfl rfl rfl rfl⟩
  have : RepsHold t (gs.map (den env)) 0 (enter ":base:Repeat" c) (repEnd t (0 + n) c') :=
    ⟨n, c', h1, .inl ⟨by simp [hmax], rfl⟩⟩
  rw [den_repeat_outcome this (by simp [repEnd]; split <;> simp)]
  simp only [repEnd, Nat.zero_add, hmin, if_true]

theorem star_hits {n : Nat} (h : Iter (gs.map (den env)) n pre w rest Q) : Hits (den env (Gram.star gs)) pre w rest Q :=
  repeat_hits h (by simp [qtyZeroOrMoreTimes]) (.inl (by simp [qtyZeroOrMoreTimes]))

theorem plus_hits {n : Nat} (h : Iter (gs.map (den env)) (n + 1) pre w rest Q) : Hits (den env (Gram.plus gs)) pre w rest Q :=
  repeat_hits h (by simp [qtyOneOrMoreTimes]; omega) (.inl (by simp [qtyOneOrMoreTimes]))

theorem plus_misses (h : SeqMisses (gs.map (den env)) pre s) : Misses (den env (Gram.plus gs)) pre s :=
  repeat_misses (.stop h) (by simp [qtyOneOrMoreTimes]) (.inl (by simp [qtyOneOrMoreTimes]))

theorem opt_hits (h : SeqHits (gs.map (den env)) pre w rest Q) : Hits (den env (Gram.opt gs)) pre w rest Q := by
  have := repeat_hits_max (t := qtyZeroOrOnce) (n := 1) (.next (w2 := []) (rest := rest) (by simpa using h) .stop)
    (by simp [qtyZeroOrOnce]) (by simp [qtyZeroOrOnce])
  rw [List.append_nil] at this
  refine this.mono fun l hl => ?_
  obtain ⟨a, b, rfl, h1, rfl⟩ := hl
  simpa using h1

theorem opt_skips (h : SeqMisses (gs.map (den env)) pre rest) : Hits (den env (Gram.opt gs)) pre [] rest (· = []) :=
  repeat_hits (.stop h) (by simp [qtyZeroOrOnce]) (.inr (by simp [qtyZeroOrOnce]))

theorem one_hits (h : SeqHits (gs.map (den env)) pre w rest Q) : Hits (den env (Gram.one gs)) pre w rest Q := by
  have := repeat_hits_max (t := qtyOnce) (n := 1) (.next (w2 := []) (rest := rest) (by simpa using h) .stop)
    (by simp [qtyOnce]) (by simp [qtyOnce])
  rw [List.append_nil] at this
  refine this.mono fun l hl => ?_
  obtain ⟨a, b, rfl, h1, rfl⟩ := hl
  simpa using h1

theorem one_misses (h : SeqMisses (gs.map (den env)) pre s) : Misses (den env (Gram.one gs)) pre s :=
  repeat_misses (.stop h) (by simp [qtyOnce]) (.inr (by simp [qtyOnce]))

/-- A repetition in which an iteration fails. -/
theorem Upto.fails {ps : List Sem} {n : Nat} (h : Upto ps n pre w s Q) (hf : SeqFails ps (pre ++ w) s E) (k : Nat) (c : Ctx) (hc : At c pre (w ++ s)) :
    ∃ c' d e, Reps ps k c n c' ∧ Seq ps c' (.failed d e) ∧ E e := by
  obtain ⟨c', h1, h2⟩ := h.reps k c hc
  obtain ⟨d, e, h3, h4⟩ := hf c' h2.at_
  exact ⟨c', d, e, h1, h3, h4⟩

theorem repeat_fails {t : Times} {n : Nat} (h : Upto (gs.map (den env)) n pre w s Q) (hf : SeqFails (gs.map (den env)) (pre ++ w) s E)
    (hmax : t.max < 0 ∨ n < t.max) : Fails (den env (.repeat t gs)) pre (w ++ s) E := fun c hc => by
  obtain ⟨c', d, e, h1, h2, h3⟩ := h.fails hf 0 _ (hc.enter ":base:Repeat")
  refine ⟨d, e, ?_, h3⟩
  have : RepsHold t (gs.map (den env)) 0 (enter ":base:Repeat" c) (.failed d e) :=
    ⟨n, c', h1, .inr ⟨fun h => by simp at h ⊢; omega, _, h2, fun _ h => (by cases h), .inr ⟨by simp, rfl⟩⟩⟩
  exact den_repeat_outcome this (by simp)

theorem repeat_panics {t : Times} {n : Nat} (h : Upto (gs.map (den env)) n pre w s Q) (hf : SeqPanics (gs.map (den env)) (pre ++ w) s x)
    (hmax : t.max < 0 ∨ n < t.max) : Panics (den env (.repeat t gs)) pre (w ++ s) x := fun c hc => by
  obtain ⟨c', h1, h2⟩ := h.reps 0 _ (hc.enter ":base:Repeat")
  have : RepsHold t (gs.map (den env)) 0 (enter ":base:Repeat" c) (.panicked x) :=
    ⟨n, c', h1, .inr ⟨fun h => by simp at h ⊢; omega, _, hf c' h2.at_, fun _ h => (by cases h), .inr ⟨by simp, rfl⟩⟩⟩
  exact den_repeat_outcome this (by simp)

/-! ### Trans -/

variable {g : Gram}

/-- What transformers make of the pushed ASTs, whatever the context. -/
def TransHits (fs : List TSem) (tag : Value → Prop) (Q R : List Ast → Prop) : Prop :=
  ∀ c l, tag c.tag → Q l → ∃ l', applyTrs c fs l = .ok (l', none) ∧ R l'

theorem trans_hits {ts : List Tr} {R : List Ast → Prop} (hne : ts ≠ []) (h : Hits (den env g) pre w rest Q)
    (ht : ∀ c l, Q l → ∃ l', applyTrs c (ts.map (denTr env)) l = .ok (l', none) ∧ R l') :
    Hits (den env (.trans g ts)) pre w rest R := fun c hc => by
  obtain ⟨c', h1, h2⟩ := h _ (hc.enter ":base:Trans")
  obtain ⟨new, hn, hq⟩ := h2.stack
  obtain ⟨l', hl, hr⟩ := ht { c with cls := ":base:Trans" } new hq
  have hstack : c'.stack = c.stack ++ new := hn
  rw [den_trans, trans_matched_eq h1]
  have hv : variadic (ts.map (denTr env)) = some (ts.map (denTr env)) := by
    cases ts with
    | nil => exact absurd rfl hne
    | cons t ts => rfl
  rw [hv]
  simp only [applyTransforms]
  rw [if_neg (by rw [hstack]; simp)]
  simp only [hstack, List.drop_left, List.take_left, hl]
  exact ⟨{ c' with qty := 1, stack := c.stack ++ l' }, by simp [Outcome.of, h2.at_.ok], ⟨h2.at_.str, h2.at_.pos, h2.at_.ok⟩, h2.slice, h2.tag, l', rfl, hr⟩

theorem trans_fails_of {ts : List Tr} (h : Hits (den env g) pre w rest Q)
    (ht : ∀ c l, Q l → ∃ l' e, applyTrs c (ts.map (denTr env)) l = .ok (l', some e) ∧ E (some e)) :
    Fails (den env (.trans g ts)) pre (w ++ rest) E := fun c hc => by
  obtain ⟨c', h1, h2⟩ := h _ (hc.enter ":base:Trans")
  obtain ⟨new, hn, hq⟩ := h2.stack
  obtain ⟨l', e, hl, hr⟩ := ht { c with cls := ":base:Trans" } new hq
  have hstack : c'.stack = c.stack ++ new := hn
  rw [den_trans, trans_matched_eq h1]
  have hv : variadic (ts.map (denTr env)) = some (ts.map (denTr env)) := by
    cases ts with
    | nil => simp [applyTrs] at hl
    | cons t ts => rfl
  rw [hv]
  simp only [applyTransforms]
  rw [if_neg (by rw [hstack]; simp)]
  simp only [hstack, List.drop_left, hl]
  exact ⟨_, _, rfl, hr⟩

theorem trans_panics_of {ts : List Tr} (h : Hits (den env g) pre w rest Q)
    (ht : ∀ c l, Q l → applyTrs c (ts.map (denTr env)) l = .panic x) :
    Panics (den env (.trans g ts)) pre (w ++ rest) x := fun c hc => by
  obtain ⟨c', h1, h2⟩ := h _ (hc.enter ":base:Trans")
  obtain ⟨new, hn, hq⟩ := h2.stack
  have hl := ht { c with cls := ":base:Trans" } new hq
  have hstack : c'.stack = c.stack ++ new := hn
  rw [den_trans, trans_matched_eq h1]
  have hv : variadic (ts.map (denTr env)) = some (ts.map (denTr env)) := by
    cases ts with
    | nil => simp [applyTrs] at hl
    | cons t ts => rfl
  rw [hv]
  simp only [applyTransforms]
  rw [if_neg (by rw [hstack]; simp)]
  simp only [hstack, List.drop_left, hl]
  rfl

theorem trans_misses {ts : List Tr} (h : Misses (den env g) pre s) : Misses (den env (.trans g ts)) pre s := fun c hc => by
  rw [den_trans, trans_stop_of (h _ (hc.enter _)) (fun _ h => by cases h)]

theorem trans_fails {ts : List Tr} (h : Fails (den env g) pre s E) : Fails (den env (.trans g ts)) pre s E := fun c hc => by
  obtain ⟨c', e, h1, h2⟩ := h _ (hc.enter ":base:Trans")
  refine ⟨c', e, ?_, h2⟩
  rw [den_trans, trans_stop_of h1 (fun _ h => by cases h)]

theorem trans_panics {ts : List Tr} (h : Panics (den env g) pre s x) : Panics (den env (.trans g ts)) pre s x := fun c hc => by
  rw [den_trans, trans_stop_of (h _ (hc.enter _)) (fun _ h => by cases h)]

theorem erased_hits (h : Hits (den env g) pre w rest Q) : Hits (den env (Gram.erased g)) pre w rest (· = []) :=
  trans_hits (by simp) h fun c l _ => ⟨[], by simp [denTr_fn, applyTrs, erase], rfl⟩

theorem erased_misses (h : Misses (den env g) pre s) : Misses (den env (Gram.erased g)) pre s := trans_misses h

/-! ### Indirect -/

variable {i : Nat}

theorem indirect_hits (h : Hits (den env (env i)) pre w rest Q) : Hits (den env (.indirect i)) pre w rest Q := fun c hc => by
  obtain ⟨c', h1, h2⟩ := h c hc
  refine ⟨{ c' with qty := 1, cls := ":base:Indirect" }, ?_, h2.congr rfl rfl rfl rfl rfl rfl rfl rfl rfl⟩
  rw [den_indirect]; unfold indirect
  rw [light_of, h1]; rfl

theorem indirect_misses (h : Misses (den env (env i)) pre s) : Misses (den env (.indirect i)) pre s := fun c hc => by
  rw [den_indirect]; unfold indirect
  rw [light_of, h c hc]; rfl

theorem indirect_fails (h : Fails (den env (env i)) pre s E) : Fails (den env (.indirect i)) pre s E := fun c hc => by
  obtain ⟨c', e, h1, h2⟩ := h c hc
  refine ⟨{ c' with cls := ":base:Indirect" }, e, ?_, h2⟩
  rw [den_indirect]; unfold indirect
  rw [light_of, h1]; rfl

theorem indirect_panics (h : Panics (den env (env i)) pre s x) : Panics (den env (.indirect i)) pre s x := fun c hc => by
  rw [den_indirect]; unfold indirect
  rw [light_of, h c hc]; rfl

end

/-! ### Terminals -/

/-- One string AST with this value. -/
def Text (v : Bytes) : List Ast → Prop := fun l => Texts l [v]

/-- One token as a terminal pushes it. -/
def Token (cls : String) (pos : Nat) (v : Bytes) : List Ast → Prop := fun l =>
  ∃ a, l = [a] ∧ a.opCode = 0 ∧ a.cls = cls ∧ a.ty = .string ∧ a.val = .str v ∧ a.pos = pos

theorem Token.text {cls : String} {pos : Nat} {v : Bytes} {l : List Ast} (h : Token cls pos v l) : Text v l := by
  obtain ⟨a, rfl, _, _, h1, h2, _⟩ := h
  exact .cons h1 h2 .nil

theorem reached_advance {c : Ctx} {pre w rest : Bytes} (hc : At c pre (w ++ rest)) (cls : String) (v : Bytes) :
    Reached c (advance cls v w.length c) pre w rest (Token cls pre.length v) :=
  ⟨⟨by rw [List.append_assoc]; exact hc.str, by simp [advance, hc.pos], rfl⟩, rfl, rfl, _, rfl, _, rfl, rfl, rfl, rfl, rfl, hc.pos⟩

theorem charTerminal_hits {env : Env} {p : Sem} {cls : String} {S : Char → Prop} (h : CharTerminal p cls S) {ch : Char} {pre w rest : Bytes}
    (hn : NextChar (w ++ rest) ch w.length) (hS : S ch) : Hits (den env (.prim p)) pre w rest (Token cls pre.length (utf8 ch)) := fun c hc => by
  rw [den_prim]
  have := (h c hc.le).1 ch w.length (by rw [hc.drop]; exact hn) hS
  exact ⟨_, by rw [this]; rfl, reached_advance hc _ _⟩

theorem charTerminal_misses {env : Env} {p : Sem} {cls : String} {S : Char → Prop} (h : CharTerminal p cls S) {pre s : Bytes}
    (hn : ∀ ch n, NextChar s ch n → ¬ S ch) : Misses (den env (.prim p)) pre s := fun c hc => by
  rw [den_prim]
  by_cases hs : s = []
  · subst hs
    rw [(h c hc.le).2.2 (by rw [hc.pos, hc.str]; simp)]; rfl
  · obtain ⟨ch, n, hch⟩ := nextChar_total hs
    rw [(h c hc.le).2.1 ch n (by rw [hc.drop]; exact hch) (hn ch n hch)]; rfl

theorem seqS_hits {env : Env} (pre w rest : Bytes) : Hits (den env (.prim (seqS w))) pre w rest (Token ":string:Seq" pre.length w) := fun c hc => by
  rw [den_prim, seqS_eq, if_pos ((hasPrefixAt_iff w c hc.le).2 (by rw [hc.drop]; simp))]
  exact ⟨_, rfl, reached_advance hc _ _⟩

theorem seqS_misses {env : Env} {w pre s : Bytes} (h : ¬ w <+: s) : Misses (den env (.prim (seqS w))) pre s := fun c hc => by
  rw [den_prim, seqS_eq, if_neg (fun hh => h (by have := (hasPrefixAt_iff w c hc.le).1 hh; rwa [hc.drop] at this))]; rfl

theorem charClass_hits {env : Env} {cc cc1 cc2 : List Bytes} {pre w rest : Bytes} (hcc : cc = cc1 ++ w :: cc2)
    (h : ∀ x ∈ cc1, ¬ x <+: w ++ rest) : Hits (den env (.prim (charClass cc))) pre w rest (Token ":string:CharClass" pre.length w) := fun c hc => by
  rw [den_prim, charClass_eq]
  have : cc.find? (fun s => hasPrefixAt s c) = some w := by
    rw [hcc, List.find?_append, List.find?_eq_none.2 fun x hx hh => h x hx (by have := (hasPrefixAt_iff x c hc.le).1 hh; rwa [hc.drop] at this)]
    simp [(hasPrefixAt_iff w c hc.le).2 (by rw [hc.drop]; simp)]
  rw [this]
  exact ⟨_, rfl, reached_advance hc _ _⟩

theorem charClass_misses {env : Env} {cc : List Bytes} {pre s : Bytes} (h : ∀ x ∈ cc, ¬ x <+: s) : Misses (den env (.prim (charClass cc))) pre s := fun c hc => by
  rw [den_prim, charClass_eq]
  have : cc.find? (fun s => hasPrefixAt s c) = none :=
    List.find?_eq_none.2 fun x hx hh => h x hx (by have := (hasPrefixAt_iff x c hc.le).1 hh; rwa [hc.drop] at this)
  rw [this]; rfl

theorem charClassN_hits {env : Env} {cc : List Bytes} {ch : Char} {pre w rest : Bytes} (hn : NextChar (w ++ rest) ch w.length)
    (h : ∀ x ∈ cc, ¬ x <+: w ++ rest) : Hits (den env (.prim (charClassN cc))) pre w rest (Token ":string:CharClassN" pre.length (utf8 ch)) := fun c hc => by
  obtain ⟨h1, h2⟩ := nextChar_decode hn
  have hlt : c.pos < c.str.length := by
    rw [hc.pos, hc.str]
    cases hw : w ++ rest with
    | nil => exact absurd hw h1
    | cons a b => simp
  rw [den_prim, charClassN_eq cc c hc.le, if_pos ⟨hlt, List.all_eq_true.2 fun x hx => by
    have : hasPrefixAt x c ≠ true := fun hh => h x hx (by have := (hasPrefixAt_iff x c hc.le).1 hh; rwa [hc.drop] at this)
    simpa using this⟩, hc.drop, h2]
  simp only [encode_char]
  exact ⟨_, rfl, reached_advance hc _ _⟩

theorem charClassN_misses {env : Env} {cc : List Bytes} {pre s : Bytes} (h : s = [] ∨ ∃ x ∈ cc, x <+: s) : Misses (den env (.prim (charClassN cc))) pre s := fun c hc => by
  rw [den_prim, charClassN_eq cc c hc.le, if_neg]
  · rfl
  · rintro ⟨h1, h2⟩
    rcases h with rfl | ⟨x, hx, hp⟩
    · rw [hc.pos, hc.str] at h1; simp at h1
    · have := List.all_eq_true.1 h2 x hx
      rw [(hasPrefixAt_iff x c hc.le).2 (by rw [hc.drop]; exact hp)] at this
      simp at this

theorem endS_hits {env : Env} (pre : Bytes) : Hits (den env (.prim endS)) pre [] [] (· = []) := fun c hc => by
  rw [den_prim, endS_eq, if_pos (by rw [hc.pos, hc.str]; simp)]
  exact ⟨_, rfl, ⟨by simpa using hc.str, by simpa using hc.pos, rfl⟩, rfl, rfl, [], by simp, rfl⟩

theorem endS_misses {env : Env} {pre s : Bytes} (h : s ≠ []) : Misses (den env (.prim endS)) pre s := fun c hc => by
  rw [den_prim, endS_eq, if_neg (by rw [hc.pos, hc.str]; simpa using h)]; rfl

theorem startP_hits {env : Env} (rest : Bytes) : Hits (den env (.prim startP)) [] [] rest (· = []) := fun c hc => by
  rw [den_prim, startP_eq, if_pos (by rw [hc.pos]; rfl)]
  exact ⟨_, rfl, ⟨by simpa using hc.str, by simpa using hc.pos, rfl⟩, rfl, rfl, [], by simp, rfl⟩

theorem errorP_fails {env : Env} (msg : String) (pre s : Bytes) : Fails (den env (.prim (errorP msg))) pre s (· = some (.msg msg)) := fun c _ => by
  rw [den_prim, errorP_eq]
  exact ⟨_, _, rfl, rfl⟩

theorem zeroP_hits {env : Env} (asts : List Ast) (pre rest : Bytes) :
    Hits (den env (.prim (zeroP asts))) pre [] rest (fun l => ∃ n, l = asts.map fun a => { a with pos := pre.length, len := n }) := fun c hc => by
  rw [den_prim, zeroP_eq]
  exact ⟨_, rfl, ⟨by simpa using hc.str, by simpa using hc.pos, rfl⟩, rfl, rfl, _, rfl, c.len, by rw [hc.pos]⟩

/-! ### Texts -/

theorem texts_append {a b : List Ast} {v w : List Bytes} (h1 : Texts a v) (h2 : Texts b w) : Texts (a ++ b) (v ++ w) := by
  induction h1 with
  | nil => exact h2
  | cons h1 h2 _ ih => exact .cons h1 h2 ih

theorem both_texts {v w : List Bytes} {l : List Ast} (h : Both (Texts · v) (Texts · w) l) : Texts l (v ++ w) := by
  obtain ⟨a, b, rfl, h1, h2⟩ := h
  exact texts_append h1 h2

theorem nil_texts {l : List Ast} (h : l = []) : Texts l [] := by subst h; exact .nil

/-- After `Concat` and `ChangeClassName`: one string AST. -/
theorem concat_named {env : Env} {name : String} {vs : List Bytes} (c : Ctx) (l : List Ast) (h : Texts l vs) :
    ∃ l', applyTrs c ([Tr.fn concat, Tr.fn (changeClassName name)].map (denTr env)) l = .ok (l', none) ∧
      ∃ a, l' = [a] ∧ a.cls = name ∧ a.ty = .string ∧ a.val = .str vs.flatten ∧ (l ≠ [] → a.pos = (l.headD Ast.zero).pos) := by
  simp only [List.map, denTr_fn, applyTrs, concat_texts h]
  refine ⟨_, rfl, _, rfl, ?_⟩
  cases l with
  | nil => exact ⟨rfl, rfl, rfl, fun h => absurd rfl h⟩
  | cons a as => exact ⟨rfl, rfl, rfl, fun _ => rfl⟩

end Takenoco
