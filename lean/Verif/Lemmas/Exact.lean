import Verif.Lemmas.Total
/-
A logic for what parsers of string sources can match: a match is described by the consumed text, the text that is left, and the
pushed ASTs; a panic by the text at which the parser was started. The parser terminates on every text of at most a given length.
-/
namespace Takenoco
open Spec

/-- Consumed text, text left, pushed ASTs. -/
abbrev Match := Bytes → Bytes → List Ast → Prop

/-- The possible ends of a parser started between `pre` and `s`. -/
def Fine (X : Bytes → Panic → Prop) (Q : Match) (c : Ctx) (pre s : Bytes) : Outcome → Prop
  | .matched c' => ∃ w rest, s = w ++ rest ∧ Reached c c' pre w rest (Q w rest)
  | .unmatched => True
  | .failed _ _ => True
  | .panicked x => X s x
  | .timedOut => False

/-- On every text of at most `n` bytes. -/
def Admits (n : Nat) (X : Bytes → Panic → Prop) (Q : Match) (p : Sem) : Prop :=
  ∀ c pre s, At c pre s → s.length ≤ n → Fine X Q c pre s (Outcome.of (p c))

def SeqTakes (n : Nat) (X : Bytes → Panic → Prop) (Q : Match) (ps : List Sem) : Prop :=
  ∀ c pre s, At c pre s → s.length ≤ n → ∃ r, Seq ps c r ∧ Fine X Q c pre s r

/-- One match after the other. -/
def Then (Q R : Match) : Match := fun w rest l => ∃ w₁ w₂ a b, w = w₁ ++ w₂ ∧ l = a ++ b ∧ Q w₁ (w₂ ++ rest) a ∧ R w₂ rest b

/-- Panics are described by a text that may have more in front. -/
def Grows (X : Bytes → Panic → Prop) : Prop := ∀ w s x, X s x → X (w ++ s) x

section
variable {n m : Nat} {X : Bytes → Panic → Prop} {Q R : Match} {c : Ctx} {pre s : Bytes} {r : Outcome}

theorem Fine.mono (h : Fine X Q c pre s r) (hQ : ∀ w rest l, s = w ++ rest → Q w rest l → R w rest l) : Fine X R c pre s r := by
  cases r with
  | matched c' =>
    obtain ⟨w, rest, h1, h3⟩ := h
    exact ⟨w, rest, h1, h3.mono (hQ w rest · h1)⟩
  | unmatched => trivial
  | failed o e => trivial
  | panicked x => exact h
  | timedOut => exact h

theorem Admits.mono {p : Sem} (h : Admits n X Q p) (hQ : ∀ w rest l, Q w rest l → R w rest l) : Admits n X R p :=
  fun c pre s hc hs => (h c pre s hc hs).mono fun w rest l _ => hQ w rest l

theorem Admits.weak {p : Sem} (h : Admits n X Q p) (hm : m ≤ n) : Admits m X Q p :=
  fun c pre s hc hs => h c pre s hc (Nat.le_trans hs hm)

theorem SeqTakes.mono {ps : List Sem} (h : SeqTakes n X Q ps) (hQ : ∀ w rest l, Q w rest l → R w rest l) : SeqTakes n X R ps :=
  fun c pre s hc hs => let ⟨r, h1, h2⟩ := h c pre s hc hs
  ⟨r, h1, h2.mono fun w rest l _ => hQ w rest l⟩

theorem SeqTakes.weak {ps : List Sem} (h : SeqTakes n X Q ps) (hm : m ≤ n) : SeqTakes m X Q ps :=
  fun c pre s hc hs => h c pre s hc (Nat.le_trans hs hm)

/-! ### Sequences -/

theorem SeqTakes.nil : SeqTakes n X (fun w _ l => w = [] ∧ l = []) [] := fun _ _ s hc _ =>
  ⟨_, .done, [], s, rfl, (Reached.refl hc).mono fun _ h => ⟨rfl, h⟩⟩

/-- The rest of a sequence only has to deal with what the first parser leaves. -/
theorem SeqTakes.cons {p : Sem} {ps : List Sem} (hX : Grows X) (h1 : Admits n X Q p)
    (h2 : ∀ w rest l, Q w rest l → w.length + rest.length ≤ n → SeqTakes rest.length X R ps) : SeqTakes n X (Then Q R) (p :: ps) := fun c pre s hc hs => by
  have g1 := h1 c pre s hc hs
  generalize hr : Outcome.of (p c) = r at g1
  cases r with
  | matched c1 =>
    obtain ⟨w, rest, rfl, hre⟩ := g1
    simp only [List.length_append] at hs
    obtain ⟨l, hl, hq⟩ := hre.stack
    obtain ⟨r, h3, h4⟩ := h2 w rest l hq hs c1 (pre ++ w) rest hre.at_ (Nat.le_refl _)
    refine ⟨r, .step hr h3, ?_⟩
    cases r with
    | matched c2 =>
      obtain ⟨w2, rest2, rfl, hre2⟩ := h4
      refine ⟨w ++ w2, rest2, by simp, (hre.trans hre2).mono ?_⟩
      rintro l ⟨a, b, rfl, ha, hb⟩
      exact ⟨w, w2, a, b, rfl, rfl, ha, hb⟩
    | unmatched => trivial
    | failed o e => trivial
    | panicked x => exact hX w rest x h4
    | timedOut => exact h4
  | unmatched => exact ⟨_, .stop hr (fun _ h => by cases h), trivial⟩
  | failed o e => exact ⟨_, .stop hr (fun _ h => by cases h), g1⟩
  | panicked x => exact ⟨_, .stop hr (fun _ h => by cases h), g1⟩
  | timedOut => exact g1.elim

/-- If the rest of the sequence does not need to know what is left. -/
theorem SeqTakes.step {p : Sem} {ps : List Sem} (hX : Grows X) (h1 : Admits n X Q p) (h2 : SeqTakes n X R ps) : SeqTakes n X (Then Q R) (p :: ps) :=
  .cons hX h1 fun _ _ _ _ h => h2.weak (by omega)

theorem SeqTakes.single {p : Sem} (h : Admits n X Q p) : SeqTakes n X Q [p] := fun c pre s hc hs => by
  have g1 := h c pre s hc hs
  generalize hr : Outcome.of (p c) = r at g1
  cases r with
  | matched c1 => exact ⟨_, .step hr .done, g1⟩
  | unmatched => exact ⟨_, .stop hr (fun _ h => by cases h), trivial⟩
  | failed o e => exact ⟨_, .stop hr (fun _ h => by cases h), g1⟩
  | panicked x => exact ⟨_, .stop hr (fun _ h => by cases h), g1⟩
  | timedOut => exact g1.elim

/-! ### Combinators -/

variable {env : Env} {gs : List Gram} {g : Gram}

theorem Fine.change (cls : String) (h : Fine X Q (enter cls c) pre s r) (f : Ctx → Ctx) (hf : ∀ c', (f c').slice = c'.slice ∧ (f c').tag = c'.tag ∧
    (f c').stack = c'.stack ∧ (f c').str = c'.str ∧ (f c').pos = c'.pos ∧ (f c').status = c'.status) :
    Fine X Q c pre s (r.onMatch fun c' => .matched (f c')) := by
  cases r with
  | matched c' =>
    obtain ⟨w, rest, h1, h3⟩ := h
    obtain ⟨a, b, d, e, i, j⟩ := hf c'
    exact ⟨w, rest, h1, h3.congr rfl rfl rfl a b d e i j⟩
  | unmatched => trivial
  | failed o e => exact h
  | panicked x => exact h
  | timedOut => exact h

theorem flat_takes (h : SeqTakes n X Q (gs.map (den env))) : Admits n X Q (den env (.flatGroup gs)) := fun c pre s hc hs => by
  obtain ⟨r, h1, h2⟩ := h _ pre s (hc.enter ":base:FlatGroup") hs
  rw [den_flatGroup, flatGroup_of h1]
  exact h2.change _ (fun c' => { c' with qty := 1 }) fun _ => ⟨rfl, rfl, rfl, rfl, rfl, rfl⟩

/-- A choice: what any alternative can match. -/
theorem first_takes (hne : gs ≠ []) (h : ∀ g ∈ gs, Admits n X Q (den env g)) : Admits n X Q (den env (.first gs)) := fun c pre s hc hs => by
  have : ∀ gs : List Gram, (∀ g ∈ gs, Admits n X Q (den env g)) →
      ∃ r, Choice (gs.map (den env)) (enter ":base:First" c) r ∧ Fine X Q (enter ":base:First" c) pre s r := by
    intro gs h
    induction gs with
    | nil => exact ⟨_, .exhausted, trivial⟩
    | cons g gs ih =>
      have g1 := h g (by simp) _ pre s (hc.enter ":base:First") hs
      by_cases hu : Outcome.of (den env g (enter ":base:First" c)) = .unmatched
      · obtain ⟨r, h1, h2⟩ := ih fun g hg => h g (by simp [hg])
        exact ⟨r, .skip hu h1, h2⟩
      · exact ⟨_, .take rfl hu, g1⟩
  obtain ⟨r, h1, h2⟩ := this gs h
  rw [den_first, first_of (by simpa using hne) h1]
  exact h2.change _ (fun c' => { c' with qty := 1 }) fun _ => ⟨rfl, rfl, rfl, rfl, rfl, rfl⟩

/-- `m` matches one after the other. -/
inductive Repeated (Q : Match) : Nat → Bytes → Bytes → List Ast → Prop where
  | zero {rest : Bytes} : Repeated Q 0 [] rest []
  | succ {m : Nat} {w₁ w₂ rest : Bytes} {a b : List Ast} : Q w₁ (w₂ ++ rest) a → Repeated Q m w₂ rest b → Repeated Q (m + 1) (w₁ ++ w₂) rest (a ++ b)

/-- The parsers do not match one after the other at a text satisfying `E` only. -/
def StopsAt (ps : List Sem) (E : Bytes → Prop) : Prop := ∀ c pre s, At c pre s → Seq ps c .unmatched → E s

/-- The possible ends of a repetition from the `j`-th iteration on. -/
def RepFine (t : Times) (E : Bytes → Prop) (X : Bytes → Panic → Prop) (Q : Match) (j : Nat) (c : Ctx) (pre s : Bytes) : Outcome → Prop
  | .matched c' => ∃ m w rest, t.min ≤ (j + m : Nat) ∧ (t.max = (j + m : Nat) ∨ E rest) ∧ s = w ++ rest ∧ Reached c c' pre w rest (Repeated Q m w rest)
  | .unmatched => True
  | .failed _ _ => True
  | .panicked x => X s x
  | .timedOut => False

theorem repFine_end {t : Times} {E : Bytes → Prop} {j : Nat} (hc : At c pre s) (he : t.max = (j : Nat) ∨ E s) :
    RepFine t E X Q j c pre s (repEnd t (j + 0) c) := by
  unfold repEnd
  by_cases h : t.min ≤ ((j + 0 : Nat) : Int)
  · rw [if_pos h]
    refine ⟨0, [], s, h, he, rfl, ?_⟩
    exact ((Reached.refl hc).congr (b := { c with qty := j + 0 }) rfl rfl rfl rfl rfl rfl rfl rfl rfl).mono fun l hl => by subst hl; exact .zero
  · rw [if_neg h]; trivial

theorem repFine_stop {t : Times} {E : Bytes → Prop} {ps : List Sem} {j : Nat} (hE : StopsAt ps E) (hc : At c pre s)
    (hm : (j : Int) ≤ t.max → (j : Int) < t.max) (h1 : Seq ps c r)
    (h2 : Fine X Q c pre s r) (hr : ∀ c', r ≠ .matched c') : ∃ r, RepsHold t ps j c r ∧ RepFine t E X Q j c pre s r := by
  by_cases hu : r = .unmatched
  · exact ⟨_, ⟨0, c, .zero, .inr ⟨by simpa using hm, _, h1, hr, .inl ⟨hu, rfl⟩⟩⟩, repFine_end hc (.inr (hE c pre s hc (hu ▸ h1)))⟩
  · refine ⟨_, ⟨0, c, .zero, .inr ⟨by simpa using hm, _, h1, hr, .inr ⟨hu, rfl⟩⟩⟩, ?_⟩
    cases r with
    | matched c' => exact absurd rfl (hr c')
    | unmatched => trivial
    | failed o e => exact h2
    | panicked x => exact h2
    | timedOut => exact h2

theorem reps_takes {t : Times} {E : Bytes → Prop} {ps : List Sem} (hX : Grows X) (hE : StopsAt ps E) (h : SeqTakes n X Q ps)
    (hk : t.max < 0 → ∀ w rest l, Q w rest l → w ≠ []) (μ : Nat) : ∀ (j : Nat) (c : Ctx) (pre s : Bytes),
    (t.max < 0 ∧ s.length ≤ μ ∨ (j : Int) ≤ t.max ∧ t.max - j ≤ μ) → At c pre s → s.length ≤ n →
    ∃ r, RepsHold t ps j c r ∧ RepFine t E X Q j c pre s r := by
  induction μ with
  | zero =>
    intro j c pre s hμ hc hs
    by_cases hm : t.max = j
    · exact ⟨_, ⟨0, c, .zero, .inl ⟨by simpa using hm, rfl⟩⟩, repFine_end hc (.inl hm)⟩
    · obtain ⟨r, h1, h2⟩ := h c pre s hc hs
      refine repFine_stop hE hc (by omega) h1 h2 ?_
      rintro c' rfl
      obtain ⟨w, rest, rfl, hre⟩ := h2
      obtain ⟨l, _, hq⟩ := hre.stack
      have := List.length_pos_iff.2 (hk (by omega) w rest l hq)
      simp only [List.length_append] at hμ
      omega
  | succ μ ih =>
    intro j c pre s hμ hc hs
    by_cases hm : t.max = j
    · exact ⟨_, ⟨0, c, .zero, .inl ⟨by simpa using hm, rfl⟩⟩, repFine_end hc (.inl hm)⟩
    · obtain ⟨r, h1, h2⟩ := h c pre s hc hs
      by_cases hr : ∃ c', r = .matched c'
      · obtain ⟨c1, rfl⟩ := hr
        obtain ⟨w, rest, rfl, hre⟩ := h2
        have hw : t.max < 0 → 0 < w.length := fun h0 => by
          obtain ⟨l, _, hq⟩ := hre.stack
          exact List.length_pos_iff.2 (hk h0 w rest l hq)
        have hre' : Reached c { c1 with qty := j } pre w rest (Q w rest) := hre.congr rfl rfl rfl rfl rfl rfl rfl rfl rfl
        simp only [List.length_append] at hs hμ
        obtain ⟨r, ⟨i, c2, h3, h4⟩, h5⟩ := ih (j + 1) { c1 with qty := j } (pre ++ w) rest (by omega) hre'.at_ (by omega)
        refine ⟨r, ⟨i + 1, c2, .succ h1 h3, ?_⟩, ?_⟩
        · rcases h4 with ⟨h4, h6⟩ | ⟨h4, h6⟩
          · exact .inl ⟨by rw [h4]; omega, by rw [h6]; congr 1; omega⟩
          · refine .inr ⟨by omega, ?_⟩
            rw [show j + (i + 1) = j + 1 + i by omega]; exact h6
        · cases r with
          | matched c' =>
            obtain ⟨m, w2, rest2, h6, h7, rfl, h8⟩ := h5
            refine ⟨m + 1, w ++ w2, rest2, by omega, ?_, by simp, (hre'.trans h8).mono ?_⟩
            · rw [show j + (m + 1) = j + 1 + m by omega]; exact h7
            · rintro l ⟨a, b, rfl, ha, hb⟩
              exact .succ ha hb
          | unmatched => trivial
          | failed o e => trivial
          | panicked x => exact hX _ _ _ h5
          | timedOut => exact h5
      · exact repFine_stop hE hc (by omega) h1 h2 fun c' e => hr ⟨c', e⟩

theorem repeat_takes {t : Times} {E : Bytes → Prop} (hX : Grows X) (hE : StopsAt (gs.map (den env)) E) (h : SeqTakes n X Q (gs.map (den env)))
    (hk : t.max < 0 → ∀ w rest l, Q w rest l → w ≠ []) :
    Admits n X (fun w rest l => ∃ m : Nat, t.min ≤ m ∧ (t.max = m ∨ E rest) ∧ Repeated Q m w rest l) (den env (.repeat t gs)) := fun c pre s hc hs => by
  obtain ⟨r, h1, h2⟩ := reps_takes (t := t) hX hE h hk (s.length + t.max.toNat) 0 _ pre s (by omega) (hc.enter ":base:Repeat") hs
  have hr : r ≠ .timedOut := fun h => by subst h; exact h2
  rw [den_repeat_outcome h1 hr]
  cases r with
  | matched c' =>
    obtain ⟨m, w, rest, h3, h4, h5, h6⟩ := h2
    simp only [Nat.zero_add] at h3 h4
    exact ⟨w, rest, h5, (h6.congr (a := c) rfl rfl rfl rfl rfl rfl rfl rfl rfl).mono fun l hl => ⟨m, h3, h4, hl⟩⟩
  | unmatched => trivial
  | failed o e => trivial
  | panicked x => exact h2
  | timedOut => exact h2

theorem star_takes {E : Bytes → Prop} (hX : Grows X) (hE : StopsAt (gs.map (den env)) E) (h : SeqTakes n X Q (gs.map (den env)))
    (hk : ∀ w rest l, Q w rest l → w ≠ []) : Admits n X (fun w rest l => E rest ∧ ∃ m, Repeated Q m w rest l) (den env (Gram.star gs)) :=
  (repeat_takes hX hE h (fun _ => hk)).mono fun w rest l ⟨m, _, h2, h3⟩ =>
    ⟨h2.resolve_left (by simp [qtyZeroOrMoreTimes]), m, h3⟩

/-- What transformers can make of a match. -/
def TrTakes (X : Bytes → Panic → Prop) (Q R : Match) (fs : List TSem) : Prop :=
  ∀ c w rest l, Q w rest l → match applyTrs c fs l with
    | .ok (l', none) => R w rest l'
    | .ok (_, some _) => True
    | .panic x => X (w ++ rest) x
    | .timeout => False

theorem trans_takes {ts : List Tr} (hne : ts ≠ []) (h : Admits n X Q (den env g)) (ht : TrTakes X Q R (ts.map (denTr env))) :
    Admits n X R (den env (.trans g ts)) := fun c pre s hc hs => by
  have g1 := h _ pre s (hc.enter ":base:Trans") hs
  generalize hr : Outcome.of (den env g (enter ":base:Trans" c)) = r at g1
  cases r with
  | matched c' =>
    obtain ⟨w, rest, h1, h3⟩ := g1
    obtain ⟨new, hn, hq⟩ := h3.stack
    have := ht { c with cls := ":base:Trans" } w rest new hq
    have hstack : c'.stack = c.stack ++ new := hn
    rw [den_trans, trans_matched_eq hr]
    have hv : variadic (ts.map (denTr env)) = some (ts.map (denTr env)) := by
      cases ts with
      | nil => exact absurd rfl hne
      | cons t ts => rfl
    rw [hv]
    simp only [applyTransforms]
    rw [if_neg (by rw [hstack]; simp)]
    simp only [hstack, List.drop_left, List.take_left]
    split at this <;> rename_i hl <;> simp only [hl]
    · simp only [Outcome.of, h3.at_.ok]
      exact ⟨w, rest, h1, ⟨h3.at_.str, h3.at_.pos, rfl⟩, h3.slice, h3.tag, _, rfl, this⟩
    · trivial
    · simp only [Outcome.of, Fine]; rw [h1]; exact this
    · exact this.elim
  | unmatched => rw [den_trans, trans_stop_of hr (fun _ h => by cases h)]; trivial
  | failed o e => rw [den_trans, trans_stop_of hr (fun _ h => by cases h)]; exact g1
  | panicked x => rw [den_trans, trans_stop_of hr (fun _ h => by cases h)]; exact g1
  | timedOut => exact g1.elim

theorem erased_takes (h : Admits n X Q (den env g)) : Admits n X (fun w rest l => l = [] ∧ ∃ l', Q w rest l') (den env (Gram.erased g)) :=
  trans_takes (by simp) h fun c w rest l hq => by simpa [denTr_fn, applyTrs, erase] using ⟨l, hq⟩

theorem indirect_takes {i : Nat} (h : Admits n X Q (den env (env i))) : Admits n X Q (den env (.indirect i)) := fun c pre s hc hs => by
  have g1 := h c pre s hc hs
  rw [den_indirect]; unfold indirect
  rw [light_of]
  cases hr : Outcome.of (den env (env i) c) with
  | matched c' =>
    rw [hr] at g1
    obtain ⟨w, rest, h1, h3⟩ := g1
    exact ⟨w, rest, h1, h3.congr rfl rfl rfl rfl rfl rfl rfl rfl rfl⟩
  | unmatched => trivial
  | failed o e => trivial
  | panicked x => rw [hr] at g1; exact g1
  | timedOut => rw [hr] at g1; exact g1.elim

/-! ### Terminals -/

/-- The end of a repetition of one parser, which matches unless `E` holds. -/
theorem stopsAt_of {p : Sem} {E : Bytes → Prop} (h : ∀ pre s, ¬ E s → ∃ w rest Q, s = w ++ rest ∧ Hits p pre w rest Q) : StopsAt [p] E := by
  intro c pre s hc hu
  by_cases he : E s
  · exact he
  · obtain ⟨w, rest, Q, rfl, hh⟩ := h pre s he
    obtain ⟨c', h1, _⟩ := hh c hc
    cases hu with
    | stop h2 _ => rw [h1] at h2; cases h2
    | step h2 h3 => cases h3

theorem stopsAt_any {ps : List Sem} : StopsAt ps (fun _ => True) := fun _ _ _ _ _ => trivial

theorem charTerminal_takes {p : Sem} {cls : String} {S : Char → Prop} (h : CharTerminal p cls S) :
    Admits n X (fun w rest l => ∃ ch, S ch ∧ NextChar (w ++ rest) ch w.length ∧ Text (utf8 ch) l) (den env (.prim p)) := fun c pre s hc hs => by
  rw [den_prim]
  by_cases hs : s = []
  · subst hs
    rw [(h c hc.le).2.2 (by rw [hc.pos, hc.str]; simp)]; trivial
  · obtain ⟨ch, m, hch⟩ := nextChar_total hs
    by_cases hS : S ch
    · rw [(h c hc.le).1 ch m (by rw [hc.drop]; exact hch) hS]
      have hm := nextChar_width hch
      have e : m = (s.take m).length := by simp; omega
      refine ⟨s.take m, s.drop m, by simp, ?_⟩
      have := reached_advance (pre := pre) (w := s.take m) (rest := s.drop m) (c := c) (by simpa using hc) cls (utf8 ch)
      rw [← e] at this
      refine this.mono fun l hl => ⟨ch, hS, ?_, hl.text⟩
      rw [← e]; simpa using hch
    · rw [(h c hc.le).2.1 ch m (by rw [hc.drop]; exact hch) hS]; trivial

theorem charClass_takes {cc : List Bytes} : Admits n X (fun w _ l => w ∈ cc ∧ Text w l) (den env (.prim (charClass cc))) := fun c pre s hc hs => by
  rw [den_prim, charClass_eq]
  cases hf : cc.find? (fun s => hasPrefixAt s c) with
  | none => trivial
  | some w =>
    have h1 := List.find?_some hf
    have h2 := List.mem_of_find?_eq_some hf
    obtain ⟨rest, hr⟩ := (hasPrefixAt_iff w c hc.le).1 h1
    rw [hc.drop] at hr
    subst hr
    exact ⟨w, rest, rfl, (reached_advance hc _ _).mono fun l hl => ⟨h2, hl.text⟩⟩

theorem seqS_takes (v : Bytes) : Admits n X (fun w _ l => w = v ∧ Text v l) (den env (.prim (seqS v))) := fun c pre s hc hs => by
  rw [den_prim, seqS_eq]
  split
  · rename_i h1
    obtain ⟨rest, hr⟩ := (hasPrefixAt_iff v c hc.le).1 h1
    rw [hc.drop] at hr
    subst hr
    exact ⟨v, rest, rfl, (reached_advance hc _ _).mono fun l hl => ⟨rfl, hl.text⟩⟩
  · trivial

theorem charClassN_takes {cc : List Bytes} :
    Admits n X (fun w rest l => ∃ ch, NextChar (w ++ rest) ch w.length ∧ (∀ x ∈ cc, ¬ x <+: w ++ rest) ∧ Text (utf8 ch) l) (den env (.prim (charClassN cc))) :=
    fun c pre s hc hs => by
  by_cases h : s = [] ∨ ∃ x ∈ cc, x <+: s
  · rw [charClassN_misses h c hc]; trivial
  · have hne : s ≠ [] := fun e => h (.inl e)
    obtain ⟨ch, m, hch⟩ := nextChar_total hne
    have hm := nextChar_width hch
    have e : m = (s.take m).length := by simp; omega
    have hs' : s = s.take m ++ s.drop m := by simp
    have hno : ∀ x ∈ cc, ¬ x <+: s.take m ++ s.drop m := fun x hx hp => h (.inr ⟨x, hx, by rwa [← hs'] at hp⟩)
    have := charClassN_hits (env := env) (cc := cc) (pre := pre) (w := s.take m) (rest := s.drop m) (ch := ch) (by rw [← e, ← hs']; exact hch)
      hno c (by rw [← hs']; exact hc)
    obtain ⟨c', h1, h2⟩ := this
    rw [h1]
    exact ⟨_, _, hs', h2.mono fun l hl => ⟨ch, by rw [← e, ← hs']; exact hch, hno, hl.text⟩⟩

theorem endS_takes : Admits n X (fun w rest l => w = [] ∧ rest = [] ∧ l = []) (den env (.prim endS)) := fun c pre s hc hs => by
  by_cases h : s = []
  · subst h
    obtain ⟨c', h1, h2⟩ := endS_hits (env := env) pre c hc
    rw [h1]
    exact ⟨[], [], rfl, h2.mono fun l hl => ⟨rfl, rfl, hl⟩⟩
  · rw [endS_misses h c hc]; trivial

theorem startP_takes : Admits n X (fun w _ l => w = [] ∧ l = []) (den env (.prim startP)) := fun c pre s hc hs => by
  rw [den_prim, startP_eq]
  split
  · exact ⟨[], s, rfl, ⟨by simpa using hc.str, by simpa using hc.pos, rfl⟩, rfl, rfl, [], by simp, rfl, rfl⟩
  · trivial

theorem errorP_takes (msg : String) : Admits n X Q (den env (.prim (errorP msg))) := fun c pre s hc hs => by
  rw [den_prim, errorP_eq]; trivial

theorem wordBoundary_takes : Admits n X (fun w _ l => w = [] ∧ l = []) (den env (.prim wordBoundary)) := fun c pre s hc hs => by
  rw [den_prim]
  obtain ⟨b, hb⟩ := wordBoundary_form ":string:WordBoundary" isWord c hc.le
  unfold wordBoundary
  rw [hb]
  split
  · exact ⟨[], s, rfl, ⟨by simpa using hc.str, by simpa using hc.pos, rfl⟩, rfl, rfl, [], by simp, rfl, rfl⟩
  · trivial

theorem Repeated.mono {k : Nat} {w rest : Bytes} {l : List Ast} (h : Repeated Q k w rest l) (hQ : ∀ w rest l, Q w rest l → R w rest l) : Repeated R k w rest l := by
  induction h with
  | zero => exact .zero
  | succ h _ ih => exact .succ (hQ _ _ _ h) ih

/-! ### Where parsers do not match -/

theorem seq_one_unmatched {p : Sem} (h : Seq [p] c .unmatched) : Outcome.of (p c) = .unmatched := by
  cases h with
  | stop h _ => exact h
  | step _ h => cases h

theorem StopsAt.one {p : Sem} {E : Bytes → Prop} (h : ∀ c pre s, At c pre s → Outcome.of (p c) = .unmatched → E s) : StopsAt [p] E :=
  fun c pre s hc hu => h c pre s hc (seq_one_unmatched hu)

theorem StopsAt.mono {ps : List Sem} {E F : Bytes → Prop} (h : StopsAt ps E) (hF : ∀ s, E s → F s) : StopsAt ps F :=
  fun c pre s hc hu => hF s (h c pre s hc hu)

theorem StopsAt.nil : StopsAt [] (fun _ => False) := fun _ _ _ _ h => by cases h

theorem StopsAt.cons {p : Sem} {ps : List Sem} {E F : Bytes → Prop} (h1 : StopsAt [p] E) (h2 : ∀ n, Admits n X Q p) (h3 : StopsAt ps F) :
    StopsAt (p :: ps) (fun s => E s ∨ ∃ w rest l, s = w ++ rest ∧ Q w rest l ∧ F rest) := by
  intro c pre s hc hu
  cases hu with
  | stop h _ => exact .inl (h1 c pre s hc (.stop h (fun _ h => by cases h)))
  | step h h' =>
    have := h2 s.length c pre s hc (Nat.le_refl _)
    rw [h] at this
    obtain ⟨w, rest, rfl, hr⟩ := this
    obtain ⟨l, _, hq⟩ := hr.stack
    exact .inr ⟨w, rest, l, rfl, hq, h3 _ _ _ hr.at_ h'⟩

theorem flat_stops {E : Bytes → Prop} (h : StopsAt (gs.map (den env)) E) : StopsAt [den env (.flatGroup gs)] E := .one fun c pre s hc hu => by
  obtain ⟨r, hr⟩ := Seq.total (gs.map (den env)) (enter ":base:FlatGroup" c)
  rw [den_flatGroup, flatGroup_of hr] at hu
  cases r <;> simp [Outcome.onMatch] at hu
  exact h _ _ _ (hc.enter _) hr

theorem trans_stops {E : Bytes → Prop} {ts : List Tr} (h : StopsAt [den env g] E) : StopsAt [den env (.trans g ts)] E := .one fun c pre s hc hu => by
  by_cases hm : ∃ c', Outcome.of (den env g (enter ":base:Trans" c)) = .matched c'
  · obtain ⟨c', hm⟩ := hm
    rw [den_trans, trans_matched_eq hm] at hu
    have hs : c'.status = .matched := Outcome.of_matched_status hm
    unfold applyTransforms at hu
    split at hu
    · simp [Outcome.of, hs] at hu
    · split at hu
      · simp [Outcome.of] at hu
      · split at hu <;> simp [Outcome.of, hs] at hu
  · rw [den_trans, trans_stop_of rfl fun c' h => hm ⟨c', h⟩] at hu
    exact h _ _ _ (hc.enter ":base:Trans") (.stop hu (fun _ h => by cases h))

theorem repeat_stops {t : Times} {E : Bytes → Prop} (ht : t.max < 0) (hX : Grows X) (h : ∀ n, SeqTakes n X Q (gs.map (den env)))
    (hk : ∀ w rest l, Q w rest l → w ≠ []) (h1 : 0 < t.min → t.min = 1 ∧ StopsAt (gs.map (den env)) E) : StopsAt [den env (.repeat t gs)] (fun s => 0 < t.min ∧ E s) :=
    .one fun c pre s hc hu => by
  obtain ⟨r, h2, h3⟩ := reps_takes (t := t) hX stopsAt_any (h s.length) (fun _ => hk) s.length 0 _ pre s (.inl ⟨ht, Nat.le_refl _⟩)
    (hc.enter ":base:Repeat") (Nat.le_refl _)
  have hr : r ≠ .timedOut := fun h => by subst h; exact h3
  rw [den_repeat_outcome h2 hr] at hu
  subst hu
  obtain ⟨i, c', h4, ⟨h5, _⟩ | ⟨_, r', h6, _, h7⟩⟩ := h2
  · omega
  · rcases h7 with ⟨rfl, h8⟩ | ⟨h8, rfl⟩
    · unfold repEnd at h8
      split at h8
      · cases h8
      · rename_i h9
        have hp : 0 < t.min := by omega
        obtain ⟨h10, h11⟩ := h1 hp
        have : i = 0 := by omega
        subst this
        cases h4
        exact ⟨hp, h11 _ _ _ (hc.enter _) h6⟩
    · exact absurd rfl h8

theorem star_stops (hX : Grows X) (h : ∀ n, SeqTakes n X Q (gs.map (den env))) (hk : ∀ w rest l, Q w rest l → w ≠ []) :
    StopsAt [den env (Gram.star gs)] (fun _ => False) :=
  (repeat_stops (t := qtyZeroOrMoreTimes) (E := fun _ => False) (by decide) hX h hk (fun h => absurd h (by decide))).mono fun _ h => h.2

theorem plus_stops {E : Bytes → Prop} (hX : Grows X) (h : ∀ n, SeqTakes n X Q (gs.map (den env))) (hk : ∀ w rest l, Q w rest l → w ≠ [])
    (h1 : StopsAt (gs.map (den env)) E) : StopsAt [den env (Gram.plus gs)] E :=
  (repeat_stops (t := qtyOneOrMoreTimes) (by decide) hX h hk (fun _ => ⟨by decide, h1⟩)).mono fun _ h => h.2

/-- What one or more repetitions can match. -/
theorem plus_takes {E : Bytes → Prop} (hX : Grows X) (hE : StopsAt (gs.map (den env)) E) (h : SeqTakes n X Q (gs.map (den env)))
    (hk : ∀ w rest l, Q w rest l → w ≠ []) : Admits n X (fun w rest l => E rest ∧ ∃ m, Repeated Q (m + 1) w rest l) (den env (Gram.plus gs)) :=
  (repeat_takes hX hE h (fun _ => hk)).mono fun w rest l ⟨m, h1, h2, h3⟩ => by
    refine ⟨h2.resolve_left (by simp [qtyOneOrMoreTimes]), ?_⟩
    cases m with
    | zero => simp [qtyOneOrMoreTimes] at h1
    | succ m => exact ⟨m, h3⟩

/-- A choice of two: what the first can match, or what the second can match where the first does not. -/
theorem first_two_takes {E : Bytes → Prop} {g₁ g₂ : Gram} (h1 : Admits n X Q (den env g₁)) (hE : StopsAt [den env g₁] E) (h2 : Admits n X R (den env g₂)) :
    Admits n X (fun w rest l => Q w rest l ∨ E (w ++ rest) ∧ R w rest l) (den env (.first [g₁, g₂])) := fun c pre s hc hs => by
  have h3 := h1 _ pre s (hc.enter ":base:First") hs
  have h4 := h2 _ pre s (hc.enter ":base:First") hs
  have : ∃ r, Choice [den env g₁, den env g₂] (enter ":base:First" c) r ∧
      Fine X (fun w rest l => Q w rest l ∨ E (w ++ rest) ∧ R w rest l) (enter ":base:First" c) pre s r := by
    by_cases hu : Outcome.of (den env g₁ (enter ":base:First" c)) = .unmatched
    · have he := hE _ _ _ (hc.enter ":base:First") (.stop hu (fun _ h => by cases h))
      have h5 : Fine X (fun w rest l => Q w rest l ∨ E (w ++ rest) ∧ R w rest l) (enter ":base:First" c) pre s (Outcome.of (den env g₂ (enter ":base:First" c))) :=
        h4.mono fun w rest l e hr => .inr ⟨e ▸ he, hr⟩
      by_cases hv : Outcome.of (den env g₂ (enter ":base:First" c)) = .unmatched
      · exact ⟨_, .skip hu (.skip hv .exhausted), trivial⟩
      · exact ⟨_, .skip hu (.take rfl hv), h5⟩
    · exact ⟨_, .take rfl hu, h3.mono fun w rest l _ hq => .inl hq⟩
  obtain ⟨r, h5, h6⟩ := this
  rw [den_first, List.map_cons, List.map_cons, List.map_nil, first_of (by simp) h5]
  exact h6.change _ (fun c' => { c' with qty := 1 }) fun _ => ⟨rfl, rfl, rfl, rfl, rfl, rfl⟩

theorem first_two_stops {E F : Bytes → Prop} {g₁ g₂ : Gram} (h1 : StopsAt [den env g₁] E) (h2 : StopsAt [den env g₂] F) :
    StopsAt [den env (.first [g₁, g₂])] (fun s => E s ∧ F s) := .one fun c pre s hc hu => by
  by_cases hv : Outcome.of (den env g₁ (enter ":base:First" c)) = .unmatched
  · by_cases hw : Outcome.of (den env g₂ (enter ":base:First" c)) = .unmatched
    · exact ⟨h1 _ _ _ (hc.enter ":base:First") (.stop hv (fun _ h => by cases h)), h2 _ _ _ (hc.enter ":base:First") (.stop hw (fun _ h => by cases h))⟩
    · rw [den_first, List.map_cons, List.map_cons, List.map_nil, first_of (by simp) (.skip hv (.take rfl hw))] at hu
      cases hr : Outcome.of (den env g₂ (enter ":base:First" c)) <;> rw [hr] at hu hw <;> simp [Outcome.onMatch] at hu hw
  · rw [den_first, List.map_cons, List.map_cons, List.map_nil, first_of (by simp) (.take rfl hv)] at hu
    cases hr : Outcome.of (den env g₁ (enter ":base:First" c)) <;> rw [hr] at hu hv <;> simp [Outcome.onMatch] at hu hv

end
end Takenoco
