import Verif.Lemmas.Logic
import Verif.Lemmas.Runs
/-
A total-correctness logic for parsers of string sources: what a parser can do on any text of at most a given length.
It terminates; a match consumes at least a given number of bytes and pushes ASTs of a given kind; a failure stays within
the source; a panic is one of those allowed.
-/
namespace Takenoco
open Spec

/-- The possible ends of a parser started between `pre` and `s`. -/
def Good (X : Panic → Prop) (k : Nat) (Q : List Ast → Prop) (c : Ctx) (pre s : Bytes) : Outcome → Prop
  | .matched c' => ∃ w rest, s = w ++ rest ∧ k ≤ w.length ∧ Reached c c' pre w rest Q
  | .unmatched => True
  | .failed o _ => o.pos ≤ pre.length + s.length
  | .panicked x => X x
  | .timedOut => False

/-- On every text of at most `n` bytes. -/
def Total (n : Nat) (X : Panic → Prop) (k : Nat) (Q : List Ast → Prop) (p : Sem) : Prop :=
  ∀ c pre s, At c pre s → s.length ≤ n → Good X k Q c pre s (Outcome.of (p c))

def SeqTotal (n : Nat) (X : Panic → Prop) (k : Nat) (Q : List Ast → Prop) (ps : List Sem) : Prop :=
  ∀ c pre s, At c pre s → s.length ≤ n → ∃ r, Seq ps c r ∧ Good X k Q c pre s r

section
variable {n m k k' : Nat} {X : Panic → Prop} {Q R : List Ast → Prop} {c : Ctx} {pre s : Bytes} {r : Outcome}

theorem Good.mono (h : Good X k Q c pre s r) (hk : k' ≤ k) (hQ : ∀ l, Q l → R l) : Good X k' R c pre s r := by
  cases r with
  | matched c' =>
    obtain ⟨w, rest, h1, h2, h3⟩ := h
    exact ⟨w, rest, h1, Nat.le_trans hk h2, h3.mono hQ⟩
  | unmatched => trivial
  | failed o e => exact h
  | panicked x => exact h
  | timedOut => exact h

theorem Total.mono {p : Sem} (h : Total n X k Q p) (hk : k' ≤ k) (hQ : ∀ l, Q l → R l) : Total n X k' R p :=
  fun c pre s hc hs => (h c pre s hc hs).mono hk hQ

theorem Total.weak {p : Sem} (h : Total n X k Q p) (hm : m ≤ n) : Total m X k Q p :=
  fun c pre s hc hs => h c pre s hc (Nat.le_trans hs hm)

theorem SeqTotal.mono {ps : List Sem} (h : SeqTotal n X k Q ps) (hk : k' ≤ k) (hQ : ∀ l, Q l → R l) : SeqTotal n X k' R ps :=
  fun c pre s hc hs => let ⟨r, h1, h2⟩ := h c pre s hc hs
  ⟨r, h1, h2.mono hk hQ⟩

/-! ### Sequences -/

theorem SeqTotal.nil : SeqTotal n X 0 (· = []) [] := fun _ _ s hc _ =>
  ⟨_, .done, [], s, rfl, Nat.zero_le _, .refl hc⟩

/-- The rest of a sequence only has to deal with what the first parser leaves. -/
theorem SeqTotal.cons {p : Sem} {ps : List Sem} (h1 : Total n X k Q p) (h2 : k ≤ n → SeqTotal (n - k) X k' R ps) :
    SeqTotal n X (k + k') (Both Q R) (p :: ps) := fun c pre s hc hs => by
  have g1 := h1 c pre s hc hs
  generalize hr : Outcome.of (p c) = r at g1
  cases r with
  | matched c1 =>
    obtain ⟨w, rest, rfl, hw, hre⟩ := g1
    simp only [List.length_append] at hs
    obtain ⟨r, h3, h4⟩ := h2 (by omega) c1 (pre ++ w) rest hre.at_ (by omega)
    refine ⟨r, .step hr h3, ?_⟩
    cases r with
    | matched c2 =>
      obtain ⟨w2, rest2, rfl, hw2, hre2⟩ := h4
      exact ⟨w ++ w2, rest2, by simp, by simp; omega, hre.trans hre2⟩
    | unmatched => trivial
    | failed o e => simp only [Good, List.length_append] at h4 ⊢; omega
    | panicked x => exact h4
    | timedOut => exact h4
  | unmatched => exact ⟨_, .stop hr (fun _ h => by cases h), trivial⟩
  | failed o e => exact ⟨_, .stop hr (fun _ h => by cases h), g1⟩
  | panicked x => exact ⟨_, .stop hr (fun _ h => by cases h), g1⟩
  | timedOut => exact g1.elim

theorem SeqTotal.single {p : Sem} (h : Total n X k Q p) : SeqTotal n X k Q [p] := by
  have := SeqTotal.cons (k' := 0) h (fun _ => SeqTotal.nil)
  refine this.mono (by omega) fun l hl => ?_
  obtain ⟨a, b, rfl, h1, rfl⟩ := hl
  simpa using h1

/-! ### Combinators -/

variable {env : Env} {gs : List Gram} {g : Gram}

/-- Changes that the combinators make to a context. -/
theorem Good.change (cls : String) (h : Good X k Q (enter cls c) pre s r) (f : Ctx → Ctx) (hf : ∀ c', (f c').slice = c'.slice ∧ (f c').tag = c'.tag ∧
    (f c').stack = c'.stack ∧ (f c').str = c'.str ∧ (f c').pos = c'.pos ∧ (f c').status = c'.status) :
    Good X k Q c pre s (r.onMatch fun c' => .matched (f c')) := by
  cases r with
  | matched c' =>
    obtain ⟨w, rest, h1, h2, h3⟩ := h
    obtain ⟨a, b, d, e, i, j⟩ := hf c'
    exact ⟨w, rest, h1, h2, h3.congr rfl rfl rfl a b d e i j⟩
  | unmatched => trivial
  | failed o e => exact h
  | panicked x => exact h
  | timedOut => exact h

theorem flat_total (h : SeqTotal n X k Q (gs.map (den env))) : Total n X k Q (den env (.flatGroup gs)) := fun c pre s hc hs => by
  obtain ⟨r, h1, h2⟩ := h _ pre s (hc.enter ":base:FlatGroup") hs
  rw [den_flatGroup, flatGroup_of h1]
  exact h2.change _ (fun c' => { c' with qty := 1 }) fun _ => ⟨rfl, rfl, rfl, rfl, rfl, rfl⟩

theorem first_total (hne : gs ≠ []) (h : ∀ g ∈ gs, Total n X k Q (den env g)) : Total n X k Q (den env (.first gs)) := fun c pre s hc hs => by
  have : ∀ gs : List Gram, (∀ g ∈ gs, Total n X k Q (den env g)) →
      ∃ r, Choice (gs.map (den env)) (enter ":base:First" c) r ∧ Good X k Q (enter ":base:First" c) pre s r := by
    intro gs h
    induction gs with
    | nil => exact ⟨_, .exhausted, trivial⟩
    | cons g gs ih =>
      have g1 := h g (by simp) _ pre s (hc.enter ":base:First") hs
      by_cases hu : Outcome.of (den env g (enter ":base:First" c)) = .unmatched
      · obtain ⟨r, h1, h2⟩ := ih fun g hg => h g (by simp [hg])
        exact ⟨r, .skip hu h1, h2⟩
      · exact ⟨_, .take rfl hu, g1⟩
  obtain ⟨r, h1, h2⟩ := this gs h
  rw [den_first, first_of (by simpa using hne) h1]
  exact h2.change _ (fun c' => { c' with qty := 1 }) fun _ => ⟨rfl, rfl, rfl, rfl, rfl, rfl⟩

/-- A list of `m` parts satisfying `Q`. -/
inductive Many (Q : List Ast → Prop) : Nat → List Ast → Prop where
  | zero : Many Q 0 []
  | succ {m : Nat} {a b : List Ast} : Q a → Many Q m b → Many Q (m + 1) (a ++ b)

/-- The possible ends of a repetition from the `j`-th iteration on. -/
def RepGood (t : Times) (X : Panic → Prop) (k : Nat) (Q : List Ast → Prop) (j : Nat) (c : Ctx) (pre s : Bytes) : Outcome → Prop
  | .matched c' => ∃ m w rest, t.min ≤ (j + m : Nat) ∧ s = w ++ rest ∧ k * m ≤ w.length ∧ Reached c c' pre w rest (Many Q m)
  | .unmatched => True
  | .failed o _ => o.pos ≤ pre.length + s.length
  | .panicked x => X x
  | .timedOut => False

theorem repGood_end {t : Times} {j : Nat} (hc : At c pre s) : RepGood t X k Q j c pre s (repEnd t (j + 0) c) := by
  unfold repEnd
  by_cases h : t.min ≤ ((j + 0 : Nat) : Int)
  · rw [if_pos h]
    refine ⟨0, [], s, h, rfl, by simp, ?_⟩
    exact ((Reached.refl hc).congr (b := { c with qty := j + 0 }) rfl rfl rfl rfl rfl rfl rfl rfl rfl).mono fun l hl => by subst hl; exact .zero
  · rw [if_neg h]; trivial

theorem repGood_stop {t : Times} {ps : List Sem} {j : Nat} (hc : At c pre s) (hm : (j : Int) ≤ t.max → (j : Int) < t.max) (h1 : Seq ps c r)
    (h2 : Good X k Q c pre s r) (hr : ∀ c', r ≠ .matched c') : ∃ r, RepsHold t ps j c r ∧ RepGood t X k Q j c pre s r := by
  by_cases hu : r = .unmatched
  · exact ⟨_, ⟨0, c, .zero, .inr ⟨by simpa using hm, _, h1, hr, .inl ⟨hu, rfl⟩⟩⟩, repGood_end hc⟩
  · refine ⟨_, ⟨0, c, .zero, .inr ⟨by simpa using hm, _, h1, hr, .inr ⟨hu, rfl⟩⟩⟩, ?_⟩
    cases r with
    | matched c' => exact absurd rfl (hr c')
    | unmatched => trivial
    | failed o e => exact h2
    | panicked x => exact h2
    | timedOut => exact h2

theorem reps_total {t : Times} {ps : List Sem} (h : SeqTotal n X k Q ps) (μ : Nat) : ∀ (j : Nat) (c : Ctx) (pre s : Bytes),
    (t.max < 0 ∧ 0 < k ∧ s.length ≤ μ ∨ (j : Int) ≤ t.max ∧ t.max - j ≤ μ) → At c pre s → s.length ≤ n →
    ∃ r, RepsHold t ps j c r ∧ RepGood t X k Q j c pre s r := by
  induction μ with
  | zero =>
    intro j c pre s hμ hc hs
    by_cases hm : t.max = j
    · exact ⟨_, ⟨0, c, .zero, .inl ⟨by simpa using hm, rfl⟩⟩, repGood_end hc⟩
    · obtain ⟨r, h1, h2⟩ := h c pre s hc hs
      refine repGood_stop hc (by omega) h1 h2 ?_
      rintro c' rfl
      obtain ⟨w, rest, rfl, hw, _⟩ := h2
      simp only [List.length_append] at hμ
      omega
  | succ μ ih =>
    intro j c pre s hμ hc hs
    by_cases hm : t.max = j
    · exact ⟨_, ⟨0, c, .zero, .inl ⟨by simpa using hm, rfl⟩⟩, repGood_end hc⟩
    · obtain ⟨r, h1, h2⟩ := h c pre s hc hs
      by_cases hr : ∃ c', r = .matched c'
      · obtain ⟨c1, rfl⟩ := hr
        obtain ⟨w, rest, rfl, hw, hre⟩ := h2
        have hre' : Reached c { c1 with qty := j } pre w rest Q := hre.congr rfl rfl rfl rfl rfl rfl rfl rfl rfl
        simp only [List.length_append] at hs hμ
        obtain ⟨r, ⟨i, c2, h3, h4⟩, h5⟩ := ih (j + 1) { c1 with qty := j } (pre ++ w) rest (by omega) hre'.at_ (by omega)
        refine ⟨r, ⟨i + 1, c2, .succ h1 h3, ?_⟩, ?_⟩
        · rcases h4 with ⟨h4, h6⟩ | ⟨h4, h6⟩
          · exact .inl ⟨by rw [h4]; omega, by rw [h6]; congr 1; omega⟩
          · refine .inr ⟨by omega, ?_⟩
            rw [show j + (i + 1) = j + 1 + i by omega]; exact h6
        · cases r with
          | matched c' =>
            obtain ⟨m, w2, rest2, h6, rfl, h7, h8⟩ := h5
            refine ⟨m + 1, w ++ w2, rest2, by omega, by simp, by rw [Nat.mul_add]; simp; omega, (hre'.trans h8).mono ?_⟩
            rintro l ⟨a, b, rfl, ha, hb⟩
            exact .succ ha hb
          | unmatched => trivial
          | failed o e => simp only [RepGood, List.length_append] at h5 ⊢; omega
          | panicked x => exact h5
          | timedOut => exact h5
      · exact repGood_stop hc (by omega) h1 h2 fun c' e => hr ⟨c', e⟩

theorem repeat_total {t : Times} (h : SeqTotal n X k Q (gs.map (den env))) (ht : 0 < k ∨ 0 ≤ t.max) (hk : ∀ m : Nat, t.min ≤ m → k' ≤ k * m) :
    Total n X k' (fun l => ∃ m : Nat, t.min ≤ m ∧ Many Q m l) (den env (.repeat t gs)) := fun c pre s hc hs => by
  obtain ⟨r, h1, h2⟩ := reps_total (t := t) h (s.length + t.max.toNat) 0 _ pre s (by omega) (hc.enter ":base:Repeat") hs
  have hr : r ≠ .timedOut := fun h => by subst h; exact h2
  rw [den_repeat_outcome h1 hr]
  cases r with
  | matched c' =>
    obtain ⟨m, w, rest, h3, h4, h5, h6⟩ := h2
    simp only [Nat.zero_add] at h3
    exact ⟨w, rest, h4, Nat.le_trans (hk m h3) h5, (h6.congr (a := c) rfl rfl rfl rfl rfl rfl rfl rfl rfl).mono fun l hl => ⟨m, h3, hl⟩⟩
  | unmatched => trivial
  | failed o e => exact h2
  | panicked x => exact h2
  | timedOut => exact h2

theorem star_total (h : SeqTotal n X k Q (gs.map (den env))) (hk : 0 < k) : Total n X 0 (fun l => ∃ m, Many Q m l) (den env (Gram.star gs)) :=
  (repeat_total h (.inl hk) (fun _ _ => Nat.zero_le _)).mono (Nat.le_refl _) fun _ ⟨m, _, h⟩ => ⟨m, h⟩

theorem plus_total (h : SeqTotal n X k Q (gs.map (den env))) (hk : 0 < k) :
    Total n X k (fun l => ∃ m, 0 < m ∧ Many Q m l) (den env (Gram.plus gs)) :=
  (repeat_total (k' := k) h (.inl hk) (fun m hm => Nat.le_mul_of_pos_right k (by simp [qtyOneOrMoreTimes] at hm; omega))).mono (Nat.le_refl _)
    fun _ ⟨m, hm, h⟩ => ⟨m, (by simp [qtyOneOrMoreTimes] at hm; omega), h⟩

theorem opt_total (h : SeqTotal n X k Q (gs.map (den env))) : Total n X 0 (fun l => ∃ m, Many Q m l) (den env (Gram.opt gs)) :=
  (repeat_total h (.inr (by simp [qtyZeroOrOnce])) (fun _ _ => Nat.zero_le _)).mono (Nat.le_refl _) fun _ ⟨m, _, h⟩ => ⟨m, h⟩

/-- What transformers can make of the pushed ASTs. -/
def TrTotal (X : Panic → Prop) (Q R : List Ast → Prop) (fs : List TSem) : Prop :=
  ∀ c l, Q l → match applyTrs c fs l with
    | .ok (l', none) => R l'
    | .ok (_, some _) => True
    | .panic x => X x
    | .timeout => False

theorem trans_total {ts : List Tr} (hne : ts ≠ []) (h : Total n X k Q (den env g)) (ht : TrTotal X Q R (ts.map (denTr env))) :
    Total n X k R (den env (.trans g ts)) := fun c pre s hc hs => by
  have g1 := h _ pre s (hc.enter ":base:Trans") hs
  generalize hr : Outcome.of (den env g (enter ":base:Trans" c)) = r at g1
  cases r with
  | matched c' =>
    obtain ⟨w, rest, h1, h2, h3⟩ := g1
    obtain ⟨new, hn, hq⟩ := h3.stack
    have := ht { c with cls := ":base:Trans" } new hq
    have hstack : c'.stack = c.stack ++ new := hn
    rw [den_trans, trans_matched_eq hr]
    have hv : variadic (ts.map (denTr env)) = some (ts.map (denTr env)) := by
      cases ts with
      | nil => exact absurd rfl hne
      | cons t ts => rfl
    rw [hv]
    simp only [applyTransforms]
    rw [if_neg (by rw [hstack]; simp)]
    simp only [hstack, List.drop_left, List.take_left]
    split at this <;> rename_i hl <;> simp only [hl]
    · simp only [Outcome.of, h3.at_.ok]
      exact ⟨w, rest, h1, h2, ⟨h3.at_.str, h3.at_.pos, rfl⟩, h3.slice, h3.tag, _, rfl, this⟩
    · have := h3.at_.pos
      simp only [Outcome.of, Good]
      rw [this, h1]; simp
    · exact this
    · exact this.elim
  | unmatched => rw [den_trans, trans_stop_of hr (fun _ h => by cases h)]; trivial
  | failed o e => rw [den_trans, trans_stop_of hr (fun _ h => by cases h)]; exact g1
  | panicked x => rw [den_trans, trans_stop_of hr (fun _ h => by cases h)]; exact g1
  | timedOut => exact g1.elim

theorem erased_total (h : Total n X k Q (den env g)) : Total n X k (· = []) (den env (Gram.erased g)) :=
  trans_total (by simp) h fun c l _ => by simp [denTr_fn, applyTrs, erase]

theorem indirect_total {i : Nat} (h : Total n X k Q (den env (env i))) : Total n X k Q (den env (.indirect i)) := fun c pre s hc hs => by
  have g1 := h c pre s hc hs
  rw [den_indirect]; unfold indirect
  rw [light_of]
  cases hr : Outcome.of (den env (env i) c) with
  | matched c' =>
    rw [hr] at g1
    obtain ⟨w, rest, h1, h2, h3⟩ := g1
    exact ⟨w, rest, h1, h2, h3.congr rfl rfl rfl rfl rfl rfl rfl rfl rfl⟩
  | unmatched => trivial
  | failed o e => rw [hr] at g1; exact g1
  | panicked x => rw [hr] at g1; exact g1
  | timedOut => rw [hr] at g1; exact g1.elim

/-! ### Terminals -/

theorem nextChar_width {s : Bytes} {ch : Char} {n : Nat} (h : NextChar s ch n) : 0 < n ∧ n ≤ s.length := by
  refine ⟨?_, nextChar_le h⟩
  cases h with
  | char => rw [String.length_utf8EncodeChar]; exact Char.utf8Size_pos ch
  | bad => omega

theorem charTerminal_total {p : Sem} {cls : String} {S : Char → Prop} (h : CharTerminal p cls S) :
    Total n X 1 (fun l => ∃ ch, S ch ∧ Text (utf8 ch) l) (den env (.prim p)) := fun c pre s hc hs => by
  rw [den_prim]
  by_cases hs : s = []
  · subst hs
    rw [(h c hc.le).2.2 (by rw [hc.pos, hc.str]; simp)]; trivial
  · obtain ⟨ch, m, hch⟩ := nextChar_total hs
    by_cases hS : S ch
    · rw [(h c hc.le).1 ch m (by rw [hc.drop]; exact hch) hS]
      have hm := nextChar_width hch
      have e : m = (s.take m).length := by simp; omega
      refine ⟨s.take m, s.drop m, by simp, by rw [← e]; omega, ?_⟩
      have := reached_advance (pre := pre) (w := s.take m) (rest := s.drop m) (c := c) (by simpa using hc) cls (utf8 ch)
      rw [← e] at this
      exact this.mono fun l hl => ⟨ch, hS, hl.text⟩
    · rw [(h c hc.le).2.1 ch m (by rw [hc.drop]; exact hch) hS]; trivial

theorem charClass_total {cc : List Bytes} (h : ∀ x ∈ cc, k ≤ x.length) :
    Total n X k (fun l => ∃ w ∈ cc, Text w l) (den env (.prim (charClass cc))) := fun c pre s hc hs => by
  rw [den_prim, charClass_eq]
  cases hf : cc.find? (fun s => hasPrefixAt s c) with
  | none => trivial
  | some w =>
    have h1 := List.find?_some hf
    have h2 := List.mem_of_find?_eq_some hf
    obtain ⟨rest, hr⟩ := (hasPrefixAt_iff w c hc.le).1 h1
    rw [hc.drop] at hr
    subst hr
    exact ⟨w, rest, rfl, h w h2, (reached_advance hc _ _).mono fun l hl => ⟨w, h2, hl.text⟩⟩

theorem seqS_total (w : Bytes) : Total n X w.length (Text w) (den env (.prim (seqS w))) := fun c pre s hc hs => by
  rw [den_prim, seqS_eq]
  split
  · rename_i h1
    obtain ⟨rest, hr⟩ := (hasPrefixAt_iff w c hc.le).1 h1
    rw [hc.drop] at hr
    subst hr
    exact ⟨w, rest, rfl, Nat.le_refl _, (reached_advance hc _ _).mono fun l hl => hl.text⟩
  · trivial

theorem charClassN_total {cc : List Bytes} : Total n X 1 (fun l => ∃ w, Text w l) (den env (.prim (charClassN cc))) := fun c pre s hc hs => by
  by_cases h : s = [] ∨ ∃ x ∈ cc, x <+: s
  · rw [charClassN_misses h c hc]; trivial
  · have hne : s ≠ [] := fun e => h (.inl e)
    obtain ⟨ch, m, hch⟩ := nextChar_total hne
    have hm := nextChar_width hch
    have e : m = (s.take m).length := by simp; omega
    have hs' : s = s.take m ++ s.drop m := by simp
    have := charClassN_hits (env := env) (cc := cc) (pre := pre) (w := s.take m) (rest := s.drop m) (ch := ch) (by rw [← e, ← hs']; exact hch)
      (fun x hx hp => h (.inr ⟨x, hx, by rwa [← hs'] at hp⟩)) c (by rw [← hs']; exact hc)
    obtain ⟨c', h1, h2⟩ := this
    rw [h1]
    exact ⟨_, _, hs', by rw [← e]; omega, h2.mono fun l hl => ⟨_, hl.text⟩⟩

theorem endS_total : Total n X 0 (· = []) (den env (.prim endS)) := fun c pre s hc hs => by
  by_cases h : s = []
  · subst h
    obtain ⟨c', h1, h2⟩ := endS_hits (env := env) pre c hc
    rw [h1]
    exact ⟨[], [], rfl, Nat.le_refl _, h2⟩
  · rw [endS_misses h c hc]; trivial

theorem startP_total : Total n X 0 (· = []) (den env (.prim startP)) := fun c pre s hc hs => by
  rw [den_prim, startP_eq]
  split
  · exact ⟨[], s, rfl, Nat.le_refl _, ⟨by simpa using hc.str, by simpa using hc.pos, rfl⟩, rfl, rfl, [], by simp, rfl⟩
  · trivial

theorem errorP_total (msg : String) : Total n X k Q (den env (.prim (errorP msg))) := fun c pre s hc hs => by
  rw [den_prim, errorP_eq]
  have := hc.pos
  simp only [Outcome.of, Good]
  omega

theorem wordBoundary_total : Total n X 0 (· = []) (den env (.prim wordBoundary)) := fun c pre s hc hs => by
  rw [den_prim]
  obtain ⟨b, hb⟩ := wordBoundary_form ":string:WordBoundary" isWord c hc.le
  unfold wordBoundary
  rw [hb]
  split
  · exact ⟨[], s, rfl, Nat.le_refl _, ⟨by simpa using hc.str, by simpa using hc.pos, rfl⟩, rfl, rfl, [], by simp, rfl⟩
  · trivial

/-- Parts that are string ASTs together are string ASTs. -/
theorem many_texts {m : Nat} {l : List Ast} (h : Many (fun l => ∃ vs, Texts l vs) m l) : ∃ vs, Texts l vs := by
  induction h with
  | zero => exact ⟨[], .nil⟩
  | succ h _ ih =>
    obtain ⟨v, h⟩ := h
    obtain ⟨w, h'⟩ := ih
    exact ⟨v ++ w, texts_append h h'⟩

theorem Many.mono {m : Nat} {l : List Ast} (h : Many Q m l) (hQ : ∀ l, Q l → R l) : Many R m l := by
  induction h with
  | zero => exact .zero
  | succ h _ ih => exact .succ (hQ _ h) ih

end
end Takenoco
