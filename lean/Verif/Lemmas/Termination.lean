import Verif.Lemmas.BigStep
import Verif.Spec.Termination
/-
Well-formed grammars terminate.
-/
namespace Takenoco
open Spec

/-- The possible ends of a parser that terminates and consumes at least `k`. -/
def EndOk (S : Sources) (k : Nat) (c : Ctx) : Outcome → Prop
  | .matched o => o.status = .matched ∧ c.pos + k ≤ o.pos ∧ o.pos ≤ S.size c ∧ o.str = c.str ∧ o.slice = c.slice
  | .timedOut => False
  | _ => True

/-- The parser terminates on contexts with at most `m` of the source left. -/
def Finishes (S : Sources) (m k : Nat) (p : Sem) : Prop :=
  ∀ c, Inside S c → S.size c ≤ c.pos + m → EndOk S k c (Outcome.of (p c))

def SeqEnds (S : Sources) (m k : Nat) (ps : List Sem) : Prop :=
  ∀ c, Inside S c → S.size c ≤ c.pos + m → ∃ r, Seq ps c r ∧ EndOk S k c r

section
variable {S : Sources} {m k k' : Nat} {c : Ctx} {r : Outcome} {ps : List Sem}

theorem EndOk.mono (h : EndOk S k c r) (hk : k' ≤ k) : EndOk S k' c r := by
  cases r <;> simp only [EndOk] at h ⊢
  obtain ⟨h0, h1, h2⟩ := h
  exact ⟨h0, by omega, h2⟩

theorem EndOk.onMatch {d : Ctx} {f : Ctx → Outcome} (h : EndOk S k d r)
    (hf : ∀ o, r = .matched o → EndOk S k c (f o)) : EndOk S k c (r.onMatch f) := by
  cases r with
  | matched o => exact hf o rfl
  | unmatched => trivial
  | failed o e => trivial
  | panicked x => trivial
  | timedOut => exact h

theorem EndOk.same {d o o' : Ctx} (h : EndOk S k d (.matched o)) (hp : c.pos = d.pos) (h1 : c.str = d.str) (h2 : c.slice = d.slice)
    (g0 : o'.status = o.status) (g1 : o'.pos = o.pos) (g2 : o'.str = o.str) (g3 : o'.slice = o.slice) : EndOk S k c (.matched o') := by
  obtain ⟨e0, e1, e2, e3, e4⟩ := h
  exact ⟨by rw [g0, e0], by rw [hp, g1]; exact e1, by rw [g1, S.size_eq c d h1 h2]; exact e2, by rw [g2, e3, h1], by rw [g3, e4, h2]⟩

theorem inside_same {d : Ctx} (hc : Inside S c) (h0 : d.status = .matched) (h1 : d.str = c.str) (h2 : d.slice = c.slice) (hp : d.pos ≤ S.size c) : Inside S d :=
  ⟨h0, S.fine_eq c d h1.symm h2.symm hc.2.1, by rw [S.size_eq d c h1 h2]; exact hp⟩

theorem inside_enter (cls : String) (hc : Inside S c) : Inside S (enter cls c) :=
  inside_same hc rfl rfl rfl hc.2.2

theorem Finishes.mono {p : Sem} {m' : Nat} (h : Finishes S m k p) (hm : m' ≤ m) (hk : k' ≤ k) : Finishes S m' k' p :=
  fun c hc hs => (h c hc (by omega)).mono hk

theorem SeqEnds.nil : SeqEnds S m 0 [] := fun c hc _ => ⟨_, .done, hc.1, by omega, hc.2.2, rfl, rfl⟩

theorem SeqEnds.cons {p : Sem} (h1 : Finishes S m k p) (h2 : k ≤ m → SeqEnds S (m - k) k' ps) : SeqEnds S m (k + k') (p :: ps) := by
  intro c hc hs
  have g1 := h1 c hc hs
  cases hr : Outcome.of (p c) with
  | matched o =>
    rw [hr] at g1
    obtain ⟨e0, e1, e2, e3, e4⟩ := g1
    have hsz := S.size_eq o c e3 e4
    obtain ⟨r, h3, h4⟩ := h2 (by omega) o (inside_same hc e0 e3 e4 e2) (by omega)
    refine ⟨r, .step hr h3, ?_⟩
    cases r with
    | matched o' =>
      obtain ⟨f0, f1, f2, f3, f4⟩ := h4
      exact ⟨f0, by omega, by omega, by rw [f3, e3], by rw [f4, e4]⟩
    | unmatched => trivial
    | failed o e => trivial
    | panicked x => trivial
    | timedOut => exact h4
  | unmatched => exact ⟨_, .stop hr (fun _ h => by cases h), trivial⟩
  | failed o e => exact ⟨_, .stop hr (fun _ h => by cases h), trivial⟩
  | panicked x => exact ⟨_, .stop hr (fun _ h => by cases h), trivial⟩
  | timedOut => rw [hr] at g1; exact g1.elim

end

section
variable {S : Sources} {m k k' : Nat} {env : Env} {gs : List Gram} {g : Gram}

theorem prim_ends {p : Sem} (h1 : Halts S p) (h2 : Moves S k p) : Finishes S m k (den env (.prim p)) := fun c hc _ => by
  rw [den_prim]
  cases hp : p c with
  | timeout => exact absurd hp (h1 c hc)
  | panic x => trivial
  | ok oe =>
    obtain ⟨o, e⟩ := oe
    cases e with
    | some e => trivial
    | none =>
      cases ho : o.status with
      | matched => simp only [Outcome.of, ho]; exact ⟨ho, h2 c o hc hp ho⟩
      | unmatched => simp only [Outcome.of, ho]; trivial
      | error => simp only [Outcome.of, ho]; trivial

theorem flatGroup_ends (h : SeqEnds S m k (gs.map (den env))) : Finishes S m k (den env (.flatGroup gs)) := fun c hc hs => by
  obtain ⟨r, h1, h2⟩ := h _ (inside_enter ":base:FlatGroup" hc) (by rw [S.size_eq (enter ":base:FlatGroup" c) c rfl rfl]; exact hs)
  rw [den_flatGroup, flatGroup_of h1]
  exact h2.onMatch fun o ho => by subst ho; exact h2.same rfl rfl rfl rfl rfl rfl rfl

theorem group_ends (h : SeqEnds S m k (gs.map (den env))) : Finishes S m k (den env (.group gs)) := fun c hc hs => by
  obtain ⟨r, h1, h2⟩ := h _ (inside_enter ":base:Group" hc) (by rw [S.size_eq (enter ":base:Group" c) c rfl rfl]; exact hs)
  rw [den_group, group_of h1]
  refine h2.onMatch fun o ho => ?_
  subst ho
  split
  · trivial
  · exact h2.same rfl rfl rfl rfl rfl rfl rfl

theorem first_ends (hne : gs = [] → k = 0) (h : ∀ g ∈ gs, Finishes S m k (den env g)) : Finishes S m k (den env (.first gs)) := fun c hc hs => by
  have key : ∀ l : List Gram, (∀ g ∈ l, Finishes S m k (den env g)) →
      ∃ r, Choice (l.map (den env)) (enter ":base:First" c) r ∧ EndOk S k (enter ":base:First" c) r := by
    intro l hl
    induction l with
    | nil => exact ⟨_, .exhausted, trivial⟩
    | cons g l ih =>
      have g1 := hl g (by simp) _ (inside_enter ":base:First" hc) (by rw [S.size_eq (enter ":base:First" c) c rfl rfl]; exact hs)
      by_cases hu : Outcome.of (den env g (enter ":base:First" c)) = .unmatched
      · obtain ⟨r, h1, h2⟩ := ih fun g hg => hl g (by simp [hg])
        exact ⟨r, .skip hu h1, h2⟩
      · exact ⟨_, .take rfl hu, g1⟩
  by_cases hn : gs = []
  · subst hn
    rw [den_first, List.map_nil, firstNil_of, hne rfl]
    exact ⟨rfl, Nat.le_refl _, hc.2.2, rfl, rfl⟩
  · obtain ⟨r, h1, h2⟩ := key gs h
    rw [den_first, first_of (by simpa using hn) h1]
    exact h2.onMatch fun o ho => by subst ho; exact h2.same rfl rfl rfl rfl rfl rfl rfl

theorem EndOk.here {c o : Ctx} (hc : Inside S c) (h0 : o.status = c.status) (h1 : o.pos = c.pos) (h2 : o.str = c.str) (h3 : o.slice = c.slice) :
    EndOk S 0 c (.matched o) :=
  ⟨by rw [h0]; exact hc.1, by omega, by rw [h1]; exact hc.2.2, h2, h3⟩

theorem lookAhead_ends (h : SeqEnds S m k (gs.map (den env))) : Finishes S m 0 (den env (.lookAhead gs)) := fun c hc hs => by
  obtain ⟨r, h1, h2⟩ := h _ (inside_enter ":base:LookAhead" hc) (by rw [S.size_eq (enter ":base:LookAhead" c) c rfl rfl]; exact hs)
  rw [den_lookAhead, lookAhead_of hc.1 h1]
  exact (h2.mono (Nat.zero_le _)).onMatch fun o ho => EndOk.here hc rfl rfl rfl rfl

theorem lookAheadN_ends (h : SeqEnds S m k (gs.map (den env))) : Finishes S m 0 (den env (.lookAheadN gs)) := fun c hc hs => by
  obtain ⟨r, h1, h2⟩ := h _ (inside_enter ":base:LookAheadN" hc) (by rw [S.size_eq (enter ":base:LookAheadN" c) c rfl rfl]; exact hs)
  rw [den_lookAheadN, lookAheadN_of hc.1 h1]
  cases r with
  | matched o => trivial
  | unmatched => exact EndOk.here hc rfl rfl rfl rfl
  | failed o e => trivial
  | panicked x => trivial
  | timedOut => exact h2

theorem lookBehindBase_ends {a b : Int} (ha : 0 ≤ a) {ps : List Sem} (h : ∀ m, SeqEnds S m k ps) (neg : Bool) :
    Finishes S m 0 (lookBehindBase neg a b ps) := fun c hc hs => by
  have hback : ∀ j : Int, a ≤ j → j ≤ c.pos → ∃ r, Seq ps (back (behindCls neg) c j) r ∧ r ≠ .timedOut := by
    intro j h1 h2
    have hsz : S.size (back (behindCls neg) c j) = S.size c := S.size_eq _ _ rfl rfl
    obtain ⟨r, h3, h4⟩ := h (S.size c) (back (behindCls neg) c j) (inside_same hc rfl rfl rfl (by
      simp only [back, enter]; have := hc.2.2; omega)) (by rw [hsz]; omega)
    exact ⟨r, h3, fun hr => by subst hr; exact h4⟩
  have key : ∀ d : Nat, (∃ e : Nat, e < d ∧ a + e ≤ b ∧ a + e ≤ c.pos ∧ (∃ r, Seq ps (back (behindCls neg) c (a + e)) r ∧ ¬ NotFound r) ∧
      ∀ j, a ≤ j → j < a + e → j ≤ c.pos → ∃ r, Seq ps (back (behindCls neg) c j) r ∧ NotFound r) ∨
      ∀ j, a ≤ j → j < a + d → j ≤ b → j ≤ c.pos → ∃ r, Seq ps (back (behindCls neg) c j) r ∧ NotFound r := by
    intro d
    induction d with
    | zero => exact .inr fun j h1 h2 => by omega
    | succ d ih =>
      rcases ih with ⟨e, h1, h2⟩ | ih
      · exact .inl ⟨e, by omega, h2⟩
      · by_cases hd : a + d ≤ b ∧ a + d ≤ c.pos
        · obtain ⟨r, h1, h2⟩ := hback (a + d) (by omega) hd.2
          by_cases hn : NotFound r
          · refine .inr fun j h3 h4 h5 h6 => ?_
            by_cases hj : j = a + d
            · subst hj; exact ⟨r, h1, hn⟩
            · exact ih j h3 (by omega) h5 h6
          · exact .inl ⟨d, by omega, hd.1, hd.2, ⟨r, h1, hn⟩, fun j h3 h4 h5 => ih j h3 h4 (by omega) h5⟩
        · exact .inr fun j h3 h4 h5 h6 => ih j h3 (by omega) h5 h6
  rcases key (b - a + 1).toNat with ⟨e, h1, h2, h3, ⟨r, h4, h5⟩, h6⟩ | hn
  · rw [lookBehind_of hc.1 (by omega) h2 h3 neg h4 h5 h6]
    obtain ⟨r', h7, h8⟩ := hback (a + e) (by omega) h3
    have := Spec.Seq.det h4 h7
    subst this
    cases r with
    | matched o =>
      simp only [Outcome.onMatch]
      split
      · trivial
      · exact EndOk.here hc rfl rfl rfl rfl
    | unmatched => trivial
    | failed o e => trivial
    | panicked x => trivial
    | timedOut => exact absurd rfl h8
  · rw [lookBehind_none_of hc.1 neg fun j h1 h2 h3 => hn j h1 (by omega) h2 h3]
    split
    · exact EndOk.here hc rfl rfl rfl rfl
    · trivial

/-- The ends of a repetition from the `j`-th iteration on. -/
def RepEndOk (S : Sources) (t : Times) (k j : Nat) (c : Ctx) : Outcome → Prop
  | .matched o => ∃ i : Nat, t.min ≤ (j + i : Nat) ∧ o.status = .matched ∧ c.pos + k * i ≤ o.pos ∧ o.pos ≤ S.size c ∧ o.str = c.str ∧ o.slice = c.slice
  | .timedOut => False
  | _ => True

theorem repEndOk_end {t : Times} {j : Nat} {c : Ctx} (hc : Inside S c) : RepEndOk S t k j c (repEnd t (j + 0) c) := by
  unfold repEnd
  by_cases h : t.min ≤ ((j + 0 : Nat) : Int)
  · rw [if_pos h]
    have := EndOk.here (o := { c with qty := j + 0 }) hc rfl rfl rfl rfl
    exact ⟨0, h, this⟩
  · rw [if_neg h]; trivial

theorem repEndOk_stop {t : Times} {ps : List Sem} {j : Nat} {c : Ctx} {r : Outcome} (hc : Inside S c)
    (hm : (j : Int) ≤ t.max → (j : Int) < t.max) (h1 : Seq ps c r)
    (h2 : EndOk S k c r) (hr : ∀ c', r ≠ .matched c') : ∃ r, RepsHold t ps j c r ∧ RepEndOk S t k j c r := by
  by_cases hu : r = .unmatched
  · exact ⟨_, ⟨0, c, .zero, .inr ⟨by simpa using hm, _, h1, hr, .inl ⟨hu, rfl⟩⟩⟩, repEndOk_end hc⟩
  · refine ⟨_, ⟨0, c, .zero, .inr ⟨by simpa using hm, _, h1, hr, .inr ⟨hu, rfl⟩⟩⟩, ?_⟩
    cases r with
    | matched c' => exact absurd rfl (hr c')
    | unmatched => trivial
    | failed o e => trivial
    | panicked x => trivial
    | timedOut => exact h2

theorem reps_ends {t : Times} {ps : List Sem} (h : SeqEnds S m k ps) (μ : Nat) : ∀ (j : Nat) (c : Ctx),
    (t.max < 0 ∧ 0 < k ∧ S.size c ≤ c.pos + μ ∨ (j : Int) ≤ t.max ∧ t.max - j ≤ μ) → Inside S c → S.size c ≤ c.pos + m →
    ∃ r, RepsHold t ps j c r ∧ RepEndOk S t k j c r := by
  induction μ with
  | zero =>
    intro j c hμ hc hs
    by_cases hm : t.max = j
    · exact ⟨_, ⟨0, c, .zero, .inl ⟨by simpa using hm, rfl⟩⟩, repEndOk_end hc⟩
    · obtain ⟨r, h1, h2⟩ := h c hc hs
      refine repEndOk_stop hc (by omega) h1 h2 ?_
      rintro c' rfl
      obtain ⟨e0, e1, e2, e3⟩ := h2
      have := hc.2.2
      omega
  | succ μ ih =>
    intro j c hμ hc hs
    by_cases hm : t.max = j
    · exact ⟨_, ⟨0, c, .zero, .inl ⟨by simpa using hm, rfl⟩⟩, repEndOk_end hc⟩
    · obtain ⟨r, h1, h2⟩ := h c hc hs
      by_cases hr : ∃ c', r = .matched c'
      · obtain ⟨c1, rfl⟩ := hr
        obtain ⟨e0, e1, e2, e3, e4⟩ := h2
        have hsz : S.size { c1 with qty := j } = S.size c := S.size_eq _ _ e3 e4
        obtain ⟨r, ⟨i, c2, h3, h4⟩, h5⟩ := ih (j + 1) { c1 with qty := j } (by rw [hsz]; simp only; omega) (inside_same hc e0 e3 e4 e2) (by rw [hsz]; simp only; omega)
        refine ⟨r, ⟨i + 1, c2, .succ h1 h3, ?_⟩, ?_⟩
        · rcases h4 with ⟨h4, h6⟩ | ⟨h4, h6⟩
          · exact .inl ⟨by rw [h4]; omega, by rw [h6]; congr 1; omega⟩
          · refine .inr ⟨by omega, ?_⟩
            rw [show j + (i + 1) = j + 1 + i by omega]; exact h6
        · cases r with
          | matched o =>
            obtain ⟨i, f1, f2, f3, f4, f5, f6⟩ := h5
            simp only at f3 f5 f6
            exact ⟨i + 1, by omega, f2, by rw [Nat.mul_add]; omega, by rw [← hsz]; exact f4, by rw [f5, e3], by rw [f6, e4]⟩
          | unmatched => trivial
          | failed o e => trivial
          | panicked x => trivial
          | timedOut => exact h5
      · exact repEndOk_stop hc (by omega) h1 h2 fun c' e => hr ⟨c', e⟩

theorem repeat_ends {t : Times} (h : SeqEnds S m k (gs.map (den env))) (ht : 0 < k ∨ 0 ≤ t.max)
    (hk : ∀ i : Nat, t.min ≤ i → k' ≤ k * i) : Finishes S m k' (den env (.repeat t gs)) := fun c hc hs => by
  have hsz : S.size (enter ":base:Repeat" c) = S.size c := S.size_eq _ _ rfl rfl
  obtain ⟨r, h1, h2⟩ := reps_ends (t := t) h (S.size c + t.max.toNat) 0 _ (by rw [hsz]; omega) (inside_enter ":base:Repeat" hc) (by rw [hsz]; exact hs)
  have hr : r ≠ .timedOut := fun h => by subst h; exact h2
  rw [den_repeat_outcome h1 hr]
  cases r with
  | matched o =>
    obtain ⟨i, f1, f2, f3, f4, f5, f6⟩ := h2
    rw [Nat.zero_add] at f1
    have := hk i f1
    have e : (enter ":base:Repeat" c).pos = c.pos := rfl
    exact ⟨f2, by omega, by omega, f5, f6⟩
  | unmatched => trivial
  | failed o e => trivial
  | panicked x => trivial
  | timedOut => exact h2

theorem applyTrs_halts {fs : List TSem} (h : ∀ f ∈ fs, ∀ c l, f c l ≠ .timeout) (c : Ctx) (l : List Ast) : applyTrs c fs l ≠ .timeout := by
  induction fs generalizing l with
  | nil => simp [applyTrs]
  | cons f fs ih =>
    rw [applyTrs]
    have h1 := h f (by simp) c l
    split
    · simp
    · rename_i h2; exact absurd h2 h1
    · exact ih (fun f hf => h f (by simp [hf])) _
    · simp

theorem trans_ends {ts : List Tr} (h : Finishes S m k (den env g)) (ht : ∀ t ∈ ts, ∀ c l, denTr env t c l ≠ .timeout) :
    Finishes S m k (den env (.trans g ts)) := fun c hc hs => by
  have hsz : S.size (enter ":base:Trans" c) = S.size c := S.size_eq _ _ rfl rfl
  have g1 := h _ (inside_enter ":base:Trans" hc) (by rw [hsz]; exact hs)
  generalize hr : Outcome.of (den env g (enter ":base:Trans" c)) = r at g1
  cases r with
  | matched o =>
    rw [den_trans, trans_matched_eq hr]
    unfold applyTransforms
    split
    · simp only [Outcome.of, g1.1]
      exact g1.same rfl rfl rfl g1.1.symm rfl rfl rfl
    · rename_i fs hfs
      have hfs' : ∀ f ∈ fs, ∀ c l, f c l ≠ .timeout := by
        cases ts with
        | nil => cases hfs
        | cons t ts =>
          cases hfs
          intro f hf
          obtain ⟨t', ht', rfl⟩ := List.mem_map.1 hf
          exact ht t' ht'
      split
      · trivial
      · have := applyTrs_halts hfs' { c with cls := ":base:Trans" } (List.drop c.stack.length o.stack)
        split
        · trivial
        · rename_i h3; exact absurd h3 this
        · trivial
        · simp only [Outcome.of, g1.1]
          exact g1.same rfl rfl rfl g1.1.symm rfl rfl rfl
  | unmatched => rw [den_trans, trans_stop_of hr (fun _ h => by cases h)]; trivial
  | failed o e => rw [den_trans, trans_stop_of hr (fun _ h => by cases h)]; trivial
  | panicked x => rw [den_trans, trans_stop_of hr (fun _ h => by cases h)]; trivial
  | timedOut => exact g1.elim

theorem light_ends {p : Sem} (cls : String) (h : Finishes S m k p) : Finishes S m k (lightParser cls p) := fun c hc hs => by
  have g1 := h c hc hs
  rw [light_of]
  cases hr : Outcome.of (p c) with
  | matched o => rw [hr] at g1; exact g1.same rfl rfl rfl rfl rfl rfl rfl
  | unmatched => trivial
  | failed o e => trivial
  | panicked x => trivial
  | timedOut => rw [hr] at g1; exact g1

theorem matchFn_ends {n : Int} {cases : List ((List Ast → Bool) × List TSem)}
    (h : ∀ x ∈ cases, ∀ f ∈ x.2, ∀ c l, f c l ≠ .timeout) : Finishes S m 0 (matchFn n cases) := fun c hc hs => by
  induction cases with
  | nil => trivial
  | cons x xs ih =>
    obtain ⟨g, fs⟩ := x
    unfold matchFn
    split
    · simp only []
      split
      · trivial
      · have := applyTrs_halts (h (g, fs) (by simp)) { c with len := 0, status := .unmatched } (List.drop ((c.stack.length : Int) - n).toNat c.stack)
        split
        · trivial
        · rename_i h3; exact absurd h3 this
        · trivial
        · simp only [Outcome.of]
          exact EndOk.here hc hc.1.symm rfl rfl rfl
    · exact ih fun x hx => h x (by simp [hx])

end

section
variable {env : Env} {S : Sources} {rank : Nat → Nat} {eater : Nat → Bool}

/-- What is known of the functions given to `Indirect`. -/
def IndHyp (env : Env) (S : Sources) (rank : Nat → Nat) (eater : Nat → Bool) (ind : Bool) (m r : Nat) : Prop :=
  ind = true → (∀ m', m' < m → ∀ i, Finishes S m' (eater i).toNat (den env (env i))) ∧
    (∀ i, rank i < r → Finishes S m (eater i).toNat (den env (env i)))

def FormEnds (env : Env) (S : Sources) (m k : Nat) : Form → Prop
  | .gram g => Finishes S m k (den env g)
  | .seq gs => SeqEnds S m k (gs.map (den env))

theorem denTr_halts {t : Tr} (h : ∀ c l, ∃ n, runTr env n t c l ≠ .timeout) (c : Ctx) (l : List Ast) : denTr env t c l ≠ .timeout := by
  obtain ⟨n, hn⟩ := h c l
  rw [denTr_of_run hn]; exact hn

theorem stops_ends {ind : Bool} {r : Nat} {e : Bool} {f : Form} (h : Stops env S rank eater ind r e f) (m : Nat)
    (hi : IndHyp env S rank eater ind m r) : FormEnds env S m e.toNat f := by
  induction h generalizing m with
  | prim h1 h2 => exact prim_ends h1 h2
  | @forget ind r f _ ih =>
    have := ih m hi
    cases f with
    | gram g => exact Finishes.mono this (Nat.le_refl _) (Nat.zero_le _)
    | seq gs => intro c hc hs; obtain ⟨r, h1, h2⟩ := this c hc hs; exact ⟨r, h1, h2.mono (Nat.zero_le _)⟩
  | nil => exact SeqEnds.nil
  | keep _ _ ih1 ih2 =>
    have := SeqEnds.cons (ih1 m hi) fun _ => ih2 m hi
    simpa [FormEnds] using this
  | @eat ind r r' e g gs _ _ ih1 ih2 =>
    have := SeqEnds.cons (ih1 m hi) fun hm => ih2 (m - 1) fun hind => by
      obtain ⟨a, b⟩ := hi hind
      have hm : 1 ≤ m := hm
      exact ⟨fun m' h' => a m' (by omega), fun i _ => a (m - 1) (by omega) i⟩
    intro c hc hs
    obtain ⟨r, h1, h2⟩ := this c hc hs
    exact ⟨r, h1, h2.mono (by simp)⟩
  | flatGroup _ ih => exact flatGroup_ends (ih m hi)
  | group _ ih => exact group_ends (ih m hi)
  | first h1 _ ih => exact first_ends (fun h => by rw [h1 h]; rfl) fun g hg => ih g hg m hi
  | lookAhead _ ih => exact lookAhead_ends (ih m hi)
  | lookAheadN _ ih => exact lookAheadN_ends (ih m hi)
  | lookBehind ha _ ih =>
    have := lookBehindBase_ends (m := m) (b := ?_) ha (fun m => ih m fun h => by cases h) false
    show Finishes S m 0 (den env _)
    rw [den_lookBehind]; exact this
  | lookBehindN ha _ ih =>
    have := lookBehindBase_ends (m := m) (b := ?_) ha (fun m => ih m fun h => by cases h) true
    show Finishes S m 0 (den env _)
    rw [den_lookBehindN]; exact this
  | @«repeat» ind r e e' t gs _ h1 h2 ih =>
    refine repeat_ends (ih m hi) (by rcases h1 with rfl | h1 <;> simp [*]) fun i hi => ?_
    cases e' with
    | false => exact Nat.zero_le _
    | true =>
      obtain ⟨rfl, h3⟩ := h2 rfl
      simp; omega
  | trans _ h2 ih => exact trans_ends (ih m hi) fun t ht => denTr_halts (h2 t ht)
  | «match» h =>
    show Finishes S m 0 (den env _)
    rw [den_match]
    refine light_ends _ (matchFn_ends fun x hx f hf => ?_)
    obtain ⟨y, hy, rfl⟩ := List.mem_map.1 hx
    obtain ⟨t, ht, rfl⟩ := List.mem_map.1 hf
    exact denTr_halts (h y hy t ht)
  | @indirect r i h =>
    show Finishes S m _ (den env _)
    rw [den_indirect]
    exact light_ends _ ((hi rfl).2 i h)

theorem env_ends (henv : StopsEnv env S rank eater) (m : Nat) : ∀ i, Finishes S m (eater i).toNat (den env (env i)) := by
  induction m using Nat.strongRecOn with
  | ind m ihm =>
    have key : ∀ r i, rank i = r → Finishes S m (eater i).toNat (den env (env i)) := by
      intro r
      induction r using Nat.strongRecOn with
      | ind r ihr =>
        intro i hi
        exact stops_ends (henv i) m fun _ => ⟨fun m' h' => ihm m' h', fun j hj => ihr (rank j) (by omega) j rfl⟩
    exact fun i => key _ i rfl

theorem form_ends (henv : StopsEnv env S rank eater) {ind : Bool} {r : Nat} {e : Bool} {f : Form}
    (h : Stops env S rank eater ind r e f) (m : Nat) : FormEnds env S m e.toNat f :=
  stops_ends h m fun _ => ⟨fun m' _ i => env_ends henv m' i, fun i _ => env_ends henv m i⟩

end
end Takenoco
