import Verif.Lemmas.Exact
/-
A logic for where parsers of string sources report errors: an error is described by the text in front of the reported position,
counted from where the parser was started, the text behind it, and the error.
-/
namespace Takenoco
open Spec

/-- Text before the reported position, text after it, error. -/
abbrev Blame := Bytes → Bytes → Option Err → Prop

/-- Every error of the parser on a text of at most `n` bytes. -/
def Blames (n : Nat) (B : Blame) (p : Sem) : Prop :=
  ∀ c pre s, At c pre s → s.length ≤ n → ∀ o e, Outcome.of (p c) = .failed o e → ∃ u v, s = u ++ v ∧ o.pos = pre.length + u.length ∧ B u v e

def SeqBlames (n : Nat) (B : Blame) (ps : List Sem) : Prop :=
  ∀ c pre s, At c pre s → s.length ≤ n → ∀ o e, Seq ps c (.failed o e) → ∃ u v, s = u ++ v ∧ o.pos = pre.length + u.length ∧ B u v e

/-- No errors. -/
abbrev NoBlame : Blame := fun _ _ _ => False

/-- An error of the second parser after a match of the first. -/
def Behind (Q : Match) (B : Blame) : Blame := fun u v e => ∃ w u' l, u = w ++ u' ∧ Q w (u' ++ v) l ∧ B u' v e

section
variable {n m : Nat} {X : Bytes → Panic → Prop} {Q R : Match} {B C : Blame} {c : Ctx} {pre s : Bytes} {r : Outcome}

theorem Blames.mono {p : Sem} (h : Blames n B p) (hB : ∀ u v e, B u v e → C u v e) : Blames n C p := fun c pre s hc hs o e ho =>
  let ⟨u, v, h1, h2, h3⟩ := h c pre s hc hs o e ho
  ⟨u, v, h1, h2, hB u v e h3⟩

theorem Blames.weak {p : Sem} (h : Blames n B p) (hm : m ≤ n) : Blames m B p := fun c pre s hc hs => h c pre s hc (Nat.le_trans hs hm)

theorem SeqBlames.mono {ps : List Sem} (h : SeqBlames n B ps) (hB : ∀ u v e, B u v e → C u v e) : SeqBlames n C ps := fun c pre s hc hs o e ho =>
  let ⟨u, v, h1, h2, h3⟩ := h c pre s hc hs o e ho
  ⟨u, v, h1, h2, hB u v e h3⟩

theorem SeqBlames.nil : SeqBlames n NoBlame [] := fun _ _ _ _ _ _ _ h => by cases h

theorem SeqBlames.cons {p : Sem} {ps : List Sem} (h1 : Admits n X Q p) (hb : Blames n B p)
    (h2 : ∀ w rest l, Q w rest l → w.length + rest.length ≤ n → SeqBlames rest.length C ps) :
    SeqBlames n (fun u v e => B u v e ∨ Behind Q C u v e) (p :: ps) := fun c pre s hc hs o e ho => by
  cases ho with
  | stop h _ =>
    obtain ⟨u, v, h3, h4, h5⟩ := hb c pre s hc hs o e h
    exact ⟨u, v, h3, h4, .inl h5⟩
  | step h h' =>
    have g := h1 c pre s hc hs
    rw [h] at g
    obtain ⟨w, rest, rfl, hre⟩ := g
    simp only [List.length_append] at hs
    obtain ⟨l, _, hq⟩ := hre.stack
    obtain ⟨u, v, rfl, h4, h5⟩ := h2 w rest l hq hs _ _ _ hre.at_ (Nat.le_refl _) o e h'
    exact ⟨w ++ u, v, by simp, by rw [h4]; simp; omega, .inr ⟨w, u, l, rfl, hq, h5⟩⟩

theorem SeqBlames.step {p : Sem} {ps : List Sem} (h1 : Admits n X Q p) (hb : Blames n B p) (h2 : SeqBlames n C ps) :
    SeqBlames n (fun u v e => B u v e ∨ Behind Q C u v e) (p :: ps) :=
  .cons h1 hb fun _ _ _ _ h => fun c pre s hc hs => h2 c pre s hc (by omega)

theorem SeqBlames.single {p : Sem} (h : Blames n B p) : SeqBlames n B [p] := fun c pre s hc hs o e ho => by
  cases ho with
  | stop h' _ => exact h c pre s hc hs o e h'
  | step _ h' => cases h'

variable {env : Env} {gs : List Gram} {g : Gram}

theorem flat_blames (h : SeqBlames n B (gs.map (den env))) : Blames n B (den env (.flatGroup gs)) := fun c pre s hc hs o e ho => by
  obtain ⟨r, hr⟩ := Seq.total (gs.map (den env)) (enter ":base:FlatGroup" c)
  rw [den_flatGroup, flatGroup_of hr] at ho
  cases r <;> simp [Outcome.onMatch] at ho
  obtain ⟨rfl, rfl⟩ := ho
  exact h _ _ _ (hc.enter _) hs _ _ hr

theorem choice_failed {ps : List Sem} {o : Ctx} {e : Option Err} (h : Choice ps c (.failed o e)) : ∃ p ∈ ps, Outcome.of (p c) = .failed o e := by
  generalize hr : Outcome.failed o e = r at h
  induction h with
  | exhausted => cases hr
  | skip _ _ ih =>
    obtain ⟨p, hp, h⟩ := ih hr
    exact ⟨p, by simp [hp], h⟩
  | take h _ => subst hr; exact ⟨_, by simp, h⟩

theorem first_blames (h : ∀ g ∈ gs, Blames n B (den env g)) : Blames n B (den env (.first gs)) := fun c pre s hc hs o e ho => by
  by_cases hne : gs = []
  · subst hne
    rw [den_first, List.map_nil, firstNil_of] at ho
    cases ho
  · obtain ⟨r, hr⟩ := Choice.total (gs.map (den env)) (enter ":base:First" c)
    rw [den_first, first_of (by simpa using hne) hr] at ho
    cases r <;> simp [Outcome.onMatch] at ho
    obtain ⟨rfl, rfl⟩ := ho
    obtain ⟨p, hp, h'⟩ := choice_failed hr
    obtain ⟨g, hg, rfl⟩ := List.mem_map.1 hp
    exact h g hg _ _ _ (hc.enter _) hs _ _ h'

/-- Iterations that match lead over a text of matches. -/
theorem reps_reached {ps : List Sem} {k i : Nat} {c' : Ctx} (h : Reps ps k c i c') (hq : SeqTakes n X Q ps) :
    ∀ {pre s : Bytes}, At c pre s → s.length ≤ n → ∃ w rest l, s = w ++ rest ∧ At c' (pre ++ w) rest ∧ Repeated Q i w rest l := by
  induction h with
  | zero => intro pre s hc _; exact ⟨[], s, [], rfl, by simpa using hc, .zero⟩
  | @succ k i c c1 c' h1 _ ih =>
    intro pre s hc hs
    obtain ⟨r, g1, g2⟩ := hq _ pre s hc hs
    cases g1.det h1
    obtain ⟨w, rest, rfl, hre⟩ := g2
    simp only [List.length_append] at hs
    obtain ⟨l, _, hl⟩ := hre.stack
    obtain ⟨w', rest', l', rfl, h5, h6⟩ := ih (pre := pre ++ w) (s := rest) ⟨hre.at_.str, hre.at_.pos, hre.at_.ok⟩ (by omega)
    exact ⟨w ++ w', rest', l ++ l', by simp, by simpa using h5, .succ hl h6⟩

theorem repeat_blames {t : Times} (hX : Grows X) (h : SeqTakes n X Q (gs.map (den env))) (hk : t.max < 0 → ∀ w rest l, Q w rest l → w ≠ [])
    (hb : SeqBlames n B (gs.map (den env))) : Blames n (Behind (fun w rest l => ∃ m, Repeated Q m w rest l) B) (den env (.repeat t gs)) :=
  fun c pre s hc hs o e ho => by
  obtain ⟨r, h1, h2⟩ := reps_takes (t := t) hX stopsAt_any h hk (s.length + t.max.toNat) 0 _ pre s (by omega) (hc.enter ":base:Repeat") hs
  have hr : r ≠ .timedOut := fun h => by subst h; exact h2
  rw [den_repeat_outcome h1 hr] at ho
  subst ho
  obtain ⟨i, c', h3, h4⟩ := h1
  obtain ⟨w, rest, l, rfl, h6, h7⟩ := reps_reached h3 h (hc.enter _) hs
  have hend : ∀ k, repEnd t k c' ≠ .failed o e := fun k hk => by unfold repEnd at hk; split at hk <;> cases hk
  rcases h4 with ⟨_, h5⟩ | ⟨_, r', h5, _, ⟨_, h8⟩ | ⟨_, rfl⟩⟩
  · exact absurd h5.symm (hend _)
  · exact absurd h8.symm (hend _)
  · simp only [List.length_append] at hs
    obtain ⟨u, v, rfl, h9, h10⟩ := hb _ _ _ h6 (by omega) o e h5
    exact ⟨w ++ u, v, by simp, by rw [h9]; simp; omega, w, u, l, rfl, ⟨i, h7⟩, h10⟩

theorem star_blames (hX : Grows X) (h : SeqTakes n X Q (gs.map (den env))) (hk : ∀ w rest l, Q w rest l → w ≠ [])
    (hb : SeqBlames n B (gs.map (den env))) : Blames n (Behind (fun w rest l => ∃ m, Repeated Q m w rest l) B) (den env (Gram.star gs)) :=
  repeat_blames hX h (fun _ => hk) hb

/-- The errors of transformers, reported behind the match. -/
def TrBlames (Q : Match) (B : Blame) (fs : List TSem) : Prop :=
  ∀ c w rest l l' e, Q w rest l → applyTrs c fs l = .ok (l', some e) → B w rest (some e)

theorem trans_blames {ts : List Tr} (h : Admits n X Q (den env g)) (hb : Blames n B (den env g)) (ht : TrBlames Q B (ts.map (denTr env))) :
    Blames n B (den env (.trans g ts)) := fun c pre s hc hs o e ho => by
  by_cases hm : ∃ c', Outcome.of (den env g (enter ":base:Trans" c)) = .matched c'
  · obtain ⟨c', hm⟩ := hm
    have g1 := h _ pre s (hc.enter ":base:Trans") hs
    rw [hm] at g1
    obtain ⟨w, rest, rfl, h3⟩ := g1
    obtain ⟨new, hn, hq⟩ := h3.stack
    have hstack : c'.stack = c.stack ++ new := hn
    rw [den_trans, trans_matched_eq hm] at ho
    unfold applyTransforms at ho
    split at ho
    · simp [Outcome.of, h3.at_.ok] at ho
    · rename_i ts' hv
      have hts : ts' = ts.map (denTr env) := by
        unfold variadic at hv
        split at hv <;> cases hv; rfl
      subst hts
      rw [if_neg (by simp only [hstack]; simp)] at ho
      simp only [hstack, List.drop_left] at ho
      cases ha : applyTrs { c with cls := ":base:Trans" } (ts.map (denTr env)) new with
      | panic x => simp [ha, Outcome.of] at ho
      | timeout => simp [ha, Outcome.of] at ho
      | ok r =>
        obtain ⟨l', _ | e'⟩ := r
        · simp [ha, Outcome.of, h3.at_.ok] at ho
        · simp only [ha, Outcome.of, Outcome.failed.injEq] at ho
          obtain ⟨rfl, rfl⟩ := ho
          exact ⟨w, rest, rfl, by simpa using h3.at_.pos, ht _ _ _ _ _ _ hq ha⟩
  · rw [den_trans, trans_stop_of rfl fun c' h => hm ⟨c', h⟩] at ho
    exact hb _ _ _ (hc.enter ":base:Trans") hs o e ho

theorem erased_blames (h : Admits n X Q (den env g)) (hb : Blames n B (den env g)) : Blames n B (den env (Gram.erased g)) :=
  trans_blames h hb fun c w rest l l' e _ ha => by simp [denTr_fn, applyTrs, erase] at ha

theorem indirect_blames {i : Nat} (h : Blames n B (den env (env i))) : Blames n B (den env (.indirect i)) := fun c pre s hc hs o e ho => by
  rw [den_indirect] at ho
  unfold indirect at ho
  rw [light_of] at ho
  cases hr : Outcome.of (den env (env i) c) <;> rw [hr] at ho <;> simp [lightOutcome] at ho
  obtain ⟨u, v, h1, h2, h3⟩ := h c pre s hc hs _ _ hr
  obtain ⟨rfl, rfl⟩ := ho
  exact ⟨u, v, h1, h2, h3⟩

/-! ### Choices that always match or fail -/

theorem choice_unmatched {ps : List Sem} (h : Choice ps c .unmatched) : ∀ p ∈ ps, Outcome.of (p c) = .unmatched := by
  generalize hr : Outcome.unmatched = r at h
  induction h with
  | exhausted => simp
  | skip h _ ih =>
    intro p hp
    rcases List.mem_cons.1 hp with rfl | hp
    · subst hr; exact h
    · exact ih hr p hp
  | take _ h => exact absurd hr.symm h

theorem first_stops {E : Bytes → Prop} (hg : g ∈ gs) (h : StopsAt [den env g] E) : StopsAt [den env (.first gs)] E := .one fun c pre s hc hu => by
  obtain ⟨r, hr⟩ := Choice.total (gs.map (den env)) (enter ":base:First" c)
  rw [den_first, first_of (by simpa using List.ne_nil_of_mem hg) hr] at hu
  cases r <;> simp [Outcome.onMatch] at hu
  exact h _ _ _ (hc.enter _) (.stop (choice_unmatched hr _ (List.mem_map_of_mem hg)) (fun _ h => by cases h))

/-! ### Terminals -/

theorem errorP_blames (msg : String) : Blames n (fun u _ e => u = [] ∧ e = some (.msg msg)) (den env (.prim (errorP msg))) := fun c pre s hc _ o e ho => by
  rw [den_prim, errorP_eq] at ho
  simp only [Outcome.of, Outcome.failed.injEq] at ho
  obtain ⟨rfl, rfl⟩ := ho
  exact ⟨[], s, rfl, hc.pos, rfl, rfl⟩

theorem charTerminal_blames {p : Sem} {cls : String} {S : Char → Prop} (h : CharTerminal p cls S) : Blames n NoBlame (den env (.prim p)) := fun c pre s hc hs o e ho => by
  have h1 := h c hc.le
  rw [hc.drop] at h1
  rw [den_prim] at ho
  cases s with
  | nil =>
    rw [h1.2.2 (by rw [hc.pos, hc.str]; simp)] at ho
    cases ho
  | cons b s =>
    obtain ⟨ch, k, hk⟩ := nextChar_total (s := b :: s) (by simp)
    by_cases hS : S ch
    · rw [h1.1 ch k hk hS] at ho; cases ho
    · rw [h1.2.1 ch k hk hS] at ho; cases ho

end
end Takenoco
