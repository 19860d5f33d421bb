import Verif.Lemmas.Algebra
import Verif.Props.Local
/-
C57: the algebraic laws of the combinators, and replacing a parser by one that cannot be told from it.
-/
namespace Takenoco
open Spec

theorem localGramM_local {env : Env} (he : ∀ x, LocalGramM (env x)) {g : Gram} (hg : LocalGramM g) (n : Nat) : Local [] (run env n g) :=
  (run_local (fun _ h below => h.elim libTerm_local (· below)) (fun _ h => h.elim libTr_local id) (fun _ h => h) he n).1 [] (fun _ => rfl) g hg

theorem localTr_local {env : Env} (he : ∀ x, LocalGramM (env x)) {t : Tr}
    (ht : UsesTr (fun p => LibTerm p ∨ ∀ below, Local below p) (fun t => LibTr t ∨ LocalT t) (fun f => ∀ below, LocalF below f) True t) (n : Nat) :
    LocalT (runTr env n t) :=
  (run_local (fun _ h below => h.elim libTerm_local (· below)) (fun _ h => h.elim libTr_local id) (fun _ h => h) he n).2 t ht

theorem den_local {below : List Ast} {env : Env} {g : Gram} (h : ∀ n, Local below (run env n g)) : Local below (den env g) := by
  intro c c' ha
  by_cases h1 : ∃ n, run env n g c ≠ .timeout
  · obtain ⟨n, hn⟩ := h1
    have h2 := h n c c' ha
    have hn' : run env n g c' ≠ .timeout := by
      intro h3
      rw [h3] at h2
      generalize run env n g c = x at h2 hn
      cases h2
      exact hn rfl
    rw [den_of_run hn, den_of_run hn']
    exact h2
  · have h2 : den env g c = .timeout := by unfold den; rw [dif_neg h1]
    have h3 : den env g c' = .timeout := by
      unfold den
      rw [dif_neg]
      rintro ⟨n, hn⟩
      refine h1 ⟨n, fun h4 => hn ?_⟩
      have h5 := h n c c' ha
      rw [h4] at h5
      generalize run env n g c' = x at h5 ⊢
      cases h5
      rfl
    rw [h2, h3]
    exact .timeout

theorem denTr_local {env : Env} {t : Tr} (h : ∀ n, LocalT (runTr env n t)) : LocalT (denTr env t) := by
  intro below c c' asts ha
  unfold denTr
  have h1 : (∃ n, runTr env n t c' asts ≠ .timeout) ↔ ∃ n, runTr env n t c asts ≠ .timeout :=
    ⟨fun ⟨n, hn⟩ => ⟨n, by rw [← h n below c c' asts ha]; exact hn⟩, fun ⟨n, hn⟩ => ⟨n, by rw [h n below c c' asts ha]; exact hn⟩⟩
  by_cases h2 : ∃ n, runTr env n t c asts ≠ .timeout
  · have h3 : denTr env t c' asts = denTr env t c asts := by
      obtain ⟨n, hn⟩ := h2
      rw [denTr_of_run hn, denTr_of_run (n := n) (by rw [h n below c c' asts ha]; exact hn), h n below c c' asts ha]
    exact h3
  · rw [dif_neg h2, dif_neg (fun h3 => h2 (h1.1 h3))]

section
variable {env : Env} (he : ∀ x, LocalGramM (env x))
include he

theorem sameP_den {g : Gram} (hg : LocalGramM g) : SameP (den env g) (den env g) := .of_local (den_local (localGramM_local he hg))
theorem sameL_den {gs : List Gram} (hg : ∀ g ∈ gs, LocalGramM g) : SameL (gs.map (den env)) (gs.map (den env)) :=
  .of_local fun p hp => by obtain ⟨g, hgm, rfl⟩ := List.mem_map.1 hp; exact den_local (localGramM_local he (hg g hgm))

omit he in
theorem SameP.gramEq {g h : Gram} (h1 : SameP (den env g) (den env h)) : GramEq env g h := fun c hc => h1 c c (.rfl' c) hc

omit he in
theorem local_append {P Q : List Gram} (h : ∀ g ∈ P ++ Q, LocalGramM g) : (∀ g ∈ P, LocalGramM g) ∧ ∀ g ∈ Q, LocalGramM g :=
  ⟨fun g hg => h g (List.mem_append.2 (.inl hg)), fun g hg => h g (List.mem_append.2 (.inr hg))⟩

/-! ### Sequences -/

/-- **C57.** `FlatGroup(g)` is `g`. -/
theorem C57_flatGroup_one {g : Gram} (hg : LocalGramM g) : GramEq env (.flatGroup [g]) g := by
  intro c hc
  rw [den_flatGroup]
  have h1 := flatGroup_seq (.refl (.cons (sameP_den he hg) .nil)) (.rfl' c) hc
  rw [seqO_one] at h1
  exact h1

/-- **C57.** Sequences are associative: a `FlatGroup` inside a `FlatGroup` can be spelled out. -/
theorem C57_flatGroup_flatten {pre hs post : List Gram} (h : ∀ g ∈ pre ++ (hs ++ post), LocalGramM g) :
    GramEq env (.flatGroup (pre ++ .flatGroup hs :: post)) (.flatGroup (pre ++ hs ++ post)) := by
  obtain ⟨h1, h2⟩ := local_append h
  obtain ⟨h2, h3⟩ := local_append h2
  refine SameP.gramEq ?_
  rw [den_flatGroup, den_flatGroup]
  have h4 := seq_replace (sameL_den he h1) (sameS_flatGroup (sameL_den he h2)) (sameL_den he h3)
  simpa [den_flatGroup] using flatGroup_of_seq h4

/-! ### Choices -/

/-- **C57.** `First(g)` is `g`. -/
theorem C57_first_one {g : Gram} (hg : LocalGramM g) : GramEq env (.first [g]) g := by
  intro c hc
  rw [den_first]
  have h1 := first_choice (by simp) (.refl (.cons (sameP_den he hg) .nil)) (.rfl' c) hc
  rw [choiceO_one] at h1
  exact h1

/-- **C57.** Choices are associative. The inner one must have an alternative, for `First()` matches. -/
theorem C57_first_flatten {pre hs post : List Gram} (hne : hs ≠ []) (h : ∀ g ∈ pre ++ (hs ++ post), LocalGramM g) :
    GramEq env (.first (pre ++ .first hs :: post)) (.first (pre ++ hs ++ post)) := by
  obtain ⟨h1, h2⟩ := local_append h
  obtain ⟨h2, h3⟩ := local_append h2
  refine SameP.gramEq ?_
  rw [den_first, den_first]
  have h4 := choice_replace (sameL_den he h1) (sameC_first (by simpa using hne) (sameL_den he h2)) (sameL_den he h3)
  simpa [den_first] using first_of_choice (by simp) (by simp [hne]) h4

omit he in
/-- **C57.** An alternative that has been tried before can be dropped. -/
theorem C57_first_again (pre mid post : List Gram) (g : Gram) :
    GramEq env (.first (pre ++ g :: mid ++ g :: post)) (.first (pre ++ g :: mid ++ post)) := by
  intro c hc
  rw [den_first, den_first, first_outcome (by simp), first_outcome (by simp)]
  refine (?_ : SameOut _ _).onMatch fun d d' _ hd => .matched (hd.setQty 1 1)
  simp only [List.map_append, List.map_cons, List.append_assoc, List.cons_append, choiceO_append, choiceO]
  cases choiceO (pre.map (den env)) (enter ":base:First" c) <;> try exact .refl _
  cases Outcome.of (den env g (enter ":base:First" c)) <;> exact .refl _

/-- **C57.** A common beginning of two alternatives can be factored out. -/
theorem C57_first_factor {as bs cs : List Gram} (ha : ∀ g ∈ as, LocalGramM g) (hb : ∀ g ∈ bs, LocalGramM g) (hc : ∀ g ∈ cs, LocalGramM g) :
    GramEq env (.first [.flatGroup (as ++ bs), .flatGroup (as ++ cs)]) (.flatGroup (as ++ [.first [.flatGroup bs, .flatGroup cs]])) := by
  intro c hcs
  have hA := sameL_den he ha
  have hB := sameL_den he hb
  have hC := sameL_den he hc
  rw [den_first, den_flatGroup, first_outcome (by simp), flatGroup_outcome]
  refine (?_ : SameOut _ _).onMatch fun d d' _ hd => .matched (hd.setQty 1 1)
  simp only [List.map_cons, List.map_nil, List.map_append, den_flatGroup, den_first, choiceO, orElse_unmatched, seqO_append]
  have hca : Alike [] c c := .rfl' c
  have h1 : ∀ {x : List Gram}, (∀ g ∈ x, LocalGramM g) → SameOut (Outcome.of (flatGroup (as.map (den env) ++ x.map (den env)) (enter ":base:First" c)))
      (seqO (as.map (den env) ++ x.map (den env)) (enter ":base:FlatGroup" c)) :=
    fun hx => flatGroup_seq (.refl (hA.append (sameL_den he hx))) (hca.enter _ _) rfl
  refine ((h1 hb).orElse (h1 hc)).trans ?_
  rw [seqO_append, seqO_append]
  cases h2 : seqO (as.map (den env)) (enter ":base:FlatGroup" c) with
  | matched d =>
    have hd : d.status = .matched := seqO_status rfl h2
    simp only [Outcome.onMatch, seqO_one]
    rw [first_outcome (by simp)]
    refine SameOut.symm (SameOut.qty ?_ 1)
    simp only [choiceO, orElse_unmatched]
    exact (flatGroup_seq (.refl hB) ((Alike.rfl' d).enterL _ hd) rfl).orElse (flatGroup_seq (.refl hC) ((Alike.rfl' d).enterL _ hd) rfl)
  | _ => exact .refl _

/-! ### Looking ahead -/

/-- **C57.** `LookAheadN(LookAheadN(gs))` is `LookAhead(gs)`. -/
theorem C57_lookAheadN_twice {gs : List Gram} (h : ∀ g ∈ gs, LocalGramM g) : GramEq env (.lookAheadN [.lookAheadN gs]) (.lookAhead gs) := by
  intro c hc
  rw [den_lookAheadN, den_lookAhead, lookAheadN_outcome _ hc, lookAhead_outcome _ hc, List.map_cons, List.map_nil, seqO_one, den_lookAheadN,
    lookAheadN_outcome _ rfl]
  have h1 := seqO_same (sameL_den he h) (((Alike.rfl' c).enter ":base:LookAheadN" ":base:LookAhead").enterL ":base:LookAheadN" rfl) rfl
  revert h1
  generalize seqO (gs.map (den env)) (enter ":base:LookAheadN" (enter ":base:LookAheadN" c)) = x, seqO (gs.map (den env)) (enter ":base:LookAhead" c) = y
  intro h1
  cases h1 with
  | matched h1 => exact .matched ((Alike.rfl' c).setCls _ _)
  | unmatched => exact .unmatched
  | failed h1 => exact .failed h1
  | panicked => exact .panicked
  | timedOut => exact .timedOut

/-- **C57.** Looking ahead twice is looking ahead once. -/
theorem C57_lookAhead_twice {gs : List Gram} (h : ∀ g ∈ gs, LocalGramM g) : GramEq env (.lookAhead [.lookAhead gs]) (.lookAhead gs) := by
  intro c hc
  rw [den_lookAhead, den_lookAhead, lookAhead_outcome _ hc, lookAhead_outcome _ hc, List.map_cons, List.map_nil, seqO_one, den_lookAhead,
    lookAhead_outcome _ rfl]
  have h1 := seqO_same (sameL_den he h) (((Alike.rfl' c).enter ":base:LookAhead" ":base:LookAhead").enterL ":base:LookAhead" rfl) rfl
  rw [onMatch_assoc]
  exact h1.onMatch fun d d' _ hd => .matched ((Alike.rfl' c).setCls _ _)

/-- **C57.** Looking ahead for what is parsed next is superfluous. -/
theorem C57_lookAhead_same {pre gs post : List Gram} (h : ∀ g ∈ pre ++ (gs ++ post), LocalGramM g) :
    GramEq env (.flatGroup (pre ++ .lookAhead gs :: gs ++ post)) (.flatGroup (pre ++ gs ++ post)) := by
  obtain ⟨h1, h2⟩ := local_append h
  obtain ⟨h2, h3⟩ := local_append h2
  refine SameP.gramEq ?_
  rw [den_flatGroup, den_flatGroup]
  have h4 := seq_replace (sameL_den he h1) (sameS_lookAhead (sameL_den he h2)) (sameL_den he h3)
  simpa [den_lookAhead] using flatGroup_of_seq h4

/-- **C57.** `LookAheadN(gs)` followed by `gs` does not match. -/
theorem C57_lookAheadN_never {gs post : List Gram} (h : ∀ g ∈ gs, LocalGramM g) (c o : Ctx) :
    Outcome.of (den env (.flatGroup (.lookAheadN gs :: gs ++ post)) c) ≠ .matched o := by
  rw [den_flatGroup, flatGroup_outcome, List.cons_append, List.map_cons, List.map_append, den_lookAheadN]
  rw [show ∀ (p : Sem) ps d, seqO (p :: ps) d = (Outcome.of (p d)).onMatch (seqO ps) from fun _ _ _ => rfl, lookAheadN_outcome _ rfl]
  have h1 := seqO_same (sameL_den he h) (((Alike.rfl' c).enter ":base:FlatGroup" ":base:FlatGroup").enterL ":base:LookAheadN" rfl) rfl
  cases h2 : seqO (gs.map (den env)) (enter ":base:LookAheadN" (enter ":base:FlatGroup" c)) with
  | unmatched =>
    simp only [notOutcome, Outcome.onMatch, seqO_append]
    rw [h2] at h1
    have h3 := seqO_same (sameL_den he h) ((Alike.rfl' (enter ":base:FlatGroup" c)).setCls ":base:FlatGroup" ":base:LookAheadN") rfl
    have h4 := h1.trans h3
    generalize seqO (gs.map (den env)) { enter ":base:FlatGroup" c with cls := ":base:LookAheadN" } = y at h4 ⊢
    cases h4
    simp
  | _ => simp [notOutcome, Outcome.onMatch]

/-- **C57.** "Neither `a` nor `b`" is "not `a`, and not `b`". -/
theorem C57_lookAheadN_first {a b : Gram} (ha : LocalGramM a) (hb : LocalGramM b) :
    GramEq env (.lookAheadN [.first [a, b]]) (.flatGroup [.lookAheadN [a], .lookAheadN [b]]) := by
  intro c hc
  rw [den_lookAheadN, den_flatGroup, lookAheadN_outcome _ hc, flatGroup_outcome]
  simp only [List.map_cons, List.map_nil, seqO_one, den_first, den_lookAheadN]
  rw [show ∀ (p q : Sem) d, seqO [p, q] d = (Outcome.of (p d)).onMatch (seqO [q]) from fun _ _ _ => rfl, lookAheadN_outcome _ rfl, first_outcome (by simp)]
  simp only [choiceO, orElse_unmatched, seqO_one]
  have hca : Alike [] c c := .rfl' c
  have h1 := (sameP_den he ha) _ _ ((hca.enter ":base:LookAheadN" ":base:FlatGroup").enter ":base:First" ":base:LookAheadN") rfl
  revert h1
  generalize Outcome.of (den env a (enter ":base:First" (enter ":base:LookAheadN" c))) = x,
    Outcome.of (den env a (enter ":base:LookAheadN" (enter ":base:FlatGroup" c))) = y
  intro h1
  cases h1 with
  | matched h1 => exact .unmatched
  | failed h1 => exact .failed h1
  | panicked => exact .panicked
  | timedOut => exact .timedOut
  | unmatched =>
    simp only [Outcome.orElse, notOutcome, Outcome.onMatch, seqO_one]
    rw [lookAheadN_outcome _ rfl, seqO_one]
    have h2 := (sameP_den he hb) _ _ ((hca.enter ":base:LookAheadN" ":base:FlatGroup").enter ":base:First" ":base:LookAheadN") rfl
    revert h2
    rw [show enter ":base:LookAheadN" { enter ":base:FlatGroup" c with cls := ":base:LookAheadN" } = enter ":base:LookAheadN" (enter ":base:FlatGroup" c) from rfl]
    generalize Outcome.of (den env b (enter ":base:First" (enter ":base:LookAheadN" c))) = x,
      Outcome.of (den env b (enter ":base:LookAheadN" (enter ":base:FlatGroup" c))) = y
    intro h2
    cases h2 with
    | matched h2 => exact .unmatched
    | unmatched => exact .matched ⟨rfl, rfl, rfl, rfl, hc.symm, rfl⟩
    | failed h2 => exact .failed h2
    | panicked => exact .panicked
    | timedOut => exact .timedOut

/-! ### Repetition -/

/-- **C57.** A repetition that must match at least once is the sequence followed by one repetition less. In particular
`OneOrMoreTimes(gs)` is `FlatGroup(gs, ZeroOrMoreTimes(gs))`. -/
theorem C57_repeat_some {t : Times} (hmin : 1 ≤ t.min) (hmax : t.max ≠ 0) {gs : List Gram} (h : ∀ g ∈ gs, LocalGramM g) :
    GramEq env (.repeat t gs) (.flatGroup (gs ++ [.repeat (decTimes t) gs])) := by
  intro c hc
  have hL := sameL_den he h
  have hca := (Alike.rfl' c).enter ":base:Repeat" ":base:FlatGroup"
  have h1 := seqO_same hL hca rfl
  rw [den_flatGroup]
  cases h2 : seqO (gs.map (den env)) (enter ":base:Repeat" c) with
  | matched d =>
    rw [flatGroup_outcome, List.map_append, seqO_append]
    rw [h2] at h1
    generalize seqO (gs.map (den env)) (enter ":base:FlatGroup" c) = x at h1
    cases h1 with
    | matched h1 =>
      simp only [List.map_cons, List.map_nil, Outcome.onMatch, seqO_one]
      exact SameOut.symm (SameOut.qty (den_repeat_next hmax hL h2 h1).symm 1)
  | _ =>
    refine den_repeat_stop hmax ?_ (by rw [h2]; simp)
    rw [flatGroup_outcome, List.map_append, seqO_append]
    rw [h2] at h1 ⊢
    first
    | (simp only [repEnd]; rw [if_neg (by omega)]; exact SameOut.symm (SameOut.qty (SameOut.onMatch h1 (g := seqO _) (f := seqO ([.repeat (decTimes t) gs].map (den env))) (by simp)).symm 1))
    | exact SameOut.symm (SameOut.qty (SameOut.onMatch h1 (g := seqO _) (f := seqO ([.repeat (decTimes t) gs].map (den env))) (by simp)).symm 1)

/-- **C57.** A repetition that need not match is the sequence followed by one repetition less, or nothing. -/
theorem C57_repeat_none {t : Times} (hmin : t.min ≤ 0) (hmax : t.max ≠ 0) {gs : List Gram} (h : ∀ g ∈ gs, LocalGramM g) :
    GramEq env (.repeat t gs) (.first [.flatGroup (gs ++ [.repeat (decTimes t) gs]), .flatGroup []]) := by
  intro c hc
  have hL := sameL_den he h
  have h1 := seqO_same hL (((Alike.rfl' c).enter ":base:Repeat" ":base:First").enterR ":base:FlatGroup" rfl) rfl
  have hr : Outcome.of (den env (.first [.flatGroup (gs ++ [.repeat (decTimes t) gs]), .flatGroup []]) c) =
      ((((seqO (gs.map (den env)) (enter ":base:FlatGroup" (enter ":base:First" c))).onMatch fun d => Outcome.of (den env (.repeat (decTimes t) gs) d)).onMatch
        fun d => .matched { d with qty := 1 }).orElse (.matched { enter ":base:FlatGroup" (enter ":base:First" c) with qty := 1 })).onMatch
        fun d => .matched { d with qty := 1 } := by
    rw [den_first, first_outcome (by simp)]
    simp only [List.map_cons, List.map_nil, choiceO, orElse_unmatched, den_flatGroup, flatGroup_outcome, List.map_append, seqO_append, seqO]
    simp only [onMatch_matched]
    rfl
  have h0 : (decTimes t).min ≤ 0 := by unfold decTimes; simp only; split <;> omega
  cases h2 : seqO (gs.map (den env)) (enter ":base:Repeat" c) with
  | matched d =>
    rw [hr]
    rw [h2] at h1
    generalize seqO (gs.map (den env)) (enter ":base:FlatGroup" (enter ":base:First" c)) = x at h1
    cases h1 with
    | @matched _ d' h1 =>
      have h3 := den_repeat_next hmax hL h2 h1
      have h4 := den_repeat_ne (env := env) (gs := gs) (c := d') h0
      refine SameOut.symm (SameOut.qty (SameOut.symm (h3.trans ?_)) 1)
      simp only [Outcome.onMatch]
      cases h5 : Outcome.of (den env (.repeat (decTimes t) gs) d') with
      | unmatched => exact absurd h5 h4
      | matched e => exact .matched ((Alike.rfl' e).setQty e.qty 1)
      | _ => exact .refl _
  | unmatched =>
    refine den_repeat_stop hmax ?_ (by rw [h2]; simp)
    rw [hr]
    rw [h2] at h1 ⊢
    generalize seqO (gs.map (den env)) (enter ":base:FlatGroup" (enter ":base:First" c)) = x at h1
    cases h1
    simp only [repEnd]
    rw [if_pos (by omega)]
    exact .matched ⟨rfl, rfl, rfl, rfl, rfl, rfl⟩
  | failed d e =>
    refine den_repeat_stop hmax ?_ (by rw [h2]; simp)
    rw [hr]
    rw [h2] at h1 ⊢
    generalize seqO (gs.map (den env)) (enter ":base:FlatGroup" (enter ":base:First" c)) = x at h1
    cases h1 with | failed h1 => exact .failed h1
  | panicked p =>
    refine den_repeat_stop hmax ?_ (by rw [h2]; simp)
    rw [hr]
    rw [h2] at h1 ⊢
    generalize seqO (gs.map (den env)) (enter ":base:FlatGroup" (enter ":base:First" c)) = x at h1
    cases h1; exact .panicked
  | timedOut =>
    refine den_repeat_stop hmax ?_ (by rw [h2]; simp)
    rw [hr]
    rw [h2] at h1 ⊢
    generalize seqO (gs.map (den env)) (enter ":base:FlatGroup" (enter ":base:First" c)) = x at h1
    cases h1; exact .timedOut

omit he in
/-- **C57.** A repetition at most zero times. -/
theorem C57_repeat_zero {t : Times} (hmin : t.min ≤ 0) (hmax : t.max = 0) (gs : List Gram) : GramEq env (.repeat t gs) (.flatGroup []) := by
  intro c hc
  have h1 : Outcome.of (repeatP 0 t (gs.map (den env)) c) = repEnd t 0 (enter ":base:Repeat" c) := by
    rw [repeat_outcome]
    simp [iterLimit, hmax, loopO]
  have h2 : repEnd t 0 (enter ":base:Repeat" c) = .matched { enter ":base:Repeat" c with qty := 0 } := by
    unfold repEnd
    rw [if_pos (by omega)]
  rw [den_repeat_of env t gs c 0 (fun h3 => by rw [h3, h2] at h1; cases h1), h1, h2, den_flatGroup]
  exact .matched ⟨rfl, rfl, rfl, rfl, rfl, rfl⟩

/-! ### Transformers -/

omit he in
/-- **C57.** Transforming twice is transforming once by all transformers. -/
theorem C57_trans_trans (g : Gram) (ts us : List Tr) : GramEq env (.trans (.trans g ts) us) (.trans g (ts ++ us)) := by
  intro c hc
  rw [den_trans, den_trans, den_trans, trans_outcome, trans_outcome, trans_outcome, onMatch_assoc, List.map_append]
  have h1 : { enter ":base:Trans" c with cls := ":base:Trans" } = { c with cls := ":base:Trans" } := by unfold enter; rw [hc]
  rw [show enter ":base:Trans" (enter ":base:Trans" c) = enter ":base:Trans" c from rfl, h1]
  cases h2 : Outcome.of (den env g (enter ":base:Trans" c)) with
  | matched d => exact applyTransforms_append _ { d with qty := 1 } _ _ (show d.status = _ from Outcome.of_matched_status h2)
  | _ => exact .refl _

/-- **C57.** `Trans(g)` is `g`. -/
theorem C57_trans_nil {g : Gram} (hg : LocalGramM g) : GramEq env (.trans g []) g := by
  intro c hc
  rw [den_trans, trans_outcome]
  have h1 := sameP_den he hg _ _ ((Alike.rfl' c).enterL ":base:Trans" hc) rfl
  cases h2 : Outcome.of (den env g (enter ":base:Trans" c)) with
  | matched d =>
    rw [h2] at h1
    have := h1.qty 1
    simpa [Outcome.onMatch, applyTransforms, variadic, Outcome.of, Outcome.of_matched_status h2] using this
  | _ => rw [h2] at h1; exact h1

/-! ### Replacing -/

theorem within_same {g h k k' : Gram} (hw : Within g h k k') (hgh : SameP (den env g) (den env h)) (hk : LocalGramM k) : SameP (den env k) (den env k') := by
  have hl : ∀ {pre post : List Gram} {k k' : Gram}, (∀ x ∈ pre ++ k :: post, LocalGramM x) → SameP (den env k) (den env k') →
      SameL ((pre ++ k :: post).map (den env)) ((pre ++ k' :: post).map (den env)) := by
    intro pre post k k' h1 h2
    obtain ⟨h3, h4⟩ := local_append h1
    rw [List.map_append, List.map_append]
    exact (sameL_den he h3).append (.cons h2 (sameL_den he fun x hx => h4 x (.tail _ hx)))
  have hm : ∀ {pre post : List Gram} {k : Gram}, k ∈ pre ++ k :: post := by simp
  induction hw with
  | here => exact hgh
  | flatGroup _ ih => cases hk with | flatGroup hk => rw [den_flatGroup, den_flatGroup]; exact flatGroup_same (hl hk (ih (hk _ hm)))
  | group _ ih => cases hk with | group hk => rw [den_group, den_group]; exact group_same (hl hk (ih (hk _ hm)))
  | first _ ih => cases hk with | first hk => rw [den_first, den_first]; exact first_same (hl hk (ih (hk _ hm)))
  | lookAhead _ ih => cases hk with | lookAhead hk => rw [den_lookAhead, den_lookAhead]; exact lookAhead_same (hl hk (ih (hk _ hm)))
  | lookAheadN _ ih => cases hk with | lookAheadN hk => rw [den_lookAheadN, den_lookAheadN]; exact lookAheadN_same (hl hk (ih (hk _ hm)))
  | lookBehind _ ih => cases hk with | lookBehind hk => rw [den_lookBehind, den_lookBehind]; exact lookBehind_same false _ _ (hl hk (ih (hk _ hm)))
  | lookBehindN _ ih => cases hk with | lookBehindN hk => rw [den_lookBehindN, den_lookBehindN]; exact lookBehind_same true _ _ (hl hk (ih (hk _ hm)))
  | «repeat» _ ih =>
    cases hk with
    | «repeat» hk =>
      exact den_repeat_congr (hl hk (ih (hk _ hm)))
  | trans _ ih =>
    cases hk with
    | trans hk ht =>
      rw [den_trans, den_trans]
      refine trans_same (fun t htm => ?_) (ih hk)
      obtain ⟨t', ht', rfl⟩ := List.mem_map.1 htm
      exact denTr_local (localTr_local he (ht t' ht'))

/-- **C57.** A parser can be replaced, anywhere inside a grammar, by one that ends alike: the grammar still ends alike. -/
theorem C57_replace {g h k k' : Gram} (hw : Within g h k k') (hgh : GramEq env g h) (hh : LocalGramM h) (hk : LocalGramM k) : GramEq env k k' :=
  (within_same he hw (fun c c' ha hc => (hgh c hc).trans (sameP_den he hh c c' ha hc)) hk).gramEq

omit he in
/-- **C57.** Ending alike is an equivalence. -/
theorem C57_equivalence : (∀ g, GramEq env g g) ∧ (∀ g h, GramEq env g h → GramEq env h g) ∧
    ∀ g h k, GramEq env g h → GramEq env h k → GramEq env g k :=
  ⟨fun _ _ _ => .refl _, fun _ _ h c hc => (h c hc).symm, fun _ _ _ h h' c hc => (h c hc).trans (h' c hc)⟩

/-- **C57.** `Once(gs)` is `FlatGroup(gs)`. -/
theorem C57_once {gs : List Gram} (h : ∀ g ∈ gs, LocalGramM g) : GramEq env (.one gs) (.flatGroup gs) := by
  have h1 : GramEq env (.one gs) (.flatGroup (gs ++ [.repeat ⟨0, 0⟩ gs])) := C57_repeat_some he (by decide) (by decide) h
  have h2 : GramEq env (.flatGroup (gs ++ [.repeat ⟨0, 0⟩ gs])) (.flatGroup (gs ++ [.flatGroup []])) :=
    C57_replace he (.flatGroup .here) (C57_repeat_zero (by decide) rfl gs) (.flatGroup (by simp))
      (.flatGroup (by
        intro g hg
        rcases List.mem_append.1 hg with hg | hg
        · exact h g hg
        · simp only [List.mem_singleton] at hg; subst hg; exact .repeat h))
  have h3 : GramEq env (.flatGroup (gs ++ [.flatGroup []])) (.flatGroup (gs ++ [] ++ [])) :=
    C57_flatGroup_flatten he (by simpa using h)
  simp only [List.append_nil] at h3
  exact C57_equivalence.2.2 _ _ _ h1 (C57_equivalence.2.2 _ _ _ h2 h3)

/-- **C57.** `OneOrMoreTimes(gs)` is `FlatGroup(gs, ZeroOrMoreTimes(gs))`. -/
theorem C57_oneOrMore {gs : List Gram} (h : ∀ g ∈ gs, LocalGramM g) : GramEq env (.plus gs) (.flatGroup (gs ++ [.star gs])) :=
  C57_repeat_some he (by decide) (by decide) h

/-- **C57.** `ZeroOrMoreTimes(gs)` is `First(FlatGroup(gs, ZeroOrMoreTimes(gs)), FlatGroup())`. -/
theorem C57_zeroOrMore {gs : List Gram} (h : ∀ g ∈ gs, LocalGramM g) : GramEq env (.star gs) (.first [.flatGroup (gs ++ [.star gs]), .flatGroup []]) :=
  C57_repeat_none he (by decide) (by decide) h

/-- **C57.** `ZeroOrOnce(gs)` is `First(FlatGroup(gs), FlatGroup())`. -/
theorem C57_zeroOrOnce {gs : List Gram} (h : ∀ g ∈ gs, LocalGramM g) : GramEq env (.opt gs) (.first [.flatGroup gs, .flatGroup []]) := by
  have hr : LocalGramM (.flatGroup (gs ++ [.repeat ⟨0, 0⟩ gs])) := .flatGroup (by
    intro g hg
    rcases List.mem_append.1 hg with hg | hg
    · exact h g hg
    · simp only [List.mem_singleton] at hg; subst hg; exact .repeat h)
  have h1 : GramEq env (.opt gs) (.first [.flatGroup (gs ++ [.repeat ⟨0, 0⟩ gs]), .flatGroup []]) := C57_repeat_none he (by decide) (by decide) h
  have h2 : GramEq env (.flatGroup (gs ++ [.repeat ⟨0, 0⟩ gs])) (.flatGroup (gs ++ [.flatGroup []])) :=
    C57_replace he (.flatGroup .here) (C57_repeat_zero (by decide) rfl gs) (.flatGroup (by simp)) hr
  have h3 : GramEq env (.flatGroup (gs ++ [.flatGroup []])) (.flatGroup (gs ++ [] ++ [])) :=
    C57_flatGroup_flatten he (by simpa using h)
  simp only [List.append_nil] at h3
  exact C57_equivalence.2.2 _ _ _ h1 (C57_replace he (.first (pre := []) .here) (C57_equivalence.2.2 _ _ _ h2 h3) (.flatGroup h)
    (.first (by
      intro g hg
      simp only [List.mem_cons, List.not_mem_nil, or_false] at hg
      rcases hg with rfl | rfl
      · exact hr
      · exact .flatGroup (by simp))))

end

/-! ### What does not hold -/

theorem not_gramEq {env : Env} {g h : Gram} {n : Nat} {c o : Ctx} (hc : c.status = .matched) (h1 : run env n g c = .ok (o, none)) (ho : o.status = .unmatched)
    {o' : Ctx} (h2 : run env n h c = .ok (o', none)) (ho' : o'.status = .matched) : ¬ GramEq env g h := by
  intro hg
  have h3 := hg c hc
  rw [den_of_run (n := n) (by rw [h1]; simp), den_of_run (n := n) (by rw [h2]; simp), h1, h2] at h3
  simp only [Outcome.of, ho, ho'] at h3
  cases h3

/-- **C57**: a common end cannot be factored out, since a choice is not reconsidered. Here on `abc`. -/
theorem C57_right_factor_false : ∃ a b c : Gram, LocalGram a ∧ LocalGram b ∧ LocalGram c ∧
    ¬ GramEq noEnv (.flatGroup [.first [a, b], c]) (.first [.flatGroup [a, c], .flatGroup [b, c]]) :=
  ⟨.prim (seqS (b! "a")), .prim (seqS (b! "ab")), .prim (seqS (b! "c")), .prim (.inl (.inl (.seq _))), .prim (.inl (.inl (.seq _))), .prim (.inl (.inl (.seq _))),
    not_gramEq (n := 5) (c := newStrCtx (b! "abc")) rfl (by cbv) (by rfl) (by cbv) (by rfl)⟩

/-- **C57**: the order of alternatives matters. Here on `ab`: only one of the two stops at the end. -/
theorem C57_first_swap_false : ∃ a b : Gram, LocalGram a ∧ LocalGram b ∧ ¬ GramEq noEnv (.first [a, b]) (.first [b, a]) := by
  refine ⟨.prim (seqS (b! "a")), .prim (seqS (b! "ab")), .prim (.inl (.inl (.seq _))), .prim (.inl (.inl (.seq _))), fun hg => ?_⟩
  have h3 := hg (newStrCtx (b! "ab")) rfl
  obtain ⟨o, h1, p1⟩ : ∃ o, Outcome.of (run noEnv 5 (.first [.prim (seqS (b! "a")), .prim (seqS (b! "ab"))]) (newStrCtx (b! "ab"))) = .matched o ∧ o.pos = 1 :=
    ⟨_, by cbv, by cbv⟩
  obtain ⟨o', h2, p2⟩ : ∃ o, Outcome.of (run noEnv 5 (.first [.prim (seqS (b! "ab")), .prim (seqS (b! "a"))]) (newStrCtx (b! "ab"))) = .matched o ∧ o.pos = 2 :=
    ⟨_, by cbv, by cbv⟩
  rw [den_of_run (n := 5) (fun h => by rw [h] at h1; cases h1), den_of_run (n := 5) (fun h => by rw [h] at h2; cases h2), h1, h2] at h3
  cases h3 with
  | matched h3 => have := h3.pos; omega

/-- **C57**: replacing happens in one place. It is not allowed to replace the definition of a name by a grammar that refers to that name, though the
two end alike: the result may run forever. -/
theorem C57_definition_false : ∃ (env env' : Env) (c : Ctx), (∀ x, LocalGram (env x)) ∧ (∀ x, LocalGram (env' x)) ∧ c.status = .matched ∧
    (∀ x, GramEq env (env x) (env' x)) ∧ (∃ o, Outcome.of (den env (.indirect 0) c) = .matched o) ∧ Outcome.of (den env' (.indirect 0) c) = .timedOut := by
  refine ⟨fun _ => .flatGroup [], fun _ => .indirect 0, newStrCtx [], fun _ => .flatGroup (by simp), fun _ => .indirect, rfl, fun _ c hc => ?_, ?_, ?_⟩
  · rw [den_indirect, den_flatGroup]
    unfold indirect
    rw [light_of, flatGroup_outcome]
    exact .matched ⟨rfl, rfl, rfl, rfl, rfl, rfl⟩
  · rw [den_indirect, den_flatGroup]
    unfold indirect
    rw [light_of, flatGroup_outcome]
    exact ⟨_, rfl⟩
  · have h1 : ∀ n c, run (fun _ => .indirect 0) n (.indirect 0) c = .timeout := by
      intro n
      induction n with
      | zero => intro c; rw [run.eq_def]
      | succ n ih =>
        intro c
        rw [run.eq_def]
        simp only [indirect, lightParser, ih]
    unfold den
    rw [dif_neg (fun ⟨n, hn⟩ => hn (h1 n _))]
    rfl

/-! ### Examples -/

theorem localGramM_noEnv (x : Nat) : LocalGramM (noEnv x) := .prim (.inl (.inl (.base .unmatched)))

/-- A word followed by a number or a sign: factoring out the word. -/
example : GramEq noEnv (.first [.flatGroup [.plus [.prim alpha], .prim number], .flatGroup [.plus [.prim alpha], .prim (charClass [b! "+", b! "-"])]])
    (.flatGroup [.plus [.prim alpha], .first [.flatGroup [.prim number], .flatGroup [.prim (charClass [b! "+", b! "-"])]]]) :=
  C57_first_factor (as := [.plus [.prim alpha]]) localGramM_noEnv
    (by intro g hg; simp only [List.mem_singleton] at hg; subst hg; exact .repeat (by intro g hg; simp only [List.mem_singleton] at hg; subst hg; exact .prim (.inl (.inl .alpha))))
    (by intro g hg; simp only [List.mem_singleton] at hg; subst hg; exact .prim (.inl (.inl .number)))
    (by intro g hg; simp only [List.mem_singleton] at hg; subst hg; exact .prim (.inl (.inl (.charClass _))))

/-- On `ab+` the two match, with three ASTs. -/
example : ∃ o, Outcome.of (run noEnv 9 (.first [.flatGroup [.plus [.prim alpha], .prim number], .flatGroup [.plus [.prim alpha], .prim (charClass [b! "+", b! "-"])]])
    (newStrCtx (b! "ab+"))) = .matched o ∧ o.stack.length = 3 := ⟨_, by cbv, by cbv⟩

/-- Inside a grammar, a repetition is unrolled. -/
example : GramEq noEnv (.group [.prim number, .trans (.plus [.prim alpha]) [.fn concat]])
    (.group [.prim number, .trans (.flatGroup [.prim alpha, .star [.prim alpha]]) [.fn concat]]) := by
  have ha : ∀ g ∈ [Gram.prim alpha], LocalGramM g := by intro g hg; simp only [List.mem_singleton] at hg; subst hg; exact .prim (.inl (.inl .alpha))
  have hl : ∀ g, LocalGramM g → LocalGramM (.group [.prim number, .trans g [.fn concat]]) := by
    intro g hg
    refine .group (fun x hx => ?_)
    simp only [List.mem_cons, List.not_mem_nil, or_false] at hx
    rcases hx with rfl | rfl
    · exact .prim (.inl (.inl .number))
    · exact .trans hg (by intro t ht; simp only [List.mem_singleton] at ht; subst ht; exact .fn (.inl .concat))
  exact C57_replace localGramM_noEnv (.group (pre := [.prim number]) (.trans .here)) (C57_oneOrMore localGramM_noEnv ha)
    (.flatGroup (by
      intro x hx
      simp only [List.mem_cons, List.not_mem_nil, or_false] at hx
      rcases hx with rfl | rfl
      · exact .prim (.inl (.inl .alpha))
      · exact .repeat ha)) (hl _ (.repeat ha))

/-- It matches on `1ab`, with one AST. -/
example : ∃ o, Outcome.of (run noEnv 9 (.group [.prim number, .trans (.plus [.prim alpha]) [.fn concat]]) (newStrCtx (b! "1ab"))) = .matched o ∧ o.stack.length = 1 :=
  ⟨_, by cbv, by cbv⟩

/-- Other laws on the formula example: the grammar of the library meets their hypotheses. -/
example (ts us : List Tr) : GramEq Formula.env (.trans (.trans Formula.expression ts) us) (.trans Formula.expression (ts ++ us)) := C57_trans_trans _ _ _

#print axioms C57_flatGroup_one
#print axioms C57_flatGroup_flatten
#print axioms C57_first_one
#print axioms C57_first_flatten
#print axioms C57_first_again
#print axioms C57_first_factor
#print axioms C57_lookAheadN_twice
#print axioms C57_lookAhead_twice
#print axioms C57_lookAhead_same
#print axioms C57_lookAheadN_never
#print axioms C57_lookAheadN_first
#print axioms C57_repeat_some
#print axioms C57_repeat_none
#print axioms C57_repeat_zero
#print axioms C57_once
#print axioms C57_oneOrMore
#print axioms C57_zeroOrMore
#print axioms C57_zeroOrOnce
#print axioms C57_trans_trans
#print axioms C57_trans_nil
#print axioms C57_replace
#print axioms C57_equivalence
#print axioms C57_right_factor_false
#print axioms C57_first_swap_false
#print axioms C57_definition_false

end Takenoco
