import Verif.Lemmas.Greedy
/-
C109: what stands behind a repetition without an upper bound, or behind an alternative that is a beginning of it, may be out of reach.
-/
namespace Takenoco
open Spec

section
variable {env : Env} (he : ∀ x, LocalGramM (env x))
include he

/-- **C109.** A sequence in which a repetition without an upper bound is followed by what it repeats never matches, in no text at all. -/
theorem C109_never {t : Times} (ht : t.max < 0) {gs : List Gram} (hg : ∀ g ∈ gs, LocalGramM g) (pre post : List Gram) (c o : Ctx) :
    Outcome.of (den env (.flatGroup (pre ++ .repeat t gs :: gs ++ post)) c) ≠ .matched o := by
  rw [den_flatGroup, flatGroup_outcome]
  simp only [List.map_append, List.map_cons, List.append_assoc, List.cons_append, seqO_append (pre.map (den env)), seqO]
  cases seqO (pre.map (den env)) (enter ":base:FlatGroup" c) with
  | matched d =>
    simp only [Outcome.onMatch]
    cases h : Outcome.of (den env (.repeat t gs) d) with
    | matched e =>
      simp only [seqO_prefix (den_repeat_stops ht (sameL_den he hg) h (.rfl' e))]
      simp
    | _ => simp
  | _ => simp [Outcome.onMatch]

/-- **C109.** Behind a repetition without an upper bound it need not be looked whether what it repeats is there: it is not. -/
theorem C109_lookAheadN {t : Times} (ht : t.max < 0) {gs post : List Gram} (hg : ∀ g ∈ gs, LocalGramM g) (hpost : ∀ g ∈ post, LocalGramM g) (pre : List Gram) :
    GramEq env (.flatGroup (pre ++ .repeat t gs :: .lookAheadN gs :: post)) (.flatGroup (pre ++ .repeat t gs :: post)) := by
  intro c _
  rw [den_flatGroup, den_flatGroup, flatGroup_outcome, flatGroup_outcome]
  refine SameOut.onMatch ?_ fun d d' _ hd => .matched (hd.setQty 1 1)
  simp only [List.map_append, List.map_cons, seqO_append (pre.map (den env)), seqO]
  cases seqO (pre.map (den env)) (enter ":base:FlatGroup" c) with
  | matched d =>
    simp only [Outcome.onMatch]
    cases h : Outcome.of (den env (.repeat t gs) d) with
    | matched e =>
      have hs := Outcome.of_matched_status h
      have h1 := den_repeat_stops ht (sameL_den he hg) h ((Spec.Alike.rfl' e).enterR ":base:LookAheadN" hs)
      simp only [den_lookAheadN, lookAheadN_outcome _ hs, h1, notOutcome]
      exact seqO_same (sameL_den he hpost) ((Spec.Alike.rfl' e).setCls ":base:LookAheadN" e.cls) hs
    | _ => exact .refl _
  | _ => exact .refl _

/-- **C109.** A second repetition of the same parsers behind one without an upper bound adds nothing, whatever its upper bound; it must not ask for a
match. -/
theorem C109_twice {t t' : Times} (ht : t.max < 0) (ht' : t'.min ≤ 0) (hmax : t'.max ≠ 0) {gs : List Gram} (hg : ∀ g ∈ gs, LocalGramM g) :
    GramEq env (.flatGroup [.repeat t gs, .repeat t' gs]) (.repeat t gs) := by
  intro c hc
  have h0 : SameOut (Outcome.of (den env (.repeat t gs) (enter ":base:FlatGroup" c))) (Outcome.of (den env (.repeat t gs) c)) :=
    sameP_den he (.repeat hg) _ _ ((Spec.Alike.rfl' c).enterL ":base:FlatGroup" hc) rfl
  rw [den_flatGroup, flatGroup_outcome]
  simp only [List.map_cons, List.map_nil, seqO]
  cases h : Outcome.of (den env (.repeat t gs) (enter ":base:FlatGroup" c)) with
  | matched e =>
    rw [h] at h0
    have hs := Outcome.of_matched_status h
    have h1 := den_repeat_stops ht (sameL_den he hg) h ((Spec.Alike.rfl' e).enterR ":base:Repeat" hs)
    have h2 : SameOut (Outcome.of (den env (.repeat t' gs) e)) (Outcome.of (.ok (e, none))) := by
      refine den_repeat_stop hmax (x := .ok (e, none)) ?_ (by intro d; rw [h1]; nofun)
      rw [h1]
      simp only [repEnd, Outcome.of, hs]
      rw [if_pos (by omega)]
      exact .matched (((Spec.Alike.rfl' e).enterL ":base:Repeat" hs).setQty 0 e.qty)
    rw [show Outcome.of (.ok (e, none)) = .matched e by simp [Outcome.of, hs]] at h2
    simp only [Outcome.onMatch]
    generalize Outcome.of (den env (.repeat t gs) c) = r at h0
    generalize Outcome.of (den env (.repeat t' gs) e) = r' at h2
    cases h0 with
    | matched ha =>
      cases h2 with
      | matched hb => exact .matched ((hb.chain ha).setQty 1 _)
  | _ => rw [h] at h0; exact h0

end

variable {env : Env}

/-- **C109.** An alternative that begins with all of an earlier alternative is never taken: it can be left out. -/
theorem C109_dead (as bs pre mid post : List Gram) :
    GramEq env (.first (pre ++ .flatGroup as :: mid ++ .flatGroup (as ++ bs) :: post)) (.first (pre ++ .flatGroup as :: mid ++ post)) := by
  intro c _
  rw [den_first, den_first, first_outcome (by simp), first_outcome (by simp)]
  simp only [List.map_append, List.map_cons]
  rw [choiceO_dead]
  · exact .refl _
  · intro h
    rw [den_flatGroup, flatGroup_outcome] at h ⊢
    rw [List.map_append, seqO_prefix (onMatch_unmatched (f := fun d => { d with qty := 1 }) h)]
    rfl

/-- **C109.** So it is with texts: `Seq` of a text is never reached behind `Seq` of a beginning of it. -/
theorem C109_seq (s t : Bytes) (pre mid post : List Gram) :
    GramEq env (.first (pre ++ .prim (seqS s) :: mid ++ .prim (seqS (s ++ t)) :: post)) (.first (pre ++ .prim (seqS s) :: mid ++ post)) := by
  intro c _
  rw [den_first, den_first, first_outcome (by simp), first_outcome (by simp)]
  simp only [List.map_append, List.map_cons]
  rw [choiceO_dead]
  · exact .refl _
  · intro h
    rw [den_prim] at h ⊢
    exact seqS_prefix h t

/-- **C109.** And in a `CharClass`, which is the same parser without the longer text. -/
theorem C109_charClass (s t : Bytes) (pre mid post : List Bytes) : charClass (pre ++ s :: mid ++ (s ++ t) :: post) = charClass (pre ++ s :: mid ++ post) := by
  funext c
  rw [charClass_eq, charClass_eq]
  have h : (pre ++ s :: mid ++ (s ++ t) :: post).find? (fun s => hasPrefixAt s c) = (pre ++ s :: mid ++ post).find? (fun s => hasPrefixAt s c) := by
    simp only [List.append_assoc, List.cons_append, List.find?_append, List.find?_cons]
    cases hh : hasPrefixAt s c with
    | true => rfl
    | false => simp only [hasPrefixAt_prefix hh]
  rw [h]

/-! ### Examples -/

/-- Digits behind as many digits as there are: no number is left. -/
example (c o : Ctx) : Outcome.of (den noEnv (.flatGroup [.star [.prim number], .prim number]) c) ≠ .matched o :=
  C109_never localGramM_noEnv (t := ⟨0, -1⟩) (by decide) (gs := [.prim number])
    (by intro g hg; simp only [List.mem_singleton] at hg; subst hg; exact .prim (.inl (.inl .number))) [] [] c o

/-- With an upper bound there may be one left. -/
example : ∃ o, Outcome.of (run noEnv 9 (.flatGroup [.repeat ⟨0, 1⟩ [.prim number], .prim number]) (newStrCtx (b! "12"))) = .matched o ∧ o.pos = 2 := ⟨_, by cbv, by cbv⟩

/-- Before what it repeats, a repetition can match: the order matters. -/
example : ∃ o, Outcome.of (run noEnv 9 (.flatGroup [.prim number, .star [.prim number]]) (newStrCtx (b! "12"))) = .matched o ∧ o.pos = 2 := ⟨_, by cbv, by cbv⟩

/-- The negative look-ahead behind a word is not needed. -/
example : GramEq noEnv (.flatGroup [.plus [.prim alpha], .lookAheadN [.prim alpha], .prim number]) (.flatGroup [.plus [.prim alpha], .prim number]) :=
  C109_lookAheadN localGramM_noEnv (t := ⟨1, -1⟩) (by decide) (gs := [.prim alpha]) (post := [.prim number])
    (by intro g hg; simp only [List.mem_singleton] at hg; subst hg; exact .prim (.inl (.inl .alpha)))
    (by intro g hg; simp only [List.mem_singleton] at hg; subst hg; exact .prim (.inl (.inl .number))) []

/-- Both match `ab1`. -/
example : ∃ o, Outcome.of (run noEnv 9 (.flatGroup [.plus [.prim alpha], .lookAheadN [.prim alpha], .prim number]) (newStrCtx (b! "ab1"))) = .matched o ∧ o.pos = 3 :=
  ⟨_, by cbv, by cbv⟩

/-- A second repetition adds nothing. -/
example : GramEq noEnv (.flatGroup [.plus [.prim alpha], .star [.prim alpha]]) (.plus [.prim alpha]) :=
  C109_twice localGramM_noEnv (t := ⟨1, -1⟩) (t' := ⟨0, -1⟩) (by decide) (by decide) (by decide) (gs := [.prim alpha])
    (by intro g hg; simp only [List.mem_singleton] at hg; subst hg; exact .prim (.inl (.inl .alpha)))

/-- `<=` is never read behind `<`; with the longer operator first it is. -/
example : GramEq noEnv (.first [.prim (seqS (b! "<")), .prim (seqS (b! "<="))]) (.first [.prim (seqS (b! "<"))]) := C109_seq (b! "<") (b! "=") [] [] []
example : ∃ o, Outcome.of (run noEnv 9 (.first [.prim (seqS (b! "<")), .prim (seqS (b! "<="))]) (newStrCtx (b! "<=1"))) = .matched o ∧ o.pos = 1 := ⟨_, by cbv, by cbv⟩
example : ∃ o, Outcome.of (run noEnv 9 (.first [.prim (seqS (b! "<=")), .prim (seqS (b! "<"))]) (newStrCtx (b! "<=1"))) = .matched o ∧ o.pos = 2 := ⟨_, by cbv, by cbv⟩

/-- The same in a `CharClass`. -/
example : charClass [b! "<", b! ">", b! "<="] = charClass [b! "<", b! ">"] := C109_charClass (b! "<") (b! "=") [] [b! ">"] []

/-- An alternative behind one of its beginnings. -/
example : GramEq noEnv (.first [.flatGroup [.prim alpha], .flatGroup [.prim alpha, .prim number], .prim number]) (.first [.flatGroup [.prim alpha], .prim number]) :=
  C109_dead [.prim alpha] [.prim number] [] [] [.prim number]

#print axioms C109_never
#print axioms C109_lookAheadN
#print axioms C109_twice
#print axioms C109_dead
#print axioms C109_seq
#print axioms C109_charClass

end Takenoco
