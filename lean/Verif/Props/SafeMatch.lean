import Verif.Lemmas.DeepMatch
import Verif.Props.Heap
import Verif.Props.Combinators
/-
C82: `Match` with shared memory.
-/
namespace Takenoco
open Spec

/-- **C82.** A grammar in which `Match` only replaces what the sequence it ends has pushed, or what is still replaced when the whole
alternative has matched, ends with stacks that share arrays exactly as it does with immutable lists. -/
theorem C82_simulates (w : World) {env : Env} (he : ∀ x, MatchSafe env 0 (env x)) {d : Nat} {g : Gram} (hg : MatchSafe env d g) (n : Nat) (m : Mem) (c : HCtx)
    (hc : Usable m c) (hd : d ≤ c.stack.len) : observe (Heap.run w env n g c m) = run env n g (c.view m) := by
  rcases ((Heap.run_deep w he n).1 d g hg c m hc hd).cases with ⟨⟨o, e⟩, m', ⟨o', e'⟩, h1, h2, h3, h4, -⟩ | ⟨x, h1, h2⟩ | ⟨h1, h2⟩
  · rw [h1, h2]; simp only at h3 h4; rw [observe, h3, h4]
  · rw [h1, h2]; rfl
  · rw [h1, h2]; rfl

/-- A parser called with a new context for a text, with anything in memory. -/
theorem C82_text (w : World) {env : Env} (he : ∀ x, MatchSafe env 0 (env x)) {g : Gram} (hg : MatchSafe env 0 g) (n : Nat) (s : Bytes) (m : Mem) :
    observe ((Heap.newStrCtx s >>= fun c => Heap.run w env n g c) m) = run env n g (newStrCtx s) := by
  obtain ⟨t, m', h1, h2, h3, h4, h5, h6, h7⟩ := Heap.make_spec [] 1024 m (by simp)
  have h8 : Heap.newStrCtx s m = .ok ({ str := s, slice := none, pos := 0, len := 0, qty := 0, stack := t, status := .matched, cls := "", tag := .nil }, m') := by
    unfold Heap.newStrCtx; rw [Heap.bind_ok_run h1]; rfl
  rw [Heap.bind_ok_run h8, C82_simulates w he hg n m' _ ⟨h5, h7, by intro _ h; cases h⟩ (Nat.zero_le _)]
  simp only [HCtx.view, newStrCtx, Option.map_none, h2]

/-- When such a grammar does not match, the context it was called with can be used again. -/
theorem C82_rewind (w : World) {env : Env} (he : ∀ x, MatchSafe env 0 (env x)) {d : Nat} {g : Gram} (hg : MatchSafe env d g) (n : Nat) (m : Mem) (c : HCtx)
    (hc : Usable m c) (hd : d ≤ c.stack.len) (o : HCtx) (m' : Mem) (h : Heap.run w env n g c m = .ok ((o, none), m')) (ho : o.status = .unmatched) :
    c.view m' = c.view m := by
  rcases ((Heap.run_deep w he n).1 d g hg c m hc hd).cases with ⟨r', m2, o', h1, h2, h3, h4, h5, h6⟩ | ⟨x, h1, h2⟩ | ⟨h1, h2⟩
  · rw [h] at h1
    injection h1 with h1
    injection h1 with h7 h8
    subst h7 h8
    exact Heap.view_frame hc (h6 ho rfl)
  · rw [h] at h1; cases h1
  · rw [h] at h1; cases h1

/-- Whatever the outcome: the context without the `d` topmost ASTs is what it was. -/
theorem C82_below (w : World) {env : Env} (he : ∀ x, MatchSafe env 0 (env x)) {d : Nat} {g : Gram} (hg : MatchSafe env d g) (n : Nat) (m : Mem) (c : HCtx)
    (hc : Usable m c) (hd : d ≤ c.stack.len) (r : HRes) (m' : Mem) (h : Heap.run w env n g c m = .ok (r, m')) :
    (m'.read c.stack).take (c.stack.len - d) = (m.read c.stack).take (c.stack.len - d) := by
  rcases ((Heap.run_deep w he n).1 d g hg c m hc hd).cases with ⟨r', m2, o', h1, h2, h3, h4, h5, h6⟩ | ⟨x, h1, h2⟩ | ⟨h1, h2⟩
  · rw [h] at h1
    injection h1 with h1
    injection h1 with h7 h8
    subst h7 h8
    rw [← Heap.read_upTo _ _ _ (Nat.sub_le _ _), ← Heap.read_upTo _ _ _ (Nat.sub_le _ _)]
    exact h5.frame.read hc.arr fun _ => Nat.le_refl _
  · rw [h] at h1; cases h1
  · rw [h] at h1; cases h1

/-! ### Which grammars this covers -/

theorem matchSeq_of {env : Env} {d : Nat} {gs : List Gram} (h : ∀ g ∈ gs, MatchSafe env 0 g) : MatchSeq env d 0 0 gs := by
  induction gs with
  | nil => exact .nil (Nat.zero_le _)
  | cons g gs ih => exact .cons (h g List.mem_cons_self) (Nat.le_refl _) (.inl rfl) (ih fun x hx => h x (List.mem_cons_of_mem _ hx))

mutual
theorem matchSafe_of {env : Env} : ∀ {g : Gram}, MatchFree g → ∀ d, MatchSafe env d g
  | _, .prim h, _ => .prim h
  | _, .flatGroup h, _ => .flatGroup (matchSeq_of fun g hg => matchSafe_of (h g hg) 0)
  | _, .group h, _ => .group (matchSeq_of fun g hg => matchSafe_of (h g hg) 0)
  | _, .first h, _ => .first fun g hg => matchSafe_of (h g hg) _
  | _, .lookAhead h, _ => .lookAhead (matchSeq_of fun g hg => matchSafe_of (h g hg) 0)
  | _, .lookAheadN h, _ => .lookAheadN (matchSeq_of fun g hg => matchSafe_of (h g hg) 0)
  | _, .lookBehind h, _ => .lookBehind (matchSeq_of fun g hg => matchSafe_of (h g hg) 0)
  | _, .lookBehindN h, _ => .lookBehindN (matchSeq_of fun g hg => matchSafe_of (h g hg) 0)
  | _, .repeat h, _ => .repeat (matchSeq_of fun g hg => matchSafe_of (h g hg) 0)
  | _, .trans h ht, _ => .trans (matchSafe_of h 0) fun t htt => matchSafeTr_of (ht t htt)
  | _, .indirect, _ => .indirect
  | _, .base hf h ht, _ => .base hf (fun g hg => matchSafe_of (h g hg) 0) fun ts hts t htt => matchSafeTr_of (ht ts hts t htt)

theorem matchSafeTr_of {env : Env} : ∀ {t : Tr}, MatchFreeTr t → MatchSafeTr env t
  | _, .fn => .fn
  | _, .production hp hc => .production (fun p hpp g hg => matchSafe_of (hp p hpp g hg) 0) (matchSafe_of hc 0)
end

/-- Grammars without `Match` are among them. -/
theorem C82_matchFree {env : Env} {g : Gram} (h : MatchFree g) : MatchSafe env 0 g := matchSafe_of h 0

/-- A terminal that pushes `k` ASTs leaves them. -/
theorem leaves_prim {env : Env} {p : Sem} {k : Nat} (h : ∀ c o, p c = .ok (o, none) → o.status = .matched → c.stack.length + k ≤ o.stack.length) :
    LeavesAtLeast env 0 k (.prim p) := by
  intro n c o _ hr hs
  cases n with
  | zero => rw [run.eq_def] at hr; cases hr
  | succ n => rw [run.eq_def] at hr; exact h c o hr hs

/-- `Match` leaves as many ASTs as its transformers do. -/
theorem leaves_match {env : Env} {e k : Nat} {cases : List ((List Ast → Bool) × List Tr)}
    (h : ∀ x ∈ cases, ∀ n c l r, applyTrs c (x.2.map (runTr env n)) l = .ok (r, none) → k ≤ r.length) : LeavesAtLeast env e k (.match e cases) := by
  intro n c o he hr hs
  cases n with
  | zero => rw [run.eq_def] at hr; cases hr
  | succ n =>
    rw [run.eq_def] at hr
    simp only [matchP, lightParser] at hr
    have key : ∀ (cs : List ((List Ast → Bool) × List Tr)), (∀ x ∈ cs, x ∈ cases) → ∀ o', matchFn e (cs.map fun x => (x.1, x.2.map (runTr env n))) c = .ok (o', none) →
        o'.status = .matched → c.stack.length + k ≤ o'.stack.length + e := by
      intro cs
      induction cs with
      | nil =>
        intro _ o' h' hs'
        simp only [List.map_nil, matchFn] at h'
        injection h' with h'
        injection h' with h1 h2
        subst h1
        cases hs'
      | cons x cs ih =>
        intro hcs o' h' hs'
        simp only [List.map_cons, matchFn] at h'
        split at h'
        · split at h'
          · cases h'
          · split at h'
            · cases h'
            · cases h'
            · injection h' with h'
              injection h' with h1 h2
              cases h2
            · rename_i r hr'
              injection h' with h'
              injection h' with h1 h2
              subst h1
              have := h x (hcs x List.mem_cons_self) n _ _ _ hr'
              simp only [List.length_append, List.length_take]
              omega
        · exact ih (fun y hy => hcs y (List.mem_cons_of_mem _ hy)) o' h' hs'
    split at hr
    · cases hr
    · cases hr
    · rename_i o' e' ho'
      injection hr with hr
      injection hr with h1 h2
      subst h2
      subst h1
      have hf : fixStatus o' none = o' := rfl
      rw [hf] at hs ⊢
      by_cases hm : o'.status = .matched
      · rw [if_pos hm] at hs ⊢
        exact key cases (fun _ h => h) o' ho' hm
      · rw [if_neg hm] at hs
        exact absurd hs hm

theorem outcome_ok {r : Out PRes} {o : Ctx} (h : Outcome.of r = .matched o) : r = .ok (o, none) ∧ o.status = .matched := by
  unfold Outcome.of at h
  split at h
  · cases h
  · cases h
  · cases h
  · rename_i c
    split at h
    · injection h with h; subst h; exact ⟨rfl, by assumption⟩
    · cases h
    · cases h

theorem outcome_of_matched {r : Out PRes} {o : Ctx} (h : r = .ok (o, none)) (hs : o.status = .matched) : Outcome.of r = .matched o := by
  subst h
  simp [Outcome.of, hs]

/-- `LeavesAtLeast` for sequences. -/
def LeavesAtLeastL (env : Env) (e k : Nat) (gs : List Gram) : Prop :=
  ∀ n c o, e ≤ c.stack.length → Seq (gs.map (run env n)) c (.matched o) → c.stack.length + k ≤ o.stack.length + e

theorem leavesL_nil {env : Env} {e k : Nat} (h : k ≤ e) : LeavesAtLeastL env e k [] := by
  intro n c o he hs
  cases hs
  omega

theorem leavesL_cons {env : Env} {e k e1 k1 e2 k2 : Nat} {g : Gram} {gs : List Gram} (h1 : LeavesAtLeast env e1 k1 g) (h2 : LeavesAtLeastL env e2 k2 gs)
    (he1 : e1 ≤ e) (he2 : e2 ≤ e - e1 + k1) (hk : k ≤ e - e1 + k1 - e2 + k2) : LeavesAtLeastL env e k (g :: gs) := by
  intro n c o he hs
  cases hs with
  | step hp hs =>
    obtain ⟨g1, g2⟩ := outcome_ok hp
    have := h1 n c _ (by omega) g1 g2
    have := h2 n _ o (by omega) hs
    omega
  | stop hp hn => exact absurd rfl (hn o)

theorem leaves_flatGroup {env : Env} {e k : Nat} {gs : List Gram} (h : LeavesAtLeastL env e k gs) : LeavesAtLeast env e k (.flatGroup gs) := by
  intro n c o he hr hs
  cases n with
  | zero => rw [run.eq_def] at hr; cases hr
  | succ n =>
    rw [run.eq_def] at hr
    obtain ⟨c', h1, rfl⟩ := (C01_flatGroup_matched _ _ _).1 (outcome_of_matched hr hs)
    exact h n (enter ":base:FlatGroup" c) c' he h1

theorem leaves_first {env : Env} {e k : Nat} {gs : List Gram} (hne : gs ≠ []) (h : ∀ g ∈ gs, LeavesAtLeast env e k g) : LeavesAtLeast env e k (.first gs) := by
  intro n c o he hr hs
  cases n with
  | zero => rw [run.eq_def] at hr; cases hr
  | succ n =>
    rw [run.eq_def] at hr
    obtain ⟨pre, p, post, c', h1, h2, h3, rfl⟩ := (C02_first_matched _ (by simpa using hne) _ _).1 (outcome_of_matched hr hs)
    have hp : p ∈ gs.map (run env n) := by rw [h1]; simp
    obtain ⟨g, hg, rfl⟩ := List.mem_map.1 hp
    obtain ⟨g1, g2⟩ := outcome_ok h3
    exact h g hg n (enter ":base:First" c) c' he g1 g2

/-- Operators by shift and reduce, with operators that associate to the left:
`FlatGroup(operand, ZeroOrMoreTimes(operator, operand, Match(3)(…)))`. The operand and the operator push at least one AST, and the cases
leave at least one of the three. -/
theorem C82_operators {env : Env} {operand operator : Gram} {cases : List ((List Ast → Bool) × List Tr)} (h1 : MatchSafe env 0 operand) (h2 : MatchSafe env 0 operator)
    (l1 : LeavesAtLeast env 0 1 operand) (l2 : LeavesAtLeast env 0 1 operator) (hc : ∀ x ∈ cases, ∀ t ∈ x.2, MatchSafeTr env t)
    (l3 : ∀ x ∈ cases, ∀ n c l r, applyTrs c (x.2.map (runTr env n)) l = .ok (r, none) → 1 ≤ r.length) :
    MatchSafe env 0 (.flatGroup [operand, .repeat qtyZeroOrMoreTimes [operator, operand, .match 3 cases]]) := by
  refine .flatGroup (b := 0) (.cons h1 (Nat.le_refl _) (.inr l1) (.last (e := 1) (k := 0) ?_ (by omega) (.inl rfl) (by omega)))
  refine .loop (b := 1) (by decide) (.inr (Nat.le_refl _)) ?_
  exact .cons h2 (Nat.le_refl _) (.inr l2) (.cons h1 (Nat.zero_le _) (.inr l1) (.last (e := 3) (k := 1) (.match (n := 3) (Nat.le_refl _) hc) (by omega)
    (.inr (leaves_match l3)) (by omega)))

/-- The same with one alternative for each operator: `ZeroOrMoreTimes(First(FlatGroup(operator, operand, Match(3)(…)), …))`. -/
theorem C82_alternatives {env : Env} {operand : Gram} {alts : List (Gram × List ((List Ast → Bool) × List Tr))} (h1 : MatchSafe env 0 operand)
    (l1 : LeavesAtLeast env 0 1 operand) (hne : alts ≠ []) (h2 : ∀ a ∈ alts, MatchSafe env 0 a.1 ∧ LeavesAtLeast env 0 1 a.1 ∧ (∀ x ∈ a.2, ∀ t ∈ x.2, MatchSafeTr env t) ∧
      ∀ x ∈ a.2, ∀ n c l r, applyTrs c (x.2.map (runTr env n)) l = .ok (r, none) → 1 ≤ r.length) :
    MatchSafe env 0 (.flatGroup [operand, .repeat qtyZeroOrMoreTimes [.first (alts.map fun a => .flatGroup [a.1, operand, .match 3 a.2])]]) := by
  refine .flatGroup (b := 0) (.cons h1 (Nat.le_refl _) (.inr l1) (.last (e := 1) (k := 0) ?_ (by omega) (.inl rfl) (by omega)))
  refine .loop (b := 1) (by decide) (.inr (Nat.le_refl _)) (.last (e := 1) (k := 1) ?_ (by omega) (.inr ?_) (by omega))
  · refine .first fun g hg => ?_
    obtain ⟨a, ha, rfl⟩ := List.mem_map.1 hg
    obtain ⟨i1, i2, i3, i4⟩ := h2 a ha
    exact .flatGroup (b := 1) (.cons i1 (Nat.le_refl _) (.inr i2) (.cons h1 (Nat.zero_le _) (.inr l1) (.last (e := 3) (k := 1) (.match (n := 3) (Nat.le_refl _) i3) (by omega)
      (.inr (leaves_match i4)) (by omega))))
  · refine leaves_first (by simpa using hne) fun g hg => ?_
    obtain ⟨a, ha, rfl⟩ := List.mem_map.1 hg
    obtain ⟨i1, i2, i3, i4⟩ := h2 a ha
    exact leaves_flatGroup (leavesL_cons i2 (leavesL_cons l1 (leavesL_cons (leaves_match (e := 3) i4) (leavesL_nil (k := 1) (e := 1) (by omega)) (e := 3) (k := 1) (by omega) (by omega) (by omega))
      (e := 2) (k := 1) (by omega) (by omega) (by omega)) (by omega) (by omega) (by omega))

/-! ### Where it ends -/

/-- `Repeat{2, 2}(Any(), Match(2)(…))`: two rounds are needed, and the first one has replaced an AST when the second does not match. -/
def matchInLoop : Gram :=
  .flatGroup [.prim anyS, .first [.repeat ⟨2, 2⟩ [.prim anyS, .match 2 [(topIsAny, [.fn (setValue .int (.int 0))])]], .prim (zeroP [])]]

/-- If more than one round is needed, replacing ASTs that were there before the loop does harm. -/
theorem C82_rounds_false : ∃ g : Gram, stackTypes (observe ((Heap.newStrCtx (b! "ab") >>= fun c => Heap.run plainWorld noEnv 9 g c) noMem)) = [.int] ∧
    stackTypes (run noEnv 9 g (newStrCtx (b! "ab"))) = [.string] :=
  ⟨matchInLoop, by cbv, by cbv⟩

/-- `FlatGroup(Trans(Any(), SetValue(…)), First(FlatGroup(Any(), Repeat{1, 2}(Match(1)(Erase)), Any(), Unmatched()), Zero()))` -/
def matchInShrinking : Gram :=
  .flatGroup [.trans (.prim anyS) [.fn (setValue .int (.int 0))],
    .first [.flatGroup [.prim anyS, .repeat ⟨1, 2⟩ [.match 1 [(topIsAny, [.fn erase])]], .prim anyS, .prim unmatchedP], .prim (zeroP [])]]

/-- If a round leaves less than there was, the next one removes ASTs that were there before the sequence, and they are overwritten. -/
theorem C82_shrinking_false : ∃ g : Gram, stackTypes (observe ((Heap.newStrCtx (b! "abc") >>= fun c => Heap.run plainWorld noEnv 9 g c) noMem)) = [.string] ∧
    stackTypes (run noEnv 9 g (newStrCtx (b! "abc"))) = [.int] :=
  ⟨matchInShrinking, by cbv, by cbv⟩

/-! ### Examples -/

/-- `FlatGroup(Any(), ZeroOrMoreTimes(Any(), Any(), Match(3)(Case{TopIsAny, GroupingTransform})))` -/
def anyOperators : Gram :=
  .flatGroup [.prim anyS, .repeat qtyZeroOrMoreTimes [.prim anyS, .prim anyS, .match 3 [(topIsAny, [.fn groupingTransform])]]]

theorem anyOperators_safe {env : Env} : MatchSafe env 0 anyOperators := by
  have hp : MatchSafe env 0 (.prim anyS) := .prim (C45_library (.inl .any))
  have hl : LeavesAtLeast env 0 1 (.prim anyS) := leaves_prim fun c o h hs => by
    simp only [anyS, lightParser, charFn] at h
    split at h
    · cases h
    · cases h
    · rename_i o' e' ho'
      injection h with h
      injection h with h1 h2
      subst h2
      subst h1
      have hf : fixStatus o' none = o' := rfl
      rw [hf] at hs ⊢
      by_cases hm : o'.status = .matched
      · rw [if_pos hm]
        split at ho'
        · cases ho'
        · split at ho'
          · injection ho' with ho'
            injection ho' with ho' _
            subst ho'
            cases hm
          · injection ho' with ho'
            injection ho' with ho' _
            subst ho'
            simp [pushStr]
      · rw [if_neg hm] at hs
        exact absurd hs hm
  refine C82_operators hp hp hl hl (fun x hx t ht => ?_) fun x hx n c l r h => ?_
  · simp only [List.mem_singleton] at hx
    subst hx
    simp only [List.mem_singleton] at ht
    subst ht
    exact .fn
  · simp only [List.mem_singleton] at hx
    subst hx
    cases n with
    | zero => cases h
    | succ n =>
      simp only [List.map_cons, List.map_nil, applyTrs, runTr, groupingTransform] at h
      injection h with h
      injection h with h
      subst h
      exact Nat.le_refl 1

/-- With "a+b-c" the loop replaces the AST of the operand twice. -/
example : stackTypes (observe ((Heap.newStrCtx (b! "a+b-c") >>= fun c => Heap.run plainWorld noEnv 9 anyOperators c) noMem)) = [.listOfAst] := by cbv

/-- The grammar of C45 in which `Match` does harm is not one of them. -/
example : ¬ MatchSafe noEnv 0 matchInFirst := by
  intro h
  have h1 := C82_text plainWorld (env := noEnv) (fun x => .prim (C45_library (.inl (.base .unmatched)))) h 9 (b! "a") noMem
  have h2 : stackTypes (observe ((Heap.newStrCtx (b! "a") >>= fun c => Heap.run plainWorld noEnv 9 matchInFirst c) noMem)) = [.int] := by cbv
  have h3 : stackTypes (run noEnv 9 matchInFirst (newStrCtx (b! "a"))) = [.string] := by cbv
  rw [h1, h3] at h2
  cases h2

#print axioms C82_simulates
#print axioms C82_text
#print axioms C82_rewind
#print axioms C82_below
#print axioms C82_matchFree
#print axioms C82_operators
#print axioms C82_alternatives
#print axioms C82_rounds_false
#print axioms C82_shrinking_false

end Takenoco
