import Verif.Spec.Local
import Verif.Lemmas.Invariants
/-
The engine does not look at class name, quantity, tag and the ASTs that are on the stack.
-/
namespace Takenoco
open Spec

section
variable {below : List Ast}

theorem Spec.OutR.mono {α β : Type} {R S : α → β → Prop} {x : Out α} {y : Out β} (h : OutR R x y) (hi : ∀ a b, R a b → S a b) : OutR S x y := by
  cases h with
  | ok h => exact .ok (hi _ _ h)
  | panic => exact .panic
  | timeout => exact .timeout

theorem Spec.Alike.setCls {c c' : Ctx} (h : Alike below c c') (s s' : String) : Alike below { c with cls := s } { c' with cls := s' } :=
  ⟨h.str, h.slice, h.pos, h.len, h.status, h.stack⟩
theorem Spec.Alike.setQty {c c' : Ctx} (h : Alike below c c') (k k' : Nat) : Alike below { c with qty := k } { c' with qty := k' } :=
  ⟨h.str, h.slice, h.pos, h.len, h.status, h.stack⟩
theorem Spec.Alike.setStatus {c c' : Ctx} (h : Alike below c c') (s : Status) : Alike below { c with status := s } { c' with status := s } :=
  ⟨h.str, h.slice, h.pos, h.len, rfl, h.stack⟩
theorem Spec.Alike.setLen {c c' : Ctx} (h : Alike below c c') (n : Nat) : Alike below { c with len := n } { c' with len := n } :=
  ⟨h.str, h.slice, h.pos, rfl, h.status, h.stack⟩
theorem Spec.Alike.setPos {c c' : Ctx} (h : Alike below c c') (n : Nat) : Alike below { c with pos := n } { c' with pos := n } :=
  ⟨h.str, h.slice, rfl, h.len, h.status, h.stack⟩
theorem Spec.Alike.length {c c' : Ctx} (h : Alike below c c') : c'.stack.length = below.length + c.stack.length := by rw [h.stack]; simp

theorem fixStatus_alike {o o' : Ctx} (h : Alike below o o') (e : Option Err) : Alike below (fixStatus o e) (fixStatus o' e) := by
  unfold fixStatus
  rw [h.status]
  split
  · exact h.setStatus _
  · exact h

theorem light_local {cls : String} {p : Sem} (hp : Local below p) : Local below (lightParser cls p) := by
  intro c c' h
  unfold lightParser
  have h1 := hp c c' h
  revert h1
  generalize p c = x, p c' = y
  intro h1
  cases h1 with
  | panic => exact .panic
  | timeout => exact .timeout
  | @ok r r' hr =>
    obtain ⟨o, e⟩ := r
    obtain ⟨o', e'⟩ := r'
    obtain ⟨h2, h3⟩ := hr
    simp only at h2 h3
    subst h2
    have h4 := fixStatus_alike h3 e'
    simp only
    generalize fixStatus o e' = d, fixStatus o' e' = d' at h4
    refine .ok ⟨rfl, ?_⟩
    by_cases hs : d.status = .matched
    · simp only [if_pos hs, if_pos (h4.status.trans hs)]
      exact (h4.setQty 1 1).setCls cls cls
    · simp only [if_neg hs, if_neg (show ¬ d'.status = .matched from fun h => hs (h4.status.symm.trans h))]
      exact h4.setCls cls cls

/-! ### The loops -/

inductive ChildA (below : List Ast) : ChildEnd → ChildEnd → Prop where
  | fell {k : Nat} {o o' : Ctx} : Alike below o o' → ChildA below (.fell k o) (.fell k o')
  | unmatched : ChildA below .unmatched .unmatched
  | ret {o o' : Ctx} {e : Option Err} : Alike below o o' → ChildA below (.ret o e) (.ret o' e)

theorem childLoop_local {ex : Bool} {ps : List Sem} (hp : ∀ p ∈ ps, Local below p) : ∀ (k : Nat) (c c' : Ctx), Alike below c c' →
    OutR (ChildA below) (childLoop ex ps k c) (childLoop ex ps k c') := by
  induction ps with
  | nil => intro k c c' h; exact .ok (.fell h)
  | cons p ps ih =>
    intro k c c' h
    unfold childLoop
    have ih := ih fun q hq => hp q (by simp [hq])
    have h1 := hp p (by simp) c c' h
    revert h1
    generalize p c = x, p c' = y
    intro h1
    cases h1 with
    | panic => exact .panic
    | timeout => exact .timeout
    | @ok r r' hr =>
      obtain ⟨o, e⟩ := r
      obtain ⟨o', e'⟩ := r'
      obtain ⟨h2, h3⟩ := hr
      simp only at h2 h3
      subst h2
      have h4 := fixStatus_alike h3 e'
      simp only
      rw [h4.status]
      cases (fixStatus o e').status with
      | error => exact .ok (.ret h4)
      | unmatched =>
        simp only
        split
        · exact ih k c c' h
        · exact .ok .unmatched
      | matched =>
        simp only
        split
        · exact .ok (.fell h4)
        · exact ih (k + 1) _ _ h4

theorem callFn_local {fn : Option ImplFn} (hf : ∀ f, fn = some f → LocalF below f) (k : Int) (b : Nat) (c c' : Ctx) (h : Alike below c c') :
    OutR (SameRes below) (callFn fn k b c) (callFn fn k (below.length + b) c') := by
  unfold callFn
  cases fn with
  | none => exact .ok ⟨rfl, h⟩
  | some f =>
    simp only
    have h1 := hf f rfl k b c c' h
    revert h1
    generalize f k b c = x, f k (below.length + b) c' = y
    intro h1
    cases h1 with
    | panic => exact .panic
    | timeout => exact .timeout
    | @ok r r' hr =>
      obtain ⟨o, e⟩ := r
      obtain ⟨o', e'⟩ := r'
      obtain ⟨h2, h3⟩ := hr
      simp only at h2 h3
      subst h2
      exact .ok ⟨rfl, fixStatus_alike h3 _⟩

inductive IterA (below : List Ast) : IterEnd → IterEnd → Prop where
  | next {o o' : Ctx} : Alike below o o' → IterA below (.next o) (.next o')
  | brk {o o' : Ctx} : Alike below o o' → IterA below (.brk o) (.brk o')
  | ret {o o' : Ctx} {e : Option Err} : Alike below o o' → IterA below (.ret o e) (.ret o' e)

theorem iteration_local {fn : Option ImplFn} (hf : ∀ f, fn = some f → LocalF below f) {ex : Bool} {ps : List Sem} (hp : ∀ p ∈ ps, Local below p)
    (b n : Nat) (c c' : Ctx) (h : Alike below c c') : OutR (IterA below) (iteration fn ex ps b n c) (iteration fn ex ps (below.length + b) n c') := by
  unfold iteration
  have h1 := childLoop_local (ex := ex) hp 0 c c' h
  revert h1
  generalize childLoop ex ps 0 c = x, childLoop ex ps 0 c' = y
  intro h1
  cases h1 with
  | panic => exact .panic
  | timeout => exact .timeout
  | @ok r r' hr =>
    cases hr with
    | ret h => exact .ok (.ret h)
    | unmatched => exact .ok (.brk h)
    | @fell k o o' h2 =>
      simp only
      split
      · exact .ok (.brk h)
      · have h3 := callFn_local hf k b _ _ (h2.setQty n n)
        revert h3
        generalize callFn fn k b { o with qty := n } = x, callFn fn k (below.length + b) { o' with qty := n } = y
        intro h3
        cases h3 with
        | panic => exact .panic
        | timeout => exact .timeout
        | @ok r r' hr =>
          obtain ⟨o, e⟩ := r
          obtain ⟨o', e'⟩ := r'
          obtain ⟨h2, h3⟩ := hr
          simp only at h2 h3
          subst h2
          simp only
          rw [h3.status]
          cases o.status with
          | error => exact .ok (.ret h3)
          | unmatched => exact .ok (.brk h)
          | matched => exact .ok (.next h3)

inductive LoopA (below : List Ast) : LoopEnd → LoopEnd → Prop where
  | done {n : Nat} {o o' : Ctx} : Alike below o o' → LoopA below (.done n o) (.done n o')
  | ret {o o' : Ctx} {e : Option Err} : Alike below o o' → LoopA below (.ret o e) (.ret o' e)

theorem parentLoop_local {unb : Bool} {body body' : Nat → Ctx → Out IterEnd} (hb : ∀ n c c', Alike below c c' → OutR (IterA below) (body n c) (body' n c')) :
    ∀ (k n : Nat) (c c' : Ctx), Alike below c c' → OutR (LoopA below) (parentLoop unb body k n c) (parentLoop unb body' k n c')
  | 0, n, c, c', h => by
    unfold parentLoop
    split
    · exact .timeout
    · exact .ok (.done h)
  | k + 1, n, c, c', h => by
    unfold parentLoop
    have h1 := hb n c c' h
    revert h1
    generalize body n c = x, body' n c' = y
    intro h1
    cases h1 with
    | panic => exact .panic
    | timeout => exact .timeout
    | @ok r r' hr =>
      cases hr with
      | ret h => exact .ok (.ret h)
      | brk h => exact .ok (.done h)
      | next h => exact parentLoop_local hb k (n + 1) _ _ h

theorem applyTrs_local {ts : List TSem} (ht : ∀ t ∈ ts, ∀ c c' asts, Alike below c c' → t c' asts = t c asts) (c c' : Ctx) (h : Alike below c c') :
    ∀ asts, applyTrs c' ts asts = applyTrs c ts asts := by
  induction ts with
  | nil => intro asts; rfl
  | cons t ts ih =>
    intro asts
    unfold applyTrs
    rw [ht t (by simp) c c' asts h]
    have ih := ih fun t ht' => ht t (by simp [ht'])
    split <;> simp_all

theorem applyTransforms_local {tr : Option (List TSem)} (ht : ∀ ts, tr = some ts → ∀ t ∈ ts, ∀ c c' asts, Alike below c c' → t c' asts = t c asts)
    {c c' o o' : Ctx} (h : Alike below c c') (ho : Alike below o o') : OutR (SameRes below) (applyTransforms tr c o) (applyTransforms tr c' o') := by
  unfold applyTransforms
  cases tr with
  | none => exact .ok ⟨rfl, ho⟩
  | some ts =>
    simp only
    by_cases hl : o.stack.length < c.stack.length
    · rw [if_pos hl, if_pos (by rw [h.length, ho.length]; omega)]; exact .panic
    · have e1 : o'.stack.drop c'.stack.length = o.stack.drop c.stack.length := by
        rw [h.length, ho.stack, List.drop_append, Nat.add_sub_cancel_left, List.drop_eq_nil_of_le (as := below) (by omega), List.nil_append]
      have e2 : o'.stack.take c'.stack.length = below ++ o.stack.take c.stack.length := by
        rw [h.length, ho.stack, List.take_append, Nat.add_sub_cancel_left, List.take_of_length_le (l := below) (by omega)]
      rw [if_neg hl, if_neg (by rw [h.length, ho.length]; omega), applyTrs_local (ht ts rfl) c c' h, e1, e2]
      cases applyTrs c ts (o.stack.drop c.stack.length) with
      | panic p => exact .panic
      | timeout => exact .timeout
      | ok r =>
        obtain ⟨asts, e⟩ := r
        cases e with
        | some e => exact .ok ⟨rfl, ho.setStatus _⟩
        | none => exact .ok ⟨rfl, ho.str, ho.slice, ho.pos, ho.len, ho.status, by simp⟩

theorem negateStatus_alike (b : Bool) {o o' : Ctx} (h : Alike below o o') : Alike below (negateStatus b o) (negateStatus b o') := by
  unfold negateStatus
  rw [h.status]
  split
  · cases o.status with
    | matched => exact h.setStatus _
    | unmatched => exact h.setStatus _
    | error => exact h
  · exact h

theorem checkMin_alike (m : Int) (n : Nat) {o o' : Ctx} (h : Alike below o o') : Alike below (checkMin m n o) (checkMin m n o') := by
  unfold checkMin
  split
  · exact h.setStatus _
  · exact h

theorem afterLoop_local (f : Flags) {fn : Option ImplFn} (hf : ∀ f, fn = some f → LocalF below f) {tr : Option (List TSem)}
    (ht : ∀ ts, tr = some ts → ∀ t ∈ ts, ∀ c c' asts, Alike below c c' → t c' asts = t c asts) {c c' o o' : Ctx} (h : Alike below c c') (n : Nat) (ho : Alike below o o') :
    OutR (SameRes below) (afterLoop f fn tr c n o) (afterLoop f fn tr c' n o') := by
  unfold afterLoop
  have h1 := negateStatus_alike f.negative (checkMin_alike f.qty.min n ho)
  revert h1
  generalize negateStatus f.negative (checkMin f.qty.min n o) = d, negateStatus f.negative (checkMin f.qty.min n o') = d'
  intro h1
  simp only
  by_cases hs : d.status ≠ .matched
  · rw [if_pos hs, if_pos (fun h => hs (h1.status.symm.trans h))]; exact .ok ⟨rfl, h1⟩
  · rw [if_neg hs, if_neg (fun h => hs fun h2 => h (h1.status.trans h2)), h.length]
    have h3 := callFn_local hf (-1) c.stack.length _ _ (h1.setQty n n)
    revert h3
    generalize callFn fn (-1) c.stack.length { d with qty := n } = x, callFn fn (-1) (below.length + c.stack.length) { d' with qty := n } = y
    intro h3
    cases h3 with
    | panic => exact .panic
    | timeout => exact .timeout
    | @ok r r' hr =>
      obtain ⟨o, e⟩ := r
      obtain ⟨o', e'⟩ := r'
      obtain ⟨h2, h3⟩ := hr
      simp only at h2 h3
      subst h2
      simp only
      rw [h3.status]
      split
      · exact .ok ⟨rfl, h3⟩
      · cases f.rewind with
        | true => exact applyTransforms_local ht h h
        | false => exact applyTransforms_local ht h h3

/-- Two calls of `BaseParser` that differ in the class name. -/
theorem base_local (fuel : Nat) (cls cls' : String) {fn : Option ImplFn} (hf : ∀ f, fn = some f → LocalF below f) (props : List PropItem)
    {ps : List Sem} (hp : ∀ p ∈ ps, Local below p) {tr : Option (List TSem)}
    (ht : ∀ ts, tr = some ts → ∀ t ∈ ts, ∀ c c' asts, Alike below c c' → t c' asts = t c asts) (c c' : Ctx) (h : Alike below c c') :
    OutR (SameRes below) (baseParser fuel cls fn props ps tr c) (baseParser fuel cls' fn props ps tr c') := by
  unfold baseParser
  simp only
  have h0 : Alike below { c with cls := cls } { c' with cls := cls' } := h.setCls _ _
  have h1 := parentLoop_local (below := below) (unb := decide ((readProps props).qty.max < 0))
    (body := iteration fn (readProps props).thereExists ps c.stack.length) (body' := iteration fn (readProps props).thereExists ps c'.stack.length)
    (fun n d d' hd => by rw [h.length]; exact iteration_local hf hp c.stack.length n d d' hd)
    (if decide ((readProps props).qty.max < 0) = true then fuel else (readProps props).qty.max.toNat) 0 _ _ (h0.setStatus .matched)
  revert h1
  generalize parentLoop (decide ((readProps props).qty.max < 0)) (iteration fn (readProps props).thereExists ps c.stack.length) _ 0 _ = x,
    parentLoop (decide ((readProps props).qty.max < 0)) (iteration fn (readProps props).thereExists ps c'.stack.length) _ 0 _ = y
  intro h1
  cases h1 with
  | panic => exact .panic
  | timeout => exact .timeout
  | @ok r r' hr =>
    cases hr with
    | ret h => exact .ok ⟨rfl, h⟩
    | done h => exact afterLoop_local (readProps props) hf ht h0 _ h

theorem lookBehindLoop_local (neg : Bool) {p : Sem} (hp : Local below p) {c c' : Ctx} (h : Alike below c c') : ∀ (k : Nat) (i : Int),
    OutR (SameRes below) (lookBehindLoop neg p c k i) (lookBehindLoop neg p c' k i)
  | 0, i => .ok ⟨rfl, h.setStatus _⟩
  | k + 1, i => by
    unfold lookBehindLoop
    rw [h.pos]
    split
    · exact lookBehindLoop_local neg hp h k (i + 1)
    · have h1 := hp _ _ (h.setPos ((c.pos : Int) - i).toNat)
      rw [← h.pos]
      rw [← h.pos] at h1
      revert h1
      generalize p { c with pos := ((c'.pos : Int) - i).toNat } = x, p { c' with pos := ((c'.pos : Int) - i).toNat } = y
      intro h1
      cases h1 with
      | panic => exact .panic
      | timeout => exact .timeout
      | @ok r r' hr =>
        obtain ⟨o, e⟩ := r
        obtain ⟨o', e'⟩ := r'
        obtain ⟨h2, h3⟩ := hr
        simp only at h2 h3
        subst h2
        cases e' with
        | some e => exact .ok ⟨rfl, h3⟩
        | none =>
          simp only
          rw [h3.status]
          split
          · split
            · exact .ok ⟨rfl, h3.setStatus _⟩
            · exact .ok ⟨rfl, h⟩
          · exact lookBehindLoop_local neg hp h k (i + 1)

end

/-! ### `Match` -/

theorem matchFn_local (n : Int) {cases : List ((List Ast → Bool) × List TSem)}
    (ht : ∀ a ∈ cases, ∀ t ∈ a.2, ∀ c c' asts, Alike [] c c' → t c' asts = t c asts) : Local [] (matchFn n cases) := by
  intro c c' h
  induction cases with
  | nil => exact .ok ⟨rfl, (h.setLen 0).setStatus _⟩
  | cons a cases ih =>
    obtain ⟨guard, trs⟩ := a
    unfold matchFn
    have hst : c'.stack = c.stack := by rw [h.stack]; rfl
    have e : ∀ asts, applyTrs { c' with len := 0, status := .unmatched } trs asts = applyTrs { c with len := 0, status := .unmatched } trs asts :=
      applyTrs_local (ht (guard, trs) (by simp)) _ _ ((h.setLen 0).setStatus .unmatched)
    simp only [e]
    simp only [hst]
    split
    · split
      · exact .panic
      · generalize applyTrs { c with len := 0, status := .unmatched } trs _ = x
        cases x with
        | panic p => exact .panic
        | timeout => exact .timeout
        | ok r =>
          obtain ⟨asts, e⟩ := r
          cases e with
          | some e => exact .ok ⟨rfl, h.str, h.slice, h.pos, rfl, rfl, rfl⟩
          | none => exact .ok ⟨rfl, h.str, h.slice, h.pos, rfl, rfl, rfl⟩
    · exact ih fun a ha => ht a (by simp [ha])

/-! ### `ProductionRule` -/

theorem tryRules_local {d d' : Ctx} (h : Alike [] d d') (asts : List Ast) (p : Nat) {rules : List Sem} (hr : ∀ r ∈ rules, Local [] r) :
    tryRules d' asts p rules = tryRules d asts p rules := by
  induction rules with
  | nil => rfl
  | cons r rules ih =>
    have ih := ih fun q hq => hr q (by simp [hq])
    unfold tryRules
    have h1 := hr r (by simp) _ _ (h.setPos p)
    revert h1
    generalize r { d with pos := p } = x, r { d' with pos := p } = y
    intro h1
    cases h1 with
    | panic => rfl
    | timeout => rfl
    | @ok r r' hr =>
      obtain ⟨o, e⟩ := r
      obtain ⟨o', e'⟩ := r'
      obtain ⟨h2, h3⟩ := hr
      simp only at h2 h3
      subst h2
      cases e' with
      | some e => rfl
      | none =>
        simp only
        rw [h3.status, h3.pos, h3.stack, ih]
        rfl

theorem newObjCtx_alike (src : SliceSrc) (t t' : Value) : Alike [] (newObjCtx src t) (newObjCtx src t') := ⟨rfl, rfl, rfl, rfl, rfl, rfl⟩

theorem tryPositions_local {d d' : Ctx} (h : Alike [] d d') (asts : List Ast) {rules : List Sem} (hr : ∀ r ∈ rules, Local [] r) (rtol : Bool) : ∀ k i,
    tryPositions d' asts rules rtol k i = tryPositions d asts rules rtol k i
  | 0, i => rfl
  | k + 1, i => by
    unfold tryPositions
    rw [tryRules_local h asts _ hr, tryPositions_local h asts hr rtol k (i + 1)]

theorem tryPrecedences_local (t t' : Value) (asts : List Ast) {ps : List (List Sem × Bool)} (hp : ∀ p ∈ ps, ∀ r ∈ p.1, Local [] r) :
    tryPrecedences t' asts ps = tryPrecedences t asts ps := by
  induction ps with
  | nil => rfl
  | cons p ps ih =>
    obtain ⟨rules, rtol⟩ := p
    unfold tryPrecedences
    rw [tryPositions_local (newObjCtx_alike _ t t') asts (hp (rules, rtol) (by simp)) rtol, ih fun q hq => hp q (by simp [hq])]

theorem checkHolds_local {check : Sem} (hc : Local [] check) (t t' : Value) (asts : List Ast) : checkHolds check t' asts = checkHolds check t asts := by
  unfold checkHolds
  have h1 := hc _ _ (newObjCtx_alike (astSliceSrc asts) t t')
  revert h1
  generalize check (newObjCtx (astSliceSrc asts) t) = x, check (newObjCtx (astSliceSrc asts) t') = y
  intro h1
  cases h1 with
  | panic => rfl
  | timeout => rfl
  | @ok r r' hr =>
    obtain ⟨o, e⟩ := r
    obtain ⟨o', e'⟩ := r'
    obtain ⟨h2, h3⟩ := hr
    simp only at h2 h3
    subst h2
    simp only
    rw [h3.status]

theorem productionLoop_local {ps : List (List Sem × Bool)} (hp : ∀ p ∈ ps, ∀ r ∈ p.1, Local [] r) {check : Sem} (hc : Local [] check) (t t' : Value) :
    ∀ n asts, productionLoop ps check t' n asts = productionLoop ps check t n asts
  | 0, asts => rfl
  | n + 1, asts => by
    unfold productionLoop
    rw [tryPrecedences_local t t' asts hp]
    simp only [checkHolds_local hc t t', productionLoop_local hp hc t t' n]

/-! ### Grammars -/

theorem run_local {P : Sem → Prop} {T : TSem → Prop} {F : ImplFn → Prop} {M : Prop} (hP : ∀ p, P p → ∀ below, Local below p) (hT : ∀ t, T t → LocalT t)
    (hF : ∀ f, F f → ∀ below, LocalF below f) {env : Env} (he : ∀ x, Uses P T F M (env x)) : ∀ n,
    (∀ below, (M → below = []) → ∀ g, Uses P T F M g → Local below (run env n g)) ∧
    (∀ t, UsesTr P T F M t → LocalT (runTr env n t))
  | 0 => ⟨fun below _ g _ c c' _ => by rw [run.eq_def]; exact .timeout, fun t _ b c c' asts _ => by rw [runTr.eq_def]⟩
  | n + 1 => by
    obtain ⟨ih, iht⟩ := run_local hP hT hF he n
    constructor
    · intro below hM g hg
      have hm : ∀ {gs : List Gram}, (∀ g ∈ gs, Uses P T F M g) → ∀ p ∈ gs.map (run env n), Local below p := by
        intro gs h p hp
        obtain ⟨g, hg, rfl⟩ := List.mem_map.1 hp
        exact ih below hM g (h g hg)
      have hmt : ∀ {ts : List Tr}, (∀ t ∈ ts, UsesTr P T F M t) → ∀ t ∈ ts.map (runTr env n), ∀ c c' asts, Alike below c c' → t c' asts = t c asts := by
        intro ts h t ht c c' asts hc
        obtain ⟨t, ht2, rfl⟩ := List.mem_map.1 ht
        exact iht t (h t ht2) below c c' asts hc
      have noF : ∀ f, (none : Option ImplFn) = some f → LocalF below f := fun f h => nomatch h
      have noT : ∀ ts, (none : Option (List TSem)) = some ts → ∀ t ∈ ts, ∀ c c' asts, Alike below c c' → t c' asts = t c asts := fun f h => nomatch h
      rw [run.eq_def]
      cases hg with
      | prim h => exact hP _ h below
      | flatGroup h => exact base_local _ _ _ noF _ (hm h) noT
      | group h =>
        refine base_local _ _ _ noF _ (hm h) ?_
        intro ts hts t ht c c' asts _
        injection hts with hts
        subst hts
        simp only [List.mem_singleton] at ht
        subst ht
        rfl
      | first h => exact base_local _ _ _ noF _ (hm h) noT
      | lookAhead h => exact base_local _ _ _ noF _ (hm h) noT
      | lookAheadN h => exact base_local _ _ _ noF _ (hm h) noT
      | lookBehind h => exact fun c c' hc => lookBehindLoop_local _ (base_local _ _ _ noF _ (hm h) noT) hc _ _
      | lookBehindN h => exact fun c c' hc => lookBehindLoop_local _ (base_local _ _ _ noF _ (hm h) noT) hc _ _
      | «repeat» h => exact base_local _ _ _ noF _ (hm h) noT
      | @trans g trs h ht =>
        refine base_local _ _ _ noF _ ?_ ?_
        · intro p hp
          simp only [List.mem_singleton] at hp
          subst hp
          exact ih below hM g h
        · cases trs with
          | nil => exact noT
          | cons t ts =>
            intro ts' hts
            injection hts with hts
            subst hts
            exact hmt ht
      | indirect => exact light_local (ih below hM _ (he _))
      | @«match» k cases hm' ht =>
        have := hM hm'
        subst this
        refine light_local (matchFn_local k ?_)
        intro a ha
        obtain ⟨a, ha2, rfl⟩ := List.mem_map.1 ha
        exact hmt (ht a ha2)
      | @base cls fn props gs tr hf h ht =>
        refine base_local _ _ _ (fun f h => hF f (hf f h) below) _ (hm h) ?_
        cases tr with
        | none => exact noT
        | some ts =>
          intro ts' hts
          injection hts with hts
          subst hts
          exact hmt (ht ts rfl)
    · intro t ht
      rw [runTr.eq_def]
      cases ht with
      | fn h => exact hT _ h
      | @production precs check hp hc =>
        intro below c c' asts _
        refine productionLoop_local ?_ (ih [] (fun _ => rfl) _ hc) _ _ _ _
        intro p hp' r hr
        obtain ⟨p, hp2, rfl⟩ := List.mem_map.1 hp'
        obtain ⟨g, hg, rfl⟩ := List.mem_map.1 hr
        exact ih [] (fun _ => rfl) g (hp p hp2 g hg)

end Takenoco
