import Verif.Spec.Relational
import Verif.Lemmas.Local
/-
The engine respects every relation between sources and between ASTs that the parts of the grammar respect.
-/
namespace Takenoco
open Spec

section
variable {K : Cursor → Cursor → Prop} {R : Ast → Ast → Prop} {below : List Ast}

theorem Spec.Each.append {α β : Type} {R : α → β → Prop} {l l' : List α} {m m' : List β} (h : Each R l m) (h' : Each R l' m') : Each R (l ++ l') (m ++ m') := by
  induction h with
  | nil => exact h'
  | cons h _ ih => exact .cons h ih

theorem Spec.Each.length {α β : Type} {R : α → β → Prop} {l : List α} {m : List β} (h : Each R l m) : m.length = l.length := by
  induction h with
  | nil => rfl
  | cons _ _ ih => simp [ih]

theorem Spec.Each.drop {α β : Type} {R : α → β → Prop} {l : List α} {m : List β} (h : Each R l m) (n : Nat) : Each R (l.drop n) (m.drop n) := by
  induction h generalizing n with
  | nil => simp; exact .nil
  | cons h h' ih =>
    cases n with
    | zero => exact .cons h h'
    | succ n => exact ih n

theorem Spec.Each.take {α β : Type} {R : α → β → Prop} {l : List α} {m : List β} (h : Each R l m) (n : Nat) : Each R (l.take n) (m.take n) := by
  induction h generalizing n with
  | nil => simp; exact .nil
  | cons h h' ih =>
    cases n with
    | zero => exact .nil
    | succ n => exact .cons h (ih n)

theorem Spec.Each.get {α β : Type} {R : α → β → Prop} {l : List α} {m : List β} (h : Each R l m) (i : Nat) :
    (l[i]? = none ∧ m[i]? = none) ∨ ∃ a b, l[i]? = some a ∧ m[i]? = some b ∧ R a b := by
  induction h generalizing i with
  | nil => exact .inl ⟨by simp, by simp⟩
  | @cons a b _ _ h h' ih =>
    cases i with
    | zero => exact .inr ⟨a, b, by simp, by simp, h⟩
    | succ i => simpa using ih i

theorem Spec.Linked.setCls {c c' : Ctx} (h : Linked K R below c c') (s s' : String) : Linked K R below { c with cls := s } { c' with cls := s' } :=
  ⟨h.cursor, h.status, h.stack⟩
theorem Spec.Linked.setQty {c c' : Ctx} (h : Linked K R below c c') (k k' : Nat) : Linked K R below { c with qty := k } { c' with qty := k' } :=
  ⟨h.cursor, h.status, h.stack⟩
theorem Spec.Linked.setStatus {c c' : Ctx} (h : Linked K R below c c') (s : Status) : Linked K R below { c with status := s } { c' with status := s } :=
  ⟨h.cursor, rfl, h.stack⟩
theorem Spec.Linked.length {c c' : Ctx} (h : Linked K R below c c') : c'.stack.length = below.length + c.stack.length := by
  obtain ⟨st, h1, h2⟩ := h.stack
  rw [h1, List.length_append, h2.length]

theorem fixStatus_linked {o o' : Ctx} (h : Linked K R below o o') (e : Option Err) : Linked K R below (fixStatus o e) (fixStatus o' e) := by
  unfold fixStatus
  rw [h.status]
  split
  · exact h.setStatus _
  · exact h

theorem light_respects {cls : String} {p : Sem} (hp : Respects K R below p) : Respects K R below (lightParser cls p) := by
  intro c c' h
  unfold lightParser
  have h1 := hp c c' h
  revert h1
  generalize p c = x, p c' = y
  intro h1
  cases h1 with
  | panic => exact .panic
  | timeout => exact .timeout
  | @ok r r' hr =>
    obtain ⟨o, e⟩ := r
    obtain ⟨o', e'⟩ := r'
    obtain ⟨h2, h3⟩ := hr
    simp only at h2 h3
    subst h2
    have h4 := fixStatus_linked h3 e'
    simp only
    generalize fixStatus o e' = d, fixStatus o' e' = d' at h4
    refine .ok ⟨rfl, ?_⟩
    by_cases hs : d.status = .matched
    · simp only [if_pos hs, if_pos (h4.status.trans hs)]
      exact (h4.setQty 1 1).setCls cls cls
    · simp only [if_neg hs, if_neg (show ¬ d'.status = .matched from fun h => hs (h4.status.symm.trans h))]
      exact h4.setCls cls cls

/-! ### The loops -/

inductive ChildL (K : Cursor → Cursor → Prop) (R : Ast → Ast → Prop) (below : List Ast) : ChildEnd → ChildEnd → Prop where
  | fell {k : Nat} {o o' : Ctx} : Linked K R below o o' → ChildL K R below (.fell k o) (.fell k o')
  | unmatched : ChildL K R below .unmatched .unmatched
  | ret {o o' : Ctx} {e : Option Err} : Linked K R below o o' → ChildL K R below (.ret o e) (.ret o' e)

theorem childLoop_respects {ex : Bool} {ps : List Sem} (hp : ∀ p ∈ ps, Respects K R below p) : ∀ (k : Nat) (c c' : Ctx), Linked K R below c c' →
    OutR (ChildL K R below) (childLoop ex ps k c) (childLoop ex ps k c') := by
  induction ps with
  | nil => intro k c c' h; exact .ok (.fell h)
  | cons p ps ih =>
    intro k c c' h
    unfold childLoop
    have ih := ih fun q hq => hp q (by simp [hq])
    have h1 := hp p (by simp) c c' h
    revert h1
    generalize p c = x, p c' = y
    intro h1
    cases h1 with
    | panic => exact .panic
    | timeout => exact .timeout
    | @ok r r' hr =>
      obtain ⟨o, e⟩ := r
      obtain ⟨o', e'⟩ := r'
      obtain ⟨h2, h3⟩ := hr
      simp only at h2 h3
      subst h2
      have h4 := fixStatus_linked h3 e'
      simp only
      rw [h4.status]
      cases (fixStatus o e').status with
      | error => exact .ok (.ret h4)
      | unmatched =>
        simp only
        split
        · exact ih k c c' h
        · exact .ok .unmatched
      | matched =>
        simp only
        split
        · exact .ok (.fell h4)
        · exact ih (k + 1) _ _ h4

theorem callFn_respects {fn : Option ImplFn} (hf : ∀ f, fn = some f → RespectsF K R below f) (k : Int) (b : Nat) (c c' : Ctx) (h : Linked K R below c c') :
    OutR (LinkedRes K R below) (callFn fn k b c) (callFn fn k (below.length + b) c') := by
  unfold callFn
  cases fn with
  | none => exact .ok ⟨rfl, h⟩
  | some f =>
    simp only
    have h1 := hf f rfl k b c c' h
    revert h1
    generalize f k b c = x, f k (below.length + b) c' = y
    intro h1
    cases h1 with
    | panic => exact .panic
    | timeout => exact .timeout
    | @ok r r' hr =>
      obtain ⟨o, e⟩ := r
      obtain ⟨o', e'⟩ := r'
      obtain ⟨h2, h3⟩ := hr
      simp only at h2 h3
      subst h2
      exact .ok ⟨rfl, fixStatus_linked h3 _⟩

inductive IterL (K : Cursor → Cursor → Prop) (R : Ast → Ast → Prop) (below : List Ast) : IterEnd → IterEnd → Prop where
  | next {o o' : Ctx} : Linked K R below o o' → IterL K R below (.next o) (.next o')
  | brk {o o' : Ctx} : Linked K R below o o' → IterL K R below (.brk o) (.brk o')
  | ret {o o' : Ctx} {e : Option Err} : Linked K R below o o' → IterL K R below (.ret o e) (.ret o' e)

theorem iteration_respects {fn : Option ImplFn} (hf : ∀ f, fn = some f → RespectsF K R below f) {ex : Bool} {ps : List Sem} (hp : ∀ p ∈ ps, Respects K R below p)
    (b n : Nat) (c c' : Ctx) (h : Linked K R below c c') : OutR (IterL K R below) (iteration fn ex ps b n c) (iteration fn ex ps (below.length + b) n c') := by
  unfold iteration
  have h1 := childLoop_respects (ex := ex) hp 0 c c' h
  revert h1
  generalize childLoop ex ps 0 c = x, childLoop ex ps 0 c' = y
  intro h1
  cases h1 with
  | panic => exact .panic
  | timeout => exact .timeout
  | @ok r r' hr =>
    cases hr with
    | ret h => exact .ok (.ret h)
    | unmatched => exact .ok (.brk h)
    | @fell k o o' h2 =>
      simp only
      split
      · exact .ok (.brk h)
      · have h3 := callFn_respects hf k b _ _ (h2.setQty n n)
        revert h3
        generalize callFn fn k b { o with qty := n } = x, callFn fn k (below.length + b) { o' with qty := n } = y
        intro h3
        cases h3 with
        | panic => exact .panic
        | timeout => exact .timeout
        | @ok r r' hr =>
          obtain ⟨o, e⟩ := r
          obtain ⟨o', e'⟩ := r'
          obtain ⟨h2, h3⟩ := hr
          simp only at h2 h3
          subst h2
          simp only
          rw [h3.status]
          cases o.status with
          | error => exact .ok (.ret h3)
          | unmatched => exact .ok (.brk h)
          | matched => exact .ok (.next h3)

inductive LoopL (K : Cursor → Cursor → Prop) (R : Ast → Ast → Prop) (below : List Ast) : LoopEnd → LoopEnd → Prop where
  | done {n : Nat} {o o' : Ctx} : Linked K R below o o' → LoopL K R below (.done n o) (.done n o')
  | ret {o o' : Ctx} {e : Option Err} : Linked K R below o o' → LoopL K R below (.ret o e) (.ret o' e)

theorem parentLoop_respects {unb : Bool} {body body' : Nat → Ctx → Out IterEnd} (hb : ∀ n c c', Linked K R below c c' → OutR (IterL K R below) (body n c) (body' n c')) :
    ∀ (k n : Nat) (c c' : Ctx), Linked K R below c c' → OutR (LoopL K R below) (parentLoop unb body k n c) (parentLoop unb body' k n c')
  | 0, n, c, c', h => by
    unfold parentLoop
    split
    · exact .timeout
    · exact .ok (.done h)
  | k + 1, n, c, c', h => by
    unfold parentLoop
    have h1 := hb n c c' h
    revert h1
    generalize body n c = x, body' n c' = y
    intro h1
    cases h1 with
    | panic => exact .panic
    | timeout => exact .timeout
    | @ok r r' hr =>
      cases hr with
      | ret h => exact .ok (.ret h)
      | brk h => exact .ok (.done h)
      | next h => exact parentLoop_respects hb k (n + 1) _ _ h

theorem applyTrs_respects {ts : List TSem} (ht : ∀ t ∈ ts, RespectsT K R below t) (c c' : Ctx) (h : Linked K R below c c') :
    ∀ asts asts', Each R asts asts' → OutR (fun r r' => r'.2 = r.2 ∧ (r.2 = none → Each R r.1 r'.1)) (applyTrs c ts asts) (applyTrs c' ts asts') := by
  induction ts with
  | nil => intro asts asts' ha; exact .ok ⟨rfl, fun _ => ha⟩
  | cons t ts ih =>
    intro asts asts' ha
    unfold applyTrs
    have h1 := ht t (by simp) c c' asts asts' h ha
    revert h1
    generalize t c asts = x, t c' asts' = y
    intro h1
    cases h1 with
    | panic => exact .panic
    | timeout => exact .timeout
    | @ok r r' hr =>
      obtain ⟨l, e⟩ := r
      obtain ⟨l', e'⟩ := r'
      obtain ⟨h2, h3⟩ := hr
      simp only at h2 h3
      subst h2
      cases e' with
      | some e => exact .ok ⟨rfl, fun h => nomatch h⟩
      | none => exact ih (fun t ht' => ht t (by simp [ht'])) l l' (h3 rfl)

theorem applyTransforms_respects {tr : Option (List TSem)} (ht : ∀ ts, tr = some ts → ∀ t ∈ ts, RespectsT K R below t)
    {c c' o o' : Ctx} (h : Linked K R below c c') (ho : Linked K R below o o') : OutR (LinkedRes K R below) (applyTransforms tr c o) (applyTransforms tr c' o') := by
  unfold applyTransforms
  cases tr with
  | none => exact .ok ⟨rfl, ho⟩
  | some ts =>
    simp only
    by_cases hl : o.stack.length < c.stack.length
    · rw [if_pos hl, if_pos (by rw [h.length, ho.length]; omega)]; exact .panic
    · rw [if_neg hl, if_neg (by rw [h.length, ho.length]; omega)]
      obtain ⟨st, h1, h2⟩ := ho.stack
      have e1 : o'.stack.drop c'.stack.length = st.drop c.stack.length := by
        rw [h.length, h1, List.drop_append, Nat.add_sub_cancel_left, List.drop_eq_nil_of_le (as := below) (by omega), List.nil_append]
      have e2 : o'.stack.take c'.stack.length = below ++ st.take c.stack.length := by
        rw [h.length, h1, List.take_append, Nat.add_sub_cancel_left, List.take_of_length_le (l := below) (by omega)]
      rw [e1, e2]
      have h3 := applyTrs_respects (ht ts rfl) c c' h _ _ (h2.drop c.stack.length)
      revert h3
      generalize applyTrs c ts (o.stack.drop c.stack.length) = x, applyTrs c' ts (st.drop c.stack.length) = y
      intro h3
      cases h3 with
      | panic => exact .panic
      | timeout => exact .timeout
      | @ok r r' hr =>
        obtain ⟨l, e⟩ := r
        obtain ⟨l', e'⟩ := r'
        obtain ⟨h4, h5⟩ := hr
        simp only at h4 h5
        subst h4
        cases e' with
        | some e => exact .ok ⟨rfl, ho.setStatus _⟩
        | none => exact .ok ⟨rfl, ho.cursor, ho.status, _, by simp, (h2.take _).append (h5 rfl)⟩

theorem negateStatus_linked (b : Bool) {o o' : Ctx} (h : Linked K R below o o') : Linked K R below (negateStatus b o) (negateStatus b o') := by
  unfold negateStatus
  rw [h.status]
  split
  · cases o.status with
    | matched => exact h.setStatus _
    | unmatched => exact h.setStatus _
    | error => exact h
  · exact h

theorem checkMin_linked (m : Int) (n : Nat) {o o' : Ctx} (h : Linked K R below o o') : Linked K R below (checkMin m n o) (checkMin m n o') := by
  unfold checkMin
  split
  · exact h.setStatus _
  · exact h

theorem afterLoop_respects (f : Flags) {fn : Option ImplFn} (hf : ∀ f, fn = some f → RespectsF K R below f) {tr : Option (List TSem)}
    (ht : ∀ ts, tr = some ts → ∀ t ∈ ts, RespectsT K R below t) {c c' o o' : Ctx} (h : Linked K R below c c') (n : Nat) (ho : Linked K R below o o') :
    OutR (LinkedRes K R below) (afterLoop f fn tr c n o) (afterLoop f fn tr c' n o') := by
  unfold afterLoop
  have h1 := negateStatus_linked f.negative (checkMin_linked f.qty.min n ho)
  revert h1
  generalize negateStatus f.negative (checkMin f.qty.min n o) = d, negateStatus f.negative (checkMin f.qty.min n o') = d'
  intro h1
  simp only
  by_cases hs : d.status ≠ .matched
  · rw [if_pos hs, if_pos (fun h => hs (h1.status.symm.trans h))]; exact .ok ⟨rfl, h1⟩
  · rw [if_neg hs, if_neg (fun h => hs fun h2 => h (h1.status.trans h2)), h.length]
    have h3 := callFn_respects hf (-1) c.stack.length _ _ (h1.setQty n n)
    revert h3
    generalize callFn fn (-1) c.stack.length { d with qty := n } = x, callFn fn (-1) (below.length + c.stack.length) { d' with qty := n } = y
    intro h3
    cases h3 with
    | panic => exact .panic
    | timeout => exact .timeout
    | @ok r r' hr =>
      obtain ⟨o, e⟩ := r
      obtain ⟨o', e'⟩ := r'
      obtain ⟨h2, h3⟩ := hr
      simp only at h2 h3
      subst h2
      simp only
      rw [h3.status]
      split
      · exact .ok ⟨rfl, h3⟩
      · cases f.rewind with
        | true => exact applyTransforms_respects ht h h
        | false => exact applyTransforms_respects ht h h3

/-- Two calls of `BaseParser` that differ in the class name. -/
theorem base_respects (fuel : Nat) (cls cls' : String) {fn : Option ImplFn} (hf : ∀ f, fn = some f → RespectsF K R below f) (props : List PropItem)
    {ps : List Sem} (hp : ∀ p ∈ ps, Respects K R below p) {tr : Option (List TSem)}
    (ht : ∀ ts, tr = some ts → ∀ t ∈ ts, RespectsT K R below t) (c c' : Ctx) (h : Linked K R below c c') :
    OutR (LinkedRes K R below) (baseParser fuel cls fn props ps tr c) (baseParser fuel cls' fn props ps tr c') := by
  unfold baseParser
  simp only
  have h0 : Linked K R below { c with cls := cls } { c' with cls := cls' } := h.setCls _ _
  have h1 := parentLoop_respects (below := below) (unb := decide ((readProps props).qty.max < 0))
    (body := iteration fn (readProps props).thereExists ps c.stack.length) (body' := iteration fn (readProps props).thereExists ps c'.stack.length)
    (fun n d d' hd => by rw [h.length]; exact iteration_respects hf hp c.stack.length n d d' hd)
    (if decide ((readProps props).qty.max < 0) = true then fuel else (readProps props).qty.max.toNat) 0 _ _ (h0.setStatus .matched)
  revert h1
  generalize parentLoop (decide ((readProps props).qty.max < 0)) (iteration fn (readProps props).thereExists ps c.stack.length) _ 0 _ = x,
    parentLoop (decide ((readProps props).qty.max < 0)) (iteration fn (readProps props).thereExists ps c'.stack.length) _ 0 _ = y
  intro h1
  cases h1 with
  | panic => exact .panic
  | timeout => exact .timeout
  | @ok r r' hr =>
    cases hr with
    | ret h => exact .ok ⟨rfl, h⟩
    | done h => exact afterLoop_respects (readProps props) hf ht h0 _ h

end

/-- The engine respects the relations. -/
theorem run_respects {K : Cursor → Cursor → Prop} {R : Ast → Ast → Prop} {P : Sem → Prop} {T : Tr → Prop} {F : ImplFn → Prop} {I : Prop} {env : Env} {below : List Ast}
    (hP : ∀ p, P p → Respects K R below p) (hF : ∀ f, F f → RespectsF K R below f) (hG : RespectsT K R below groupingTransform)
    (he : I → ∀ x, Steady P T F I (env x)) : ∀ n, (∀ m, m < n → ∀ t, T t → RespectsT K R below (runTr env m t)) →
    ∀ g, Steady P T F I g → Respects K R below (run env n g)
  | 0, _, g, _ => fun c c' _ => by rw [run.eq_def]; exact .timeout
  | n + 1, hT, g, hg => by
    have ih := run_respects hP hF hG he n fun m hm => hT m (by omega)
    have hm : ∀ {gs : List Gram}, (∀ g ∈ gs, Steady P T F I g) → ∀ p ∈ gs.map (run env n), Respects K R below p := by
      intro gs h p hp
      obtain ⟨g, hg, rfl⟩ := List.mem_map.1 hp
      exact ih g (h g hg)
    have hmt : ∀ {ts : List Tr}, (∀ t ∈ ts, T t) → ∀ t ∈ ts.map (runTr env n), RespectsT K R below t := by
      intro ts h t ht
      obtain ⟨t, ht2, rfl⟩ := List.mem_map.1 ht
      exact hT n (by omega) t (h t ht2)
    have noF : ∀ f, (none : Option ImplFn) = some f → RespectsF K R below f := fun f h => nomatch h
    have noT : ∀ ts, (none : Option (List TSem)) = some ts → ∀ t ∈ ts, RespectsT K R below t := fun f h => nomatch h
    rw [run.eq_def]
    cases hg with
    | prim h => exact hP _ h
    | flatGroup h => exact base_respects _ _ _ noF _ (hm h) noT
    | group h =>
      refine base_respects _ _ _ noF _ (hm h) ?_
      intro ts hts t ht
      injection hts with hts
      subst hts
      simp only [List.mem_singleton] at ht
      subst ht
      exact hG
    | first h => exact base_respects _ _ _ noF _ (hm h) noT
    | lookAhead h => exact base_respects _ _ _ noF _ (hm h) noT
    | lookAheadN h => exact base_respects _ _ _ noF _ (hm h) noT
    | «repeat» h => exact base_respects _ _ _ noF _ (hm h) noT
    | @trans g trs h ht =>
      refine base_respects _ _ _ noF _ ?_ ?_
      · intro p hp
        simp only [List.mem_singleton] at hp
        subst hp
        exact ih g h
      · cases trs with
        | nil => exact noT
        | cons t ts =>
          intro ts' hts
          injection hts with hts
          subst hts
          exact hmt ht
    | indirect hi => exact light_respects (ih _ (he hi _))
    | @base cls fn props gs tr hf h ht =>
      refine base_respects _ _ _ (fun f h => hF f (hf f h)) _ (hm h) ?_
      cases tr with
      | none => exact noT
      | some ts =>
        intro ts' hts
        injection hts with hts
        subst hts
        exact hmt (ht ts rfl)

section
variable {P : Sem → Prop} {T : Tr → Prop} {F : ImplFn → Prop} {I : Prop}
theorem steady_prim {p : Sem} : Steady P T F I (.prim p) ↔ P p := ⟨fun h => by cases h; assumption, .prim⟩
theorem steady_flatGroup {gs : List Gram} : Steady P T F I (.flatGroup gs) ↔ ∀ g ∈ gs, Steady P T F I g := ⟨fun h => by cases h; assumption, .flatGroup⟩
theorem steady_group {gs : List Gram} : Steady P T F I (.group gs) ↔ ∀ g ∈ gs, Steady P T F I g := ⟨fun h => by cases h; assumption, .group⟩
theorem steady_first {gs : List Gram} : Steady P T F I (.first gs) ↔ ∀ g ∈ gs, Steady P T F I g := ⟨fun h => by cases h; assumption, .first⟩
theorem steady_lookAheadN {gs : List Gram} : Steady P T F I (.lookAheadN gs) ↔ ∀ g ∈ gs, Steady P T F I g := ⟨fun h => by cases h; assumption, .lookAheadN⟩
theorem steady_repeat {t : Times} {gs : List Gram} : Steady P T F I (.repeat t gs) ↔ ∀ g ∈ gs, Steady P T F I g := ⟨fun h => by cases h; assumption, .repeat⟩
theorem steady_trans {g : Gram} {trs : List Tr} : Steady P T F I (.trans g trs) ↔ Steady P T F I g ∧ ∀ t ∈ trs, T t :=
  ⟨fun h => by cases h; constructor <;> assumption, fun h => .trans h.1 h.2⟩
theorem steady_indirect {i : Nat} : Steady P T F I (.indirect i) ↔ I := ⟨fun h => by cases h; assumption, .indirect⟩
end

end Takenoco
