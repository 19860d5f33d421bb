import Verif.Spec.Grammar
import Verif.Lemmas.Terminals
/-
Properties of parsers that are preserved by all combinators hold of every grammar.
-/
namespace Takenoco
open Spec

/-- `Q` (with `TQ` for transformers and `FQ` for callbacks) is preserved by the parser constructors. -/
structure Closed (Q : Sem → Prop) (TQ : TSem → Prop) (FQ : ImplFn → Prop) (D : Int → Prop) (M : Prop) :
    Prop where
  timeout : Q fun _ => .timeout
  grouping : TQ groupingTransform
  base : ∀ (fuel : Nat) (cls : String) (fn : Option ImplFn) (props : List PropItem) (ps : List Sem)
    (tr : Option (List TSem)), (∀ f, fn = some f → FQ f) → (∀ p ∈ ps, Q p) →
    (∀ ts, tr = some ts → ∀ t ∈ ts, TQ t) → Q (baseParser fuel cls fn props ps tr)
  light : ∀ (cls : String) (p : Sem), Q p → Q (lightParser cls p)
  behind : ∀ (neg : Bool) (a b : Int) (ps : List Sem), D a → (∀ p ∈ ps, Q p) → Q (lookBehindBase neg a b ps)
  matchP : M → ∀ (n : Int) (cases : List ((List Ast → Bool) × List TSem)),
    (∀ c ∈ cases, ∀ t ∈ c.2, TQ t) → Q (matchP n cases)

theorem variadic_mem {tr ts : List TSem} (h : variadic tr = some ts) : ts = tr := by
  unfold variadic at h; split at h <;> simp_all

theorem Closed.run {Q : Sem → Prop} {TQ : TSem → Prop} {FQ : ImplFn → Prop} {D : Int → Prop} {M : Prop}
    {P : Sem → Prop} {T : Tr → Prop} {env : Env}
    (hc : Closed Q TQ FQ D M) (hP : ∀ p, P p → Q p) (hT : ∀ t, T t → ∀ n, TQ (runTr env n t))
    (henv : ∀ i, Built P T FQ D M (env i)) :
    ∀ n g, Built P T FQ D M g → Q (run env n g) := by
  have noFn : ∀ f, (none : Option ImplFn) = some f → FQ f := by simp
  have noTr : ∀ ts, (none : Option (List TSem)) = some ts → ∀ t ∈ ts, TQ t := by simp
  intro n
  induction n with
  | zero => intro g _; exact hc.timeout
  | succ n ih =>
    have ihs : ∀ gs : List Gram, (∀ g ∈ gs, Built P T FQ D M g) → ∀ p ∈ gs.map (Takenoco.run env n), Q p := by
      intro gs h p hp
      obtain ⟨g, hg, rfl⟩ := List.mem_map.1 hp
      exact ih g (h g hg)
    intro g hg
    cases hg with
    | prim h => exact hP _ h
    | flatGroup h => exact hc.base 0 _ none [] _ none noFn (ihs _ h) noTr
    | group h =>
      refine hc.base 0 _ none [] _ _ noFn (ihs _ h) ?_
      rintro ts h t ht
      cases h
      simp at ht; subst ht; exact hc.grouping
    | first h => exact hc.base 0 _ none _ _ none noFn (ihs _ h) noTr
    | lookAhead h => exact hc.base 0 _ none _ _ none noFn (ihs _ h) noTr
    | lookAheadN h => exact hc.base 0 _ none _ _ none noFn (ihs _ h) noTr
    | lookBehind hd h => exact hc.behind false _ _ _ hd (ihs _ h)
    | lookBehindN hd h => exact hc.behind true _ _ _ hd (ihs _ h)
    | «repeat» h => exact hc.base n _ none _ _ none noFn (ihs _ h) noTr
    | @trans g trs h ht =>
      refine hc.base 0 _ none [] _ _ noFn ?_ ?_
      · intro p hp; simp at hp; subst hp; exact ih _ h
      · intro ts hts t htt
        rw [variadic_mem hts] at htt
        obtain ⟨t', ht', rfl⟩ := List.mem_map.1 htt
        exact hT t' (ht t' ht') n
    | indirect => exact hc.light _ _ (ih _ (henv _))
    | «match» hm h =>
      refine hc.matchP hm _ _ ?_
      intro c hcm t ht
      obtain ⟨c', hc', rfl⟩ := List.mem_map.1 hcm
      obtain ⟨t', ht', rfl⟩ := List.mem_map.1 ht
      exact hT t' (h c' hc' t' ht') n
    | @base cls fn props gs tr hf h ht =>
      refine hc.base n _ fn props _ _ hf (ihs _ h) ?_
      intro ts hts t htt
      cases tr with
      | none => simp at hts
      | some ts' =>
        simp at hts; subst hts
        obtain ⟨t', ht', rfl⟩ := List.mem_map.1 htt
        exact hT t' (ht _ rfl t' ht') n

/-! ### A Hoare-style invariant of the engine -/

/-- An early return from the `PARENT` loop has status error. -/
theorem parentLoop_ret_status {fn : Option ImplFn} {ex : Bool} {ps : List Sem} {b : Nat} {u : Bool} {m k : Nat}
    {c o : Ctx} {e : Option Err} (h : parentLoop u (iteration fn ex ps b) m k c = .ok (.ret o e)) :
    o.status = .error := by
  have child : ∀ (ps : List Sem) k c o e, childLoop ex ps k c = .ok (.ret o e) → o.status = .error := by
    intro ps
    induction ps with
    | nil => intro k c o e h; simp [childLoop] at h
    | cons p ps ih =>
      intro k c o e h
      cases hpc : p c with
      | panic x => simp [childLoop, hpc] at h
      | timeout => simp [childLoop, hpc] at h
      | ok oe =>
        obtain ⟨o', e'⟩ := oe
        cases hs : (fixStatus o' e').status with
        | error => simp [childLoop, hpc, hs] at h; rw [← h.1]; exact hs
        | unmatched =>
          cases ex with
          | false => simp [childLoop, hpc, hs] at h
          | true => simp [childLoop, hpc, hs] at h; exact ih _ _ _ _ h
        | matched =>
          cases ex with
          | true => simp [childLoop, hpc, hs] at h
          | false => simp [childLoop, hpc, hs] at h; exact ih _ _ _ _ h
  have iter : ∀ k c o e, iteration fn ex ps b k c = .ok (.ret o e) → o.status = .error := by
    intro k c o e h
    unfold iteration at h
    split at h
    · simp at h
    · simp at h
    · rename_i o' e' hc
      simp at h
      rw [← h.1]; exact child _ _ _ _ _ hc
    · simp at h
    · split at h
      · simp at h
      · split at h
        · simp at h
        · simp at h
        · rename_i o' e' _
          split at h
          · rename_i hs
            simp at h
            rw [← h.1]; exact hs
          · simp at h
          · simp at h
  induction m generalizing k c with
  | zero => unfold parentLoop at h; split at h <;> simp at h
  | succ m ih =>
    unfold parentLoop at h
    split at h
    · simp at h
    · simp at h
    · rename_i o' e' hi
      simp at h
      rw [← h.1]; exact iter _ _ _ _ hi
    · simp at h
    · exact ih h

/-- Started in a context satisfying `J` whose ASTs satisfy `A`, the parser panics only in the ways `PN`
allows, and if it matches, the new context satisfies `J` and `A` and is related to the old one by `R`. -/
def Obeys (J : Ctx → Prop) (A : Ast → Prop) (R : Ctx → Ctx → Prop) (PN : Panic → Prop) (p : Sem) : Prop :=
  ∀ c, J c → (∀ a ∈ c.stack, A a) →
    (∀ x, p c = .panic x → PN x) ∧
    (∀ o, Outcome.of (p c) = .matched o → J o ∧ (∀ a ∈ o.stack, A a) ∧ R c o)

/-- The same for transformers. -/
def ObeysT (J : Ctx → Prop) (A : Ast → Prop) (PN : Panic → Prop) (t : TSem) : Prop :=
  ∀ c asts, J c → (∀ a ∈ asts, A a) →
    (∀ x, t c asts = .panic x → PN x) ∧ (∀ l, t c asts = .ok (l, none) → ∀ a ∈ l, A a)

/-- The same for `BaseParser` callbacks. -/
def ObeysF (J : Ctx → Prop) (A : Ast → Prop) (R : Ctx → Ctx → Prop) (PN : Panic → Prop) (f : ImplFn) : Prop :=
  ∀ k b c, J c → (∀ a ∈ c.stack, A a) →
    (∀ x, f k b c = .panic x → PN x) ∧
    (∀ o, Outcome.of (f k b c) = .matched o → J o ∧ (∀ a ∈ o.stack, A a) ∧ R c o)

/-- What the engine needs to know about `J`, `A`, `R`, `PN`. -/
structure Laws (J : Ctx → Prop) (A : Ast → Prop) (R : Ctx → Ctx → Prop) (PN : Panic → Prop) (D : Int → Prop)
    (M : Prop) : Prop where
  refl : ∀ c, R c c
  trans : ∀ {a b c}, R a b → R b c → R a c
  upd : ∀ {c} (s : String) (st : Status) (q : Nat), J c → J { c with cls := s, status := st, qty := q }
  updR : ∀ {a b} (s : String) (st : Status) (q : Nat), R a b → R a { b with cls := s, status := st, qty := q }
  updL : ∀ {a b} (s : String) (st : Status), R { a with cls := s, status := st } b → R a b
  stackJ : ∀ {c} (l : List Ast), J c → J { c with stack := l }
  take : ∀ {a b} (l : List Ast), R a b → R a { b with stack := b.stack.take a.stack.length ++ l }
  len : ∀ {a b}, R a b → PN .index ∨ a.stack.length ≤ b.stack.length
  grp : ∀ l, (∀ a ∈ l, A a) → A { Ast.zero with cls := ":base:Group", ty := .listOfAst, val := .list l }
  behind : (∀ x, PN x) ∨ ∀ a i c, D a → a ≤ i → i ≤ c.pos → J c → J { c with pos := ((c.pos : Int) - i).toNat }
  lenJ : M → ∀ {c} (n : Nat), J c → J { c with len := n }
  replace : M → PN .index ∧ ∀ c l n, R c { c with stack := l, len := n }

section
variable {J : Ctx → Prop} {A : Ast → Prop} {R : Ctx → Ctx → Prop} {PN : Panic → Prop} {D : Int → Prop}
  {M : Prop}

theorem Laws.enter (L : Laws J A R PN D M) (cls : String) {c : Ctx} (h : J c) : J (enter cls c) :=
  L.upd cls .matched c.qty h

theorem childLoop_obeys (L : Laws J A R PN D M) (ex : Bool) (ps : List Sem) (hps : ∀ p ∈ ps, Obeys J A R PN p)
    (k : Nat) (c : Ctx) (hJ : J c) (hA : ∀ a ∈ c.stack, A a) :
    (∀ x, childLoop ex ps k c = .panic x → PN x) ∧
    (∀ k' o, childLoop ex ps k c = .ok (.fell k' o) → J o ∧ (∀ a ∈ o.stack, A a) ∧ R c o) := by
  induction ps generalizing k c with
  | nil =>
    refine ⟨by simp [childLoop], ?_⟩
    intro k' o h
    simp [childLoop] at h
    obtain ⟨_, rfl⟩ := h
    exact ⟨hJ, hA, L.refl _⟩
  | cons p ps ih =>
    have ih := ih (fun q hq => hps q (by simp [hq]))
    obtain ⟨hp1, hp2⟩ := hps p (by simp) c hJ hA
    cases hpc : p c with
    | panic x => exact ⟨fun y hy => by simp [childLoop, hpc] at hy; subst hy; exact hp1 x hpc, by simp [childLoop, hpc]⟩
    | timeout => exact ⟨by simp [childLoop, hpc], by simp [childLoop, hpc]⟩
    | ok oe =>
      obtain ⟨o, e⟩ := oe
      have hof := Outcome.of_ok_fix o e
      rw [← hpc] at hof
      cases hs : (fixStatus o e).status with
      | error => exact ⟨by simp [childLoop, hpc, hs], by simp [childLoop, hpc, hs]⟩
      | unmatched =>
        cases ex with
        | false => exact ⟨by simp [childLoop, hpc, hs], by simp [childLoop, hpc, hs]⟩
        | true =>
          have := ih k c hJ hA
          simpa [childLoop, hpc, hs] using this
      | matched =>
        rw [hs] at hof
        obtain ⟨hJ', hA', hR'⟩ := hp2 _ hof
        cases ex with
        | true =>
          refine ⟨by simp [childLoop, hpc, hs], ?_⟩
          intro k' o' h
          simp [childLoop, hpc, hs] at h
          obtain ⟨_, rfl⟩ := h
          exact ⟨hJ', hA', hR'⟩
        | false =>
          obtain ⟨h1, h2⟩ := ih (k + 1) _ hJ' hA'
          refine ⟨fun x hx => h1 x (by simpa [childLoop, hpc, hs] using hx), fun k' o' h => ?_⟩
          obtain ⟨a, b, d⟩ := h2 k' o' (by simpa [childLoop, hpc, hs] using h)
          exact ⟨a, b, L.trans hR' d⟩

theorem callFn_obeys (L : Laws J A R PN D M) (fn : Option ImplFn) (hf : ∀ f, fn = some f → ObeysF J A R PN f)
    (k : Int) (b : Nat) (c : Ctx) (hJ : J c) (hA : ∀ a ∈ c.stack, A a) :
    (∀ x, callFn fn k b c = .panic x → PN x) ∧
    (∀ o e, callFn fn k b c = .ok (o, e) → o.status = .matched → J o ∧ (∀ a ∈ o.stack, A a) ∧ R c o) := by
  cases fn with
  | none =>
    refine ⟨by simp [callFn], ?_⟩
    intro o e h _
    simp [callFn] at h
    obtain ⟨rfl, _⟩ := h
    exact ⟨hJ, hA, L.refl _⟩
  | some f =>
    obtain ⟨h1, h2⟩ := hf f rfl k b c hJ hA
    cases hfc : f k b c with
    | panic x => exact ⟨fun y hy => by simp [callFn, hfc] at hy; subst hy; exact h1 x hfc, by simp [callFn, hfc]⟩
    | timeout => exact ⟨by simp [callFn, hfc], by simp [callFn, hfc]⟩
    | ok oe =>
      obtain ⟨o, e⟩ := oe
      refine ⟨by simp [callFn, hfc], ?_⟩
      intro o' e' h hs
      simp [callFn, hfc] at h
      obtain ⟨rfl, rfl⟩ := h
      have hof := Outcome.of_ok_fix o e
      rw [hs, ← hfc] at hof
      exact h2 _ hof

theorem iteration_obeys (L : Laws J A R PN D M) (fn : Option ImplFn) (hf : ∀ f, fn = some f → ObeysF J A R PN f)
    (ex : Bool) (ps : List Sem) (hps : ∀ p ∈ ps, Obeys J A R PN p)
    (b k : Nat) (c : Ctx) (hJ : J c) (hA : ∀ a ∈ c.stack, A a) :
    (∀ x, iteration fn ex ps b k c = .panic x → PN x) ∧
    (∀ o, iteration fn ex ps b k c = .ok (.next o) → J o ∧ (∀ a ∈ o.stack, A a) ∧ R c o) ∧
    (∀ o, iteration fn ex ps b k c = .ok (.brk o) → o = c) := by
  obtain ⟨h1, h2⟩ := childLoop_obeys L ex ps hps 0 c hJ hA
  unfold iteration
  cases hc : childLoop ex ps 0 c with
  | panic x => exact ⟨fun y hy => by simp at hy; subst hy; exact h1 x hc, by simp, by simp⟩
  | timeout => exact ⟨by simp, by simp, by simp⟩
  | ok ce =>
    cases ce with
    | ret o e => exact ⟨by simp, by simp, by simp⟩
    | unmatched => exact ⟨by simp, by simp, fun o h => by simp at h; exact h.symm⟩
    | fell k' o =>
      obtain ⟨hJ', hA', hR'⟩ := h2 k' o hc
      simp only
      split
      · exact ⟨by simp, by simp, fun o h => by simp at h; exact h.symm⟩
      · have hJ2 : J { o with qty := k } := L.upd o.cls o.status k hJ'
        have hR2 : R c { o with qty := k } := L.updR o.cls o.status k hR'
        obtain ⟨f1, f2⟩ := callFn_obeys L fn hf k' b { o with qty := k } hJ2 hA'
        cases hcf : callFn fn k' b { o with qty := k } with
        | panic x => exact ⟨fun y hy => by simp at hy; subst hy; exact f1 x hcf, by simp, by simp⟩
        | timeout => exact ⟨by simp, by simp, by simp⟩
        | ok oe =>
          obtain ⟨o', e'⟩ := oe
          cases hs : o'.status with
          | error => simp [hs]
          | unmatched => exact ⟨by simp [hs], by simp [hs], fun o h => by simp [hs] at h; exact h.symm⟩
          | matched =>
            obtain ⟨a1, a2, a3⟩ := f2 o' e' hcf hs
            refine ⟨by simp [hs], fun o h => ?_, by simp [hs]⟩
            simp [hs] at h
            subst h
            exact ⟨a1, a2, L.trans hR2 a3⟩

theorem parentLoop_obeys (L : Laws J A R PN D M) (fn : Option ImplFn)
    (hf : ∀ f, fn = some f → ObeysF J A R PN f)
    (ex : Bool) (ps : List Sem) (hps : ∀ p ∈ ps, Obeys J A R PN p) (b : Nat) (u : Bool)
    (m k : Nat) (c : Ctx) (hJ : J c) (hA : ∀ a ∈ c.stack, A a) :
    (∀ x, parentLoop u (iteration fn ex ps b) m k c = .panic x → PN x) ∧
    (∀ n o, parentLoop u (iteration fn ex ps b) m k c = .ok (.done n o) →
      J o ∧ (∀ a ∈ o.stack, A a) ∧ R c o) := by
  induction m generalizing k c with
  | zero =>
    unfold parentLoop
    split
    · exact ⟨by simp, by simp⟩
    · refine ⟨by simp, ?_⟩
      intro n o h
      simp at h
      obtain ⟨_, rfl⟩ := h
      exact ⟨hJ, hA, L.refl _⟩
  | succ m ih =>
    obtain ⟨h1, h2, h3⟩ := iteration_obeys L fn hf ex ps hps b k c hJ hA
    unfold parentLoop
    cases hi : iteration fn ex ps b k c with
    | panic x => exact ⟨fun y hy => by simp at hy; subst hy; exact h1 x hi, by simp⟩
    | timeout => exact ⟨by simp, by simp⟩
    | ok ie =>
      cases ie with
      | ret o e => exact ⟨by simp, by simp⟩
      | brk o =>
        have := h3 o hi
        subst this
        refine ⟨by simp, ?_⟩
        intro n o' h
        simp at h
        obtain ⟨_, rfl⟩ := h
        exact ⟨hJ, hA, L.refl _⟩
      | next o =>
        obtain ⟨a1, a2, a3⟩ := h2 o hi
        obtain ⟨i1, i2⟩ := ih (k + 1) o a1 a2
        refine ⟨i1, fun n o' h => ?_⟩
        obtain ⟨b1, b2, b3⟩ := i2 n o' h
        exact ⟨b1, b2, L.trans a3 b3⟩

theorem applyTrs_obeys {ts : List TSem} (hts : ∀ t ∈ ts, ObeysT J A PN t) {c : Ctx} (hJ : J c)
    {asts : List Ast} (hA : ∀ a ∈ asts, A a) :
    (∀ x, applyTrs c ts asts = .panic x → PN x) ∧
    (∀ l, applyTrs c ts asts = .ok (l, none) → ∀ a ∈ l, A a) := by
  induction ts generalizing asts with
  | nil =>
    refine ⟨by simp [applyTrs], ?_⟩
    intro l h
    simp [applyTrs] at h; subst h; exact hA
  | cons t ts ih =>
    obtain ⟨h1, h2⟩ := hts t (by simp) c asts hJ hA
    cases ht : t c asts with
    | panic x => exact ⟨fun y hy => by simp [applyTrs, ht] at hy; subst hy; exact h1 x ht, by simp [applyTrs, ht]⟩
    | timeout => exact ⟨by simp [applyTrs, ht], by simp [applyTrs, ht]⟩
    | ok le =>
      obtain ⟨l, e⟩ := le
      cases e with
      | some e => exact ⟨by simp [applyTrs, ht], by simp [applyTrs, ht]⟩
      | none =>
        have := ih (fun t' ht' => hts t' (by simp [ht'])) (h2 l ht)
        simpa [applyTrs, ht] using this

theorem applyTransforms_obeys (L : Laws J A R PN D M) {tr : Option (List TSem)}
    (ht : ∀ ts, tr = some ts → ∀ t ∈ ts, ObeysT J A PN t) {c o : Ctx} (hJc : J c) (hJ : J o)
    (hA : ∀ a ∈ o.stack, A a) (hR : R c o) :
    (∀ x, applyTransforms tr c o = .panic x → PN x) ∧
    (∀ o', Outcome.of (applyTransforms tr c o) = .matched o' → J o' ∧ (∀ a ∈ o'.stack, A a) ∧ R c o') := by
  cases tr with
  | none =>
    refine ⟨by simp [applyTransforms], ?_⟩
    intro o' h
    have := Outcome.of_eq_matched h
    simp [applyTransforms] at this
    subst this
    exact ⟨hJ, hA, hR⟩
  | some ts =>
    unfold applyTransforms
    simp only
    split
    · refine ⟨?_, by simp [Outcome.of]⟩
      rintro x h; cases h
      rcases L.len hR with h | h
      · exact h
      · omega
    · have hd : ∀ a ∈ o.stack.drop c.stack.length, A a := fun a ha => hA a (List.mem_of_mem_drop ha)
      obtain ⟨h1, h2⟩ := applyTrs_obeys (ht ts rfl) hJc hd
      cases ha : applyTrs c ts (o.stack.drop c.stack.length) with
      | panic x => exact ⟨fun y hy => by simp at hy; subst hy; exact h1 x ha, by simp [Outcome.of]⟩
      | timeout => exact ⟨by simp, by simp [Outcome.of]⟩
      | ok le =>
        obtain ⟨l, e⟩ := le
        cases e with
        | some e => exact ⟨by simp, by simp [Outcome.of]⟩
        | none =>
          refine ⟨by simp, ?_⟩
          intro o' h
          have := Outcome.of_eq_matched h
          simp at this
          subst this
          refine ⟨L.stackJ _ hJ, ?_, L.take l hR⟩
          intro a ha'
          simp only [List.mem_append] at ha'
          rcases ha' with ha' | ha'
          · exact hA a (List.mem_of_mem_take ha')
          · exact h2 l ha a ha'

theorem baseParser_obeys (L : Laws J A R PN D M) (fuel : Nat) (cls : String) (fn : Option ImplFn)
    (props : List PropItem) (ps : List Sem) (tr : Option (List TSem))
    (hf : ∀ f, fn = some f → ObeysF J A R PN f) (hps : ∀ p ∈ ps, Obeys J A R PN p)
    (ht : ∀ ts, tr = some ts → ∀ t ∈ ts, ObeysT J A PN t) :
    Obeys J A R PN (baseParser fuel cls fn props ps tr) := by
  intro c hJ hA
  have hJ1 : J { c with cls := cls, status := .matched } := L.upd cls .matched c.qty hJ
  have hJ0 : J { c with cls := cls } := L.upd cls c.status c.qty hJ
  unfold baseParser
  simp only
  generalize (if decide ((readProps props).qty.max < 0) = true then fuel else (readProps props).qty.max.toNat) = m
  generalize decide ((readProps props).qty.max < 0) = u
  obtain ⟨h1, h2⟩ := parentLoop_obeys L fn hf (readProps props).thereExists ps hps c.stack.length u m 0
    { c with cls := cls, status := .matched } hJ1 hA
  cases hl : parentLoop u (iteration fn (readProps props).thereExists ps c.stack.length) m 0
      { c with cls := cls, status := .matched } with
  | panic x => exact ⟨fun y hy => by simp at hy; subst hy; exact h1 x hl, by simp [Outcome.of]⟩
  | timeout => exact ⟨by simp, by simp [Outcome.of]⟩
  | ok le =>
    cases le with
    | ret o e =>
      refine ⟨by simp, ?_⟩
      intro o' h
      simp only at h
      -- an early return never has status matched
      have := parentLoop_ret_status hl
      cases e with
      | some e => simp [Outcome.of] at h
      | none => simp [Outcome.of, this] at h
    | done n o =>
      obtain ⟨a1, a2, a3⟩ := h2 n o hl
      have a3 : R c o := L.updL cls .matched a3
      simp only
      unfold afterLoop
      simp only
      obtain ⟨st, hst⟩ : ∃ st, negateStatus (readProps props).negative (checkMin (readProps props).qty.min n o) =
          { o with status := st } := by
        unfold negateStatus checkMin
        repeat' split
        all_goals first | exact ⟨_, rfl⟩ | exact ⟨o.status, rfl⟩
      rw [hst]
      split
      · rename_i hs
        refine ⟨by simp, ?_⟩
        intro o' h
        simp at hs
        cases st <;> simp_all [Outcome.of]
      · have b1 : J { o with status := st, qty := n } := L.upd o.cls st n a1
        have b3 : R c { o with status := st, qty := n } := L.updR o.cls st n a3
        obtain ⟨f1, f2⟩ := callFn_obeys L fn hf (-1) c.stack.length { o with status := st, qty := n } b1 a2
        cases hcf : callFn fn (-1) c.stack.length { o with status := st, qty := n } with
        | panic x => exact ⟨fun y hy => by simp at hy; subst hy; exact f1 x hcf, by simp [Outcome.of]⟩
        | timeout => exact ⟨by simp, by simp [Outcome.of]⟩
        | ok oe =>
          obtain ⟨o', e'⟩ := oe
          simp only
          split
          · rename_i hs
            refine ⟨by simp, ?_⟩
            intro o'' h
            cases hs' : o'.status <;> simp_all [Outcome.of]
          · rename_i hs
            simp at hs
            obtain ⟨g1, g2, g3⟩ := f2 o' e' hcf hs
            cases hrw : (readProps props).rewind with
            | true =>
              have := applyTransforms_obeys L ht (c := { c with cls := cls }) (o := { c with cls := cls })
                hJ0 hJ0 hA (L.refl _)
              simp only [if_true]
              refine ⟨this.1, fun o'' h => ?_⟩
              obtain ⟨x1, x2, x3⟩ := this.2 o'' h
              exact ⟨x1, x2, L.updL cls c.status x3⟩
            | false =>
              have g3' : R { c with cls := cls } o' := by
                refine L.trans ?_ g3
                have : R { c with cls := cls } { c with cls := cls, status := .matched } :=
                  L.updR (b := { c with cls := cls }) cls .matched c.qty (L.refl _)
                obtain ⟨_, _, a3'⟩ := h2 n o hl
                exact L.updR o.cls st n (L.trans this a3')
              have := applyTransforms_obeys L ht (c := { c with cls := cls }) (o := o') hJ0 g1 g2 g3'
              simp only [Bool.false_eq_true, if_false]
              refine ⟨this.1, fun o'' h => ?_⟩
              obtain ⟨x1, x2, x3⟩ := this.2 o'' h
              exact ⟨x1, x2, L.updL cls c.status x3⟩

theorem light_obeys (L : Laws J A R PN D M) (cls : String) (p : Sem) (hp : Obeys J A R PN p) :
    Obeys J A R PN (lightParser cls p) := by
  intro c hJ hA
  obtain ⟨h1, h2⟩ := hp c hJ hA
  cases hpc : p c with
  | panic x =>
    exact ⟨fun y hy => by simp [lightParser, hpc] at hy; subst hy; exact h1 x hpc, by simp [lightParser, hpc, Outcome.of]⟩
  | timeout => exact ⟨by simp [lightParser, hpc], by simp [lightParser, hpc, Outcome.of]⟩
  | ok oe =>
    obtain ⟨o, e⟩ := oe
    refine ⟨by simp [lightParser, hpc], ?_⟩
    intro o' h
    have hof := Outcome.of_ok_fix o e
    have he := Outcome.of_eq_matched h
    have hs := Outcome.of_matched_status h
    simp [lightParser, hpc] at he
    obtain ⟨he, rfl⟩ := he
    cases hst : (fixStatus o none).status with
    | error => simp [hst] at he; subst he; simp at hs
    | unmatched => simp [hst] at he; subst he; simp at hs
    | matched =>
      rw [hst, ← hpc] at hof
      obtain ⟨x1, x2, x3⟩ := h2 _ hof
      simp [hst] at he
      subst he
      exact ⟨L.upd cls .matched 1 x1, x2, L.updR cls .matched 1 x3⟩

theorem behind_obeys (L : Laws J A R PN D M) (neg : Bool) (a b : Int) (ps : List Sem) (hD : D a)
    (hps : ∀ p ∈ ps, Obeys J A R PN p) : Obeys J A R PN (lookBehindBase neg a b ps) := by
  intro c hJ hA
  unfold lookBehindBase
  generalize hq : baseParser 0 (if neg = true then ":base:LookBehindN" else ":base:LookBehind") none
    [PropItem.rewind] ps none = q
  have hQ : Obeys J A R PN q := by
    subst hq
    exact baseParser_obeys L 0 _ none _ ps none (by simp) hps (by simp)
  have loop : ∀ k i, a ≤ i →
      (∀ x, lookBehindLoop neg q c k i = .panic x → PN x) ∧
      (∀ o, Outcome.of (lookBehindLoop neg q c k i) = .matched o → J o ∧ (∀ a ∈ o.stack, A a) ∧ R c o) := by
    intro k
    induction k with
    | zero =>
      intro i _
      refine ⟨by simp [lookBehindLoop], ?_⟩
      intro o h
      have := Outcome.of_eq_matched h
      simp [lookBehindLoop] at this
      subst this
      exact ⟨L.upd c.cls _ c.qty hJ, hA, L.updR c.cls _ c.qty (L.refl _)⟩
    | succ k ih =>
      intro i hi
      unfold lookBehindLoop
      split
      · exact ih (i + 1) (by omega)
      · rename_i hpos
        have hpn : ∀ x, q { c with pos := ((c.pos : Int) - i).toNat } = .panic x → PN x := by
          intro x hx
          rcases L.behind with h | h
          · exact h x
          · exact (hQ _ (h a i c hD hi (by omega) hJ) hA).1 x hx
        cases hqc : q { c with pos := ((c.pos : Int) - i).toNat } with
        | panic x => exact ⟨fun y hy => by simp at hy; subst hy; exact hpn x hqc, by simp [Outcome.of]⟩
        | timeout => exact ⟨by simp, by simp [Outcome.of]⟩
        | ok oe =>
          obtain ⟨o, e⟩ := oe
          cases e with
          | some e => exact ⟨by simp, by simp [Outcome.of]⟩
          | none =>
            simp only
            split
            · split
              · exact ⟨by simp, by simp [Outcome.of]⟩
              · refine ⟨by simp, ?_⟩
                intro o' h
                have := Outcome.of_eq_matched h
                simp at this
                subst this
                exact ⟨hJ, hA, L.refl _⟩
            · exact ih (i + 1) (by omega)
  exact loop _ a (by omega)

theorem match_obeys (L : Laws J A R PN D M) (hM : M) (n : Int) (cases : List ((List Ast → Bool) × List TSem))
    (ht : ∀ c ∈ cases, ∀ t ∈ c.2, ObeysT J A PN t) : Obeys J A R PN (matchP n cases) := by
  refine light_obeys L _ _ ?_
  obtain ⟨hidx, hrep⟩ := L.replace hM
  induction cases with
  | nil => intro c _ _; exact ⟨by simp [matchFn], by simp [matchFn, Outcome.of]⟩
  | cons gc cases ih =>
    obtain ⟨guard, trs⟩ := gc
    intro c hJ hA
    have ih := ih (fun c hc => ht c (by simp [hc])) c hJ hA
    unfold matchFn
    split
    · simp only
      split
      · refine ⟨?_, by simp [Outcome.of]⟩
        rintro x h; cases h; exact hidx
      · have hJ' : J { c with len := 0, status := .unmatched } :=
          L.lenJ hM 0 (L.upd c.cls .unmatched c.qty hJ)
        have hd : ∀ a ∈ c.stack.drop ((c.stack.length : Int) - n).toNat, A a :=
          fun a ha => hA a (List.mem_of_mem_drop ha)
        obtain ⟨h1, h2⟩ := applyTrs_obeys (ht (guard, trs) (by simp)) hJ' hd
        cases ha : applyTrs { c with len := 0, status := .unmatched } trs
            (c.stack.drop ((c.stack.length : Int) - n).toNat) with
        | panic x => exact ⟨fun y hy => by simp at hy; subst hy; exact h1 x ha, by simp [Outcome.of]⟩
        | timeout => exact ⟨by simp, by simp [Outcome.of]⟩
        | ok le =>
          obtain ⟨l, e⟩ := le
          cases e with
          | some e => exact ⟨by simp, by simp [Outcome.of]⟩
          | none =>
            refine ⟨by simp, ?_⟩
            intro o' h
            have := Outcome.of_eq_matched h
            simp at this
            subst this
            refine ⟨L.upd c.cls .matched c.qty (L.stackJ _ (L.lenJ hM 0 hJ)), ?_, ?_⟩
            · intro a ha'
              simp only [List.mem_append] at ha'
              rcases ha' with ha' | ha'
              · exact hA a (List.mem_of_mem_take ha')
              · exact h2 l ha a ha'
            · exact L.updR c.cls .matched c.qty (hrep c _ 0)
    · exact ih

theorem Laws.closed (L : Laws J A R PN D M) :
    Closed (Obeys J A R PN) (ObeysT J A PN) (ObeysF J A R PN) D M where
  timeout := fun c _ _ => ⟨by simp, by simp [Outcome.of]⟩
  grouping := fun c asts _ hA => ⟨by simp [groupingTransform], by
    intro l h
    simp [groupingTransform] at h
    subst h
    intro a ha
    simp at ha
    subst ha
    exact L.grp asts hA⟩
  base := fun fuel cls fn props ps tr h1 h2 h3 => baseParser_obeys L fuel cls fn props ps tr h1 h2 h3
  light := fun cls p h => light_obeys L cls p h
  behind := fun neg a b ps h1 h2 => behind_obeys L neg a b ps h1 h2
  matchP := fun hM n cases h => match_obeys L hM n cases h

end

end Takenoco
