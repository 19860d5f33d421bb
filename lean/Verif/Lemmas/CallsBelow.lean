import Verif.Lemmas.Cost
import Verif.Lemmas.Tracer
import Verif.Lemmas.Precedence
import Verif.Lemmas.Den
/-
Lower bounds for the number of parser calls, whatever the result is; and the calls that production rules make for a sum.
-/
namespace Takenoco
open Spec Trace

/-- At least `B` parsers are called. -/
def Adds {α : Type} (x : M α) (B : Nat) : Prop := ∀ s, callCount s.events + B ≤ callCount (x s).2.events

section
variable {α β : Type} {Q : Info → Prop} {B B' : Nat}

theorem Agrees.adds {x : M α} {y : Out α} (h : Agrees Q x y) : Adds x 0 := fun s => by
  obtain ⟨_, l, h2, _⟩ := h s
  rw [h2, callCount_append]
  omega

theorem adds_pure (a : α) : Adds (pure a) 0 := fun _ => Nat.le_refl _
theorem adds_lift (a : Out α) : Adds (lift a) 0 := fun _ => Nat.le_refl _

theorem Adds.mono {x : M α} (h : Adds x B) (hB : B' ≤ B) : Adds x B' := fun s => by have := h s; omega

/-- What is done first makes so many calls. -/
theorem Adds.left {x : M α} {f : α → M β} (hx : Adds x B) (hf : ∀ a, Adds (f a) 0) : Adds (x >>= f) B := fun s => by
  have h := hx s
  show _ ≤ callCount (M.bind x f s).2.events
  rcases hxs : x s with ⟨o, s'⟩
  rw [hxs] at h
  simp only at h
  cases o with
  | ok a => have := hf a s'; simp only [M.bind, hxs]; omega
  | panic p => simpa only [M.bind, hxs] using h
  | timeout => simpa only [M.bind, hxs] using h

/-- The calls of both parts add up. -/
theorem Adds.both {x : M α} {f : α → M β} {a : α} (ha : Agrees Q x (.ok a)) (hx : Adds x B) (hf : Adds (f a) B') : Adds (x >>= f) (B + B') := fun s => by
  have h := hx s
  have h1 := (ha s).1
  show _ ≤ callCount (M.bind x f s).2.events
  rcases hxs : x s with ⟨o, s'⟩
  rw [hxs] at h h1
  simp only at h h1
  subst h1
  have := hf s'
  simp only [M.bind, hxs]; omega

theorem Adds.right {x : M α} {f : α → M β} {a : α} (ha : Agrees Q x (.ok a)) (hf : Adds (f a) B) : Adds (x >>= f) B :=
  (Adds.both ha ha.adds hf).mono (by omega)

theorem adds_counted (i : Info) {p : Trace.Parser} {c : Ctx} (h : Adds (p c) B) : Adds (wrap (some i) p c) (1 + B) := by
  intro s
  have h1 := h { s with events := s.events ++ [.before i c] }
  show _ ≤ callCount (tracer i p c s).2.events
  unfold tracer
  rcases hp : p c { s with events := s.events ++ [.before i c] } with ⟨o, s'⟩
  rw [hp] at h1
  simp only [callCount_append, show callCount [Event.before i c] = 1 from rfl] at h1
  cases o with
  | ok a =>
    obtain ⟨o, e⟩ := a
    simp only [callCount_append, show callCount [Event.after i o e] = 0 from rfl]; omega
  | panic p => first | (simp only; omega) | (simp only [callCount_append]; simp [callCount, isBefore]; simp [callCount] at h1; omega)
  | timeout => simp only; omega

end

/-! ### The engine -/

section
variable {Q : Info → Prop} {B : Nat}

theorem childLoop_agrees_ok {te : Bool} {cs : List Trace.Parser} {ds : List Sem} (h : Each (AgreesP Q) cs ds) (k : Nat) (c : Ctx) :
    Adds (Trace.childLoop te cs k c) 0 := (agrees_childLoop te h k c).adds

theorem childLoop_here {p : Trace.Parser} {cs : List Trace.Parser} {ds : List Sem} (h : Each (AgreesP Q) cs ds) {c : Ctx} {k : Nat}
    (hB : Adds (p c) B) : Adds (Trace.childLoop false (p :: cs) k c) B := by
  rw [Trace.childLoop]
  refine hB.left fun a => ?_
  obtain ⟨o, e⟩ := a
  simp only
  split
  · exact adds_pure _
  · simp only [Bool.false_eq_true, if_false]; exact adds_pure _
  · simp only [Bool.false_eq_true, if_false]; exact childLoop_agrees_ok h _ _

theorem childLoop_past {p : Trace.Parser} {q : Sem} {cs : List Trace.Parser} (hp : AgreesP Q p q) {c o : Ctx} {k : Nat} (hq : q c = .ok (o, none))
    (ho : o.status = .matched) (hB : Adds (Trace.childLoop false cs (k + 1) o) B) : Adds (Trace.childLoop false (p :: cs) k c) B := by
  rw [Trace.childLoop]
  refine Adds.right (a := (o, none)) (hq ▸ hp c) ?_
  simp only [fixStatus, ho, Bool.false_eq_true, if_false]
  simpa [ho] using hB

theorem base_adds {cls : String} {cs : List Trace.Parser} {ds : List Sem} (h : Each (AgreesP Q) cs ds) {tr : Option (List Trace.Transformer)}
    {us : Option (List TSem)} (ht : AgreesO Q tr us) {c : Ctx} (hB : Adds (Trace.childLoop false cs 0 { { c with cls := cls } with status := .matched }) B) :
    Adds (base 0 cls none [] cs tr c) B := by
  unfold base
  refine Adds.left ?_ fun a => ?_
  · show Adds (Trace.parentLoop _ _ 1 0 _) B
    rw [Trace.parentLoop]
    refine Adds.left ?_ fun a => ?_
    · unfold Trace.iteration
      refine Adds.left hB fun a => ?_
      cases a with
      | ret o e => exact adds_pure _
      | unmatched => exact adds_pure _
      | fell k o =>
        simp only
        split
        · exact adds_pure _
        · refine Adds.left (adds_lift _) fun a => ?_
          obtain ⟨o, e⟩ := a
          simp only
          split <;> exact adds_pure _
    · cases a with
      | ret o e => exact adds_pure _
      | brk o => exact adds_pure _
      | next o => exact (agrees_parentLoop _ (fun n c => agrees_iteration none _ h _ n c) _ _ _).adds
  · cases a with
    | ret o e => exact adds_pure _
    | done k o => exact (agrees_afterLoop _ _ ht _ _ _).adds

/-- A parser with transformers, of which the first makes so many calls. -/
theorem trans_adds {cls : String} {p : Trace.Parser} {q : Sem} (hp : AgreesP Q p q) {t : Trace.Transformer} {u : TSem} (ht : AgreesT Q t u) {c o : Ctx}
    {new : List Ast} (hq : q { { c with cls := cls } with status := .matched } = .ok (o, none)) (ho : o.status = .matched)
    (hs : o.stack = c.stack ++ new) (hB : Adds (t { c with cls := cls } new) B) : Adds (base 0 cls none [] [p] (some [t]) c) B := by
  unfold base
  have hl := agrees_parentLoop (Q := Q) false (fun n c' => agrees_iteration none false (.cons hp .nil) c.stack.length n c') 1 0 { { c with cls := cls } with status := .matched }
  have he : Takenoco.parentLoop false (Takenoco.iteration none false [q] c.stack.length) 1 0 { { c with cls := cls } with status := .matched } =
      .ok (.done 1 { o with qty := 0 }) := by
    simp [Takenoco.parentLoop, Takenoco.iteration, Takenoco.childLoop, hq, fixStatus, ho, callFn]
  rw [he] at hl
  refine Adds.right hl ?_
  simp only [Trace.afterLoop]
  have h1 : (negateStatus (readProps []).negative (checkMin (readProps []).qty.min 1 { o with qty := 0 })) = { o with qty := 0 } := rfl
  rw [h1]
  have h2 : callFn none (-1) c.stack.length { o with qty := 1 } = .ok ({ o with qty := 1 }, none) := rfl
  rw [if_neg (by simp [ho])]
  refine Adds.right (Q := Q) (a := ({ o with qty := 1 }, none)) (h2 ▸ agrees_lift _) ?_
  simp only
  rw [if_neg (by simp [ho])]
  rw [show (readProps []).rewind = false from rfl]
  simp only [Bool.false_eq_true, if_false, Trace.applyTransforms, hs, List.length_append]
  rw [if_neg (by omega), List.drop_left]
  refine Adds.left ?_ fun a => ?_
  · rw [Trace.applyTrs]
    refine hB.left fun a => ?_
    obtain ⟨a, e⟩ := a
    cases e <;> exact adds_pure _
  · obtain ⟨a, e⟩ := a
    cases e <;> exact adds_pure _

/-! ### Production rules -/

theorem tryRules_adds {astCtx : Ctx} {asts : List Ast} {p : Nat} {r : Trace.Parser} {cs : List Trace.Parser} {ds : List Sem} (h : Each (AgreesP Q) cs ds)
    (hr : ∀ c, Adds (r c) 1) : Adds (Trace.tryRules astCtx asts p (r :: cs)) 1 := by
  rw [Trace.tryRules]
  refine (hr _).left fun a => ?_
  obtain ⟨o, e⟩ := a
  cases e with
  | some e => exact adds_pure _
  | none =>
    simp only
    split
    · exact (agrees_tryRules _ _ _ h).adds
    · split
      · exact adds_lift _
      · exact adds_pure _

/-- When no rule matches, all places are tried. -/
theorem tryPositions_adds {astCtx : Ctx} {asts : List Ast} {r : Trace.Parser} {r' : Sem} {cs : List Trace.Parser} {ds : List Sem} (hr' : AgreesP Q r r')
    (h : Each (AgreesP Q) cs ds) (hr : ∀ c, Adds (r c) 1) {rtol : Bool} (k : Nat) :
    ∀ i, Takenoco.tryPositions astCtx asts (r' :: ds) rtol k i = .ok .noMatch → Adds (Trace.tryPositions astCtx asts (r :: cs) rtol k i) k := by
  induction k with
  | zero => intro i _; exact adds_pure _
  | succ k ih =>
    intro i hi
    rw [Trace.tryPositions]
    rw [Takenoco.tryPositions] at hi
    have hA := agrees_tryRules (Q := Q) astCtx asts (if rtol = true then asts.length - i else i) (.cons hr' h)
    cases hres : Takenoco.tryRules astCtx asts (if rtol = true then asts.length - i else i) (r' :: ds) with
    | panic x => rw [hres] at hi; cases hi
    | timeout => rw [hres] at hi; cases hi
    | ok a =>
      rw [hres] at hi hA
      cases a with
      | rewritten a => cases hi
      | err e => cases hi
      | noMatch =>
        exact (Adds.both hA (tryRules_adds h hr) (ih _ hi)).mono (by omega)

end

section
variable {D : Type} {Is : Ast → Tok D → Prop} {neg : D → D} {bin : BinOp → D → D → Option D} {x : Panic} {tag : Value}
  {u : Sem} {b : Bool → Sem} {check : Sem} {Q : Info → Prop}

/-- The tokens of a sum behind its first operand. -/
def sumToks (ds : List D) : List (Tok D) := ds.flatMap fun d => [.bin .add, .operand d]

theorem sumToks_length (ds : List D) : (sumToks ds).length = 2 * ds.length := by
  induction ds with
  | nil => rfl
  | cons d ds ih => simp only [sumToks, List.flatMap_cons, List.length_append, List.length_cons, List.length_nil] at ih ⊢; omega

/-- The operands of a sum are taken together one after the other; each time all tokens are searched for a sign first. -/
theorem sum_adds (H : Evaluates Is neg bin x tag u b check) (hbin : ∀ d e, ∃ v, bin .add d e = some v)
    {ru rm rs rc : Trace.Parser} {u' m' s' c' : Sem} (hu : AgreesP Q ru u') (hm : AgreesP Q rm m') (hs : AgreesP Q rs s') (hc : AgreesP Q rc c')
    (lu : LeS u' u) (lm : LeS m' (b true)) (ls : LeS s' (b false)) (lc : LeS c' check) (hr : ∀ c, Adds (ru c) 1) (ds : List D) :
    ∀ (n : Nat) (l : List Ast) (d : D), Toks Is l (.operand d :: sumToks ds) →
      Takenoco.productionLoop [([u'], true), ([m'], false), ([s'], false)] c' tag n l ≠ .timeout →
      Adds (Trace.productionLoop [([ru], true), ([rm], false), ([rs], false)] rc tag n l) (ds.length ^ 2 + 3 * ds.length) := by
  have hE : Each (AgreesR Q) [([ru], true), ([rm], false), ([rs], false)] [([u'], true), ([m'], false), ([s'], false)] :=
    .cons ⟨.cons hu .nil, rfl⟩ (.cons ⟨.cons hm .nil, rfl⟩ (.cons ⟨.cons hs .nil, rfl⟩ .nil))
  have hL : LeL LePrec [([u'], true), ([m'], false), ([s'], false)] (evalLevels u b) :=
    .cons ⟨.cons lu .nil, rfl⟩ (.cons ⟨.cons lm .nil, rfl⟩ (.cons ⟨.cons ls .nil, rfl⟩ .nil))
  induction ds with
  | nil => intro n l d _ _; exact (agrees_productionLoop hE hc tag n l).adds.mono (by simp)
  | cons e ds ih =>
    intro n l d h hn
    cases n with
    | zero => exact absurd rfl hn
    | succ n =>
      have hneg : ∀ t ∈ ([] : List (Tok D)) ++ sumToks ds, t ≠ .neg := by
        intro t ht
        simp only [sumToks, List.nil_append, List.mem_flatMap, List.mem_cons, List.not_mem_nil, or_false] at ht
        obtain ⟨y, _, rfl | rfl⟩ := ht <;> simp
      have hops : OpsAre false (([] : List (Tok D)) ++ sumToks ds) := by
        intro op ho
        simp only [sumToks, List.nil_append, List.mem_flatMap, List.mem_cons, List.not_mem_nil, or_false, reduceCtorEq] at ho
        obtain ⟨y, _, he⟩ := ho
        cases he
        rfl
      obtain ⟨v, hv⟩ := hbin d e
      obtain ⟨l', h1, h2⟩ := (eval_binary (pre := []) (op := .add) (post := sumToks ds) H h (fun op ho => by cases ho) hneg (fun _ => hops)).1 v hv
      have hlen := toks_length h
      have hlen' := toks_length h2
      simp only [List.length_cons, sumToks_length, List.nil_append, List.length_append, List.length_nil] at hlen hlen'
      have hden : Takenoco.tryPrecedences tag l (evalLevels u b) = .ok (.rewritten l') := (tryPrecedences_iff tag l _ (.rewritten l')).2 h1
      rw [Takenoco.productionLoop] at hn
      have hnt : Takenoco.tryPrecedences tag l [([u'], true), ([m'], false), ([s'], false)] ≠ .timeout := fun he => hn (by rw [he])
      have hplain : Takenoco.tryPrecedences tag l [([u'], true), ([m'], false), ([s'], false)] = .ok (.rewritten l') := by
        rcases tryPrecedences_le (tag := tag) (asts := l) hL with he | he
        · exact absurd he hnt
        · rw [he, hden]
      -- the search for signs
      have hidle : Takenoco.tryPositions (newObjCtx (astSliceSrc l) tag) l [u] true (l.length + 1) 0 = .ok .noMatch := by
        have := (tryLevel_iff tag l [u] true .noMatch).2
        refine this ?_
        exact eval_no_unary H h fun t ht => by
          rcases List.mem_cons.1 ht with rfl | ht
          · simp
          · simp only [sumToks, List.mem_flatMap, List.mem_cons, List.not_mem_nil, or_false] at ht
            obtain ⟨y, _, rfl | rfl⟩ := ht <;> simp
      have hidle' : Takenoco.tryPositions (newObjCtx (astSliceSrc l) tag) l [u'] true (l.length + 1) 0 = .ok .noMatch := by
        rcases tryPositions_le (ctx := newObjCtx (astSliceSrc l) tag) (asts := l) (.cons lu .nil) true (l.length + 1) 0 with he | he
        · exact absurd (by rw [Takenoco.tryPrecedences, he]) hnt
        · rw [he, hidle]
      have hcost : Adds (Trace.tryPrecedences tag l [([ru], true), ([rm], false), ([rs], false)]) (2 * ds.length + 4) := by
        rw [Trace.tryPrecedences]
        refine Adds.mono (B := l.length + 1) ?_ (by omega)
        refine Adds.left (tryPositions_adds hu .nil hr _ _ hidle') fun a => ?_
        cases a with
        | noMatch => exact (agrees_tryPrecedences tag l (hE.casesOn (motive := fun cs ds _ => Each (AgreesR Q) cs.tail ds.tail) .nil (fun _ h => h))).adds
        | rewritten a => exact adds_pure _
        | err a => exact adds_pure _
      rw [Trace.productionLoop]
      rw [hplain] at hn
      have key : 2 * ds.length + 4 + (ds.length ^ 2 + 3 * ds.length) = (e :: ds).length ^ 2 + 3 * (e :: ds).length := by
        simp only [List.length_cons, Nat.pow_two, Nat.mul_add, Nat.add_mul]
        omega
      rw [← key]
      refine Adds.both (hplain ▸ agrees_tryPrecedences tag l hE) hcost ?_
      by_cases h0 : ds = []
      · subst h0
        refine Adds.left (agrees_checkHolds hc tag l').adds fun a => ?_
        cases a with
        | true => exact adds_pure _
        | false => exact (agrees_productionLoop hE hc tag n l').adds
      · have h3 : Takenoco.checkHolds check tag l' = .ok false := by
          refine (checkHolds_iff check tag l').2.2 (H.declines _ ?_)
          have : 0 < ds.length := List.length_pos_iff.2 h0
          omega
        have h4 : Takenoco.checkHolds c' tag l' = .ok false := by
          rcases checkHolds_le lc tag l' with he | he
          · exact absurd (by simp only [he]) hn
          · rw [he, h3]
        refine Adds.right (h4 ▸ agrees_checkHolds hc tag l') ?_
        refine ih n l' v h2 fun he => hn ?_
        simp only [h4]
        exact he
end
end Takenoco
