import Verif.Lemmas.Linear
import Verif.Lemmas.Cost
import Verif.Props.Peg
import Verif.Props.Tracer
/-
The engine makes at most a fixed number of parser calls for each expression that is tried.
-/
namespace Takenoco
open Spec Trace

/-- A text has at most as many characters as bytes. -/
theorem reads_length {s : Bytes} {t : List Char} (h : Reads s t) : t.length ≤ s.length := by
  induction h with
  | nil => simp
  | cons h1 _ ih => have := nextChar_drop_lt h1; simp only [List.length_cons]; omega

section
variable {α : Type} {B : Nat}

/-- A result, once the calls have been counted. -/
theorem Upper.weak {x : M α} {B' : Nat} {P : α → Prop} (h : Upper x B P) (hB : B ≤ B') : Upper x B' P := h.mono hB fun _ h => h

/-! ### The parts of `BaseParser` without a callback -/

theorem calls_applyTransforms {tr : Option (List Trace.Transformer)} (htr : ∀ ts, tr = some ts → Silent ts) (ctx out : Ctx) :
    Upper (Trace.applyTransforms tr ctx out) 0 fun _ => True := by
  cases tr with
  | none => exact upper_pure trivial
  | some ts =>
    simp only [Trace.applyTransforms]
    split
    · exact upper_lift (by simp)
    · refine Upper.bind (B := 0) (B' := 0) (upper_applyTrs (htr ts rfl) ctx _) fun r _ => ?_
      obtain ⟨l, e⟩ := r
      cases e <;> exact upper_pure trivial

theorem calls_afterLoop {tr : Option (List Trace.Transformer)} (htr : ∀ ts, tr = some ts → Silent ts) (f : Flags) (ctx out : Ctx) (count : Nat) :
    Upper (Trace.afterLoop f none tr ctx count out) 0 fun _ => True := by
  unfold Trace.afterLoop
  simp only
  split
  · exact upper_pure trivial
  · refine Upper.bind (B := 0) (B' := 0) (P := fun _ => True) (upper_lift fun _ _ => trivial) fun r _ => ?_
    obtain ⟨o, e⟩ := r
    simp only
    split
    · exact upper_pure trivial
    · exact calls_applyTransforms htr _ _

theorem calls_base {fuel : Nat} {cls : String} {props : List PropItem} {ps : List Trace.Parser} {tr : Option (List Trace.Transformer)}
    (htr : ∀ ts, tr = some ts → Silent ts) {c : Ctx}
    (h : Upper (Trace.parentLoop (decide ((readProps props).qty.max < 0)) (Trace.iteration none (readProps props).thereExists ps c.stack.length)
      (if decide ((readProps props).qty.max < 0) then fuel else (readProps props).qty.max.toNat) 0 { c with cls := cls, status := .matched }) B fun _ => True) :
    Upper (Trace.base fuel cls none props ps tr c) B fun _ => True := by
  unfold Trace.base
  refine Upper.bind (B' := 0) h fun r _ => ?_
  cases r with
  | ret o err => exact upper_pure trivial
  | done m o => exact calls_afterLoop htr _ _ _ _

/-- One iteration. -/
theorem calls_iteration {te : Bool} {ps : List Trace.Parser} {bottom count : Nat} {c : Ctx} {P : ChildEnd → Prop} (h : Upper (Trace.childLoop te ps 0 c) B P)
    {Q : IterEnd → Prop} (hret : ∀ o e, P (.ret o e) → Q (.ret o e)) (hun : P .unmatched → Q (.brk c)) (hbrk : ∀ o, te = true → P (.fell 0 o) → Q (.brk c))
    (hfell : ∀ k o, P (.fell k o) → (o.status = .matched ∧ Q (.next { o with qty := count }))) :
    Upper (Trace.iteration none te ps bottom count c) B Q := by
  unfold Trace.iteration
  refine Upper.bind (B' := 0) h fun r hr => ?_
  cases r with
  | ret o e => exact upper_pure (hret o e hr)
  | unmatched => exact upper_pure (hun hr)
  | fell k o =>
    simp only
    split
    next hk => obtain ⟨h1, -, rfl⟩ := hk; exact upper_pure (hbrk o (by simpa using h1) hr)
    next =>
      refine Upper.bind (B := 0) (B' := 0) (P := fun r => r = ({ o with qty := count }, none)) (upper_lift fun a ha => by cases ha; rfl) ?_
      rintro _ rfl
      obtain ⟨h1, h2⟩ := hfell k o hr
      simp only [h1]
      exact upper_pure (by rw [← h1]; exact h2)

/-- A loop of a single iteration. -/
theorem calls_once {body : Nat → Ctx → M IterEnd} {c : Ctx} {P : IterEnd → Prop} (h : Upper (body 0 c) B P) :
    Upper (Trace.parentLoop false body 1 0 c) B fun _ => True := by
  unfold Trace.parentLoop
  refine Upper.bind (B' := 0) h fun r _ => ?_
  cases r with
  | ret o e => exact upper_pure trivial
  | brk o => exact upper_pure trivial
  | next o => exact upper_pure trivial

end

/-! ### Sequences, choices and repetitions -/

section
variable {A : Ast → Prop} {env : Env} {tenv : TEnv} {rules : Nat → Peg} {W n : Nat}

/-- A context from which a text is read. -/
def AtText (c : Ctx) (t : List Char) : Prop := Startable c ∧ Reads (ahead c) t

theorem AtText.went {c c' : Ctx} {t v : List Char} (h : AtText c t) (hw : Went A c t c' v) : AtText c' v :=
  ⟨⟨hw.inside, hw.ok⟩, hw.reads h.2⟩

/-- The parser is called as often as the bound for the expression says, and ends as the expression does. -/
def CallsLike (A : Ast → Prop) (rules : Nat → Peg) (W h : Nat) (p : Trace.Parser) (e : Peg) : Prop :=
  ∀ c t o k q, AtText c t → Tries rules e t o k q → Upper (p c) (h + W * (k - 1)) fun r => Spec.Agrees A c t (Outcome.of (.ok r)) o

theorem agrees_ok {c : Ctx} {t : List Char} {o : Option (List Char)} {c' : Ctx} {err : Option Err} (h : Spec.Agrees A c t (Outcome.of (.ok (c', err))) o) :
    (err = none ∧ c'.status = .matched ∧ ∃ v, o = some v ∧ Went A c t c' v) ∨ (err = none ∧ c'.status = .unmatched ∧ o = none) := by
  cases err with
  | some e => cases o <;> exact h.elim
  | none =>
    unfold Outcome.of at h
    simp only at h
    split at h
    next hs => obtain ⟨v, hv⟩ := h.matched; exact .inl ⟨rfl, hs, v, hv⟩
    next hs => exact .inr ⟨rfl, hs, h.unmatched⟩
    next hs => cases o <;> exact h.elim

/-- How a sequence may end. -/
def SeqEnd (A : Ast → Prop) (c : Ctx) (t : List Char) (o : Option (List Char)) : ChildEnd → Prop
  | .fell _ c' => ∃ v, o = some v ∧ Went A c t c' v
  | .unmatched => o = none
  | .ret _ _ => False

/-- Two pieces of work behind each other are not more than one step more. -/
theorem two_steps {h h' k k' : Nat} (h1 : h ≤ W) (hk : 1 ≤ k) (hk' : 1 ≤ k') : h + W * (k - 1) + (h' + W * (k' - 1)) ≤ h' + W * (k + k' + 1 - 1) := by
  rw [show k + k' + 1 - 1 = (k - 1) + (k' - 1) + 1 + 1 by omega, Nat.mul_add, Nat.mul_add, Nat.mul_add]
  omega

variable (IH : ∀ (g : TGram) (e : Peg), Means A (.gram g.plain) e → height g.plain ≤ W → CallsLike A rules W (height g.plain) (g.run tenv n) e)
include IH

theorem calls_seq (gs : List TGram) : ∀ (e : Peg) (j : Nat) (c : Ctx) (t : List Char) (o : Option (List Char)) (k q : Nat),
    Means A (.seq (plainList gs)) e → heights (plainList gs) ≤ W → AtText c t → Tries rules e t o k q →
    Upper (Trace.childLoop false (gs.map (TGram.run tenv n)) j c) (heights (plainList gs) + W * (k - 1)) (SeqEnd A c t o) := by
  induction gs with
  | nil =>
    intro e j c t o k q hm _ hc ht
    cases hm
    cases ht
    exact upper_pure ⟨t, rfl, .refl hc.1.1 hc.1.2⟩
  | cons g gs ih =>
    intro e j c t o k q hm hW hc ht
    simp only [plainList, heights] at hm hW ⊢
    cases hm with
    | @seqCons _ _ a b ha hb =>
    have hg := IH g a ha (by omega)
    rw [List.map_cons, Trace.childLoop]
    cases ht with
    | @seq _ _ _ u _ k1 k2 q1 q2 t1 t2 =>
      refine Upper.weak ?_ (Nat.le_trans (two_steps (W := W) (h := height g.plain) (h' := heights (plainList gs)) (by omega) t1.pos t2.pos) (by omega))
      refine (hg c t _ _ _ hc t1).bind fun r hr => ?_
      obtain ⟨o', err⟩ := r
      rcases agrees_ok hr with ⟨rfl, hs, v, hv, hwent⟩ | ⟨_, _, hn⟩
      · cases hv
        have hfix : fixStatus o' none = o' := by simp [fixStatus]
        simp only [hfix, hs, Bool.false_eq_true, if_false]
        refine (ih b (j + 1) o' u o k2 q2 hb (by omega) (hc.went hwent) t2).mono (Nat.le_refl _) fun r hr => ?_
        cases r with
        | fell k o => obtain ⟨v, hv, hw⟩ := hr; exact ⟨v, hv, hwent.trans hw⟩
        | unmatched => exact hr
        | ret o e => exact hr
      · cases hn
    | @seqFail _ _ _ k1 q1 t1 =>
      refine Upper.weak (B := height g.plain + W * (k1 - 1) + 0) ?_ (by
        have : W * (k1 - 1) ≤ W * (k1 + 1 - 1) := Nat.mul_le_mul_left _ (by omega)
        omega)
      refine (hg c t _ _ _ hc t1).bind fun r hr => ?_
      obtain ⟨o', err⟩ := r
      rcases agrees_ok hr with ⟨_, _, v, hv, _⟩ | ⟨rfl, hs, _⟩
      · cases hv
      · have hfix : fixStatus o' none = o' := by simp [fixStatus]
        simp only [hfix, hs, Bool.false_eq_true, if_false]
        exact upper_pure (P := SeqEnd A c t none) rfl

theorem calls_choice (gs : List TGram) : ∀ (e : Peg) (j : Nat) (c : Ctx) (t : List Char) (o : Option (List Char)) (k q : Nat),
    Means A (.choice (plainList gs)) e → heights (plainList gs) ≤ W → AtText c t → Tries rules e t o k q →
    Upper (Trace.childLoop true (gs.map (TGram.run tenv n)) j c) (heights (plainList gs) + W * (k - 1)) fun r => ∃ k o', r = .fell k o' ∧ o'.status = .matched := by
  induction gs with
  | nil => intro e j c t o k q hm; cases hm
  | cons g gs ih =>
    intro e j c t o k q hm hW hc ht
    simp only [plainList, heights] at hm hW ⊢
    rw [List.map_cons, Trace.childLoop]
    have one : ∀ (a : Peg) (o : Option (List Char)) (k q B : Nat), Means A (.gram g.plain) a → Tries rules a t o k q →
        (o = none → Upper (Trace.childLoop true (gs.map (TGram.run tenv n)) j c) B fun r => ∃ k o', r = .fell k o' ∧ o'.status = .matched) →
        Upper (do
          let (o, err) ← g.run tenv n c
          let out := fixStatus o err
          match out.status with
          | .error => return .ret out err
          | .unmatched => if true then Trace.childLoop true (gs.map (TGram.run tenv n)) j c else return .unmatched
          | .matched => if true then return .fell (j + 1) out else Trace.childLoop true (gs.map (TGram.run tenv n)) (j + 1) out)
          (height g.plain + W * (k - 1) + B) fun r => ∃ k o', r = .fell k o' ∧ o'.status = .matched := by
      intro a o k q B ha ht hB
      refine (IH g a ha (by omega) c t _ _ _ hc ht).bind fun r hr => ?_
      obtain ⟨o', err⟩ := r
      have hfix : fixStatus o' none = o' := by simp [fixStatus]
      rcases agrees_ok hr with ⟨rfl, hs, _⟩ | ⟨rfl, hs, hn⟩
      · simp only [hfix, hs, if_true]
        exact upper_pure ⟨_, _, rfl, hs⟩
      · simp only [hfix, hs, if_true]
        exact hB hn
    generalize hl : plainList gs = l at hm
    cases hm with
    | choiceOne ha =>
      refine (one e o k q 0 ha ht fun _ => ?_).weak (by omega)
      have : gs = [] := by
        cases gs with
        | nil => rfl
        | cons => simp [plainList] at hl
      subst this
      exact upper_pure ⟨_, _, rfl, hc.1.2⟩
    | choiceCons hne ha hb =>
      subst hl
      cases ht with
      | @altLeft _ _ _ u k1 q1 t1 =>
        refine (one _ _ _ _ 0 ha t1 fun h => by cases h).weak ?_
        have : W * (k1 - 1) ≤ W * (k1 + 1 - 1) := Nat.mul_le_mul_left _ (by omega)
        omega
      | altRight t1 t2 =>
        exact (one _ _ _ _ _ ha t1 fun _ => ih _ j c t o _ _ hb (by omega) hc t2).weak
          (Nat.le_trans (two_steps (W := W) (h := height g.plain) (h' := heights (plainList gs)) (by omega) t1.pos t2.pos) (by omega))

/-- How an iteration may end. -/
def IterLike (A : Ast → Prop) (c : Ctx) (t : List Char) (o : Option (List Char)) : IterEnd → Prop
  | .next c' => ∃ v, o = some v ∧ Went A c t c' v
  | .brk _ => o = none
  | .ret _ _ => False

theorem calls_iter (gs : List TGram) (bottom count : Nat) {e : Peg} {c : Ctx} {t : List Char} {o : Option (List Char)} {k q : Nat}
    (hm : Means A (.seq (plainList gs)) e) (hW : heights (plainList gs) ≤ W) (hc : AtText c t) (ht : Tries rules e t o k q) :
    Upper (Trace.iteration none false (gs.map (TGram.run tenv n)) bottom count c) (heights (plainList gs) + W * (k - 1)) (IterLike A c t o) := by
  refine calls_iteration (calls_seq IH gs e 0 c t o k q hm hW hc ht) (fun _ _ h => h) (fun h => h) (fun _ h => by cases h) fun k o' h => ?_
  obtain ⟨v, hv, hw⟩ := h
  exact ⟨hw.ok, v, hv, hw.congr rfl rfl rfl rfl rfl rfl rfl rfl rfl rfl rfl⟩

theorem calls_reps (tm : Times) (gs : List TGram) (bottom : Nat) (hW : heights (plainList gs) ≤ W) (fuel : Nat) :
    ∀ (count : Nat) (e : Peg) (c : Ctx) (t : List Char) (o : Option (List Char)) (k q : Nat),
    Means A (.reps tm (plainList gs) count) e → (0 ≤ tm.max → (count : Int) + fuel = tm.max) → AtText c t → Tries rules e t o k q →
    Upper (Trace.parentLoop (decide (tm.max < 0)) (Trace.iteration none false (gs.map (TGram.run tenv n)) bottom) fuel count c)
      (heights (plainList gs) + W * (k - 1)) fun _ => True := by
  induction fuel with
  | zero =>
    intro count e c t o k q _ _ _ _
    unfold Trace.parentLoop
    split
    · exact upper_lift (by simp)
    · exact upper_pure trivial
  | succ fuel ih =>
    intro count e c t o k q hm hf hc ht
    have step : ∀ (a : Peg) (oa : Option (List Char)) (ka qa B : Nat), Means A (.seq (plainList gs)) a → Tries rules a t oa ka qa →
        (∀ u c', oa = some u → AtText c' u → Upper (Trace.parentLoop (decide (tm.max < 0)) (Trace.iteration none false (gs.map (TGram.run tenv n)) bottom)
          fuel (count + 1) c') B fun _ => True) →
        Upper (Trace.parentLoop (decide (tm.max < 0)) (Trace.iteration none false (gs.map (TGram.run tenv n)) bottom) (fuel + 1) count c)
          (heights (plainList gs) + W * (ka - 1) + B) fun _ => True := by
      intro a oa ka qa B ha hta hB
      rw [Trace.parentLoop]
      refine (calls_iter IH gs bottom count ha hW hc hta).bind fun r hr => ?_
      cases r with
      | ret o e => exact upper_pure trivial
      | brk o => exact upper_pure trivial
      | next c' =>
        obtain ⟨v, hv, hw⟩ := hr
        exact hB v c' hv (hc.went hw)
    have more : ∀ {k k' : Nat}, k ≤ k' → W * (k - 1) ≤ W * (k' - 1) := fun h => Nat.mul_le_mul_left _ (by omega)
    have hf' : 0 ≤ tm.max → ((count + 1 : Nat) : Int) + fuel = tm.max := fun h => by have := hf h; omega
    have two : ∀ {k k' : Nat}, 1 ≤ k → 1 ≤ k' → heights (plainList gs) + W * (k - 1) + (heights (plainList gs) + W * (k' - 1)) ≤
        heights (plainList gs) + W * (k + k' + 1 - 1) := fun h1 h2 => two_steps hW h1 h2
    cases hm with
    | repsMore _ _ ha hb =>
      cases ht with
      | seq t1 t2 =>
        exact (step _ _ _ _ _ ha t1 fun u c' hu hc' => by cases hu; exact ih _ _ c' _ _ _ _ hb hf' hc' t2).weak (two t1.pos t2.pos)
      | @seqFail _ _ _ k1 q1 t1 =>
        exact (step _ _ _ _ 0 ha t1 fun u c' hu => by cases hu).weak (by have := more (show k1 ≤ k1 + 1 by omega); omega)
    | @repsMaybe _ _ _ a b _ _ ha hb =>
      have seq : ∀ o k q, Tries rules (.seq a b) t o k q → Upper (Trace.parentLoop (decide (tm.max < 0)) (Trace.iteration none false
          (gs.map (TGram.run tenv n)) bottom) (fuel + 1) count c) (heights (plainList gs) + W * (k - 1)) fun _ => True := by
        intro o k q ht
        cases ht with
        | seq t1 t2 =>
          exact (step _ _ _ _ _ ha t1 fun u c' hu hc' => by cases hu; exact ih _ _ c' _ _ _ _ hb hf' hc' t2).weak (two t1.pos t2.pos)
        | @seqFail _ _ _ k1 q1 t1 =>
          exact (step _ _ _ _ 0 ha t1 fun u c' hu => by cases hu).weak (by have := more (show k1 ≤ k1 + 1 by omega); omega)
      cases ht with
      | @altLeft _ _ _ _ k1 q1 t1 => exact (seq _ _ _ t1).weak (by have := more (show k1 ≤ k1 + 1 by omega); omega)
      | @altRight _ _ _ _ k1 k2 q1 q2 t1 t2 => exact (seq _ _ _ t1).weak (by have := more (show k1 ≤ k1 + k2 + 1 by omega); omega)
    | repsDone h1 => exfalso; have := hf (by omega); omega
    | repsStar h1 h2 ha =>
      cases ht with
      | @starEnd _ _ k1 q1 t1 =>
        exact (step _ _ _ _ 0 ha t1 fun u c' hu => by cases hu).weak (by have := more (show k1 ≤ k1 + 1 by omega); omega)
      | starMore t1 t2 =>
        exact (step _ _ _ _ _ ha t1 fun u c' hu hc' => by cases hu; exact ih _ _ c' _ _ _ _ (.repsStar h1 (by omega) ha) hf' hc' t2).weak
          (two t1.pos t2.pos)

/-- A group of any kind, run once. -/
theorem calls_group (gs : List TGram) {e : Peg} {c : Ctx} {t : List Char} {o : Option (List Char)} {k q : Nat} (hm : Means A (.seq (plainList gs)) e)
    (hW : heights (plainList gs) ≤ W) (hc : AtText c t) (ht : Tries rules e t o k q) (i : Option Info) {fuel : Nat} {cls : String} {props : List PropItem}
    {tr : Option (List Trace.Transformer)} (htr : ∀ ts, tr = some ts → Silent ts) (hq : (readProps props).qty = qtyOnce)
    (he : (readProps props).thereExists = false) :
    Upper (wrap i (Trace.base fuel cls none props (gs.map (TGram.run tenv n)) tr) c) (heights (plainList gs) + 1 + W * (k - 1)) fun _ => True := by
  refine (upper_wrap i (calls_base htr (B := heights (plainList gs) + W * (k - 1)) ?_)).weak (by omega)
  rw [hq, he]
  exact calls_once (calls_iter IH gs _ 0 hm hW ⟨⟨hc.1.1, rfl⟩, hc.2⟩ ht)

end

section
variable {A : Ast → Prop} {env : Env} {tenv : TEnv} {rules : Nat → Peg} {W : Nat}

theorem calls_run (hA : Tokens A) (henv : ∀ i, Means A (.gram (env i)) (rules i)) (ht : ∀ i k, (tenv i k).plain = env i) (hW : ∀ i, height (env i) ≤ W)
    (n : Nat) : ∀ (g : TGram) (e : Peg), Means A (.gram g.plain) e → height g.plain ≤ W → CallsLike A rules W (height g.plain) (g.run tenv n) e := by
  induction n with
  | zero => intro g e _ _ c t o k q _ _; unfold TGram.run; exact upper_lift (by simp)
  | succ n IH =>
    intro g e hm hgW c t o k q hc hk
    suffices h : Upper (g.run tenv (n + 1) c) (height g.plain + W * (k - 1)) fun _ => True by
      intro s
      refine ⟨(h s).1, fun r hr => ?_⟩
      rw [C43_transparent tenv env ht] at hr
      obtain ⟨o', h1, h2⟩ := C74_engine_to_peg hA henv hm hc.1 hc.2 (n + 1) (by rw [hr]; simp)
      rw [hr] at h2
      rw [ford_unique hk.ford h1]
      exact h2
    have none : ∀ ts : List Trace.Transformer, (Option.none : Option (List Trace.Transformer)) = some ts → Silent ts := fun _ h => by cases h
    have notP : ∀ {e' : Peg} {o k q}, Tries rules (.notP e') t o k q → ∃ o' k' q', Tries rules e' t o' k' q' ∧ k' ≤ k := by
      intro e' o k q h
      cases h with
      | notYes h => exact ⟨_, _, _, h, by omega⟩
      | notNo h => exact ⟨_, _, _, h, by omega⟩
    have more : ∀ {k k' : Nat}, k ≤ k' → W * (k - 1) ≤ W * (k' - 1) := fun h => Nat.mul_le_mul_left _ (by omega)
    cases g with
    | prim i cls p =>
      unfold TGram.run
      exact (upper_wrap i (B := 0) (upper_lift fun _ _ => trivial)).weak (by simp only [TGram.plain, height]; omega)
    | flatGroup i gs =>
      simp only [TGram.plain, height] at hm hgW ⊢
      cases hm with
      | flatGroup hm => unfold TGram.run; exact calls_group IH gs hm (by omega) hc hk i none rfl rfl
    | group i gs =>
      simp only [TGram.plain, height] at hm hgW ⊢
      cases hm with
      | group hm _ =>
        unfold TGram.run
        refine calls_group IH gs hm (by omega) hc hk i (fun ts h => ?_) rfl rfl
        cases h
        intro f hf c l
        rw [List.mem_singleton.1 hf]
        exact upper_lift fun _ _ => trivial
    | first i gs =>
      simp only [TGram.plain, height] at hm hgW ⊢
      cases hm with
      | first hne hm =>
        unfold TGram.run
        refine (upper_wrap i (calls_base none (B := heights (plainList gs) + W * (k - 1)) ?_)).weak (by omega)
        exact calls_once (calls_iteration (Q := fun _ => True)
          (calls_choice IH gs e 0 { c with cls := _, status := .matched } t o k q hm (by omega) ⟨⟨hc.1.1, rfl⟩, hc.2⟩ hk)
          (fun _ _ _ => trivial) (fun _ => trivial) (fun _ _ _ => trivial) fun k o ⟨_, _, h1, h2⟩ => by cases h1; exact ⟨h2, trivial⟩)
    | lookAhead i gs =>
      simp only [TGram.plain, height] at hm hgW ⊢
      cases hm with
      | lookAhead hm =>
        unfold TGram.run
        obtain ⟨_, k1, _, h1, e1⟩ := notP hk
        obtain ⟨_, k2, _, h2, e2⟩ := notP h1
        exact (calls_group IH gs hm (by omega) hc h2 i none rfl rfl).weak (by have := more (Nat.le_trans e2 e1); omega)
    | lookAheadN i gs =>
      simp only [TGram.plain, height] at hm hgW ⊢
      cases hm with
      | lookAheadN hm =>
        unfold TGram.run
        obtain ⟨_, k1, _, h1, e1⟩ := notP hk
        exact (calls_group IH gs hm (by omega) hc h1 i none rfl rfl).weak (by have := more e1; omega)
    | lookBehind i a b gs => simp only [TGram.plain] at hm; cases hm
    | lookBehindN i a b gs => simp only [TGram.plain] at hm; cases hm
    | «repeat» i tm gs =>
      simp only [TGram.plain, height] at hm hgW ⊢
      cases hm with
      | «repeat» hm =>
        unfold TGram.run
        refine (upper_wrap i (calls_base none (B := heights (plainList gs) + W * (k - 1)) ?_)).weak (by omega)
        exact calls_reps IH tm gs _ (by omega) _ 0 e _ t o k q hm (fun h => by
          have h' : ¬ tm.max < 0 := by omega
          show ((0 : Nat) : Int) + ((if decide (tm.max < 0) = true then n else tm.max.toNat : Nat) : Int) = tm.max
          simp [h']; omega) ⟨⟨hc.1.1, rfl⟩, hc.2⟩ hk
    | trans i g trs =>
      simp only [TGram.plain, height] at hm hgW ⊢
      generalize htrs : plainTrs trs = trs' at hm
      cases hm with
      | trans hm _ =>
        unfold TGram.run
        have hsil : ∀ ts, (if trs.isEmpty = true then Option.none else some (trs.map (TTr.run tenv n))) = some ts → Silent ts := by
          intro ts h
          split at h
          · cases h
          · cases h
            intro f hf c l
            obtain ⟨tr, htr, rfl⟩ := List.mem_map.1 hf
            rw [plainTrs_eq] at htrs
            have := List.mem_map_of_mem (f := TTr.plain) htr
            rw [htrs] at this
            obtain ⟨f', -, hf'⟩ := List.mem_map.1 this
            cases tr with
            | production => simp [TTr.plain] at hf'
            | fn f =>
              cases n with
              | zero => unfold TTr.run; exact upper_lift fun _ _ => trivial
              | succ n => unfold TTr.run; exact upper_lift fun _ _ => trivial
        refine (upper_wrap i (calls_base hsil (B := height g.plain + W * (k - 1)) ?_)).weak (by omega)
        refine calls_once (P := fun _ => True) (calls_iteration (P := fun r => ∀ k o, r = .fell k o → o.status = .matched) ?_
          (fun _ _ _ => trivial) (fun _ => trivial) (fun _ _ _ => trivial) fun k o h => ⟨h k o rfl, trivial⟩)
        rw [Trace.childLoop]
        refine Upper.bind (B' := 0) (IH g e hm (by omega) _ t o k q ⟨⟨hc.1.1, rfl⟩, hc.2⟩ hk) fun r hr => ?_
        obtain ⟨o', err⟩ := r
        have hfix : fixStatus o' Option.none = o' := by simp [fixStatus]
        rcases agrees_ok hr with ⟨rfl, hs, _⟩ | ⟨rfl, hs, hn⟩
        · simp only [hfix, hs]
          exact upper_pure fun k o h => by cases h; exact hs
        · simp only [hfix, hs]
          exact upper_pure fun k o h => by cases h
    | indirect i name =>
      simp only [TGram.plain, height] at hm hgW ⊢
      cases hm with
      | indirect =>
        cases hk with
        | @var _ _ _ k q hk =>
        unfold TGram.run
        have hk1 := hk.pos
        have e1 : W * (k + 1 - 1) = W + W * (k - 1) := by
          rw [show k + 1 - 1 = (k - 1) + 1 by omega, Nat.mul_add, Nat.mul_one, Nat.add_comm]
        refine (upper_wrap i (B := W + W * (k - 1)) ?_).weak (by omega)
        unfold light
        refine Upper.bind (B := W + W * (k - 1)) (B' := 0) (P := fun _ => True) ?_ fun r _ => upper_pure trivial
        intro s
        have h := IH (tenv name s.clock) (rules name) (by rw [ht]; exact henv name) (by rw [ht]; exact hW name) c t o k q hc hk
          { s with clock := s.clock + 1 }
        refine ⟨Nat.le_trans h.1 ?_, fun _ _ => trivial⟩
        have := hW name
        rw [ht]
        show callCount s.events + _ ≤ _
        omega
    | «match» i k cases => simp only [TGram.plain] at hm; cases hm
    | base i cls fn props gs tr => simp only [TGram.plain] at hm; cases hm
    | debug i scope pt gs => simp only [TGram.plain] at hm; cases hm

end

end Takenoco
