import Verif.Lemmas.LinearRun
/-
Where parsers are called: not beyond the part of the text that the parsing expression has consumed.
-/
namespace Takenoco
open Spec Trace

/-- The calls made by the computation start in contexts that have `Q`, and if it ends normally its result has `P`. -/
def CallsAt {α : Type} (x : M α) (Q : Ctx → Prop) (P : α → Prop) : Prop :=
  ∀ s, (∀ i c, Event.before i c ∈ (x s).2.events → Event.before i c ∈ s.events ∨ Q c) ∧ ∀ a, (x s).1 = .ok a → P a

section
variable {α β : Type} {Q Q' : Ctx → Prop} {P : α → Prop} {R : β → Prop}

theorem starts_lift {y : Out α} (h : ∀ a, y = .ok a → P a) : CallsAt (lift y) Q P := fun _ => ⟨fun _ _ h => .inl h, h⟩

theorem starts_pure {a : α} (h : P a) : CallsAt (pure a) Q P := fun _ => ⟨fun _ _ h => .inl h, fun b hb => by cases hb; exact h⟩

theorem CallsAt.mono {x : M α} {P' : α → Prop} (h : CallsAt x Q P) (hQ : ∀ c, Q c → Q' c) (hP : ∀ a, P a → P' a) : CallsAt x Q' P' :=
  fun s => ⟨fun i c hc => ((h s).1 i c hc).imp_right (hQ c), fun a ha => hP a ((h s).2 a ha)⟩

theorem CallsAt.weak {x : M α} (h : CallsAt x Q P) (hQ : ∀ c, Q c → Q' c) : CallsAt x Q' P := h.mono hQ fun _ h => h

theorem CallsAt.bind {x : M α} {f : α → M β} (hx : CallsAt x Q P) (hf : ∀ a, P a → CallsAt (f a) Q R) : CallsAt (x >>= f) Q R := by
  intro s
  obtain ⟨h1, h2⟩ := hx s
  show (∀ i c, Event.before i c ∈ (M.bind x f s).2.events → _) ∧ ∀ a, (M.bind x f s).1 = .ok a → R a
  rcases hxs : x s with ⟨o, s'⟩
  rw [hxs] at h1 h2
  cases o with
  | ok a =>
    obtain ⟨h3, h4⟩ := hf a (h2 a rfl) s'
    simp only [M.bind, hxs]
    exact ⟨fun i c hc => (h3 i c hc).elim (h1 i c) .inr, h4⟩
  | panic r => simp only [M.bind, hxs]; exact ⟨h1, by simp⟩
  | timeout => simp only [M.bind, hxs]; exact ⟨h1, by simp⟩

end

theorem starts_wrap (i : Option Info) {p : Trace.Parser} {c : Ctx} {Q : Ctx → Prop} {P : PRes → Prop} (hc : Q c) (h : CallsAt (p c) Q P) :
    CallsAt (wrap i p c) Q P := by
  cases i with
  | none => exact h
  | some i =>
    intro s
    obtain ⟨h1, h2⟩ := h { s with events := s.events ++ [.before i c] }
    show (∀ j d, Event.before j d ∈ (tracer i p c s).2.events → _) ∧ ∀ a, (tracer i p c s).1 = .ok a → P a
    unfold tracer
    rcases hp : p c { s with events := s.events ++ [.before i c] } with ⟨o, s'⟩
    rw [hp] at h1 h2
    have h3 : ∀ j d, Event.before j d ∈ s'.events → Event.before j d ∈ s.events ∨ Q d := by
      intro j d hd
      rcases h1 j d hd with h | h
      · rcases List.mem_append.1 h with h | h
        · exact .inl h
        · cases List.mem_singleton.1 h; exact .inr hc
      · exact .inr h
    cases o with
    | ok r =>
      refine ⟨fun j d hd => ?_, fun a ha => h2 a (by cases ha; rfl)⟩
      rcases List.mem_append.1 hd with h | h
      · exact h3 j d h
      · cases List.mem_singleton.1 h
    | panic r =>
      refine ⟨fun j d hd => ?_, by simp⟩
      rcases List.mem_append.1 hd with h | h
      · exact h3 j d h
      · cases List.mem_singleton.1 h
    | timeout => exact ⟨h3, by simp⟩

/-- Transformers that call no parser. -/
def CallsNone (ts : List Trace.Transformer) : Prop := ∀ t ∈ ts, ∀ c l, CallsAt (t c l) (fun _ => False) fun _ => True

section
variable {α : Type} {Q : Ctx → Prop}

theorem starts_applyTrs {ts : List Trace.Transformer} (h : CallsNone ts) (c : Ctx) : ∀ l, CallsAt (Trace.applyTrs c ts l) Q fun _ => True := by
  induction ts with
  | nil => intro l; exact starts_pure trivial
  | cons t ts ih =>
    intro l
    unfold Trace.applyTrs
    refine CallsAt.bind ((h t (by simp) c l).weak fun _ h => h.elim) fun r _ => ?_
    obtain ⟨l', e⟩ := r
    cases e with
    | none => exact ih (fun t ht => h t (by simp [ht])) l'
    | some e => exact starts_pure trivial

/-! ### The parts of `BaseParser` without a callback -/

theorem within_applyTransforms {tr : Option (List Trace.Transformer)} (htr : ∀ ts, tr = some ts → CallsNone ts) (ctx out : Ctx) :
    CallsAt (Trace.applyTransforms tr ctx out) Q fun _ => True := by
  cases tr with
  | none => exact starts_pure trivial
  | some ts =>
    simp only [Trace.applyTransforms]
    split
    · exact starts_lift fun _ h => by cases h
    · refine CallsAt.bind (starts_applyTrs (htr ts rfl) ctx _) fun r _ => ?_
      obtain ⟨l, e⟩ := r
      cases e <;> exact starts_pure trivial

theorem within_afterLoop {tr : Option (List Trace.Transformer)} (htr : ∀ ts, tr = some ts → CallsNone ts) (f : Flags) (ctx out : Ctx) (count : Nat) :
    CallsAt (Trace.afterLoop f none tr ctx count out) Q fun _ => True := by
  unfold Trace.afterLoop
  simp only
  split
  · exact starts_pure trivial
  · refine CallsAt.bind (P := fun _ => True) (starts_lift fun _ _ => trivial) fun r _ => ?_
    obtain ⟨o, e⟩ := r
    simp only
    split
    · exact starts_pure trivial
    · exact within_applyTransforms htr _ _

theorem within_base {fuel : Nat} {cls : String} {props : List PropItem} {ps : List Trace.Parser} {tr : Option (List Trace.Transformer)}
    (htr : ∀ ts, tr = some ts → CallsNone ts) {c : Ctx}
    (h : CallsAt (Trace.parentLoop (decide ((readProps props).qty.max < 0)) (Trace.iteration none (readProps props).thereExists ps c.stack.length)
      (if decide ((readProps props).qty.max < 0) then fuel else (readProps props).qty.max.toNat) 0 { c with cls := cls, status := .matched }) Q fun _ => True) :
    CallsAt (Trace.base fuel cls none props ps tr c) Q fun _ => True := by
  unfold Trace.base
  refine CallsAt.bind h fun r _ => ?_
  cases r with
  | ret o err => exact starts_pure trivial
  | done m o => exact within_afterLoop htr _ _ _ _

/-- One iteration. -/
theorem within_iteration {te : Bool} {ps : List Trace.Parser} {bottom count : Nat} {c : Ctx} {P : ChildEnd → Prop} (h : CallsAt (Trace.childLoop te ps 0 c) Q P)
    {R : IterEnd → Prop} (hret : ∀ o e, P (.ret o e) → R (.ret o e)) (hun : P .unmatched → R (.brk c)) (hbrk : ∀ o, te = true → P (.fell 0 o) → R (.brk c))
    (hfell : ∀ k o, P (.fell k o) → (o.status = .matched ∧ R (.next { o with qty := count }))) :
    CallsAt (Trace.iteration none te ps bottom count c) Q R := by
  unfold Trace.iteration
  refine CallsAt.bind h fun r hr => ?_
  cases r with
  | ret o e => exact starts_pure (hret o e hr)
  | unmatched => exact starts_pure (hun hr)
  | fell k o =>
    simp only
    split
    next hk => obtain ⟨h1, -, rfl⟩ := hk; exact starts_pure (hbrk o (by simpa using h1) hr)
    next =>
      refine CallsAt.bind (P := fun r => r = ({ o with qty := count }, none)) (starts_lift fun a ha => by cases ha; rfl) ?_
      rintro _ rfl
      obtain ⟨h1, h2⟩ := hfell k o hr
      simp only [h1]
      exact starts_pure (by rw [← h1]; exact h2)

/-- A loop of a single iteration. -/
theorem within_once {body : Nat → Ctx → M IterEnd} {c : Ctx} {P : IterEnd → Prop} (h : CallsAt (body 0 c) Q P) :
    CallsAt (Trace.parentLoop false body 1 0 c) Q fun _ => True := by
  unfold Trace.parentLoop
  refine CallsAt.bind h fun r _ => ?_
  cases r with
  | ret o e => exact starts_pure trivial
  | brk o => exact starts_pure trivial
  | next o => exact starts_pure trivial

end

/-! ### Sequences, choices and repetitions -/

/-- `d` is in the same source as `c`, behind at most `q` of the characters `t` ahead of `c`. -/
def WithinText (c : Ctx) (t : List Char) (q : Nat) (d : Ctx) : Prop := d.str = c.str ∧ ∃ u v, t = u ++ v ∧ u.length ≤ q ∧ ReadOff (ahead c) u (ahead d)

theorem WithinText.here {c d : Ctx} {t : List Char} {q : Nat} (h1 : d.str = c.str) (h2 : d.pos = c.pos) : WithinText c t q d :=
  ⟨h1, [], t, rfl, Nat.zero_le _, by rw [ahead, ahead, h1, h2]; exact .nil⟩

theorem WithinText.mono {c d : Ctx} {t : List Char} {q q' : Nat} (hq : q ≤ q') (h : WithinText c t q d) : WithinText c t q' d := by
  obtain ⟨h1, u, v, h2, h3, h4⟩ := h
  exact ⟨h1, u, v, h2, by omega, h4⟩

section
variable {A : Ast → Prop} {env : Env} {tenv : TEnv} {rules : Nat → Peg} {n : Nat}

theorem WithinText.went {c c' d : Ctx} {t u : List Char} {q q' : Nat} (hw : Went A c t c' u) (h : WithinText c' u q d) (hq : t.length - u.length + q ≤ q') :
    WithinText c t q' d := by
  obtain ⟨h1, x, y, rfl, h3, h4⟩ := h
  obtain ⟨z, rfl, hz⟩ := hw.chars
  refine ⟨h1.trans hw.str, z ++ x, y, by simp, ?_, readOff_append hz h4⟩
  simp only [List.length_append] at hq ⊢
  omega

/-- The calls of the parser start within the part that the expression has consumed, and it ends as the expression does. -/
def WithinLike (A : Ast → Prop) (rules : Nat → Peg) (p : Trace.Parser) (e : Peg) : Prop :=
  ∀ c t o k q, AtText c t → Tries rules e t o k q → CallsAt (p c) (WithinText c t q) fun r => Spec.Agrees A c t (Outcome.of (.ok r)) o

variable (IH : ∀ (g : TGram) (e : Peg), Means A (.gram g.plain) e → WithinLike A rules (g.run tenv n) e)
include IH

theorem within_seq (gs : List TGram) : ∀ (e : Peg) (j : Nat) (c : Ctx) (t : List Char) (o : Option (List Char)) (k q : Nat),
    Means A (.seq (plainList gs)) e → AtText c t → Tries rules e t o k q →
    CallsAt (Trace.childLoop false (gs.map (TGram.run tenv n)) j c) (WithinText c t q) (SeqEnd A c t o) := by
  induction gs with
  | nil =>
    intro e j c t o k q hm hc ht
    cases hm
    cases ht
    exact starts_pure ⟨t, rfl, .refl hc.1.1 hc.1.2⟩
  | cons g gs ih =>
    intro e j c t o k q hm hc ht
    simp only [plainList] at hm
    cases hm with
    | @seqCons _ _ a b ha hb =>
    have hg := IH g a ha
    rw [List.map_cons, Trace.childLoop]
    cases ht with
    | @seq _ _ _ u _ k1 k2 q1 q2 t1 t2 =>
      refine ((hg c t _ _ _ hc t1).weak fun _ h => h.mono (Nat.le_max_left _ _)).bind fun r hr => ?_
      obtain ⟨o', err⟩ := r
      rcases agrees_ok hr with ⟨rfl, hs, v, hv, hwent⟩ | ⟨_, _, hn⟩
      · cases hv
        have hfix : fixStatus o' none = o' := by simp [fixStatus]
        simp only [hfix, hs, Bool.false_eq_true, if_false]
        refine (ih b (j + 1) o' u o k2 q2 hb (hc.went hwent) t2).mono (fun _ h => h.went hwent (Nat.le_max_right _ _)) fun r hr => ?_
        cases r with
        | fell k o => obtain ⟨v, hv, hw⟩ := hr; exact ⟨v, hv, hwent.trans hw⟩
        | unmatched => exact hr
        | ret o e => exact hr
      · cases hn
    | @seqFail _ _ _ k1 q1 t1 =>
      refine (hg c t _ _ _ hc t1).bind fun r hr => ?_
      obtain ⟨o', err⟩ := r
      rcases agrees_ok hr with ⟨_, _, v, hv, _⟩ | ⟨rfl, hs, _⟩
      · cases hv
      · have hfix : fixStatus o' none = o' := by simp [fixStatus]
        simp only [hfix, hs, Bool.false_eq_true, if_false]
        exact starts_pure (P := SeqEnd A c t none) rfl

theorem within_choice (gs : List TGram) : ∀ (e : Peg) (j : Nat) (c : Ctx) (t : List Char) (o : Option (List Char)) (k q : Nat),
    Means A (.choice (plainList gs)) e → AtText c t → Tries rules e t o k q →
    CallsAt (Trace.childLoop true (gs.map (TGram.run tenv n)) j c) (WithinText c t q) fun r => ∃ k o', r = .fell k o' ∧ o'.status = .matched := by
  induction gs with
  | nil => intro e j c t o k q hm; cases hm
  | cons g gs ih =>
    intro e j c t o k q hm hc ht
    simp only [plainList] at hm
    rw [List.map_cons, Trace.childLoop]
    have one : ∀ (a : Peg) (o : Option (List Char)) (k q q' : Nat), Means A (.gram g.plain) a → Tries rules a t o k q → q ≤ q' →
        (o = none → CallsAt (Trace.childLoop true (gs.map (TGram.run tenv n)) j c) (WithinText c t q') fun r => ∃ k o', r = .fell k o' ∧ o'.status = .matched) →
        CallsAt (do
          let (o, err) ← g.run tenv n c
          let out := fixStatus o err
          match out.status with
          | .error => return .ret out err
          | .unmatched => if true then Trace.childLoop true (gs.map (TGram.run tenv n)) j c else return .unmatched
          | .matched => if true then return .fell (j + 1) out else Trace.childLoop true (gs.map (TGram.run tenv n)) (j + 1) out)
          (WithinText c t q') fun r => ∃ k o', r = .fell k o' ∧ o'.status = .matched := by
      intro a o k q q' ha ht hq hB
      refine ((IH g a ha c t _ _ _ hc ht).weak fun _ h => h.mono hq).bind fun r hr => ?_
      obtain ⟨o', err⟩ := r
      have hfix : fixStatus o' none = o' := by simp [fixStatus]
      rcases agrees_ok hr with ⟨rfl, hs, _⟩ | ⟨rfl, hs, hn⟩
      · simp only [hfix, hs, if_true]
        exact starts_pure ⟨_, _, rfl, hs⟩
      · simp only [hfix, hs, if_true]
        exact hB hn
    generalize hl : plainList gs = l at hm
    cases hm with
    | choiceOne ha =>
      refine one e o k q q ha ht (Nat.le_refl _) fun _ => ?_
      have : gs = [] := by
        cases gs with
        | nil => rfl
        | cons => simp [plainList] at hl
      subst this
      exact starts_pure ⟨_, _, rfl, hc.1.2⟩
    | choiceCons hne ha hb =>
      subst hl
      cases ht with
      | altLeft t1 => exact one _ _ _ _ _ ha t1 (Nat.le_refl _) fun h => by cases h
      | altRight t1 t2 =>
        exact one _ _ _ _ _ ha t1 (Nat.le_max_left _ _) fun _ => (ih _ j c t o _ _ hb hc t2).weak fun _ h => h.mono (Nat.le_max_right _ _)

theorem within_iter (gs : List TGram) (bottom count : Nat) {e : Peg} {c : Ctx} {t : List Char} {o : Option (List Char)} {k q : Nat}
    (hm : Means A (.seq (plainList gs)) e) (hc : AtText c t) (ht : Tries rules e t o k q) :
    CallsAt (Trace.iteration none false (gs.map (TGram.run tenv n)) bottom count c) (WithinText c t q) (IterLike A c t o) := by
  refine within_iteration (within_seq IH gs e 0 c t o k q hm hc ht) (fun _ _ h => h) (fun h => h) (fun _ h => by cases h) fun k o' h => ?_
  obtain ⟨v, hv, hw⟩ := h
  exact ⟨hw.ok, v, hv, hw.congr rfl rfl rfl rfl rfl rfl rfl rfl rfl rfl rfl⟩

theorem within_reps (tm : Times) (gs : List TGram) (bottom : Nat) (fuel : Nat) :
    ∀ (count : Nat) (e : Peg) (c : Ctx) (t : List Char) (o : Option (List Char)) (k q : Nat),
    Means A (.reps tm (plainList gs) count) e → (0 ≤ tm.max → (count : Int) + fuel = tm.max) → AtText c t → Tries rules e t o k q →
    CallsAt (Trace.parentLoop (decide (tm.max < 0)) (Trace.iteration none false (gs.map (TGram.run tenv n)) bottom) fuel count c)
      (WithinText c t q) fun _ => True := by
  induction fuel with
  | zero =>
    intro count e c t o k q _ _ _ _
    unfold Trace.parentLoop
    split
    · exact starts_lift fun _ _ => trivial
    · exact starts_pure trivial
  | succ fuel ih =>
    intro count e c t o k q hm hf hc ht
    have step : ∀ (a : Peg) (oa : Option (List Char)) (ka qa q' : Nat), Means A (.seq (plainList gs)) a → Tries rules a t oa ka qa → qa ≤ q' →
        (∀ u c', oa = some u → AtText c' u → Went A c t c' u → CallsAt (Trace.parentLoop (decide (tm.max < 0)) (Trace.iteration none false
          (gs.map (TGram.run tenv n)) bottom) fuel (count + 1) c') (WithinText c t q') fun _ => True) →
        CallsAt (Trace.parentLoop (decide (tm.max < 0)) (Trace.iteration none false (gs.map (TGram.run tenv n)) bottom) (fuel + 1) count c)
          (WithinText c t q') fun _ => True := by
      intro a oa ka qa q' ha hta hq hB
      rw [Trace.parentLoop]
      refine ((within_iter IH gs bottom count ha hc hta).weak fun _ h => h.mono hq).bind fun r hr => ?_
      cases r with
      | ret o e => exact starts_pure trivial
      | brk o => exact starts_pure trivial
      | next c' =>
        obtain ⟨v, hv, hw⟩ := hr
        exact hB v c' hv (hc.went hw) hw
    have hf' : 0 ≤ tm.max → ((count + 1 : Nat) : Int) + fuel = tm.max := fun h => by have := hf h; omega
    have seq : ∀ a b o k q, Means A (.seq (plainList gs)) a → Means A (.reps tm (plainList gs) (count + 1)) b → Tries rules (.seq a b) t o k q →
        CallsAt (Trace.parentLoop (decide (tm.max < 0)) (Trace.iteration none false (gs.map (TGram.run tenv n)) bottom) (fuel + 1) count c)
          (WithinText c t q) fun _ => True := by
      intro a b o k q ha hb ht
      cases ht with
      | seq t1 t2 =>
        exact step _ _ _ _ _ ha t1 (Nat.le_max_left _ _) fun u c' hu hc' hw => by
          cases hu
          exact (ih _ _ c' _ _ _ _ hb hf' hc' t2).weak fun _ h => h.went hw (Nat.le_max_right _ _)
      | seqFail t1 => exact step _ _ _ _ _ ha t1 (Nat.le_refl _) fun u c' hu => by cases hu
    cases hm with
    | repsMore _ _ ha hb => exact seq _ _ _ _ _ ha hb ht
    | repsMaybe _ _ ha hb =>
      cases ht with
      | altLeft t1 => exact seq _ _ _ _ _ ha hb t1
      | altRight t1 t2 => exact (seq _ _ _ _ _ ha hb t1).weak fun _ h => h.mono (Nat.le_max_left _ _)
    | repsDone h1 => exfalso; have := hf (by omega); omega
    | repsStar h1 h2 ha =>
      cases ht with
      | starEnd t1 => exact step _ _ _ _ _ ha t1 (Nat.le_refl _) fun u c' hu => by cases hu
      | starMore t1 t2 =>
        exact step _ _ _ _ _ ha t1 (Nat.le_max_left _ _) fun u c' hu hc' hw => by
          cases hu
          exact (ih _ _ c' _ _ _ _ (.repsStar h1 (by omega) ha) hf' hc' t2).weak fun _ h => h.went hw (Nat.le_max_right _ _)

/-- A group of any kind, run once. -/
theorem within_group (gs : List TGram) {e : Peg} {c : Ctx} {t : List Char} {o : Option (List Char)} {k q : Nat} (hm : Means A (.seq (plainList gs)) e)
    (hc : AtText c t) (ht : Tries rules e t o k q) (i : Option Info) {fuel : Nat} {cls : String} {props : List PropItem}
    {tr : Option (List Trace.Transformer)} (htr : ∀ ts, tr = some ts → CallsNone ts) (hq : (readProps props).qty = qtyOnce)
    (he : (readProps props).thereExists = false) :
    CallsAt (wrap i (Trace.base fuel cls none props (gs.map (TGram.run tenv n)) tr) c) (WithinText c t q) fun _ => True := by
  refine starts_wrap i (.here rfl rfl) (within_base htr ?_)
  rw [hq, he]
  exact within_once (within_iter IH gs _ 0 hm ⟨⟨hc.1.1, rfl⟩, hc.2⟩ ht)

end

section
variable {A : Ast → Prop} {env : Env} {tenv : TEnv} {rules : Nat → Peg}

theorem within_run (hA : Tokens A) (henv : ∀ i, Means A (.gram (env i)) (rules i)) (ht : ∀ i k, (tenv i k).plain = env i)
    (n : Nat) : ∀ (g : TGram) (e : Peg), Means A (.gram g.plain) e → WithinLike A rules (g.run tenv n) e := by
  induction n with
  | zero => intro g e _ c t o k q _ _; unfold TGram.run; exact starts_lift fun _ h => by cases h
  | succ n IH =>
    intro g e hm c t o k q hc hk
    suffices h : CallsAt (g.run tenv (n + 1) c) (WithinText c t q) fun _ => True by
      intro s
      refine ⟨(h s).1, fun r hr => ?_⟩
      rw [C43_transparent tenv env ht] at hr
      obtain ⟨o', h1, h2⟩ := C74_engine_to_peg hA henv hm hc.1 hc.2 (n + 1) (by rw [hr]; simp)
      rw [hr] at h2
      rw [ford_unique hk.ford h1]
      exact h2
    have none : ∀ ts : List Trace.Transformer, (Option.none : Option (List Trace.Transformer)) = some ts → CallsNone ts := fun _ h => by cases h
    have notP : ∀ {e' : Peg} {o k q}, Tries rules (.notP e') t o k q → ∃ o' k', Tries rules e' t o' k' q := by
      intro e' o k q h
      cases h with
      | notYes h => exact ⟨_, _, h⟩
      | notNo h => exact ⟨_, _, h⟩
    cases g with
    | prim i cls p =>
      unfold TGram.run
      exact starts_wrap i (.here rfl rfl) (starts_lift fun _ _ => trivial)
    | flatGroup i gs =>
      simp only [TGram.plain] at hm
      cases hm with
      | flatGroup hm => unfold TGram.run; exact within_group IH gs hm hc hk i none rfl rfl
    | group i gs =>
      simp only [TGram.plain] at hm
      cases hm with
      | group hm _ =>
        unfold TGram.run
        refine within_group IH gs hm hc hk i (fun ts h => ?_) rfl rfl
        cases h
        intro f hf c l
        rw [List.mem_singleton.1 hf]
        exact starts_lift fun _ _ => trivial
    | first i gs =>
      simp only [TGram.plain] at hm
      cases hm with
      | first hne hm =>
        unfold TGram.run
        refine starts_wrap i (.here rfl rfl) (within_base none ?_)
        exact within_once (within_iteration (R := fun _ => True)
          (within_choice IH gs e 0 { c with cls := _, status := .matched } t o k q hm ⟨⟨hc.1.1, rfl⟩, hc.2⟩ hk)
          (fun _ _ _ => trivial) (fun _ => trivial) (fun _ _ _ => trivial) fun k o ⟨_, _, h1, h2⟩ => by cases h1; exact ⟨h2, trivial⟩)
    | lookAhead i gs =>
      simp only [TGram.plain] at hm
      cases hm with
      | lookAhead hm =>
        unfold TGram.run
        obtain ⟨_, k1, h1⟩ := notP hk
        obtain ⟨_, k2, h2⟩ := notP h1
        exact within_group IH gs hm hc h2 i none rfl rfl
    | lookAheadN i gs =>
      simp only [TGram.plain] at hm
      cases hm with
      | lookAheadN hm =>
        unfold TGram.run
        obtain ⟨_, k1, h1⟩ := notP hk
        exact within_group IH gs hm hc h1 i none rfl rfl
    | lookBehind i a b gs => simp only [TGram.plain] at hm; cases hm
    | lookBehindN i a b gs => simp only [TGram.plain] at hm; cases hm
    | «repeat» i tm gs =>
      simp only [TGram.plain] at hm
      cases hm with
      | «repeat» hm =>
        unfold TGram.run
        refine starts_wrap i (.here rfl rfl) (within_base none ?_)
        exact within_reps IH tm gs _ _ 0 e _ t o k q hm (fun h => by
          have h' : ¬ tm.max < 0 := by omega
          show ((0 : Nat) : Int) + ((if decide (tm.max < 0) = true then n else tm.max.toNat : Nat) : Int) = tm.max
          simp [h']; omega) ⟨⟨hc.1.1, rfl⟩, hc.2⟩ hk
    | trans i g trs =>
      simp only [TGram.plain] at hm
      generalize htrs : plainTrs trs = trs' at hm
      cases hm with
      | trans hm _ =>
        unfold TGram.run
        have hsil : ∀ ts, (if trs.isEmpty = true then Option.none else some (trs.map (TTr.run tenv n))) = some ts → CallsNone ts := by
          intro ts h
          split at h
          · cases h
          · cases h
            intro f hf c l
            obtain ⟨tr, htr, rfl⟩ := List.mem_map.1 hf
            rw [plainTrs_eq] at htrs
            have := List.mem_map_of_mem (f := TTr.plain) htr
            rw [htrs] at this
            obtain ⟨f', -, hf'⟩ := List.mem_map.1 this
            cases tr with
            | production => simp [TTr.plain] at hf'
            | fn f =>
              cases n with
              | zero => unfold TTr.run; exact starts_lift fun _ _ => trivial
              | succ n => unfold TTr.run; exact starts_lift fun _ _ => trivial
        refine starts_wrap i (.here rfl rfl) (within_base hsil ?_)
        refine within_once (P := fun _ => True) (within_iteration (P := fun r => ∀ k o, r = .fell k o → o.status = .matched) ?_
          (fun _ _ _ => trivial) (fun _ => trivial) (fun _ _ _ => trivial) fun k o h => ⟨h k o rfl, trivial⟩)
        rw [Trace.childLoop]
        refine CallsAt.bind (IH g e hm _ t o k q ⟨⟨hc.1.1, rfl⟩, hc.2⟩ hk) fun r hr => ?_
        obtain ⟨o', err⟩ := r
        have hfix : fixStatus o' Option.none = o' := by simp [fixStatus]
        rcases agrees_ok hr with ⟨rfl, hs, _⟩ | ⟨rfl, hs, hn⟩
        · simp only [hfix, hs]
          exact starts_pure fun k o h => by cases h; exact hs
        · simp only [hfix, hs]
          exact starts_pure fun k o h => by cases h
    | indirect i name =>
      simp only [TGram.plain] at hm
      cases hm with
      | indirect =>
        cases hk with
        | @var _ _ _ k q hk =>
        unfold TGram.run
        refine starts_wrap i (.here rfl rfl) ?_
        unfold light
        refine CallsAt.bind (P := fun _ => True) ?_ fun r _ => starts_pure trivial
        intro s
        have h := IH (tenv name s.clock) (rules name) (by rw [ht]; exact henv name) c t o k q hc hk { s with clock := s.clock + 1 }
        exact ⟨h.1, fun _ _ => trivial⟩
    | «match» i k cases => simp only [TGram.plain] at hm; cases hm
    | base i cls fn props gs tr => simp only [TGram.plain] at hm; cases hm
    | debug i scope pt gs => simp only [TGram.plain] at hm; cases hm

end

end Takenoco
