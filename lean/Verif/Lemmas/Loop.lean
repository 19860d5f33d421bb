import Verif.Spec.Loop
import Verif.Lemmas.TryCount
import Verif.Lemmas.Depth
/-
Expressions that do not come back to the same place have a result after a bounded number of nested steps, and the engine needs no more nested calls.
-/
namespace Takenoco
open Spec Trace

/-- The result is found with at most so many steps inside each other. -/
inductive Spec.Pex.TriedIn (rules : Nat → Pex) : Nat → Pex → List Char → Option (List Char) → Prop where
  | eps {n : Nat} {t : List Char} : TriedIn rules (n + 1) .eps t (some t)
  | chr {n : Nat} {f : Nat → Bool} {ch : Char} {t : List Char} : f ch.toNat = true → TriedIn rules (n + 1) (.chr f) (ch :: t) (some t)
  | chrNot {n : Nat} {f : Nat → Bool} {ch : Char} {t : List Char} : ¬ f ch.toNat = true → TriedIn rules (n + 1) (.chr f) (ch :: t) none
  | chrEnd {n : Nat} {f : Nat → Bool} : TriedIn rules (n + 1) (.chr f) [] none
  | seq {n : Nat} {a b : Pex} {t u : List Char} {r : Option (List Char)} : TriedIn rules n a t (some u) → TriedIn rules n b u r → TriedIn rules (n + 1) (.seq a b) t r
  | seqFail {n : Nat} {a b : Pex} {t : List Char} : TriedIn rules n a t none → TriedIn rules (n + 1) (.seq a b) t none
  | altLeft {n : Nat} {a b : Pex} {t u : List Char} : TriedIn rules n a t (some u) → TriedIn rules (n + 1) (.alt a b) t (some u)
  | altRight {n : Nat} {a b : Pex} {t : List Char} {r : Option (List Char)} : TriedIn rules n a t none → TriedIn rules n b t r → TriedIn rules (n + 1) (.alt a b) t r
  | starEnd {n : Nat} {a : Pex} {t : List Char} : TriedIn rules n a t none → TriedIn rules (n + 1) (.star a) t (some t)
  | starMore {n : Nat} {a : Pex} {t u : List Char} {r : Option (List Char)} : TriedIn rules n a t (some u) → TriedIn rules n (.star a) u r → TriedIn rules (n + 1) (.star a) t r
  | notYes {n : Nat} {a : Pex} {t : List Char} : TriedIn rules n a t none → TriedIn rules (n + 1) (.notP a) t (some t)
  | notNo {n : Nat} {a : Pex} {t u : List Char} : TriedIn rules n a t (some u) → TriedIn rules (n + 1) (.notP a) t none
  | var {n i : Nat} {t : List Char} {r : Option (List Char)} : TriedIn rules n (rules i) t r → TriedIn rules (n + 1) (.var i) t r

open Pex

section
variable {rules : Nat → Pex} {p q r : Pex} {t u v : List Char} {o : Option (List Char)}

theorem triedIn_ford {n : Nat} (h : TriedIn rules n p t o) : Ford (fun i => (rules i).peg) p.peg t o := by
  induction h with
  | eps => exact .eps
  | chr h => exact .chr h
  | chrNot h => exact .chrNot h
  | chrEnd => exact .chrEnd
  | seq _ _ h1 h2 => exact .seq h1 h2
  | seqFail _ h => exact .seqFail h
  | altLeft _ h => exact .altLeft h
  | altRight _ _ h1 h2 => exact .altRight h1 h2
  | starEnd _ h => exact .starEnd h
  | starMore _ _ h1 h2 => exact .starMore h1 h2
  | notYes _ h => exact .notYes h
  | notNo _ h => exact .notNo h
  | var _ h => exact .var h

/-! ### With a result there is no way back -/

theorem needs_less (h : Needs rules p t q u) {k : Nat} (hk : Tried rules p t o k) : ∃ o' k', k' < k ∧ Tried rules q u o' k' := by
  have uniq : ∀ {a t o o' k}, Ford (fun i => (rules i).peg) a t o → ∀ {b}, a = b.peg → Tried rules b t o' k → o = o' := fun h _ e h' =>
    ford_unique h (e ▸ tried_ford h')
  cases h with
  | seqLeft => cases hk with
    | seq h1 h2 => exact ⟨_, _, by omega, h1⟩
    | seqFail h1 => exact ⟨_, _, by omega, h1⟩
  | seqRight hf => cases hk with
    | seq h1 h2 => cases uniq hf rfl h1; exact ⟨_, _, by omega, h2⟩
    | seqFail h1 => cases uniq hf rfl h1
  | altLeft => cases hk with
    | altLeft h1 => exact ⟨_, _, by omega, h1⟩
    | altRight h1 h2 => exact ⟨_, _, by omega, h1⟩
  | altRight hf => cases hk with
    | altLeft h1 => cases uniq hf rfl h1
    | altRight h1 h2 => exact ⟨_, _, by omega, h2⟩
  | star => cases hk with
    | starEnd h1 => exact ⟨_, _, by omega, h1⟩
    | starMore h1 h2 => exact ⟨_, _, by omega, h1⟩
  | again hf => cases hk with
    | starEnd h1 => cases uniq hf rfl h1
    | starMore h1 h2 => cases uniq hf rfl h1; have := h1.pos; exact ⟨_, _, by omega, h2⟩
  | notP => cases hk with
    | notYes h1 => exact ⟨_, _, by omega, h1⟩
    | notNo h1 => exact ⟨_, _, by omega, h1⟩
  | var => cases hk with
    | var h1 => exact ⟨_, _, by omega, h1⟩

theorem leads_less (h : Leads rules p t q u) : ∀ {o k}, Tried rules p t o k → ∃ o' k', k' < k ∧ Tried rules q u o' k' := by
  induction h with
  | one h => exact fun hk => needs_less h hk
  | more h _ ih =>
    intro o k hk
    obtain ⟨o', k', h1, h2⟩ := needs_less h hk
    obtain ⟨o'', k'', h3, h4⟩ := ih h2
    exact ⟨o'', k'', by omega, h4⟩

theorem no_way_back (h : Leads rules p t p t) (k : Nat) : ∀ o, ¬ Tried rules p t o k := by
  induction k using Nat.strongRecOn with
  | ind k ih =>
    intro o hk
    obtain ⟨o', k', h1, h2⟩ := leads_less h hk
    exact ih k' h1 o' h2

theorem loops_no_result (h : Loops rules p t) : ¬ Ford (fun i => (rules i).peg) p.peg t o := fun hf => by
  obtain ⟨k, hk⟩ := tried_of_aux rfl hf p rfl
  obtain ⟨q, u, hq, hl⟩ := h
  rcases hq with ⟨rfl, rfl⟩ | hq
  · exact no_way_back hl k _ hk
  · obtain ⟨o', k', -, h'⟩ := leads_less hq hk
    exact no_way_back hl k' _ h'

/-! ### Otherwise there is a result -/

theorem leads_snoc (h : Leads rules p t q u) (h' : Needs rules q u r v) : Leads rules p t r v := by
  induction h with
  | one h => exact .more h (.one h')
  | more h _ ih => exact .more h (ih h')

theorem not_loops_next (h : ¬ Loops rules p t) (hn : Needs rules p t q u) : ¬ Loops rules q u := fun ⟨r, v, hr, hl⟩ => h ⟨r, v, by
  rcases hr with ⟨rfl, rfl⟩ | hr
  · exact .inr (.one hn)
  · exact .inr (.more hn hr), hl⟩

theorem nodup_length {α : Type} {l m : List α} (hl : l.Nodup) (hs : ∀ x ∈ l, x ∈ m) : l.length ≤ m.length := by
  induction l generalizing m with
  | nil => simp
  | cons a l ih =>
    obtain ⟨m1, m2, rfl⟩ := List.append_of_mem (hs a (by simp))
    rw [List.nodup_cons] at hl
    have := ih (m := m1 ++ m2) hl.2 fun x hx => by
      have h1 := hs x (by simp [hx])
      have h2 : x ≠ a := fun h => hl.1 (h ▸ hx)
      simp only [List.mem_append, List.mem_cons, h2, false_or] at h1
      simpa using h1
    simp only [List.length_append, List.length_cons] at this ⊢
    omega

/-- All that may be needed. -/
structure NeedsClosed (rules : Nat → Pex) (l : List (Pex × List Char)) : Prop where
  step : ∀ {p q t u}, (p, t) ∈ l → Needs rules p t q u → (q, u) ∈ l

theorem found {l : List (Pex × List Char)} (hl : NeedsClosed rules l) (m : Nat) : ∀ (path : List (Pex × List Char)) (p : Pex) (t : List Char), (p, t) ∈ l →
    path.Nodup → (∀ x ∈ path, x ∈ l) → (∀ x ∈ path, Leads rules x.1 x.2 p t) → l.length ≤ path.length + m → ¬ Loops rules p t → ∃ o, TriedIn rules m p t o := by
  induction m with
  | zero =>
    intro path p t hp hd hs hw hm hn
    have h1 : (p, t) ∉ path := fun h => hn ⟨p, t, .inl ⟨rfl, rfl⟩, hw _ h⟩
    have := nodup_length (l := (p, t) :: path) (m := l) (List.nodup_cons.2 ⟨h1, hd⟩) (List.forall_mem_cons.2 ⟨hp, hs⟩)
    simp only [List.length_cons] at this
    omega
  | succ m ih =>
    intro path p t hp hd hs hw hm hn
    have h1 : (p, t) ∉ path := fun h => hn ⟨p, t, .inl ⟨rfl, rfl⟩, hw _ h⟩
    have next : ∀ q u, Needs rules p t q u → ∃ o, TriedIn rules m q u o := fun q u hq => by
      refine ih ((p, t) :: path) q u (hl.step hp hq) (List.nodup_cons.2 ⟨h1, hd⟩) (List.forall_mem_cons.2 ⟨hp, hs⟩) ?_ (by simp only [List.length_cons]; omega)
        (not_loops_next hn hq)
      intro x hx
      rcases List.mem_cons.1 hx with rfl | hx
      · exact .one hq
      · exact leads_snoc (hw x hx) hq
    cases p with
    | eps => exact ⟨_, .eps⟩
    | chr f =>
      cases t with
      | nil => exact ⟨_, .chrEnd⟩
      | cons ch t =>
        by_cases hf : f ch.toNat = true
        · exact ⟨_, .chr hf⟩
        · exact ⟨_, .chrNot hf⟩
    | seq a b =>
      obtain ⟨o, ho⟩ := next _ _ .seqLeft
      cases o with
      | none => exact ⟨_, .seqFail ho⟩
      | some u => obtain ⟨o', ho'⟩ := next _ _ (.seqRight (triedIn_ford ho)); exact ⟨_, .seq ho ho'⟩
    | alt a b =>
      obtain ⟨o, ho⟩ := next _ _ .altLeft
      cases o with
      | none => obtain ⟨o', ho'⟩ := next _ _ (.altRight (triedIn_ford ho)); exact ⟨_, .altRight ho ho'⟩
      | some u => exact ⟨_, .altLeft ho⟩
    | star a =>
      obtain ⟨o, ho⟩ := next _ _ .star
      cases o with
      | none => exact ⟨_, .starEnd ho⟩
      | some u => obtain ⟨o', ho'⟩ := next _ _ (.again (triedIn_ford ho)); exact ⟨_, .starMore ho ho'⟩
    | notP a =>
      obtain ⟨o, ho⟩ := next _ _ .notP
      cases o with
      | none => exact ⟨_, .notYes ho⟩
      | some u => exact ⟨_, .notNo ho⟩
    | var i => obtain ⟨o, ho⟩ := next _ _ .var; exact ⟨_, .var ho⟩

/-! ### A finite grammar -/

theorem self_parts (p : Pex) : p ∈ p.parts := by cases p <;> simp [parts]

theorem parts_trans (h : q ∈ p.parts) : ∀ x ∈ q.parts, x ∈ p.parts := by
  induction p with
  | eps => simp only [parts, List.mem_singleton] at h; subst h; exact fun _ h => h
  | chr f => simp only [parts, List.mem_singleton] at h; subst h; exact fun _ h => h
  | var i => simp only [parts, List.mem_singleton] at h; subst h; exact fun _ h => h
  | seq a b iha ihb =>
    simp only [parts, List.mem_cons, List.mem_append] at h
    rcases h with rfl | h | h
    · exact fun _ h => h
    · exact fun x hx => by simp [parts, iha h x hx]
    · exact fun x hx => by simp [parts, ihb h x hx]
  | alt a b iha ihb =>
    simp only [parts, List.mem_cons, List.mem_append] at h
    rcases h with rfl | h | h
    · exact fun _ h => h
    · exact fun x hx => by simp [parts, iha h x hx]
    · exact fun x hx => by simp [parts, ihb h x hx]
  | star a iha =>
    simp only [parts, List.mem_cons] at h
    rcases h with rfl | h
    · exact fun _ h => h
    · exact fun x hx => by simp [parts, iha h x hx]
  | notP a iha =>
    simp only [parts, List.mem_cons] at h
    rcases h with rfl | h
    · exact fun _ h => h
    · exact fun x hx => by simp [parts, iha h x hx]

/-- The expressions that are written, at all places of the text. -/
def places (p : Pex) (l : List Pex) (t : List Char) : List (Pex × List Char) :=
  (p.parts ++ l.flatMap parts).flatMap fun q => (List.range (t.length + 1)).map fun k => (q, t.drop k)

theorem mem_places {l : List Pex} : (q, u) ∈ places p l t ↔ (q ∈ p.parts ∨ ∃ x ∈ l, q ∈ x.parts) ∧ ∃ w, t = w ++ u := by
  simp only [places, List.mem_flatMap, List.mem_append, List.mem_map, List.mem_range, Prod.mk.injEq]
  constructor
  · rintro ⟨x, hx, k, hk, rfl, rfl⟩
    exact ⟨hx, t.take k, by simp⟩
  · rintro ⟨hq, w, rfl⟩
    exact ⟨q, hq, w.length, by simp; omega, rfl, by simp⟩

theorem sum_length_mul {α β : Type} (l : List α) (f : α → List β) (n : Nat) (h : ∀ x, (f x).length = n) : (l.flatMap f).length = l.length * n := by
  induction l with
  | nil => simp
  | cons a l ih => rw [List.flatMap_cons, List.length_append, ih, h, List.length_cons, Nat.succ_mul]; omega

theorem places_length (p : Pex) (l : List Pex) (t : List Char) : (places p l t).length = written p l * (t.length + 1) := by
  unfold places written
  rw [sum_length_mul _ _ (t.length + 1) (by simp), List.length_append, List.length_flatMap]

theorem closed_places {l : List Pex} (hl : ∀ i, rules i ∈ l) (p : Pex) (t : List Char) : NeedsClosed rules (places p l t) where
  step := by
    intro q r u v hq hn
    rw [mem_places] at hq ⊢
    obtain ⟨h1, w, rfl⟩ := hq
    have sub : ∀ x, x ∈ q.parts → x ∈ p.parts ∨ ∃ y ∈ l, x ∈ y.parts := fun x hx => by
      rcases h1 with h1 | ⟨y, hy, h1⟩
      · exact .inl (parts_trans h1 x hx)
      · exact .inr ⟨y, hy, parts_trans h1 x hx⟩
    have rest : ∀ {a u v}, Ford (fun i => (rules i).peg) a u (some v) → ∃ w', w ++ u = w' ++ v := fun h => by
      obtain ⟨w', rfl⟩ := ford_suffix h _ rfl
      exact ⟨w ++ w', by simp⟩
    cases hn with
    | @seqLeft a b => exact ⟨sub _ (by simp [parts, self_parts]), w, rfl⟩
    | @seqRight a b _ _ hf => exact ⟨sub _ (by simp [parts, self_parts]), rest hf⟩
    | @altLeft a b => exact ⟨sub _ (by simp [parts, self_parts]), w, rfl⟩
    | @altRight a b _ hf => exact ⟨sub _ (by simp [parts, self_parts]), w, rfl⟩
    | @star a => exact ⟨sub _ (by simp [parts, self_parts]), w, rfl⟩
    | @again a _ _ hf => exact ⟨h1, rest hf⟩
    | @notP a => exact ⟨sub _ (by simp [parts, self_parts]), w, rfl⟩
    | @var i => exact ⟨.inr ⟨rules i, hl i, self_parts _⟩, w, rfl⟩

theorem result_of_no_loop {l : List Pex} (hl : ∀ i, rules i ∈ l) (h : ¬ Loops rules p t) : ∃ o, TriedIn rules (written p l * (t.length + 1)) p t o := by
  refine found (closed_places hl p t) _ [] p t (mem_places.2 ⟨.inl (self_parts p), [], rfl⟩) List.nodup_nil (by simp) (by simp) ?_ h
  rw [places_length]
  simp

end

/-! ### The engine -/

/-- The computation nests calls at most `B` deep, its results have `P`, and under the condition `L` it is not out of fuel. -/
def Settles {α : Type} (x : M α) (B : Nat) (L : Prop) (P : α → Prop) : Prop := Deep x B P ∧ (L → ∀ s, (x s).1 ≠ .timeout)

section
variable {α β : Type} {B B' : Nat} {L L' : Prop} {P : α → Prop} {Q : β → Prop}

theorem settles_pure {a : α} (h : P a) : Settles (pure a) B L P := ⟨deep_pure h, fun _ s h => by cases h⟩

theorem Settles.mono {x : M α} {P' : α → Prop} (h : Settles x B L P) (hB : B ≤ B') (hL : L' → L) (hP : ∀ a, P a → P' a) : Settles x B' L' P' :=
  ⟨h.1.mono hB hP, fun l => h.2 (hL l)⟩

theorem Settles.bind {x : M α} {f : α → M β} (hx : Settles x B L P) (hf : ∀ a, P a → Settles (f a) B L Q) : Settles (x >>= f) B L Q := by
  refine ⟨hx.1.bind fun a ha => (hf a ha).1, fun l s h => ?_⟩
  change (M.bind x f s).1 = _ at h
  have h1 := hx.2 l s
  obtain ⟨_, -, -, h2⟩ := hx.1 s
  rcases hxs : x s with ⟨o, s'⟩
  rw [hxs] at h1 h2
  simp only [M.bind, hxs] at h
  cases o with
  | ok a => exact (hf a (h2 a rfl).1).2 l s' h
  | panic r => cases h
  | timeout => exact h1 rfl

theorem settles_wrap (i : Info) {p : Trace.Parser} {c : Ctx} {P : PRes → Prop} (h : Settles (p c) B L P) : Settles (wrap (some i) p c) (B + 1) L P := by
  refine ⟨deep_wrap _ h.1, fun l s hs => ?_⟩
  change (tracer i p c s).1 = _ at hs
  have h1 := h.2 l { s with events := s.events ++ [.before i c] }
  unfold tracer at hs
  rcases hp : p c { s with events := s.events ++ [.before i c] } with ⟨o, s'⟩
  rw [hp] at h1
  simp only [hp] at hs
  cases o with
  | ok a => obtain ⟨o, e⟩ := a; cases hs
  | panic r => cases hs
  | timeout => exact h1 rfl

theorem settles_callFn (n : Int) (k : Nat) (o : Ctx) : Settles (lift (callFn none n k o)) B L fun r => r = (o, none) :=
  ⟨deep_lift fun a ha => by cases ha; rfl, fun _ s h => by cases h⟩

theorem settles_afterLoop (f : Flags) (ctx out : Ctx) (count : Nat) : Settles (Trace.afterLoop f none none ctx count out) B L fun _ => True := by
  unfold Trace.afterLoop
  simp only
  split
  · exact settles_pure trivial
  · refine Settles.bind (settles_callFn _ _ _) fun r _ => ?_
    obtain ⟨o, e⟩ := r
    simp only
    split
    · exact settles_pure trivial
    · exact settles_pure trivial

theorem settles_base {fuel : Nat} {cls : String} {props : List PropItem} {ps : List Trace.Parser} {c : Ctx}
    (h : Settles (Trace.parentLoop (decide ((readProps props).qty.max < 0)) (Trace.iteration none (readProps props).thereExists ps c.stack.length)
      (if decide ((readProps props).qty.max < 0) then fuel else (readProps props).qty.max.toNat) 0 { c with cls := cls, status := .matched }) B L fun _ => True) :
    Settles (Trace.base fuel cls none props ps none c) B L fun _ => True := by
  unfold Trace.base
  refine Settles.bind h fun r _ => ?_
  cases r with
  | ret o err => exact settles_pure trivial
  | done m o => exact settles_afterLoop _ _ _ _

theorem settles_iteration {te : Bool} {ps : List Trace.Parser} {bottom count : Nat} {c : Ctx} {P : ChildEnd → Prop} (h : Settles (Trace.childLoop te ps 0 c) B L P)
    {Q : IterEnd → Prop} (hret : ∀ o e, P (.ret o e) → Q (.ret o e)) (hun : P .unmatched → Q (.brk c)) (hbrk : ∀ o, te = true → P (.fell 0 o) → Q (.brk c))
    (hfell : ∀ k o, P (.fell k o) → (o.status = .matched ∧ Q (.next { o with qty := count }))) :
    Settles (Trace.iteration none te ps bottom count c) B L Q := by
  unfold Trace.iteration
  refine Settles.bind h fun r hr => ?_
  cases r with
  | ret o e => exact settles_pure (hret o e hr)
  | unmatched => exact settles_pure (hun hr)
  | fell k o =>
    simp only
    split
    next hk => obtain ⟨h1, -, rfl⟩ := hk; exact settles_pure (hbrk o (by simpa using h1) hr)
    next =>
      refine Settles.bind (settles_callFn _ _ _) ?_
      rintro _ rfl
      obtain ⟨h1, h2⟩ := hfell k o hr
      simp only [h1]
      exact settles_pure (by rw [← h1]; exact h2)

theorem settles_once {body : Nat → Ctx → M IterEnd} {c : Ctx} {P : IterEnd → Prop} (h : Settles (body 0 c) B L P) :
    Settles (Trace.parentLoop false body 1 0 c) B L fun _ => True := by
  unfold Trace.parentLoop
  refine Settles.bind h fun r _ => ?_
  cases r with
  | ret o e => exact settles_pure trivial
  | brk o => exact settles_pure trivial
  | next o => exact settles_pure trivial

end

section
variable {rules : Nat → Pex} {n : Nat}

/-- The parser calls others no deeper than the expression tries others, needs no more fuel than that, and ends as the expression does. -/
def SettlesLike (rules : Nat → Pex) (n : Nat) (p : Trace.Parser) (e : Pex) : Prop :=
  ∀ c t o d, AtText c t → TriedIn rules d e t o → Settles (p c) d (d ≤ n) fun r => Spec.Agrees (fun _ => True) c t (Outcome.of (.ok r)) o

theorem settles_two {x y : Trace.Parser} {a b : Pex} (hx : SettlesLike rules n x a) (hy : SettlesLike rules n y b) {c : Ctx} {t : List Char}
    {o : Option (List Char)} {d j : Nat} (hc : AtText c t) (h : TriedIn rules (d + 1) (.seq a b) t o) :
    Settles (Trace.childLoop false [x, y] j c) d (d ≤ n) (SeqEnd (fun _ => True) c t o) := by
  rw [Trace.childLoop]
  cases h with
  | @seq _ _ _ _ u _ t1 t2 =>
    refine (hx c t _ _ hc t1).bind fun r hr => ?_
    obtain ⟨o', err⟩ := r
    rcases agrees_ok hr with ⟨rfl, hs, v, hv, hwent⟩ | ⟨_, _, hn⟩
    · cases hv
      have hfix : fixStatus o' none = o' := by simp [fixStatus]
      simp only [hfix, hs, Bool.false_eq_true, if_false]
      rw [Trace.childLoop]
      refine (hy o' u _ _ (hc.went hwent) t2).bind fun r hr => ?_
      obtain ⟨o2, err⟩ := r
      have hfix2 : fixStatus o2 none = o2 := by simp [fixStatus]
      rcases agrees_ok hr with ⟨rfl, hs, v, hv, hwent2⟩ | ⟨rfl, hs, hn⟩
      · simp only [hfix2, hs, Bool.false_eq_true, if_false]
        exact settles_pure (P := SeqEnd (fun _ => True) c t o) ⟨v, hv, hwent.trans hwent2⟩
      · simp only [hfix2, hs, Bool.false_eq_true, if_false]
        exact settles_pure (P := SeqEnd (fun _ => True) c t o) hn
    · cases hn
  | @seqFail _ _ _ _ t1 =>
    refine (hx c t _ _ hc t1).bind fun r hr => ?_
    obtain ⟨o', err⟩ := r
    have hfix : fixStatus o' none = o' := by simp [fixStatus]
    rcases agrees_ok hr with ⟨_, _, v, hv, _⟩ | ⟨rfl, hs, _⟩
    · cases hv
    · simp only [hfix, hs, Bool.false_eq_true, if_false]
      exact settles_pure (P := SeqEnd (fun _ => True) c t none) rfl

theorem settles_one {x : Trace.Parser} {a : Pex} (hx : SettlesLike rules n x a) {c : Ctx} {t : List Char} {o : Option (List Char)}
    {d j : Nat} (hc : AtText c t) (h : TriedIn rules d a t o) : Settles (Trace.childLoop false [x] j c) d (d ≤ n) (SeqEnd (fun _ => True) c t o) := by
  rw [Trace.childLoop]
  refine (hx c t _ _ hc h).bind fun r hr => ?_
  obtain ⟨o', err⟩ := r
  have hfix : fixStatus o' none = o' := by simp [fixStatus]
  rcases agrees_ok hr with ⟨rfl, hs, v, hv, hw⟩ | ⟨rfl, hs, hn⟩
  · simp only [hfix, hs, Bool.false_eq_true, if_false]
    exact settles_pure (P := SeqEnd (fun _ => True) c t o) ⟨v, hv, hw⟩
  · simp only [hfix, hs, Bool.false_eq_true, if_false]
    exact settles_pure (P := SeqEnd (fun _ => True) c t o) hn

theorem settles_alts {x y : Trace.Parser} {a b : Pex} (hx : SettlesLike rules n x a) (hy : SettlesLike rules n y b) {c : Ctx} {t : List Char}
    {o : Option (List Char)} {d j : Nat} (hc : AtText c t) (h : TriedIn rules (d + 1) (.alt a b) t o) :
    Settles (Trace.childLoop true [x, y] j c) d (d ≤ n) fun r => ∃ k o', r = .fell k o' ∧ o'.status = .matched := by
  rw [Trace.childLoop]
  cases h with
  | @altLeft _ _ _ _ u t1 =>
    refine (hx c t _ _ hc t1).bind fun r hr => ?_
    obtain ⟨o', err⟩ := r
    have hfix : fixStatus o' none = o' := by simp [fixStatus]
    rcases agrees_ok hr with ⟨rfl, hs, v, hv, _⟩ | ⟨rfl, hs, hn⟩
    · simp only [hfix, hs, if_true]
      exact settles_pure ⟨_, _, rfl, hs⟩
    · cases hn
  | @altRight _ _ _ _ _ t1 t2 =>
    refine (hx c t _ _ hc t1).bind fun r hr => ?_
    obtain ⟨o', err⟩ := r
    have hfix : fixStatus o' none = o' := by simp [fixStatus]
    rcases agrees_ok hr with ⟨_, _, v, hv, _⟩ | ⟨rfl, hs, _⟩
    · cases hv
    · simp only [hfix, hs, if_true]
      rw [Trace.childLoop]
      refine (hy c t _ _ hc t2).bind fun r hr => ?_
      obtain ⟨o2, err⟩ := r
      have hfix2 : fixStatus o2 none = o2 := by simp [fixStatus]
      rcases agrees_ok hr with ⟨rfl, hs, v, hv, _⟩ | ⟨rfl, hs, hn⟩
      · simp only [hfix2, hs, if_true]
        exact settles_pure ⟨_, _, rfl, hs⟩
      · simp only [hfix2, hs, if_true]
        rw [Trace.childLoop]
        exact settles_pure ⟨_, _, rfl, hc.1.2⟩

theorem settles_iter {ps : List Trace.Parser} {bottom count d : Nat} {L : Prop} {c : Ctx} {t : List Char} {o : Option (List Char)}
    (h : Settles (Trace.childLoop false ps 0 c) d L (SeqEnd (fun _ => True) c t o)) :
    Settles (Trace.iteration none false ps bottom count c) d L (IterLike (fun _ => True) c t o) := by
  refine settles_iteration h (fun _ _ h => h) (fun h => h) (fun _ h => by cases h) fun k o' h => ?_
  obtain ⟨v, hv, hw⟩ := h
  exact ⟨hw.ok, v, hv, hw.congr rfl rfl rfl rfl rfl rfl rfl rfl rfl rfl rfl⟩

theorem settles_star {x : Trace.Parser} {a : Pex} (hx : SettlesLike rules n x a) (bottom fuel : Nat) : ∀ (count : Nat) (c : Ctx) (t : List Char)
    (o : Option (List Char)) (d : Nat), AtText c t → TriedIn rules (d + 1) (.star a) t o →
    Settles (Trace.parentLoop true (Trace.iteration none false [x] bottom) fuel count c) d (d ≤ fuel ∧ d ≤ n) fun _ => True := by
  induction fuel with
  | zero =>
    intro count c t o d _ h
    unfold Trace.parentLoop
    refine ⟨deep_lift fun _ _ => trivial, fun ⟨hd, _⟩ => ?_⟩
    obtain rfl : d = 0 := by omega
    cases h with
    | starEnd h => cases h
    | starMore h _ => cases h
  | succ fuel ih =>
    intro count c t o d hc h
    rw [Trace.parentLoop]
    cases h with
    | @starEnd _ _ _ t1 =>
      refine Settles.mono (L := d ≤ n) ?_ (Nat.le_refl _) (fun h => h.2) fun _ h => h
      refine (settles_iter (settles_one hx hc t1)).bind fun r hr => ?_
      cases r with
      | ret o e => exact settles_pure trivial
      | brk o => exact settles_pure trivial
      | next c' => obtain ⟨v, hv, _⟩ := hr; cases hv
    | @starMore _ _ _ u _ t1 t2 =>
      refine ((settles_iter (settles_one hx hc t1)).mono (Nat.le_refl _) (fun h => h.2) fun _ h => h).bind fun r hr => ?_
      cases r with
      | ret o e => exact hr.elim
      | brk o => cases hr
      | next c' =>
        obtain ⟨v, hv, hw⟩ := hr
        cases hv
        cases d with
        | zero => cases t1
        | succ d => exact (ih _ c' u o d (hc.went hw) t2).mono (by omega) (fun h => ⟨by omega, by omega⟩) fun _ h => h

theorem settles_run (i : Info) (n : Nat) : ∀ p : Pex, SettlesLike rules n ((p.gram.traced i).run (fun name _ => (rules name).gram.traced i) n) p := by
  induction n with
  | zero =>
    intro p c t o d _ h
    unfold TGram.run
    refine ⟨deep_lift (y := .timeout) (by simp), fun hd => ?_⟩
    obtain rfl : d = 0 := by omega
    cases h
  | succ n IH =>
    intro p c t o d hc hd
    suffices h : Settles ((p.gram.traced i).run (fun name _ => (rules name).gram.traced i) (n + 1) c) d (d ≤ n + 1) fun _ => True by
      refine ⟨fun s => ?_, h.2⟩
      obtain ⟨l, h1, h2, h3⟩ := h.1 s
      refine ⟨l, h1, h2, fun r hr => ⟨?_, (h3 r hr).2⟩⟩
      rw [C43_transparent _ (fun name => (rules name).gram) (fun _ _ => plain_traced _ _), plain_traced] at hr
      obtain ⟨o', h1, h2⟩ := C74_engine_to_peg (A := fun _ => True) (rules := fun i => (rules i).peg.pad) (fun _ _ _ _ => trivial) (fun _ => pex_means _) (pex_means p) hc.1 hc.2 (n + 1) (by rw [hr]; simp)
      rw [hr] at h2
      rw [ford_unique (triedIn_ford hd) (ford_unpad.1 h1)]
      exact h2
    obtain ⟨d, rfl⟩ : ∃ m, d = m + 1 := by cases hd <;> exact ⟨_, rfl⟩
    cases p with
    | eps =>
      simp only [Pex.gram, Gram.traced]; unfold TGram.run
      refine settles_wrap i ⟨deep_lift fun _ _ => trivial, fun _ s h => ?_⟩
      cases h
    | chr f =>
      simp only [Pex.gram, Gram.traced]; unfold TGram.run
      refine settles_wrap i ⟨deep_lift fun _ _ => trivial, fun _ s h => ?_⟩
      change charClassFn f c = .timeout at h
      obtain ⟨o', -, h'⟩ := chr_agrees (A := fun _ => True) (rules := fun _ => .eps) (fun _ _ _ _ => trivial) (C18_charClassFn f) hc.1.1 hc.2
      rw [h] at h'
      cases o' <;> exact h'.elim
    | seq a b =>
      simp only [Pex.gram, Gram.traced, tracedList]; unfold TGram.run
      refine settles_wrap i (Settles.mono (L := d ≤ n) ?_ (Nat.le_refl _) (fun h => by omega) fun _ h => h)
      exact settles_base (settles_once (settles_iter (settles_two (IH a) (IH b) (c := { c with cls := _, status := .matched }) ⟨⟨hc.1.1, rfl⟩, hc.2⟩ hd)))
    | alt a b =>
      simp only [Pex.gram, Gram.traced, tracedList]; unfold TGram.run
      refine settles_wrap i (Settles.mono (L := d ≤ n) ?_ (Nat.le_refl _) (fun h => by omega) fun _ h => h)
      refine settles_base (settles_once (settles_iteration (Q := fun _ => True) (settles_alts (IH a) (IH b) (c := { c with cls := _, status := .matched }) ⟨⟨hc.1.1, rfl⟩, hc.2⟩ hd) ?_ ?_ ?_ ?_))
      · exact fun _ _ _ => trivial
      · exact fun _ => trivial
      · exact fun _ _ _ => trivial
      · exact fun k o ⟨_, _, h1, h2⟩ => by cases h1; exact ⟨h2, trivial⟩
    | star a =>
      simp only [Pex.gram, Gram.traced, tracedList]; unfold TGram.run
      refine settles_wrap i (Settles.mono (L := d ≤ n ∧ d ≤ n) ?_ (Nat.le_refl _) (fun h => by omega) fun _ h => h)
      exact settles_base (settles_star (IH a) _ n 0 { c with cls := _, status := .matched } t o d ⟨⟨hc.1.1, rfl⟩, hc.2⟩ hd)
    | notP a =>
      have h1 : ∃ o, TriedIn rules d a t o := by cases hd with
        | notYes h => exact ⟨_, h⟩
        | notNo h => exact ⟨_, h⟩
      obtain ⟨o', h1⟩ := h1
      simp only [Pex.gram, Gram.traced, tracedList]; unfold TGram.run
      refine settles_wrap i (Settles.mono (L := d ≤ n) ?_ (Nat.le_refl _) (fun h => by omega) fun _ h => h)
      exact settles_base (settles_once (settles_iter (settles_one (IH a) (c := { c with cls := _, status := .matched }) ⟨⟨hc.1.1, rfl⟩, hc.2⟩ h1)))
    | var j =>
      cases hd with
      | var hd =>
      simp only [Pex.gram, Gram.traced]; unfold TGram.run
      refine settles_wrap i (Settles.mono (L := d ≤ n) ?_ (Nat.le_refl _) (fun h => by omega) fun _ h => h)
      unfold light
      refine Settles.bind (P := fun _ => True) ?_ fun r _ => settles_pure trivial
      have h := IH (rules j) c t o d hc hd
      refine ⟨fun s => ?_, fun l s => h.2 l { s with clock := s.clock + 1 }⟩
      obtain ⟨m, h1, h2, h3⟩ := h.1 { s with clock := s.clock + 1 }
      exact ⟨m, h1, h2, fun r hr => ⟨trivial, (h3 r hr).2⟩⟩

end
end Takenoco
