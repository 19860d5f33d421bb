import Verif.Spec.Items
import Verif.Lemmas.BigStep
import Verif.Lemmas.Terminals
import Verif.Props.Objects
/-
Grammars over values and parsing expressions: one follows the other, step by step.
-/
namespace Takenoco.Items
open Spec hiding Agrees Peg Ford Means Went
open Spec.Items

section
variable {src : SliceSrc} {A : Ast → Prop} {c c' : Ctx} {t u v : List Value} {r : Outcome} {o : Option (List Value)}

theorem _root_.Takenoco.Spec.Items.Went.refl (hok : c.status = .matched) (ht : Before src c t) : Went src A c t c t :=
  ⟨⟨[], rfl, rfl⟩, ht, hok, rfl, rfl, [], by simp, by simp⟩

theorem _root_.Takenoco.Spec.Items.Went.trans {c'' : Ctx} (h : Went src A c t c' u) (h' : Went src A c' u c'' v) : Went src A c t c'' v := by
  obtain ⟨x, rfl, hx⟩ := h.values
  obtain ⟨y, rfl, hy⟩ := h'.values
  obtain ⟨l, hl, hl'⟩ := h.stack
  obtain ⟨m, hm, hm'⟩ := h'.stack
  refine ⟨⟨x ++ y, by simp, by rw [hy, hx, List.length_append, Nat.add_assoc]⟩, h'.before, h'.ok, h'.str.trans h.str, h'.tag.trans h.tag, l ++ m, ?_, ?_⟩
  · rw [hm, hl, List.append_assoc]
  · intro a ha
    rcases List.mem_append.1 ha with ha | ha
    · exact hl' a ha
    · exact hm' a ha

/-- Class name, quantity and length do not matter. -/
theorem _root_.Takenoco.Spec.Items.Went.congr {a b : Ctx} (h : Went src A c t c' v) (h1 : a.str = c.str) (h2 : a.pos = c.pos) (h3 : a.stack = c.stack)
    (h5 : a.tag = c.tag) (g1 : b.str = c'.str) (g2 : b.pos = c'.pos) (g3 : b.stack = c'.stack) (g4 : b.slice = c'.slice) (g5 : b.tag = c'.tag)
    (g6 : b.status = c'.status) : Went src A a t b v := by
  obtain ⟨⟨u, hu, hr⟩, i1, i2, i3, i5, new, hn, hA⟩ := h
  refine ⟨⟨u, hu, by rw [g2, hr, h2]⟩, ⟨g4.trans i1.1, by rw [g2]; exact i1.2.1, by rw [g2]; exact i1.2.2⟩, g6.trans i2, by rw [g1, i3, h1],
    by rw [g5, i5, h5], new, by rw [g3, hn, h3], hA⟩

theorem _root_.Takenoco.Spec.Items.Agrees.matched (h : Agrees src A c t (.matched c') o) : ∃ v, o = some v ∧ Went src A c t c' v := by
  cases o with
  | none => exact h.elim
  | some v => exact ⟨v, rfl, h⟩

theorem _root_.Takenoco.Spec.Items.Agrees.unmatched (h : Agrees src A c t .unmatched o) : o = none := by
  cases o with
  | none => rfl
  | some v => exact h.elim

theorem _root_.Takenoco.Spec.Items.Agrees.none (h : Agrees src A c t r none) : r = .unmatched := by
  cases r <;> first | rfl | exact h.elim

theorem _root_.Takenoco.Spec.Items.Agrees.some (h : Agrees src A c t r (some v)) : ∃ c', r = .matched c' ∧ Went src A c t c' v := by
  cases r with
  | matched c' => exact ⟨c', rfl, h⟩
  | _ => exact h.elim

/-- Only two ends are possible. -/
theorem _root_.Takenoco.Spec.Items.Agrees.ends (h : Agrees src A c t r o) : r = .unmatched ∨ ∃ c', r = .matched c' := by
  cases r <;> cases o <;> simp_all [Agrees]

/-- Changes that the combinators make to a context. -/
theorem _root_.Takenoco.Spec.Items.Agrees.change (cls : String) (h : Agrees src A (enter cls c) t r o) : Agrees src A c t (r.onMatch fun c' => .matched { c' with qty := 1 }) o := by
  rcases h.ends with rfl | ⟨c', rfl⟩
  · rw [h.unmatched]; trivial
  · obtain ⟨v, rfl, hw⟩ := h.matched
    exact hw.congr rfl rfl rfl rfl rfl rfl rfl rfl rfl rfl

end

/-! ### Parsing expressions -/

section
variable {rules : Nat → Peg} {e : Peg} {t u v : List Value} {o o' : Option (List Value)}

/-- A parsing expression has at most one result. -/
theorem ford_unique (h : Ford rules e t o) : ∀ {o'}, Ford rules e t o' → o = o' := by
  induction h with
  | eps => intro _ h; cases h; rfl
  | item h1 => intro _ h; cases h with
    | item => rfl
    | itemNot h2 => exact absurd h1 h2
  | itemNot h1 => intro _ h; cases h with
    | item h2 => exact absurd h2 h1
    | itemNot => rfl
  | itemEnd => intro _ h; cases h; rfl
  | seq _ _ ih1 ih2 => intro _ h; cases h with
    | seq h1 h2 => have := ih1 h1; cases this; exact ih2 h2
    | seqFail h1 => have := ih1 h1; cases this
  | seqFail _ ih => intro _ h; cases h with
    | seq h1 h2 => have := ih h1; cases this
    | seqFail h1 => rfl
  | altLeft _ ih => intro _ h; cases h with
    | altLeft h1 => exact ih h1
    | altRight h1 _ => have := ih h1; cases this
  | altRight _ _ ih1 ih2 => intro _ h; cases h with
    | altLeft h1 => have := ih1 h1; cases this
    | altRight _ h2 => exact ih2 h2
  | starEnd _ ih => intro _ h; cases h with
    | starEnd => rfl
    | starMore h1 _ => have := ih h1; cases this
  | starMore _ _ ih1 ih2 => intro _ h; cases h with
    | starEnd h1 => have := ih1 h1; cases this
    | starMore h1 h2 => have := ih1 h1; cases this; exact ih2 h2
  | notYes _ ih => intro _ h; cases h with
    | notYes => rfl
    | notNo h1 => have := ih h1; cases this
  | notNo _ ih => intro _ h; cases h with
    | notYes h1 => have := ih h1; cases this
    | notNo => rfl
  | var _ ih => intro _ h; cases h with
    | var h1 => exact ih h1

/-- A match leaves a rest of the text. -/
theorem ford_suffix (h : Ford rules e t o) : ∀ v, o = some v → ∃ u, t = u ++ v := by
  induction h with
  | eps => rintro _ ⟨⟩; exact ⟨[], rfl⟩
  | @item S ch t _ => rintro _ ⟨⟩; exact ⟨[ch], rfl⟩
  | itemNot | itemEnd | seqFail | notNo => rintro _ ⟨⟩
  | seq _ _ ih1 ih2 =>
    intro v hv
    obtain ⟨x, rfl⟩ := ih1 _ rfl
    obtain ⟨y, rfl⟩ := ih2 v hv
    exact ⟨x ++ y, by simp⟩
  | altLeft _ ih => exact ih
  | altRight _ _ _ ih => exact ih
  | starEnd => rintro _ ⟨⟩; exact ⟨[], rfl⟩
  | starMore _ _ ih1 ih2 =>
    intro v hv
    obtain ⟨x, rfl⟩ := ih1 _ rfl
    obtain ⟨y, rfl⟩ := ih2 v hv
    exact ⟨x ++ y, by simp⟩
  | notYes => rintro _ ⟨⟩; exact ⟨[], rfl⟩
  | var _ ih => exact ih

/-- A repetition does not fail. -/
theorem star_some {a : Peg} (h : Ford rules (.star a) t o) : o ≠ none := by
  generalize he : Peg.star a = e at h
  induction h with
  | starEnd => simp
  | starMore _ _ _ ih => exact ih he
  | _ => cases he

/-- Derivations of at most a given depth, counting nonterminals and iterations. -/
inductive FordN (rules : Nat → Peg) : Nat → Peg → List Value → Option (List Value) → Prop where
  | eps {n : Nat} {t : List Value} : FordN rules n .eps t (some t)
  | item {n : Nat} {S : Value → Prop} {ch : Value} {t : List Value} : S ch → FordN rules n (.item S) (ch :: t) (some t)
  | itemNot {n : Nat} {S : Value → Prop} {ch : Value} {t : List Value} : ¬ S ch → FordN rules n (.item S) (ch :: t) none
  | itemEnd {n : Nat} {S : Value → Prop} : FordN rules n (.item S) [] none
  | seq {n : Nat} {a b : Peg} {t u : List Value} {r : Option (List Value)} : FordN rules n a t (some u) → FordN rules n b u r → FordN rules n (.seq a b) t r
  | seqFail {n : Nat} {a b : Peg} {t : List Value} : FordN rules n a t none → FordN rules n (.seq a b) t none
  | altLeft {n : Nat} {a b : Peg} {t u : List Value} : FordN rules n a t (some u) → FordN rules n (.alt a b) t (some u)
  | altRight {n : Nat} {a b : Peg} {t : List Value} {r : Option (List Value)} : FordN rules n a t none → FordN rules n b t r → FordN rules n (.alt a b) t r
  | starEnd {n : Nat} {a : Peg} {t : List Value} : FordN rules n a t none → FordN rules n (.star a) t (some t)
  | starMore {n : Nat} {a : Peg} {t u : List Value} {r : Option (List Value)} : FordN rules n a t (some u) → FordN rules n (.star a) u r → FordN rules (n + 1) (.star a) t r
  | notYes {n : Nat} {a : Peg} {t : List Value} : FordN rules n a t none → FordN rules n (.notP a) t (some t)
  | notNo {n : Nat} {a : Peg} {t u : List Value} : FordN rules n a t (some u) → FordN rules n (.notP a) t none
  | var {n i : Nat} {t : List Value} {r : Option (List Value)} : FordN rules n (rules i) t r → FordN rules (n + 1) (.var i) t r

theorem FordN.mono {n m : Nat} (h : FordN rules n e t o) (hm : n ≤ m) : FordN rules m e t o := by
  induction h generalizing m with
  | eps => exact .eps
  | item h => exact .item h
  | itemNot h => exact .itemNot h
  | itemEnd => exact .itemEnd
  | seq _ _ ih1 ih2 => exact .seq (ih1 hm) (ih2 hm)
  | seqFail _ ih => exact .seqFail (ih hm)
  | altLeft _ ih => exact .altLeft (ih hm)
  | altRight _ _ ih1 ih2 => exact .altRight (ih1 hm) (ih2 hm)
  | starEnd _ ih => exact .starEnd (ih hm)
  | starMore _ _ ih1 ih2 =>
    obtain ⟨m, rfl⟩ : ∃ k, m = k + 1 := ⟨m - 1, by omega⟩
    exact .starMore (ih1 (by omega)) (ih2 (by omega))
  | notYes _ ih => exact .notYes (ih hm)
  | notNo _ ih => exact .notNo (ih hm)
  | var _ ih =>
    obtain ⟨m, rfl⟩ : ∃ k, m = k + 1 := ⟨m - 1, by omega⟩
    exact .var (ih (by omega))

theorem fordN_of (h : Ford rules e t o) : ∃ n, FordN rules n e t o := by
  induction h with
  | eps => exact ⟨0, .eps⟩
  | item h => exact ⟨0, .item h⟩
  | itemNot h => exact ⟨0, .itemNot h⟩
  | itemEnd => exact ⟨0, .itemEnd⟩
  | seq _ _ ih1 ih2 =>
    obtain ⟨n, h1⟩ := ih1; obtain ⟨m, h2⟩ := ih2
    exact ⟨n + m, .seq (h1.mono (by omega)) (h2.mono (by omega))⟩
  | seqFail _ ih => obtain ⟨n, h⟩ := ih; exact ⟨n, .seqFail h⟩
  | altLeft _ ih => obtain ⟨n, h⟩ := ih; exact ⟨n, .altLeft h⟩
  | altRight _ _ ih1 ih2 =>
    obtain ⟨n, h1⟩ := ih1; obtain ⟨m, h2⟩ := ih2
    exact ⟨n + m, .altRight (h1.mono (by omega)) (h2.mono (by omega))⟩
  | starEnd _ ih => obtain ⟨n, h⟩ := ih; exact ⟨n, .starEnd h⟩
  | starMore _ _ ih1 ih2 =>
    obtain ⟨n, h1⟩ := ih1; obtain ⟨m, h2⟩ := ih2
    exact ⟨n + m + 1, .starMore (h1.mono (by omega)) (h2.mono (by omega))⟩
  | notYes _ ih => obtain ⟨n, h⟩ := ih; exact ⟨n, .notYes h⟩
  | notNo _ ih => obtain ⟨n, h⟩ := ih; exact ⟨n, .notNo h⟩
  | var _ ih => obtain ⟨n, h⟩ := ih; exact ⟨n + 1, .var h⟩

theorem FordN.ford {n : Nat} (h : FordN rules n e t o) : Ford rules e t o := by
  induction h with
  | eps => exact .eps
  | item h => exact .item h
  | itemNot h => exact .itemNot h
  | itemEnd => exact .itemEnd
  | seq _ _ ih1 ih2 => exact .seq ih1 ih2
  | seqFail _ ih => exact .seqFail ih
  | altLeft _ ih => exact .altLeft ih
  | altRight _ _ ih1 ih2 => exact .altRight ih1 ih2
  | starEnd _ ih => exact .starEnd ih
  | starMore _ _ ih1 ih2 => exact .starMore ih1 ih2
  | notYes _ ih => exact .notYes ih
  | notNo _ ih => exact .notNo ih
  | var _ ih => exact .var ih
end


/-! ### Terminals -/

section
variable {src : SliceSrc} {A : Ast → Prop} {rules : Nat → Peg} {c : Ctx} {t : List Value}

theorem ahead_cons {w : Value} (ht : Before src c (w :: t)) : src.items[c.pos]? = some w ∧ w ∈ src.items ∧ c.pos < src.items.length := by
  have h := ht.2.2
  have h1 : src.items[c.pos]? = some w := by
    have := congrArg (·[0]?) h
    simpa using this
  exact ⟨h1, List.mem_of_getElem? h1, (List.getElem?_eq_some_iff.1 h1).1⟩

theorem ahead_nil (ht : Before src c []) : c.pos = src.items.length ∧ src.items[c.pos]? = none := by
  have := List.drop_eq_nil_iff.1 ht.2.2
  have h := ht.2.1
  exact ⟨by omega, by simpa using this⟩

theorem objAdvance_went {cls : String} {ty : AstType} {x : Value} {u v : List Value} (ht : Before src c t) (h : t = u ++ v)
    (hx : ∀ pos len, A { opCode := 0, cls := cls, ty := ty, val := x, pos := pos, len := len }) :
    Went src A c t (objAdvance cls ty x u.length c) v := by
  have hl := congrArg List.length (ht.2.2.trans h)
  have hin := ht.2.1
  simp at hl
  refine ⟨⟨u, h, rfl⟩, ⟨ht.1, by show c.pos + u.length ≤ _; omega, ?_⟩, rfl, rfl, rfl, _, rfl, ?_⟩
  · show src.items.drop (c.pos + u.length) = v
    rw [← List.drop_drop, ht.2.2, h, List.drop_left]
  · intro a ha
    rw [List.mem_singleton.1 ha]; exact hx _ _

theorem item_agrees (hA : Tokens src A) {p : Sem} {S : Value → Prop} {cls : String} {ty : AstType} (ht : Before src c t)
    (h : ∀ w, src.items[c.pos]? = some w → w ∈ src.items → (S w ∧ p c = .ok (objAdvance cls ty w 1 c, none)) ∨ (¬ S w ∧ p c = .ok (refuse cls c, none)))
    (h' : src.items[c.pos]? = none → p c = .ok (refuse cls c, none)) :
    ∃ o, Ford rules (.item S) t o ∧ Agrees src A c t (Outcome.of (p c)) o := by
  cases t with
  | nil => rw [h' (ahead_nil ht).2]; exact ⟨none, .itemEnd, trivial⟩
  | cons w t =>
    obtain ⟨h1, h2, _⟩ := ahead_cons ht
    rcases h w h1 h2 with ⟨hS, he⟩ | ⟨hS, he⟩
    · rw [he]
      exact ⟨some t, .item hS, objAdvance_went (u := [w]) ht rfl (hA.1 _ _ _ h2)⟩
    · rw [he]; exact ⟨none, .itemNot hS, trivial⟩

theorem end_agrees (ht : Before src c t) : ∃ o, Ford rules (.notP .any) t o ∧ Agrees src A c t (Outcome.of (objEnd c)) o := by
  cases t with
  | nil =>
    rw [(C29_end c src ht.1).1 (ahead_nil ht).1]
    exact ⟨_, .notYes .itemEnd, ⟨[], rfl, rfl⟩, ht, rfl, rfl, rfl, [], by simp, by simp⟩
  | cons w t =>
    have := (ahead_cons ht).2.2
    rw [(C29_end c src ht.1).2 (by omega)]
    exact ⟨none, .notNo (.item trivial), trivial⟩

theorem anys_ford (n : Nat) : ∀ t, (∃ u v, t = u ++ v ∧ u.length = n ∧ Ford rules (.anys n) t (some v)) ∨ (t.length < n ∧ Ford rules (.anys n) t none) := by
  induction n with
  | zero => exact fun t => .inl ⟨[], t, rfl, rfl, .eps⟩
  | succ n ih =>
    intro t
    cases t with
    | nil => exact .inr ⟨by simp, .seqFail .itemEnd⟩
    | cons x t =>
      rcases ih t with ⟨u, v, rfl, hu, h⟩ | ⟨h1, h⟩
      · exact .inl ⟨x :: u, v, rfl, by simp [hu], .seq (.item trivial) h⟩
      · exact .inr ⟨by simpa using h1, .seq (.item trivial) h⟩

theorem objSeq_agrees (hA : Tokens src A) {vs : List Value} (h : ∀ s ∈ vs, Compares src s) (ht : Before src c t) :
    ∃ o, Ford rules (.anys vs.length) t o ∧ Agrees src A c t (Outcome.of (objSeq vs c)) o := by
  have hl : t.length = src.items.length - c.pos := by rw [← ht.2.2]; simp
  have hin := ht.2.1
  rcases anys_ford (rules := rules) vs.length t with ⟨u, v, rfl, hu, hf⟩ | ⟨hlt, hf⟩
  · rw [C30_seq_exact vs c src ht.1 (fun w hw s hs => h s hs w hw) (by simp at hl; omega), ht.2.2, ← hu, List.take_left]
    refine ⟨some v, hu ▸ hf, objAdvance_went ht rfl (hA.2 u fun w hw => List.mem_of_mem_drop (i := c.pos) ?_)⟩
    rw [ht.2.2]; simp [hw]
  · rw [(C30_seq_partial vs c src ht.1).2 (by omega)]
    exact ⟨none, hf, trivial⟩

theorem objClass_agrees (hA : Tokens src A) {oc : List Value} (h : ∀ s ∈ oc, Compares src s) (ht : Before src c t) :
    ∃ o, Ford rules (.item (OneOf src oc)) t o ∧ Agrees src A c t (Outcome.of (objClass oc c)) o := by
  obtain ⟨h1, h2⟩ := C29_objClass oc c src ht.1
  refine item_agrees (cls := ":object:ObjClass") (ty := .any) hA ht (fun w hw hm => ?_) h2
  obtain ⟨g1, g2⟩ := h1 w hw (fun s hs => h s hs w hm)
  by_cases hS : OneOf src oc w
  · exact .inl ⟨hS, g1 hS⟩
  · exact .inr ⟨hS, g2 hS⟩

theorem objClassN_agrees (hA : Tokens src A) {oc : List Value} (h : ∀ s ∈ oc, Compares src s) (ht : Before src c t) :
    ∃ o, Ford rules (.item fun w => ¬ OneOf src oc w) t o ∧ Agrees src A c t (Outcome.of (objClassN oc c)) o := by
  obtain ⟨h1, h2⟩ := C29_objClassN oc c src ht.1
  refine item_agrees (cls := ":object:ObjClassN") (ty := .string) hA ht (fun w hw hm => ?_) h2
  obtain ⟨g1, g2⟩ := h1 w hw (fun s hs => h s hs w hm)
  by_cases hS : OneOf src oc w
  · exact .inr ⟨fun h => h hS, g1 hS⟩
  · exact .inl ⟨hS, g2 hS⟩

theorem objClassFn_agrees (hA : Tokens src A) {fn : Value → Out Bool} (h : ∀ w ∈ src.items, ∃ b, fn w = .ok b) (ht : Before src c t) :
    ∃ o, Ford rules (.item fun w => fn w = .ok true) t o ∧ Agrees src A c t (Outcome.of (objClassFn fn c)) o := by
  obtain ⟨h1, h2⟩ := C29_objClassFn fn c src ht.1
  refine item_agrees (cls := ":object:ObjClassFn") (ty := .any) hA ht (fun w hw hm => ?_) h2
  obtain ⟨g1, g2⟩ := h1 w hw
  obtain ⟨b, hb⟩ := h w hm
  cases b with
  | true => exact .inl ⟨hb, g1 hb⟩
  | false => exact .inr ⟨by rw [hb]; simp, g2 hb⟩

theorem zeroP_agrees {asts : List Ast} (h : ∀ a ∈ asts, ∀ p l, A { a with pos := p, len := l }) (ht : Before src c t) :
    Agrees src A c t (Outcome.of (zeroP asts c)) (some t) := by
  rw [zeroP_eq]
  refine ⟨⟨[], rfl, rfl⟩, ht, rfl, rfl, rfl, _, rfl, ?_⟩
  intro a ha
  obtain ⟨b, hb, rfl⟩ := List.mem_map.1 ha
  exact h b hb _ _

end

/-! ### From the engine to parsing expressions -/

section
variable {src : SliceSrc} {A : Ast → Prop} {env : Env} {rules : Nat → Peg} {c c' : Ctx} {t v : List Value} {r : Outcome} {o : Option (List Value)} {e : Peg}

/-- A repetition that has matched often enough does not fail. -/
theorem reps_some {tm : Times} {gs : List Gram} {k : Nat} (h : Means src A (.reps tm gs k) e) (hk : tm.min ≤ k) (hf : Ford rules e t none) : False := by
  cases h with
  | repsMore _ h => omega
  | repsMaybe => cases hf with
    | altRight _ h => cases h
  | repsDone => cases hf
  | repsStar => exact star_some hf rfl

/-- The end of a repetition at a text at which the expression matches nothing. -/
theorem repEnd_agrees {tm : Times} {k : Nat} (hok : c.status = .matched) (ht : Before src c t) (hk : tm.min ≤ k) :
    Agrees src A c t (repEnd tm k c) (some t) := by
  unfold repEnd
  rw [if_pos hk]
  exact (Went.refl hok ht).congr rfl rfl rfl rfl rfl rfl rfl rfl rfl rfl

theorem _root_.Takenoco.Spec.Items.Agrees.step (h : Went src A c t c' v) (h' : Agrees src A c' v r o) : Agrees src A c t r o := by
  rcases h'.ends with rfl | ⟨c'', rfl⟩
  · rw [h'.unmatched]; trivial
  · obtain ⟨w, rfl, hw⟩ := h'.matched
    exact h.trans hw

/-- What a transformation makes of the new ASTs. -/
theorem rewrites_went {fs : List TSem} (hs : Succeeds A fs) (hw : Went src A (enter ":base:Trans" c) t c' v)
    (h : Rewrites { c with cls := ":base:Trans" } fs c.stack.length { c' with qty := 1 } r) : Agrees src A c t r (some v) := by
  obtain ⟨new, hn, hA⟩ := hw.stack
  have hn : c'.stack = c.stack ++ new := hn
  obtain ⟨l', hp, hl'⟩ := hs { c with cls := ":base:Trans" } new hA
  have hg : Rewrites { c with cls := ":base:Trans" } fs c.stack.length { c' with qty := 1 }
      (.matched { c' with qty := 1, stack := c.stack ++ l', status := .matched }) := by
    have := Rewrites.ok (ctx := { c with cls := ":base:Trans" }) (fs := fs) (n := c.stack.length) (c := { c' with qty := 1 }) (l := l')
      (by show _ ≤ c'.stack.length; rw [hn]; simp) (by show Pipe _ _ (c'.stack.drop _) _; rw [hn, List.drop_left]; exact hp)
    simpa only [hn, List.take_left] using this
  have e1 := rewrites_iff (ctx := { c with cls := ":base:Trans" }) (out := { c' with qty := 1 }) hw.ok h
  have e2 := rewrites_iff (ctx := { c with cls := ":base:Trans" }) (out := { c' with qty := 1 }) hw.ok hg
  rw [← e1, e2]
  refine ⟨hw.values, hw.before, rfl, hw.str, hw.tag, l', rfl, hl'⟩

theorem trans_rewrites {fs : List TSem} (hs : Succeeds A fs) (hw : Went src A (enter ":base:Trans" c) t c' v) :
    ∃ r, Rewrites { c with cls := ":base:Trans" } fs c.stack.length { c' with qty := 1 } r := by
  obtain ⟨new, hn, hA⟩ := hw.stack
  have hn : c'.stack = c.stack ++ new := hn
  obtain ⟨l', hp, _⟩ := hs { c with cls := ":base:Trans" } new hA
  exact ⟨_, .ok (l := l') (by show _ ≤ c'.stack.length; rw [hn]; simp) (by show Pipe _ _ (c'.stack.drop _) _; rw [hn, List.drop_left]; exact hp)⟩

theorem group_agrees (hg : ∀ l, (∀ a ∈ l, A a) → A { Ast.zero with cls := ":base:Group", ty := .listOfAst, val := .list l })
    (h : Agrees src A (enter ":base:Group" c) t r o) : Agrees src A c t (r.onMatch fun c' =>
        if c'.stack.length < c.stack.length then .panicked .index
        else .matched { c' with
          qty := 1
          stack := c'.stack.take c.stack.length ++
            [{ Ast.zero with cls := ":base:Group", ty := .listOfAst,
                             val := .list (c'.stack.drop c.stack.length) }] }) o := by
  rcases h.ends with rfl | ⟨c', rfl⟩
  · rw [h.unmatched]; trivial
  · obtain ⟨v, rfl, hw⟩ := h.matched
    obtain ⟨new, hn, hA⟩ := hw.stack
    have hn : c'.stack = c.stack ++ new := hn
    simp only [Outcome.onMatch]
    rw [if_neg (by rw [hn]; simp)]
    refine ⟨hw.values, hw.before, hw.ok, hw.str, hw.tag, _, by rw [hn, List.take_left], ?_⟩
    intro a ha
    rw [List.mem_singleton.1 ha, List.drop_left]
    exact hg new hA

theorem lookAhead_agrees (hok : c.status = .matched) (ht : Before src c t) (hf : Ford rules e t o) (h : Agrees src A (enter ":base:LookAhead" c) t r o) :
    ∃ o', Ford rules (.notP (.notP e)) t o' ∧ Agrees src A c t (r.onMatch fun _ => .matched { c with cls := ":base:LookAhead" }) o' := by
  rcases h.ends with rfl | ⟨c', rfl⟩
  · rw [h.unmatched] at hf
    exact ⟨none, .notNo (.notYes hf), trivial⟩
  · obtain ⟨v, rfl, hw⟩ := h.matched
    exact ⟨some t, .notYes (.notNo hf), (Went.refl hok ht).congr rfl rfl rfl rfl rfl rfl rfl rfl rfl rfl⟩

theorem indirect_agrees (h : Agrees src A c t r o) : Agrees src A c t (lightOutcome ":base:Indirect" r) o := by
  rcases h.ends with rfl | ⟨c', rfl⟩
  · exact h
  · obtain ⟨v, rfl, hw⟩ := h.matched
    exact hw.congr rfl rfl rfl rfl rfl rfl rfl rfl rfl rfl

theorem prim_agrees (hA : Tokens src A) {p : Sem} (h : Means src A (.gram (.prim p)) e) (ht : Before src c t) :
    ∃ o, Ford rules e t o ∧ Agrees src A c t (Outcome.of (p c)) o := by
  cases h with
  | any => exact item_agrees hA ht (fun w hw _ => .inl ⟨trivial, (C29_any c src ht.1).1 w hw⟩) (C29_any c src ht.1).2
  | «end» => exact end_agrees ht
  | objClass h => exact objClass_agrees hA h ht
  | objClassN h => exact objClassN_agrees hA h ht
  | objClassFn h => exact objClassFn_agrees hA h ht
  | objSeq h => exact objSeq_agrees hA h ht
  | zero h => exact ⟨_, .eps, zeroP_agrees h ht⟩
  | unmatched =>
    refine ⟨none, ?_, by rw [unmatchedP_eq]; trivial⟩
    cases t with
    | nil => exact .itemEnd
    | cons => exact .itemNot id

/-- What the specification of the engine derives, the parsing expression does. -/
theorem parses_ford (hA : Tokens src A) (henv : ∀ i, Means src A (.gram (env i)) (rules i)) {j : Judg} (h : Parses env j c r) : ∀ e t, Means src A j e →
    c.status = .matched → Before src c t → ∃ o, Ford rules e t o ∧ Agrees src A c t r o := by
  induction h with
  | seqNil => intro e t hm hok ht; cases hm; exact ⟨_, .eps, .refl hok ht⟩
  | seqCons _ _ ih1 ih2 =>
    intro e t hm hok ht
    cases hm with
    | seqCons m1 m2 =>
      obtain ⟨o, h1, a1⟩ := ih1 _ _ m1 hok ht
      obtain ⟨v, rfl, hw⟩ := a1.matched
      obtain ⟨o, h2, a2⟩ := ih2 _ _ m2 hw.ok hw.before
      exact ⟨o, .seq h1 h2, a2.step hw⟩
  | seqStop _ hne ih =>
    intro e t hm hok ht
    cases hm with
    | seqCons m1 m2 =>
      obtain ⟨o, h1, a1⟩ := ih _ _ m1 hok ht
      rcases a1.ends with rfl | ⟨c', rfl⟩
      · rw [a1.unmatched] at h1
        exact ⟨none, .seqFail h1, trivial⟩
      · exact absurd rfl (hne c')
  | choiceNil => intro e t hm; cases hm
  | @choiceNext g gs c r h1 h2 ih1 ih2 =>
    intro e t hm hok ht
    cases hm with
    | choiceOne m1 =>
      obtain ⟨o, h1, a1⟩ := ih1 _ _ m1 hok ht
      cases h2
      exact ⟨o, h1, a1⟩
    | choiceCons _ m1 m2 =>
      obtain ⟨o, h1, a1⟩ := ih1 _ _ m1 hok ht
      rw [a1.unmatched] at h1
      obtain ⟨o, h2, a2⟩ := ih2 _ _ m2 hok ht
      exact ⟨o, .altRight h1 h2, a2⟩
  | choiceTake _ hne ih =>
    intro e t hm hok ht
    cases hm with
    | choiceOne m1 => exact ih _ _ m1 hok ht
    | choiceCons _ m1 m2 =>
      obtain ⟨o, h1, a1⟩ := ih _ _ m1 hok ht
      rcases a1.ends with rfl | ⟨c', rfl⟩
      · exact absurd rfl hne
      · obtain ⟨v, rfl, hw⟩ := a1.matched
        exact ⟨_, .altLeft h1, hw⟩
  | repsMax hk =>
    intro e t hm hok ht
    cases hm with
    | repsMore h => exact absurd hk h
    | repsMaybe h => exact absurd hk h
    | repsDone _ h => exact ⟨_, .eps, repEnd_agrees hok ht h⟩
    | repsStar h => omega
  | @repsEnd tm gs k c hk _ ih =>
    intro e t hm hok ht
    cases hm with
    | repsMore _ hlt m1 m2 =>
      obtain ⟨o, h1, a1⟩ := ih _ _ m1 hok ht
      rw [a1.unmatched] at h1
      refine ⟨none, .seqFail h1, ?_⟩
      unfold repEnd
      rw [if_neg (by omega)]; trivial
    | repsMaybe _ hle m1 m2 =>
      obtain ⟨o, h1, a1⟩ := ih _ _ m1 hok ht
      rw [a1.unmatched] at h1
      exact ⟨_, .altRight (.seqFail h1) .eps, repEnd_agrees hok ht hle⟩
    | repsDone h => exact absurd h hk
    | repsStar _ hle m1 =>
      obtain ⟨o, h1, a1⟩ := ih _ _ m1 hok ht
      rw [a1.unmatched] at h1
      exact ⟨_, .starEnd h1, repEnd_agrees hok ht hle⟩
  | repsFail hk _ hu hne ih =>
    intro e t hm hok ht
    have : ∀ {a}, Means src A (.seq _) a → False := fun m1 => by
      obtain ⟨o, h1, a1⟩ := ih _ _ m1 hok ht
      rcases a1.ends with rfl | ⟨c', rfl⟩
      · exact hu rfl
      · exact hne c' rfl
    cases hm with
    | repsMore _ _ m1 => exact (this m1).elim
    | repsMaybe _ _ m1 => exact (this m1).elim
    | repsDone h => exact absurd h hk
    | repsStar _ _ m1 => exact (this m1).elim
  | repsNext hk _ _ ih1 ih2 =>
    intro e t hm hok ht
    cases hm with
    | repsMore _ hlt m1 m2 =>
      obtain ⟨o, h1, a1⟩ := ih1 _ _ m1 hok ht
      obtain ⟨v, rfl, hw⟩ := a1.matched
      obtain ⟨o, h2, a2⟩ := ih2 _ _ m2 hw.ok hw.before
      exact ⟨o, .seq h1 h2, by refine Agrees.step ?_ a2; exact hw.congr rfl rfl rfl rfl rfl rfl rfl rfl rfl rfl⟩
    | repsMaybe _ hle m1 m2 =>
      obtain ⟨o, h1, a1⟩ := ih1 _ _ m1 hok ht
      obtain ⟨v, rfl, hw⟩ := a1.matched
      obtain ⟨o, h2, a2⟩ := ih2 _ _ m2 hw.ok hw.before
      cases o with
      | none => exact (reps_some m2 (by omega) h2).elim
      | some w => exact ⟨_, .altLeft (.seq h1 h2), by refine Agrees.step ?_ a2; exact hw.congr rfl rfl rfl rfl rfl rfl rfl rfl rfl rfl⟩
    | repsDone h => exact absurd h hk
    | repsStar hneg hle m1 =>
      obtain ⟨o, h1, a1⟩ := ih1 _ _ m1 hok ht
      obtain ⟨v, rfl, hw⟩ := a1.matched
      obtain ⟨o, h2, a2⟩ := ih2 _ _ (.repsStar hneg (by omega) m1) hw.ok hw.before
      exact ⟨o, .starMore h1 h2, by refine Agrees.step ?_ a2; exact hw.congr rfl rfl rfl rfl rfl rfl rfl rfl rfl rfl⟩
  | prim h hne =>
    intro e t hm hok ht
    rw [← h]; exact prim_agrees hA hm ht
  | flatGroup _ ih =>
    intro e t hm hok ht
    cases hm with
    | flatGroup m =>
      obtain ⟨o, h1, a1⟩ := ih _ _ m rfl ht
      exact ⟨o, h1, a1.change⟩
  | group _ ih =>
    intro e t hm hok ht
    cases hm with
    | group m hg =>
      obtain ⟨o, h1, a1⟩ := ih _ _ m rfl ht
      exact ⟨o, h1, group_agrees hg a1⟩
  | first _ _ ih =>
    intro e t hm hok ht
    cases hm with
    | first _ m =>
      obtain ⟨o, h1, a1⟩ := ih _ _ m rfl ht
      exact ⟨o, h1, a1.change⟩
  | firstNil =>
    intro e t hm
    cases hm with
    | first h => exact absurd rfl h
  | lookAhead _ ih =>
    intro e t hm hok ht
    cases hm with
    | lookAhead m =>
      obtain ⟨o, h1, a1⟩ := ih _ _ m rfl ht
      exact lookAhead_agrees hok ht h1 a1
  | lookAheadN_no _ ih =>
    intro e t hm hok ht
    cases hm with
    | lookAheadN m =>
      obtain ⟨o, h1, a1⟩ := ih _ _ m rfl ht
      obtain ⟨v, rfl, hw⟩ := a1.matched
      exact ⟨none, .notNo h1, trivial⟩
  | lookAheadN_yes _ ih =>
    intro e t hm hok ht
    cases hm with
    | lookAheadN m =>
      obtain ⟨o, h1, a1⟩ := ih _ _ m rfl ht
      rw [a1.unmatched] at h1
      exact ⟨some t, .notYes h1, (Went.refl hok ht).congr rfl rfl rfl rfl rfl rfl rfl rfl rfl rfl⟩
  | lookAheadN_stop _ hu hne ih =>
    intro e t hm hok ht
    cases hm with
    | lookAheadN m =>
      obtain ⟨o, h1, a1⟩ := ih _ _ m rfl ht
      rcases a1.ends with rfl | ⟨c', rfl⟩
      · exact absurd rfl hu
      · exact absurd rfl (hne c')
  | «repeat» _ ih =>
    intro e t hm hok ht
    cases hm with
    | «repeat» m =>
      obtain ⟨o, h1, a1⟩ := ih _ _ m rfl ht
      rcases a1.ends with rfl | ⟨c', rfl⟩
      · rw [a1.unmatched] at h1; exact ⟨none, h1, trivial⟩
      · obtain ⟨v, rfl, hw⟩ := a1.matched
        exact ⟨_, h1, hw.congr rfl rfl rfl rfl rfl rfl rfl rfl rfl rfl⟩
  | trans_stop _ hne ih =>
    intro e t hm hok ht
    cases hm with
    | trans m =>
      obtain ⟨o, h1, a1⟩ := ih _ _ m rfl ht
      rcases a1.ends with rfl | ⟨c', rfl⟩
      · rw [a1.unmatched] at h1; exact ⟨none, h1, trivial⟩
      · exact absurd rfl (hne c')
  | @trans_none g c c' _ ih =>
    intro e t hm hok ht
    generalize hg : Gram.trans g [] = g' at hm
    cases hm with
    | trans m =>
      injection hg with e1 e2
      subst e1
      obtain ⟨o, h1, a1⟩ := ih _ _ m rfl ht
      obtain ⟨v, rfl, hw⟩ := a1.matched
      exact ⟨_, h1, hw.congr rfl rfl rfl rfl rfl rfl rfl rfl rfl rfl⟩
    | _ => cases hg
  | @trans g fs c c' r _ hfs hrw ih =>
    intro e t hm hok ht
    generalize hg : Gram.trans g (fs.map .fn) = g' at hm
    cases hm with
    | @trans _ fs' _ m hs =>
      injection hg with h1 h2
      subst h1
      have : fs = fs' := (List.map_inj_right fun _ _ h => Tr.fn.inj h).1 h2
      subst this
      obtain ⟨o, h1, a1⟩ := ih _ _ m rfl ht
      obtain ⟨v, rfl, hw⟩ := a1.matched
      exact ⟨_, h1, rewrites_went hs hw hrw⟩
    | _ => cases hg
  | indirect _ ih =>
    intro e t hm hok ht
    cases hm with
    | indirect =>
      obtain ⟨o, h1, a1⟩ := ih _ _ (henv _) hok ht
      exact ⟨o, .var h1, indirect_agrees a1⟩
  | lookBehind | lookBehind_none | lookBehindN | lookBehindN_none | match_none | match_range | «match» => intro e t hm; cases hm

/-! ### From parsing expressions to the engine -/

/-- The statement of the induction below. -/
def Follows (src : SliceSrc) (A : Ast → Prop) (env : Env) (rules : Nat → Peg) (n : Nat) (j : Judg) (e : Peg) : Prop :=
  ∀ c t o, FordN rules n e t o → c.status = .matched → Before src c t → ∃ r, Parses env j c r ∧ Agrees src A c t r o

theorem prim_follows (hA : Tokens src A) {n : Nat} {p : Sem} (h : Means src A (.gram (.prim p)) e) : Follows src A env rules n (.gram (.prim p)) e := by
  intro c t o hf hok ht
  obtain ⟨o', h1, a1⟩ := prim_agrees (rules := rules) hA h ht
  cases ford_unique h1 hf.ford
  refine ⟨_, .prim rfl ?_, a1⟩
  intro h0
  rw [h0] at a1
  exact a1.elim

theorem seq_follows {n : Nat} {a b : Peg} {g : Gram} {gs : List Gram} (h1 : Follows src A env rules n (.gram g) a)
    (h2 : Follows src A env rules n (.seq gs) b) : Follows src A env rules n (.seq (g :: gs)) (.seq a b) := by
  intro c t o hf hok ht
  cases hf with
  | seq f1 f2 =>
    obtain ⟨r, p1, a1⟩ := h1 c t _ f1 hok ht
    obtain ⟨c', rfl, hw⟩ := a1.some
    obtain ⟨r, p2, a2⟩ := h2 c' _ _ f2 hw.ok hw.before
    exact ⟨r, .seqCons p1 p2, a2.step hw⟩
  | seqFail f1 =>
    obtain ⟨r, p1, a1⟩ := h1 c t _ f1 hok ht
    cases a1.none
    exact ⟨_, .seqStop p1 (fun _ h => by cases h), trivial⟩

/-- What the parsing expression does, the specification of the engine derives. -/
theorem ford_parses (hA : Tokens src A) (henv : ∀ i, Means src A (.gram (env i)) (rules i)) : ∀ n {j : Judg} {e : Peg}, Means src A j e → Follows src A env rules n j e := by
  intro n
  induction n using Nat.strongRecOn with
  | ind n outer =>
  intro j e' hm
  induction hm with
  | any => exact prim_follows hA .any
  | objClass h => exact prim_follows hA (.objClass h)
  | objClassN h => exact prim_follows hA (.objClassN h)
  | objClassFn h => exact prim_follows hA (.objClassFn h)
  | objSeq h => exact prim_follows hA (.objSeq h)
  | zero h => exact prim_follows hA (.zero h)
  | unmatched => exact prim_follows hA .unmatched
  | «end» => exact prim_follows hA .end
  | seqNil =>
    intro c t o hf hok ht
    cases hf
    exact ⟨_, .seqNil, .refl hok ht⟩
  | seqCons _ _ ih1 ih2 => exact seq_follows ih1 ih2
  | choiceOne _ ih =>
    intro c t o hf hok ht
    obtain ⟨r, p1, a1⟩ := ih c t o hf hok ht
    rcases a1.ends with rfl | ⟨c', rfl⟩
    · exact ⟨_, .choiceNext p1 .choiceNil, a1⟩
    · exact ⟨_, .choiceTake p1 (fun h => by cases h), a1⟩
  | choiceCons _ _ _ ih1 ih2 =>
    intro c t o hf hok ht
    cases hf with
    | altLeft f1 =>
      obtain ⟨r, p1, a1⟩ := ih1 c t _ f1 hok ht
      obtain ⟨c', rfl, hw⟩ := a1.some
      exact ⟨_, .choiceTake p1 (fun h => by cases h), hw⟩
    | altRight f1 f2 =>
      obtain ⟨r, p1, a1⟩ := ih1 c t _ f1 hok ht
      cases a1.none
      obtain ⟨r, p2, a2⟩ := ih2 c t _ f2 hok ht
      exact ⟨r, .choiceNext p1 p2, a2⟩
  | @repsMore tm gs k a b hk hlt _ _ ih1 ih2 =>
    intro c t o hf hok ht
    cases hf with
    | seq f1 f2 =>
      obtain ⟨r, p1, a1⟩ := ih1 c t _ f1 hok ht
      obtain ⟨c', rfl, hw⟩ := a1.some
      obtain ⟨r, p2, a2⟩ := ih2 { c' with qty := k } _ _ f2 hw.ok hw.before
      exact ⟨r, .repsNext hk p1 p2, by refine Agrees.step ?_ a2; exact hw.congr rfl rfl rfl rfl rfl rfl rfl rfl rfl rfl⟩
    | seqFail f1 =>
      obtain ⟨r, p1, a1⟩ := ih1 c t _ f1 hok ht
      cases a1.none
      refine ⟨_, .repsEnd hk p1, ?_⟩
      unfold repEnd
      rw [if_neg (by omega)]; trivial
  | @repsMaybe tm gs k a b hk hle m1 m2 ih1 ih2 =>
    intro c t o hf hok ht
    cases hf with
    | altLeft f =>
      cases f with
      | seq f1 f2 =>
        obtain ⟨r, p1, a1⟩ := ih1 c t _ f1 hok ht
        obtain ⟨c', rfl, hw⟩ := a1.some
        obtain ⟨r, p2, a2⟩ := ih2 { c' with qty := k } _ _ f2 hw.ok hw.before
        exact ⟨r, .repsNext hk p1 p2, by refine Agrees.step ?_ a2; exact hw.congr rfl rfl rfl rfl rfl rfl rfl rfl rfl rfl⟩
    | altRight f f' =>
      cases f' with
      | eps =>
        cases f with
        | seq f1 f2 => exact (reps_some m2 (by omega) f2.ford).elim
        | seqFail f1 =>
          obtain ⟨r, p1, a1⟩ := ih1 c t _ f1 hok ht
          cases a1.none
          exact ⟨_, .repsEnd hk p1, repEnd_agrees hok ht hle⟩
  | repsDone hk hle _ _ =>
    intro c t o hf hok ht
    cases hf
    exact ⟨_, .repsMax hk, repEnd_agrees hok ht hle⟩
  | @repsStar tm gs k a hneg hle m1 ih =>
    intro c t o hf hok ht
    cases hf with
    | starEnd f1 =>
      obtain ⟨r, p1, a1⟩ := ih c t _ f1 hok ht
      cases a1.none
      exact ⟨_, .repsEnd (by omega) p1, repEnd_agrees hok ht hle⟩
    | starMore f1 f2 =>
      obtain ⟨r, p1, a1⟩ := ih c t _ (f1.mono (Nat.le_succ _)) hok ht
      obtain ⟨c', rfl, hw⟩ := a1.some
      obtain ⟨r, p2, a2⟩ := outer _ (Nat.lt_succ_self _) (.repsStar (k := k + 1) hneg (by omega) m1) { c' with qty := k } _ _ f2 hw.ok hw.before
      exact ⟨r, .repsNext (by omega) p1 p2, by refine Agrees.step ?_ a2; exact hw.congr rfl rfl rfl rfl rfl rfl rfl rfl rfl rfl⟩
  | flatGroup _ ih =>
    intro c t o hf hok ht
    obtain ⟨r, p1, a1⟩ := ih (enter ":base:FlatGroup" c) t o hf rfl ht
    exact ⟨_, .flatGroup p1, a1.change⟩
  | group _ hg ih =>
    intro c t o hf hok ht
    obtain ⟨r, p1, a1⟩ := ih (enter ":base:Group" c) t o hf rfl ht
    exact ⟨_, .group p1, group_agrees hg a1⟩
  | first hne _ ih =>
    intro c t o hf hok ht
    obtain ⟨r, p1, a1⟩ := ih (enter ":base:First" c) t o hf rfl ht
    exact ⟨_, .first hne p1, a1.change⟩
  | @lookAhead gs e _ ih =>
    intro c t o hf hok ht
    have : ∃ o', FordN rules n e t o' := by
      cases hf with
      | notYes f => cases f with
        | notNo f => exact ⟨_, f⟩
      | notNo f => cases f with
        | notYes f => exact ⟨_, f⟩
    obtain ⟨o', f1⟩ := this
    obtain ⟨r, p1, a1⟩ := ih (enter ":base:LookAhead" c) t o' f1 rfl ht
    obtain ⟨o'', f2, a2⟩ := lookAhead_agrees hok ht f1.ford a1
    cases ford_unique f2 hf.ford
    exact ⟨_, .lookAhead p1, a2⟩
  | lookAheadN _ ih =>
    intro c t o hf hok ht
    cases hf with
    | notYes f =>
      obtain ⟨r, p1, a1⟩ := ih (enter ":base:LookAheadN" c) t _ f rfl ht
      cases a1.none
      exact ⟨_, .lookAheadN_yes p1, (Went.refl hok ht).congr rfl rfl rfl rfl rfl rfl rfl rfl rfl rfl⟩
    | notNo f =>
      obtain ⟨r, p1, a1⟩ := ih (enter ":base:LookAheadN" c) t _ f rfl ht
      obtain ⟨c', rfl, hw⟩ := a1.some
      exact ⟨_, .lookAheadN_no p1, trivial⟩
  | «repeat» _ ih =>
    intro c t o hf hok ht
    obtain ⟨r, p1, a1⟩ := ih (enter ":base:Repeat" c) t o hf rfl ht
    refine ⟨_, .repeat p1, ?_⟩
    rcases a1.ends with rfl | ⟨c', rfl⟩
    · rw [a1.unmatched]; trivial
    · obtain ⟨v, rfl, hw⟩ := a1.matched
      exact hw.congr rfl rfl rfl rfl rfl rfl rfl rfl rfl rfl
  | @trans g fs e _ hs ih =>
    intro c t o hf hok ht
    obtain ⟨r, p1, a1⟩ := ih (enter ":base:Trans" c) t o hf rfl ht
    rcases a1.ends with rfl | ⟨c', rfl⟩
    · exact ⟨_, .trans_stop p1 (fun _ h => by cases h), by rw [a1.unmatched]; trivial⟩
    · obtain ⟨v, rfl, hw⟩ := a1.matched
      by_cases hfs : fs = []
      · subst hfs
        exact ⟨_, .trans_none p1, hw.congr rfl rfl rfl rfl rfl rfl rfl rfl rfl rfl⟩
      · obtain ⟨r, hr⟩ := trans_rewrites hs hw
        exact ⟨r, .trans p1 hfs hr, rewrites_went hs hw hr⟩
  | indirect =>
    intro c t o hf hok ht
    cases hf with
    | var f =>
      obtain ⟨r, p1, a1⟩ := outer _ (Nat.lt_succ_self _) (henv _) c t o f hok ht
      exact ⟨_, .indirect p1, indirect_agrees a1⟩

end

end Takenoco.Items
