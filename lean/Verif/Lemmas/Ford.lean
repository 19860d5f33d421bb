import Verif.Spec.Ford
import Verif.Lemmas.Span
import Verif.Lemmas.BigStep
import Verif.Props.StrTerminals
/-
Grammars and parsing expressions: one follows the other, step by step.
-/
namespace Takenoco
open Spec

/-! ### Reading characters -/

theorem readOff_append {s r q : Bytes} {u v : List Char} (h : ReadOff s u r) (h' : ReadOff r v q) : ReadOff s (u ++ v) q := by
  induction h with
  | nil => exact h'
  | cons h1 _ ih => exact .cons h1 (ih h')

theorem readOff_reads {s r : Bytes} {u v : List Char} (h : ReadOff s u r) (h' : Reads r v) : Reads s (u ++ v) := by
  induction h with
  | nil => exact h'
  | cons h1 _ ih => exact .cons h1 (ih h')

theorem readOff_le {s r : Bytes} {u : List Char} (h : ReadOff s u r) : r.length + u.length ≤ s.length := by
  induction h with
  | nil => simp
  | cons h1 _ ih => have := nextChar_drop_lt h1; simp only [List.length_cons]; omega

/-- What is left is determined by the characters read. -/
theorem readOff_unique {s r q : Bytes} {u : List Char} (h : ReadOff s u r) (h' : ReadOff s u q) : r = q := by
  induction h generalizing q with
  | nil => cases h'; rfl
  | cons h1 _ ih =>
    cases h' with
    | cons h2 h3 => obtain ⟨_, rfl⟩ := nextChar_unique h1 h2; exact ih h3

/-- The rest of a text is what can be read behind. -/
theorem Spec.Went.reads {A : Ast → Prop} {c c' : Ctx} {t v : List Char} (h : Went A c t c' v) (ht : Reads (ahead c) t) : Reads (ahead c') v := by
  obtain ⟨u, rfl, hr⟩ := h.chars
  obtain ⟨v', hv'⟩ := reads_total (ahead c')
  have := reads_unique ht (readOff_reads hr hv')
  rw [List.append_cancel_left this]; exact hv'

section
variable {A : Ast → Prop} {c c' : Ctx} {t u v : List Char} {r : Outcome} {o : Option (List Char)}

theorem Spec.Went.refl (hi : c.pos ≤ c.str.length) (hok : c.status = .matched) : Went A c t c t :=
  ⟨⟨[], rfl, .nil⟩, hi, hok, rfl, rfl, rfl, [], by simp, by simp⟩

theorem Spec.Went.trans {c'' : Ctx} (h : Went A c t c' u) (h' : Went A c' u c'' v) : Went A c t c'' v := by
  obtain ⟨x, rfl, hx⟩ := h.chars
  obtain ⟨y, rfl, hy⟩ := h'.chars
  obtain ⟨l, hl, hl'⟩ := h.stack
  obtain ⟨m, hm, hm'⟩ := h'.stack
  refine ⟨⟨x ++ y, by simp, readOff_append hx hy⟩, h'.inside, h'.ok, h'.str.trans h.str, h'.slice.trans h.slice, h'.tag.trans h.tag, l ++ m, ?_, ?_⟩
  · rw [hm, hl, List.append_assoc]
  · intro a ha
    rcases List.mem_append.1 ha with ha | ha
    · exact hl' a ha
    · exact hm' a ha

/-- Class name, quantity and length do not matter. -/
theorem Spec.Went.congr {a b : Ctx} (h : Went A c t c' v) (h1 : a.str = c.str) (h2 : a.pos = c.pos) (h3 : a.stack = c.stack) (h4 : a.slice = c.slice)
    (h5 : a.tag = c.tag) (g1 : b.str = c'.str) (g2 : b.pos = c'.pos) (g3 : b.stack = c'.stack) (g4 : b.slice = c'.slice) (g5 : b.tag = c'.tag)
    (g6 : b.status = c'.status) : Went A a t b v := by
  obtain ⟨⟨u, hu, hr⟩, i1, i2, i3, i4, i5, new, hn, hA⟩ := h
  refine ⟨⟨u, hu, ?_⟩, by rw [g2, g1]; exact i1, g6.trans i2, by rw [g1, i3, h1], by rw [g4, i4, h4], by rw [g5, i5, h5], new, by rw [g3, hn, h3], hA⟩
  unfold ahead; rw [h1, h2, g1, g2]; exact hr

theorem Spec.Agrees.matched (h : Agrees A c t (.matched c') o) : ∃ v, o = some v ∧ Went A c t c' v := by
  cases o with
  | none => exact h.elim
  | some v => exact ⟨v, rfl, h⟩

theorem Spec.Agrees.unmatched (h : Agrees A c t .unmatched o) : o = none := by
  cases o with
  | none => rfl
  | some v => exact h.elim

theorem Spec.Agrees.none (h : Agrees A c t r none) : r = .unmatched := by
  cases r <;> first | rfl | exact h.elim

theorem Spec.Agrees.some (h : Agrees A c t r (some v)) : ∃ c', r = .matched c' ∧ Went A c t c' v := by
  cases r with
  | matched c' => exact ⟨c', rfl, h⟩
  | _ => exact h.elim

/-- Only two ends are possible. -/
theorem Spec.Agrees.ends (h : Agrees A c t r o) : r = .unmatched ∨ ∃ c', r = .matched c' := by
  cases r <;> cases o <;> simp_all [Agrees]

/-- Changes that the combinators make to a context. -/
theorem Spec.Agrees.change (cls : String) (h : Agrees A (enter cls c) t r o) : Agrees A c t (r.onMatch fun c' => .matched { c' with qty := 1 }) o := by
  rcases h.ends with rfl | ⟨c', rfl⟩
  · rw [h.unmatched]; trivial
  · obtain ⟨v, rfl, hw⟩ := h.matched
    exact hw.congr rfl rfl rfl rfl rfl rfl rfl rfl rfl rfl rfl

end

/-! ### Parsing expressions -/

section
variable {rules : Nat → Peg} {e : Peg} {t u v : List Char} {o o' : Option (List Char)}

/-- A parsing expression has at most one result. -/
theorem ford_unique (h : Ford rules e t o) : ∀ {o'}, Ford rules e t o' → o = o' := by
  induction h with
  | eps => intro _ h; cases h; rfl
  | chr h1 => intro _ h; cases h with
    | chr => rfl
    | chrNot h2 => exact absurd h1 h2
  | chrNot h1 => intro _ h; cases h with
    | chr h2 => exact absurd h2 h1
    | chrNot => rfl
  | chrEnd => intro _ h; cases h; rfl
  | seq _ _ ih1 ih2 => intro _ h; cases h with
    | seq h1 h2 => have := ih1 h1; cases this; exact ih2 h2
    | seqFail h1 => have := ih1 h1; cases this
  | seqFail _ ih => intro _ h; cases h with
    | seq h1 h2 => have := ih h1; cases this
    | seqFail h1 => rfl
  | altLeft _ ih => intro _ h; cases h with
    | altLeft h1 => exact ih h1
    | altRight h1 _ => have := ih h1; cases this
  | altRight _ _ ih1 ih2 => intro _ h; cases h with
    | altLeft h1 => have := ih1 h1; cases this
    | altRight _ h2 => exact ih2 h2
  | starEnd _ ih => intro _ h; cases h with
    | starEnd => rfl
    | starMore h1 _ => have := ih h1; cases this
  | starMore _ _ ih1 ih2 => intro _ h; cases h with
    | starEnd h1 => have := ih1 h1; cases this
    | starMore h1 h2 => have := ih1 h1; cases this; exact ih2 h2
  | notYes _ ih => intro _ h; cases h with
    | notYes => rfl
    | notNo h1 => have := ih h1; cases this
  | notNo _ ih => intro _ h; cases h with
    | notYes h1 => have := ih h1; cases this
    | notNo => rfl
  | var _ ih => intro _ h; cases h with
    | var h1 => exact ih h1

/-- A match leaves a rest of the text. -/
theorem ford_suffix (h : Ford rules e t o) : ∀ v, o = some v → ∃ u, t = u ++ v := by
  induction h with
  | eps => rintro _ ⟨⟩; exact ⟨[], rfl⟩
  | @chr S ch t _ => rintro _ ⟨⟩; exact ⟨[ch], rfl⟩
  | chrNot | chrEnd | seqFail | notNo => rintro _ ⟨⟩
  | seq _ _ ih1 ih2 =>
    intro v hv
    obtain ⟨x, rfl⟩ := ih1 _ rfl
    obtain ⟨y, rfl⟩ := ih2 v hv
    exact ⟨x ++ y, by simp⟩
  | altLeft _ ih => exact ih
  | altRight _ _ _ ih => exact ih
  | starEnd => rintro _ ⟨⟩; exact ⟨[], rfl⟩
  | starMore _ _ ih1 ih2 =>
    intro v hv
    obtain ⟨x, rfl⟩ := ih1 _ rfl
    obtain ⟨y, rfl⟩ := ih2 v hv
    exact ⟨x ++ y, by simp⟩
  | notYes => rintro _ ⟨⟩; exact ⟨[], rfl⟩
  | var _ ih => exact ih

/-- A repetition does not fail. -/
theorem star_some {a : Peg} (h : Ford rules (.star a) t o) : o ≠ none := by
  generalize he : Peg.star a = e at h
  induction h with
  | starEnd => simp
  | starMore _ _ _ ih => exact ih he
  | _ => cases he

theorem lit_ford (l : List Char) : ∀ t, (∃ v, t = l ++ v ∧ Ford rules (.lit l) t (some v)) ∨ (¬ l <+: t ∧ Ford rules (.lit l) t none) := by
  induction l with
  | nil => exact fun t => .inl ⟨t, rfl, .eps⟩
  | cons ch l ih =>
    intro t
    cases t with
    | nil => exact .inr ⟨by simp, .seqFail .chrEnd⟩
    | cons x t =>
      by_cases hx : x = ch
      · subst hx
        rcases ih t with ⟨v, rfl, h⟩ | ⟨h1, h⟩
        · exact .inl ⟨v, rfl, .seq (.chr rfl) h⟩
        · exact .inr ⟨by simpa using h1, .seq (.chr rfl) h⟩
      · exact .inr ⟨fun h => hx (List.cons_prefix_cons.1 h).1.symm, .seqFail (.chrNot hx)⟩

/-- Derivations of at most a given depth, counting nonterminals and iterations. -/
inductive FordN (rules : Nat → Peg) : Nat → Peg → List Char → Option (List Char) → Prop where
  | eps {n : Nat} {t : List Char} : FordN rules n .eps t (some t)
  | chr {n : Nat} {S : Char → Prop} {ch : Char} {t : List Char} : S ch → FordN rules n (.chr S) (ch :: t) (some t)
  | chrNot {n : Nat} {S : Char → Prop} {ch : Char} {t : List Char} : ¬ S ch → FordN rules n (.chr S) (ch :: t) none
  | chrEnd {n : Nat} {S : Char → Prop} : FordN rules n (.chr S) [] none
  | seq {n : Nat} {a b : Peg} {t u : List Char} {r : Option (List Char)} : FordN rules n a t (some u) → FordN rules n b u r → FordN rules n (.seq a b) t r
  | seqFail {n : Nat} {a b : Peg} {t : List Char} : FordN rules n a t none → FordN rules n (.seq a b) t none
  | altLeft {n : Nat} {a b : Peg} {t u : List Char} : FordN rules n a t (some u) → FordN rules n (.alt a b) t (some u)
  | altRight {n : Nat} {a b : Peg} {t : List Char} {r : Option (List Char)} : FordN rules n a t none → FordN rules n b t r → FordN rules n (.alt a b) t r
  | starEnd {n : Nat} {a : Peg} {t : List Char} : FordN rules n a t none → FordN rules n (.star a) t (some t)
  | starMore {n : Nat} {a : Peg} {t u : List Char} {r : Option (List Char)} : FordN rules n a t (some u) → FordN rules n (.star a) u r → FordN rules (n + 1) (.star a) t r
  | notYes {n : Nat} {a : Peg} {t : List Char} : FordN rules n a t none → FordN rules n (.notP a) t (some t)
  | notNo {n : Nat} {a : Peg} {t u : List Char} : FordN rules n a t (some u) → FordN rules n (.notP a) t none
  | var {n i : Nat} {t : List Char} {r : Option (List Char)} : FordN rules n (rules i) t r → FordN rules (n + 1) (.var i) t r

theorem FordN.mono {n m : Nat} (h : FordN rules n e t o) (hm : n ≤ m) : FordN rules m e t o := by
  induction h generalizing m with
  | eps => exact .eps
  | chr h => exact .chr h
  | chrNot h => exact .chrNot h
  | chrEnd => exact .chrEnd
  | seq _ _ ih1 ih2 => exact .seq (ih1 hm) (ih2 hm)
  | seqFail _ ih => exact .seqFail (ih hm)
  | altLeft _ ih => exact .altLeft (ih hm)
  | altRight _ _ ih1 ih2 => exact .altRight (ih1 hm) (ih2 hm)
  | starEnd _ ih => exact .starEnd (ih hm)
  | starMore _ _ ih1 ih2 =>
    obtain ⟨m, rfl⟩ : ∃ k, m = k + 1 := ⟨m - 1, by omega⟩
    exact .starMore (ih1 (by omega)) (ih2 (by omega))
  | notYes _ ih => exact .notYes (ih hm)
  | notNo _ ih => exact .notNo (ih hm)
  | var _ ih =>
    obtain ⟨m, rfl⟩ : ∃ k, m = k + 1 := ⟨m - 1, by omega⟩
    exact .var (ih (by omega))

theorem fordN_of (h : Ford rules e t o) : ∃ n, FordN rules n e t o := by
  induction h with
  | eps => exact ⟨0, .eps⟩
  | chr h => exact ⟨0, .chr h⟩
  | chrNot h => exact ⟨0, .chrNot h⟩
  | chrEnd => exact ⟨0, .chrEnd⟩
  | seq _ _ ih1 ih2 =>
    obtain ⟨n, h1⟩ := ih1; obtain ⟨m, h2⟩ := ih2
    exact ⟨n + m, .seq (h1.mono (by omega)) (h2.mono (by omega))⟩
  | seqFail _ ih => obtain ⟨n, h⟩ := ih; exact ⟨n, .seqFail h⟩
  | altLeft _ ih => obtain ⟨n, h⟩ := ih; exact ⟨n, .altLeft h⟩
  | altRight _ _ ih1 ih2 =>
    obtain ⟨n, h1⟩ := ih1; obtain ⟨m, h2⟩ := ih2
    exact ⟨n + m, .altRight (h1.mono (by omega)) (h2.mono (by omega))⟩
  | starEnd _ ih => obtain ⟨n, h⟩ := ih; exact ⟨n, .starEnd h⟩
  | starMore _ _ ih1 ih2 =>
    obtain ⟨n, h1⟩ := ih1; obtain ⟨m, h2⟩ := ih2
    exact ⟨n + m + 1, .starMore (h1.mono (by omega)) (h2.mono (by omega))⟩
  | notYes _ ih => obtain ⟨n, h⟩ := ih; exact ⟨n, .notYes h⟩
  | notNo _ ih => obtain ⟨n, h⟩ := ih; exact ⟨n, .notNo h⟩
  | var _ ih => obtain ⟨n, h⟩ := ih; exact ⟨n + 1, .var h⟩

theorem FordN.ford {n : Nat} (h : FordN rules n e t o) : Ford rules e t o := by
  induction h with
  | eps => exact .eps
  | chr h => exact .chr h
  | chrNot h => exact .chrNot h
  | chrEnd => exact .chrEnd
  | seq _ _ ih1 ih2 => exact .seq ih1 ih2
  | seqFail _ ih => exact .seqFail ih
  | altLeft _ ih => exact .altLeft ih
  | altRight _ _ ih1 ih2 => exact .altRight ih1 ih2
  | starEnd _ ih => exact .starEnd ih
  | starMore _ _ ih1 ih2 => exact .starMore ih1 ih2
  | notYes _ ih => exact .notYes ih
  | notNo _ ih => exact .notNo ih
  | var _ ih => exact .var ih
end


/-! ### Terminals -/

theorem readOff_utf8s (l : List Char) (r : Bytes) : ReadOff (utf8s l ++ r) l r := by
  induction l with
  | nil => exact .nil
  | cons ch l ih =>
    rw [utf8s_cons, List.append_assoc]
    exact .cons (.char ch _) (by rw [List.drop_left]; exact ih)

/-- A byte string begins with the encoding of a text if it reads so, unless U+FFFD occurs, which stands for bad bytes, too. -/
theorem lit_prefix {l : List Char} (hl : '�' ∉ l) : ∀ {s : Bytes} {v : List Char}, Reads s (l ++ v) → ∃ r, s = utf8s l ++ r := by
  induction l with
  | nil => exact fun {s v} _ => ⟨s, rfl⟩
  | cons ch l ih =>
    intro s v h
    obtain ⟨w, rfl, hw⟩ := span_char (span_reads.2 h) (fun e => hl (by simp [e]))
    obtain ⟨r, rfl⟩ := ih (fun h' => hl (by simp [h'])) (span_reads.1 hw)
    exact ⟨r, by rw [utf8s_cons, List.append_assoc]⟩

/-- Text tokens satisfy `A`. -/
def Tokens (A : Ast → Prop) : Prop :=
  ∀ cls v pos len, A { opCode := 0, cls := cls, ty := .string, val := .str v, pos := pos, len := len }

section
variable {A : Ast → Prop} {rules : Nat → Peg} {c : Ctx} {t : List Char}

theorem advance_went (hA : Tokens A) {cls : String} {v : Bytes} {n : Nat} {u w : List Char} {r : Bytes} (hi : c.pos ≤ c.str.length)
    (ht : t = u ++ w) (hr : ReadOff (ahead c) u r) (hd : (ahead c).drop n = r) (hn : n ≤ (ahead c).length) : Went A c t (advance cls v n c) w := by
  have hl : (ahead c).length = c.str.length - c.pos := by simp [ahead]
  refine ⟨⟨u, ht, ?_⟩, ?_, rfl, rfl, rfl, rfl, _, rfl, ?_⟩
  · have : ahead (advance cls v n c) = (ahead c).drop n := by simp [ahead, advance]
    rw [this, hd]; exact hr
  · show c.pos + n ≤ c.str.length
    omega
  · intro a ha
    rw [List.mem_singleton.1 ha]
    exact hA _ _ _ _

theorem chr_agrees (hA : Tokens A) {p : Sem} {cls : String} {S : Char → Prop} (h : CharTerminal p cls S) (hi : c.pos ≤ c.str.length)
    (ht : Reads (ahead c) t) : ∃ o, Ford rules (.chr S) t o ∧ Agrees A c t (Outcome.of (p c)) o := by
  generalize hs : ahead c = s at ht
  cases ht with
  | nil =>
    have hl : (ahead c).length = c.str.length - c.pos := by simp [ahead]
    rw [hs] at hl
    rw [(h c hi).2.2 (by simp at hl; omega)]
    exact ⟨none, .chrEnd, trivial⟩
  | @cons _ ch n t h1 h2 =>
    subst hs
    by_cases hS : S ch
    · rw [(h c hi).1 ch n h1 hS]
      exact ⟨some t, .chr hS, advance_went hA hi (u := [ch]) rfl (.cons h1 .nil) rfl (nextChar_le h1)⟩
    · rw [(h c hi).2.1 ch n h1 hS]
      exact ⟨none, .chrNot hS, trivial⟩

theorem seqS_agrees (hA : Tokens A) {l : List Char} (hl : '�' ∉ l) (hi : c.pos ≤ c.str.length)
    (ht : Reads (ahead c) t) : ∃ o, Ford rules (.lit l) t o ∧ Agrees A c t (Outcome.of (seqS (utf8s l) c)) o := by
  rcases lit_ford (rules := rules) l t with ⟨v, rfl, h⟩ | ⟨h1, h⟩
  · obtain ⟨r, hr⟩ := lit_prefix hl ht
    rw [C16_seq_matches _ c hi (by show _ <+: ahead c; rw [hr]; simp)]
    refine ⟨some v, h, advance_went hA hi (u := l) rfl (hr ▸ readOff_utf8s l r) (by rw [hr, List.drop_left]) (by rw [hr]; simp)⟩
  · have : ¬ utf8s l <+: ahead c := by
      rintro ⟨r, hr⟩
      obtain ⟨v, hv⟩ := reads_total r
      refine h1 ⟨v, reads_unique (readOff_reads (readOff_utf8s l r) hv) (hr ▸ ht)⟩
    rw [C16_seq_unmatched _ c hi this]
    exact ⟨none, h, trivial⟩

theorem zeroP_agrees {asts : List Ast} (h : ∀ a ∈ asts, ∀ p l, A { a with pos := p, len := l }) (hi : c.pos ≤ c.str.length) :
    Agrees A c t (Outcome.of (zeroP asts c)) (some t) := by
  rw [zeroP_eq]
  refine ⟨⟨[], rfl, .nil⟩, hi, rfl, rfl, rfl, rfl, _, rfl, ?_⟩
  intro a ha
  obtain ⟨b, hb, rfl⟩ := List.mem_map.1 ha
  exact h b hb _ _

theorem endS_agrees (hi : c.pos ≤ c.str.length) (ht : Reads (ahead c) t) :
    ∃ o, Ford rules (.notP .any) t o ∧ Agrees A c t (Outcome.of (endS c)) o := by
  have hl : (ahead c).length = c.str.length - c.pos := by simp [ahead]
  rw [endS_eq]
  generalize hs : ahead c = s at ht
  cases ht with
  | nil =>
    rw [hs] at hl
    rw [if_pos (by simp at hl; omega)]
    exact ⟨_, .notYes .chrEnd, ⟨[], rfl, .nil⟩, hi, rfl, rfl, rfl, rfl, [], by simp, by simp⟩
  | @cons _ ch n t h1 h2 =>
    have := nextChar_drop_lt h1
    rw [hs] at hl
    rw [if_neg (by intro h; omega)]
    exact ⟨none, .notNo (.chr trivial), trivial⟩

end

/-! ### From the engine to parsing expressions -/

section
variable {A : Ast → Prop} {env : Env} {rules : Nat → Peg} {c c' : Ctx} {t v : List Char} {r : Outcome} {o : Option (List Char)} {e : Peg}

/-- A repetition that has matched often enough does not fail. -/
theorem reps_some {tm : Times} {gs : List Gram} {k : Nat} (h : Means A (.reps tm gs k) e) (hk : tm.min ≤ k) (hf : Ford rules e t none) : False := by
  cases h with
  | repsMore _ h => omega
  | repsMaybe => cases hf with
    | altRight _ h => cases h
  | repsDone => cases hf
  | repsStar => exact star_some hf rfl

/-- The end of a repetition at a text at which the expression matches nothing. -/
theorem repEnd_agrees {tm : Times} {k : Nat} (hi : c.pos ≤ c.str.length) (hok : c.status = .matched) (hk : tm.min ≤ k) :
    Agrees A c t (repEnd tm k c) (some t) := by
  unfold repEnd
  rw [if_pos hk]
  exact (Went.refl hi hok).congr rfl rfl rfl rfl rfl rfl rfl rfl rfl rfl rfl

theorem Spec.Agrees.step (h : Went A c t c' v) (h' : Agrees A c' v r o) : Agrees A c t r o := by
  rcases h'.ends with rfl | ⟨c'', rfl⟩
  · rw [h'.unmatched]; trivial
  · obtain ⟨w, rfl, hw⟩ := h'.matched
    exact h.trans hw

/-- What a transformation makes of the new ASTs. -/
theorem rewrites_went {fs : List TSem} (hs : Succeeds A fs) (hw : Went A (enter ":base:Trans" c) t c' v)
    (h : Rewrites { c with cls := ":base:Trans" } fs c.stack.length { c' with qty := 1 } r) : Agrees A c t r (some v) := by
  obtain ⟨new, hn, hA⟩ := hw.stack
  have hn : c'.stack = c.stack ++ new := hn
  obtain ⟨l', hp, hl'⟩ := hs { c with cls := ":base:Trans" } new hA
  have hg : Rewrites { c with cls := ":base:Trans" } fs c.stack.length { c' with qty := 1 }
      (.matched { c' with qty := 1, stack := c.stack ++ l', status := .matched }) := by
    have := Rewrites.ok (ctx := { c with cls := ":base:Trans" }) (fs := fs) (n := c.stack.length) (c := { c' with qty := 1 }) (l := l')
      (by show _ ≤ c'.stack.length; rw [hn]; simp) (by show Pipe _ _ (c'.stack.drop _) _; rw [hn, List.drop_left]; exact hp)
    simpa only [hn, List.take_left] using this
  have e1 := rewrites_iff (ctx := { c with cls := ":base:Trans" }) (out := { c' with qty := 1 }) hw.ok h
  have e2 := rewrites_iff (ctx := { c with cls := ":base:Trans" }) (out := { c' with qty := 1 }) hw.ok hg
  rw [← e1, e2]
  refine ⟨hw.chars, hw.inside, rfl, hw.str, hw.slice, hw.tag, l', rfl, hl'⟩

theorem trans_rewrites {fs : List TSem} (hs : Succeeds A fs) (hw : Went A (enter ":base:Trans" c) t c' v) :
    ∃ r, Rewrites { c with cls := ":base:Trans" } fs c.stack.length { c' with qty := 1 } r := by
  obtain ⟨new, hn, hA⟩ := hw.stack
  have hn : c'.stack = c.stack ++ new := hn
  obtain ⟨l', hp, _⟩ := hs { c with cls := ":base:Trans" } new hA
  exact ⟨_, .ok (l := l') (by show _ ≤ c'.stack.length; rw [hn]; simp) (by show Pipe _ _ (c'.stack.drop _) _; rw [hn, List.drop_left]; exact hp)⟩

theorem group_agrees (hg : ∀ l, (∀ a ∈ l, A a) → A { Ast.zero with cls := ":base:Group", ty := .listOfAst, val := .list l })
    (h : Agrees A (enter ":base:Group" c) t r o) : Agrees A c t (r.onMatch fun c' =>
        if c'.stack.length < c.stack.length then .panicked .index
        else .matched { c' with
          qty := 1
          stack := c'.stack.take c.stack.length ++
            [{ Ast.zero with cls := ":base:Group", ty := .listOfAst,
                             val := .list (c'.stack.drop c.stack.length) }] }) o := by
  rcases h.ends with rfl | ⟨c', rfl⟩
  · rw [h.unmatched]; trivial
  · obtain ⟨v, rfl, hw⟩ := h.matched
    obtain ⟨new, hn, hA⟩ := hw.stack
    have hn : c'.stack = c.stack ++ new := hn
    simp only [Outcome.onMatch]
    rw [if_neg (by rw [hn]; simp)]
    refine ⟨hw.chars, hw.inside, hw.ok, hw.str, hw.slice, hw.tag, _, by rw [hn, List.take_left], ?_⟩
    intro a ha
    rw [List.mem_singleton.1 ha, List.drop_left]
    exact hg new hA

theorem lookAhead_agrees (hi : c.pos ≤ c.str.length) (hok : c.status = .matched) (hf : Ford rules e t o) (h : Agrees A (enter ":base:LookAhead" c) t r o) :
    ∃ o', Ford rules (.notP (.notP e)) t o' ∧ Agrees A c t (r.onMatch fun _ => .matched { c with cls := ":base:LookAhead" }) o' := by
  rcases h.ends with rfl | ⟨c', rfl⟩
  · rw [h.unmatched] at hf
    exact ⟨none, .notNo (.notYes hf), trivial⟩
  · obtain ⟨v, rfl, hw⟩ := h.matched
    exact ⟨some t, .notYes (.notNo hf), (Went.refl hi hok).congr rfl rfl rfl rfl rfl rfl rfl rfl rfl rfl rfl⟩

theorem indirect_agrees (h : Agrees A c t r o) : Agrees A c t (lightOutcome ":base:Indirect" r) o := by
  rcases h.ends with rfl | ⟨c', rfl⟩
  · exact h
  · obtain ⟨v, rfl, hw⟩ := h.matched
    exact hw.congr rfl rfl rfl rfl rfl rfl rfl rfl rfl rfl rfl

theorem prim_agrees (hA : Tokens A) {p : Sem} (h : Means A (.gram (.prim p)) e) (hi : c.pos ≤ c.str.length) (ht : Reads (ahead c) t) :
    ∃ o, Ford rules e t o ∧ Agrees A c t (Outcome.of (p c)) o := by
  cases h with
  | chr h => exact chr_agrees hA h hi ht
  | lit h => exact seqS_agrees hA h hi ht
  | zero h => exact ⟨_, .eps, zeroP_agrees h hi⟩
  | unmatched =>
    refine ⟨none, ?_, by rw [unmatchedP_eq]; trivial⟩
    cases t with
    | nil => exact .chrEnd
    | cons => exact .chrNot id
  | «end» => exact endS_agrees hi ht

/-- What the specification of the engine derives, the parsing expression does. -/
theorem parses_ford (hA : Tokens A) (henv : ∀ i, Means A (.gram (env i)) (rules i)) {j : Judg} (h : Parses env j c r) : ∀ e t, Means A j e →
    c.pos ≤ c.str.length → c.status = .matched → Reads (ahead c) t → ∃ o, Ford rules e t o ∧ Agrees A c t r o := by
  induction h with
  | seqNil => intro e t hm hi hok ht; cases hm; exact ⟨_, .eps, .refl hi hok⟩
  | seqCons _ _ ih1 ih2 =>
    intro e t hm hi hok ht
    cases hm with
    | seqCons m1 m2 =>
      obtain ⟨o, h1, a1⟩ := ih1 _ _ m1 hi hok ht
      obtain ⟨v, rfl, hw⟩ := a1.matched
      obtain ⟨o, h2, a2⟩ := ih2 _ _ m2 hw.inside hw.ok (hw.reads ht)
      exact ⟨o, .seq h1 h2, a2.step hw⟩
  | seqStop _ hne ih =>
    intro e t hm hi hok ht
    cases hm with
    | seqCons m1 m2 =>
      obtain ⟨o, h1, a1⟩ := ih _ _ m1 hi hok ht
      rcases a1.ends with rfl | ⟨c', rfl⟩
      · rw [a1.unmatched] at h1
        exact ⟨none, .seqFail h1, trivial⟩
      · exact absurd rfl (hne c')
  | choiceNil => intro e t hm; cases hm
  | @choiceNext g gs c r h1 h2 ih1 ih2 =>
    intro e t hm hi hok ht
    cases hm with
    | choiceOne m1 =>
      obtain ⟨o, h1, a1⟩ := ih1 _ _ m1 hi hok ht
      cases h2
      exact ⟨o, h1, a1⟩
    | choiceCons _ m1 m2 =>
      obtain ⟨o, h1, a1⟩ := ih1 _ _ m1 hi hok ht
      rw [a1.unmatched] at h1
      obtain ⟨o, h2, a2⟩ := ih2 _ _ m2 hi hok ht
      exact ⟨o, .altRight h1 h2, a2⟩
  | choiceTake _ hne ih =>
    intro e t hm hi hok ht
    cases hm with
    | choiceOne m1 => exact ih _ _ m1 hi hok ht
    | choiceCons _ m1 m2 =>
      obtain ⟨o, h1, a1⟩ := ih _ _ m1 hi hok ht
      rcases a1.ends with rfl | ⟨c', rfl⟩
      · exact absurd rfl hne
      · obtain ⟨v, rfl, hw⟩ := a1.matched
        exact ⟨_, .altLeft h1, hw⟩
  | repsMax hk =>
    intro e t hm hi hok ht
    cases hm with
    | repsMore h => exact absurd hk h
    | repsMaybe h => exact absurd hk h
    | repsDone _ h => exact ⟨_, .eps, repEnd_agrees hi hok h⟩
    | repsStar h => omega
  | @repsEnd tm gs k c hk _ ih =>
    intro e t hm hi hok ht
    cases hm with
    | repsMore _ hlt m1 m2 =>
      obtain ⟨o, h1, a1⟩ := ih _ _ m1 hi hok ht
      rw [a1.unmatched] at h1
      refine ⟨none, .seqFail h1, ?_⟩
      unfold repEnd
      rw [if_neg (by omega)]; trivial
    | repsMaybe _ hle m1 m2 =>
      obtain ⟨o, h1, a1⟩ := ih _ _ m1 hi hok ht
      rw [a1.unmatched] at h1
      exact ⟨_, .altRight (.seqFail h1) .eps, repEnd_agrees hi hok hle⟩
    | repsDone h => exact absurd h hk
    | repsStar _ hle m1 =>
      obtain ⟨o, h1, a1⟩ := ih _ _ m1 hi hok ht
      rw [a1.unmatched] at h1
      exact ⟨_, .starEnd h1, repEnd_agrees hi hok hle⟩
  | repsFail hk _ hu hne ih =>
    intro e t hm hi hok ht
    have : ∀ {a}, Means A (.seq _) a → False := fun m1 => by
      obtain ⟨o, h1, a1⟩ := ih _ _ m1 hi hok ht
      rcases a1.ends with rfl | ⟨c', rfl⟩
      · exact hu rfl
      · exact hne c' rfl
    cases hm with
    | repsMore _ _ m1 => exact (this m1).elim
    | repsMaybe _ _ m1 => exact (this m1).elim
    | repsDone h => exact absurd h hk
    | repsStar _ _ m1 => exact (this m1).elim
  | repsNext hk _ _ ih1 ih2 =>
    intro e t hm hi hok ht
    cases hm with
    | repsMore _ hlt m1 m2 =>
      obtain ⟨o, h1, a1⟩ := ih1 _ _ m1 hi hok ht
      obtain ⟨v, rfl, hw⟩ := a1.matched
      obtain ⟨o, h2, a2⟩ := ih2 _ _ m2 hw.inside hw.ok (hw.reads ht)
      exact ⟨o, .seq h1 h2, by refine Agrees.step ?_ a2; exact hw.congr rfl rfl rfl rfl rfl rfl rfl rfl rfl rfl rfl⟩
    | repsMaybe _ hle m1 m2 =>
      obtain ⟨o, h1, a1⟩ := ih1 _ _ m1 hi hok ht
      obtain ⟨v, rfl, hw⟩ := a1.matched
      obtain ⟨o, h2, a2⟩ := ih2 _ _ m2 hw.inside hw.ok (hw.reads ht)
      cases o with
      | none => exact (reps_some m2 (by omega) h2).elim
      | some w => exact ⟨_, .altLeft (.seq h1 h2), by refine Agrees.step ?_ a2; exact hw.congr rfl rfl rfl rfl rfl rfl rfl rfl rfl rfl rfl⟩
    | repsDone h => exact absurd h hk
    | repsStar hneg hle m1 =>
      obtain ⟨o, h1, a1⟩ := ih1 _ _ m1 hi hok ht
      obtain ⟨v, rfl, hw⟩ := a1.matched
      obtain ⟨o, h2, a2⟩ := ih2 _ _ (.repsStar hneg (by omega) m1) hw.inside hw.ok (hw.reads ht)
      exact ⟨o, .starMore h1 h2, by refine Agrees.step ?_ a2; exact hw.congr rfl rfl rfl rfl rfl rfl rfl rfl rfl rfl rfl⟩
  | prim h hne =>
    intro e t hm hi hok ht
    rw [← h]; exact prim_agrees hA hm hi ht
  | flatGroup _ ih =>
    intro e t hm hi hok ht
    cases hm with
    | flatGroup m =>
      obtain ⟨o, h1, a1⟩ := ih _ _ m hi rfl ht
      exact ⟨o, h1, a1.change⟩
  | group _ ih =>
    intro e t hm hi hok ht
    cases hm with
    | group m hg =>
      obtain ⟨o, h1, a1⟩ := ih _ _ m hi rfl ht
      exact ⟨o, h1, group_agrees hg a1⟩
  | first _ _ ih =>
    intro e t hm hi hok ht
    cases hm with
    | first _ m =>
      obtain ⟨o, h1, a1⟩ := ih _ _ m hi rfl ht
      exact ⟨o, h1, a1.change⟩
  | firstNil =>
    intro e t hm
    cases hm with
    | first h => exact absurd rfl h
  | lookAhead _ ih =>
    intro e t hm hi hok ht
    cases hm with
    | lookAhead m =>
      obtain ⟨o, h1, a1⟩ := ih _ _ m hi rfl ht
      exact lookAhead_agrees hi hok h1 a1
  | lookAheadN_no _ ih =>
    intro e t hm hi hok ht
    cases hm with
    | lookAheadN m =>
      obtain ⟨o, h1, a1⟩ := ih _ _ m hi rfl ht
      obtain ⟨v, rfl, hw⟩ := a1.matched
      exact ⟨none, .notNo h1, trivial⟩
  | lookAheadN_yes _ ih =>
    intro e t hm hi hok ht
    cases hm with
    | lookAheadN m =>
      obtain ⟨o, h1, a1⟩ := ih _ _ m hi rfl ht
      rw [a1.unmatched] at h1
      exact ⟨some t, .notYes h1, (Went.refl hi hok).congr rfl rfl rfl rfl rfl rfl rfl rfl rfl rfl rfl⟩
  | lookAheadN_stop _ hu hne ih =>
    intro e t hm hi hok ht
    cases hm with
    | lookAheadN m =>
      obtain ⟨o, h1, a1⟩ := ih _ _ m hi rfl ht
      rcases a1.ends with rfl | ⟨c', rfl⟩
      · exact absurd rfl hu
      · exact absurd rfl (hne c')
  | «repeat» _ ih =>
    intro e t hm hi hok ht
    cases hm with
    | «repeat» m =>
      obtain ⟨o, h1, a1⟩ := ih _ _ m hi rfl ht
      rcases a1.ends with rfl | ⟨c', rfl⟩
      · rw [a1.unmatched] at h1; exact ⟨none, h1, trivial⟩
      · obtain ⟨v, rfl, hw⟩ := a1.matched
        exact ⟨_, h1, hw.congr rfl rfl rfl rfl rfl rfl rfl rfl rfl rfl rfl⟩
  | trans_stop _ hne ih =>
    intro e t hm hi hok ht
    cases hm with
    | trans m =>
      obtain ⟨o, h1, a1⟩ := ih _ _ m hi rfl ht
      rcases a1.ends with rfl | ⟨c', rfl⟩
      · rw [a1.unmatched] at h1; exact ⟨none, h1, trivial⟩
      · exact absurd rfl (hne c')
  | @trans_none g c c' _ ih =>
    intro e t hm hi hok ht
    generalize hg : Gram.trans g [] = g' at hm
    cases hm with
    | trans m =>
      injection hg with e1 e2
      subst e1
      obtain ⟨o, h1, a1⟩ := ih _ _ m hi rfl ht
      obtain ⟨v, rfl, hw⟩ := a1.matched
      exact ⟨_, h1, hw.congr rfl rfl rfl rfl rfl rfl rfl rfl rfl rfl rfl⟩
    | _ => cases hg
  | @trans g fs c c' r _ hfs hrw ih =>
    intro e t hm hi hok ht
    generalize hg : Gram.trans g (fs.map .fn) = g' at hm
    cases hm with
    | @trans _ fs' _ m hs =>
      injection hg with h1 h2
      subst h1
      have : fs = fs' := (List.map_inj_right fun _ _ h => Tr.fn.inj h).1 h2
      subst this
      obtain ⟨o, h1, a1⟩ := ih _ _ m hi rfl ht
      obtain ⟨v, rfl, hw⟩ := a1.matched
      exact ⟨_, h1, rewrites_went hs hw hrw⟩
    | _ => cases hg
  | indirect _ ih =>
    intro e t hm hi hok ht
    cases hm with
    | indirect =>
      obtain ⟨o, h1, a1⟩ := ih _ _ (henv _) hi hok ht
      exact ⟨o, .var h1, indirect_agrees a1⟩
  | lookBehind | lookBehind_none | lookBehindN | lookBehindN_none | match_none | match_range | «match» => intro e t hm; cases hm

/-! ### From parsing expressions to the engine -/

/-- The statement of the induction below. -/
def Follows (A : Ast → Prop) (env : Env) (rules : Nat → Peg) (n : Nat) (j : Judg) (e : Peg) : Prop :=
  ∀ c t o, FordN rules n e t o → c.pos ≤ c.str.length → c.status = .matched → Reads (ahead c) t → ∃ r, Parses env j c r ∧ Agrees A c t r o

theorem prim_follows (hA : Tokens A) {n : Nat} {p : Sem} (h : Means A (.gram (.prim p)) e) : Follows A env rules n (.gram (.prim p)) e := by
  intro c t o hf hi hok ht
  obtain ⟨o', h1, a1⟩ := prim_agrees (rules := rules) hA h hi ht
  cases ford_unique h1 hf.ford
  refine ⟨_, .prim rfl ?_, a1⟩
  intro h0
  rw [h0] at a1
  exact a1.elim

theorem seq_follows {n : Nat} {a b : Peg} {g : Gram} {gs : List Gram} (h1 : Follows A env rules n (.gram g) a)
    (h2 : Follows A env rules n (.seq gs) b) : Follows A env rules n (.seq (g :: gs)) (.seq a b) := by
  intro c t o hf hi hok ht
  cases hf with
  | seq f1 f2 =>
    obtain ⟨r, p1, a1⟩ := h1 c t _ f1 hi hok ht
    obtain ⟨c', rfl, hw⟩ := a1.some
    obtain ⟨r, p2, a2⟩ := h2 c' _ _ f2 hw.inside hw.ok (hw.reads ht)
    exact ⟨r, .seqCons p1 p2, a2.step hw⟩
  | seqFail f1 =>
    obtain ⟨r, p1, a1⟩ := h1 c t _ f1 hi hok ht
    cases a1.none
    exact ⟨_, .seqStop p1 (fun _ h => by cases h), trivial⟩

/-- What the parsing expression does, the specification of the engine derives. -/
theorem ford_parses (hA : Tokens A) (henv : ∀ i, Means A (.gram (env i)) (rules i)) : ∀ n {j : Judg} {e : Peg}, Means A j e → Follows A env rules n j e := by
  intro n
  induction n using Nat.strongRecOn with
  | ind n outer =>
  intro j e' hm
  induction hm with
  | chr h => exact prim_follows hA (.chr h)
  | lit h => exact prim_follows hA (.lit h)
  | zero h => exact prim_follows hA (.zero h)
  | unmatched => exact prim_follows hA .unmatched
  | «end» => exact prim_follows hA .end
  | seqNil =>
    intro c t o hf hi hok ht
    cases hf
    exact ⟨_, .seqNil, .refl hi hok⟩
  | seqCons _ _ ih1 ih2 => exact seq_follows ih1 ih2
  | choiceOne _ ih =>
    intro c t o hf hi hok ht
    obtain ⟨r, p1, a1⟩ := ih c t o hf hi hok ht
    rcases a1.ends with rfl | ⟨c', rfl⟩
    · exact ⟨_, .choiceNext p1 .choiceNil, a1⟩
    · exact ⟨_, .choiceTake p1 (fun h => by cases h), a1⟩
  | choiceCons _ _ _ ih1 ih2 =>
    intro c t o hf hi hok ht
    cases hf with
    | altLeft f1 =>
      obtain ⟨r, p1, a1⟩ := ih1 c t _ f1 hi hok ht
      obtain ⟨c', rfl, hw⟩ := a1.some
      exact ⟨_, .choiceTake p1 (fun h => by cases h), hw⟩
    | altRight f1 f2 =>
      obtain ⟨r, p1, a1⟩ := ih1 c t _ f1 hi hok ht
      cases a1.none
      obtain ⟨r, p2, a2⟩ := ih2 c t _ f2 hi hok ht
      exact ⟨r, .choiceNext p1 p2, a2⟩
  | @repsMore tm gs k a b hk hlt _ _ ih1 ih2 =>
    intro c t o hf hi hok ht
    cases hf with
    | seq f1 f2 =>
      obtain ⟨r, p1, a1⟩ := ih1 c t _ f1 hi hok ht
      obtain ⟨c', rfl, hw⟩ := a1.some
      obtain ⟨r, p2, a2⟩ := ih2 { c' with qty := k } _ _ f2 hw.inside hw.ok (hw.reads ht)
      exact ⟨r, .repsNext hk p1 p2, by refine Agrees.step ?_ a2; exact hw.congr rfl rfl rfl rfl rfl rfl rfl rfl rfl rfl rfl⟩
    | seqFail f1 =>
      obtain ⟨r, p1, a1⟩ := ih1 c t _ f1 hi hok ht
      cases a1.none
      refine ⟨_, .repsEnd hk p1, ?_⟩
      unfold repEnd
      rw [if_neg (by omega)]; trivial
  | @repsMaybe tm gs k a b hk hle m1 m2 ih1 ih2 =>
    intro c t o hf hi hok ht
    cases hf with
    | altLeft f =>
      cases f with
      | seq f1 f2 =>
        obtain ⟨r, p1, a1⟩ := ih1 c t _ f1 hi hok ht
        obtain ⟨c', rfl, hw⟩ := a1.some
        obtain ⟨r, p2, a2⟩ := ih2 { c' with qty := k } _ _ f2 hw.inside hw.ok (hw.reads ht)
        exact ⟨r, .repsNext hk p1 p2, by refine Agrees.step ?_ a2; exact hw.congr rfl rfl rfl rfl rfl rfl rfl rfl rfl rfl rfl⟩
    | altRight f f' =>
      cases f' with
      | eps =>
        cases f with
        | seq f1 f2 => exact (reps_some m2 (by omega) f2.ford).elim
        | seqFail f1 =>
          obtain ⟨r, p1, a1⟩ := ih1 c t _ f1 hi hok ht
          cases a1.none
          exact ⟨_, .repsEnd hk p1, repEnd_agrees hi hok hle⟩
  | repsDone hk hle _ _ =>
    intro c t o hf hi hok ht
    cases hf
    exact ⟨_, .repsMax hk, repEnd_agrees hi hok hle⟩
  | @repsStar tm gs k a hneg hle m1 ih =>
    intro c t o hf hi hok ht
    cases hf with
    | starEnd f1 =>
      obtain ⟨r, p1, a1⟩ := ih c t _ f1 hi hok ht
      cases a1.none
      exact ⟨_, .repsEnd (by omega) p1, repEnd_agrees hi hok hle⟩
    | starMore f1 f2 =>
      obtain ⟨r, p1, a1⟩ := ih c t _ (f1.mono (Nat.le_succ _)) hi hok ht
      obtain ⟨c', rfl, hw⟩ := a1.some
      obtain ⟨r, p2, a2⟩ := outer _ (Nat.lt_succ_self _) (.repsStar (k := k + 1) hneg (by omega) m1) { c' with qty := k } _ _ f2 hw.inside hw.ok (hw.reads ht)
      exact ⟨r, .repsNext (by omega) p1 p2, by refine Agrees.step ?_ a2; exact hw.congr rfl rfl rfl rfl rfl rfl rfl rfl rfl rfl rfl⟩
  | flatGroup _ ih =>
    intro c t o hf hi hok ht
    obtain ⟨r, p1, a1⟩ := ih (enter ":base:FlatGroup" c) t o hf hi rfl ht
    exact ⟨_, .flatGroup p1, a1.change⟩
  | group _ hg ih =>
    intro c t o hf hi hok ht
    obtain ⟨r, p1, a1⟩ := ih (enter ":base:Group" c) t o hf hi rfl ht
    exact ⟨_, .group p1, group_agrees hg a1⟩
  | first hne _ ih =>
    intro c t o hf hi hok ht
    obtain ⟨r, p1, a1⟩ := ih (enter ":base:First" c) t o hf hi rfl ht
    exact ⟨_, .first hne p1, a1.change⟩
  | @lookAhead gs e _ ih =>
    intro c t o hf hi hok ht
    have : ∃ o', FordN rules n e t o' := by
      cases hf with
      | notYes f => cases f with
        | notNo f => exact ⟨_, f⟩
      | notNo f => cases f with
        | notYes f => exact ⟨_, f⟩
    obtain ⟨o', f1⟩ := this
    obtain ⟨r, p1, a1⟩ := ih (enter ":base:LookAhead" c) t o' f1 hi rfl ht
    obtain ⟨o'', f2, a2⟩ := lookAhead_agrees hi hok f1.ford a1
    cases ford_unique f2 hf.ford
    exact ⟨_, .lookAhead p1, a2⟩
  | lookAheadN _ ih =>
    intro c t o hf hi hok ht
    cases hf with
    | notYes f =>
      obtain ⟨r, p1, a1⟩ := ih (enter ":base:LookAheadN" c) t _ f hi rfl ht
      cases a1.none
      exact ⟨_, .lookAheadN_yes p1, (Went.refl hi hok).congr rfl rfl rfl rfl rfl rfl rfl rfl rfl rfl rfl⟩
    | notNo f =>
      obtain ⟨r, p1, a1⟩ := ih (enter ":base:LookAheadN" c) t _ f hi rfl ht
      obtain ⟨c', rfl, hw⟩ := a1.some
      exact ⟨_, .lookAheadN_no p1, trivial⟩
  | «repeat» _ ih =>
    intro c t o hf hi hok ht
    obtain ⟨r, p1, a1⟩ := ih (enter ":base:Repeat" c) t o hf hi rfl ht
    refine ⟨_, .repeat p1, ?_⟩
    rcases a1.ends with rfl | ⟨c', rfl⟩
    · rw [a1.unmatched]; trivial
    · obtain ⟨v, rfl, hw⟩ := a1.matched
      exact hw.congr rfl rfl rfl rfl rfl rfl rfl rfl rfl rfl rfl
  | @trans g fs e _ hs ih =>
    intro c t o hf hi hok ht
    obtain ⟨r, p1, a1⟩ := ih (enter ":base:Trans" c) t o hf hi rfl ht
    rcases a1.ends with rfl | ⟨c', rfl⟩
    · exact ⟨_, .trans_stop p1 (fun _ h => by cases h), by rw [a1.unmatched]; trivial⟩
    · obtain ⟨v, rfl, hw⟩ := a1.matched
      by_cases hfs : fs = []
      · subst hfs
        exact ⟨_, .trans_none p1, hw.congr rfl rfl rfl rfl rfl rfl rfl rfl rfl rfl rfl⟩
      · obtain ⟨r, hr⟩ := trans_rewrites hs hw
        exact ⟨r, .trans p1 hfs hr, rewrites_went hs hw hr⟩
  | indirect =>
    intro c t o hf hi hok ht
    cases hf with
    | var f =>
      obtain ⟨r, p1, a1⟩ := outer _ (Nat.lt_succ_self _) (henv _) c t o f hi hok ht
      exact ⟨_, .indirect p1, indirect_agrees a1⟩

end

end Takenoco
