import Verif.Spec.ViablePrefix
import Verif.Lemmas.Linear
import Verif.Lemmas.Ford
/-
What an expression that one character of look-ahead decides consumes of a text is the longest part that can become a word.
-/
namespace Takenoco
open Spec

theorem take_beyond {α : Type} {x y : List α} {q : Nat} (h : x.length ≤ q) : (x ++ y).take q = x ++ y.take (q - x.length) := by
  rw [List.take_append, List.take_of_length_le h]

/-- Reading on from where the next character would be wrong. -/
theorem readOff_prefix {s r q : Bytes} {u x : List Char} {ch : Char} {n : Nat} (hr : ReadOff s u r) (hch : NextChar r ch n) (hx : ReadOff s x q)
    (hno : ∀ y, x ≠ u ++ [ch] ++ y) : r.length ≤ q.length := by
  induction hr generalizing x with
  | nil =>
    cases hx with
    | nil => exact Nat.le_refl _
    | @cons _ _ ch' n' x' h1 h2 =>
      have := nextChar_unique h1 hch
      exact absurd (by rw [this.1]; rfl) (hno x')
  | @cons s r a m u h1 h2 ih =>
    cases hx with
    | nil => have := readOff_le h2; have := nextChar_drop_lt h1; omega
    | @cons _ _ b m' x' h3 h4 =>
      obtain ⟨rfl, rfl⟩ := nextChar_unique h1 h3
      exact ih hch h4 fun y hy => hno y (by rw [hy]; rfl)

section
variable {rules : Nat → Peg} {follow : Nat → Char → Prop} {e : Peg} {F : Char → Prop} {t v : List Char} {o : Option (List Char)} {k p : Nat}

theorem viable_prefix {x y : List Char} (h : Continuable rules e (x ++ y)) : Continuable rules e x := by
  obtain ⟨w, h⟩ := h
  exact ⟨y ++ w, by rwa [← List.append_assoc]⟩

theorem noLook_loose (h : e.NoLook) : e.loose = e := by
  induction e with
  | eps | chr | var => rfl
  | seq _ _ ih1 ih2 | alt _ _ ih1 ih2 => simp only [Peg.loose, ih1 h.1, ih2 h.2]
  | star _ ih => simp only [Peg.loose, ih h]
  | notP => exact h.elim

theorem ll1_noLook (h : LL1 rules follow e F) : e.NoLook := by
  induction h with
  | eps | chr | var => trivial
  | seq _ _ ih1 ih2 | alt _ _ _ _ ih1 ih2 => exact ⟨ih1, ih2⟩
  | star _ _ _ ih => exact ih

section
variable (hp : Productive rules)
include hp

theorem productive_word (hn : e.NoLook) (hu : e.Useful) : ∃ w, Lang rules e w := by
  induction e with
  | eps => exact ⟨[], .eps⟩
  | chr => obtain ⟨ch, h⟩ := hu; exact ⟨[ch], .chr h⟩
  | seq _ _ ih1 ih2 =>
    obtain ⟨x, hx⟩ := ih1 hn.1 hu.1
    obtain ⟨y, hy⟩ := ih2 hn.2 hu.2
    exact ⟨x ++ y, .seq hx hy⟩
  | alt _ _ ih _ => obtain ⟨x, hx⟩ := ih hn.1 hu.1; exact ⟨x, .left hx⟩
  | star => exact ⟨[], .starEnd⟩
  | var i => obtain ⟨x, hx⟩ := hp.word i; exact ⟨x, .var hx⟩
  | notP => exact hn.elim

theorem noLook_lang (hn : e.NoLook) (h : Tries rules e t (some v) k p) : ∃ u, t = u ++ v ∧ Lang rules e u := by
  obtain ⟨u, h1, h2⟩ := ford_loose h.ford v rfl
  rw [noLook_loose hn, show (fun i => (rules i).loose) = rules from funext fun i => noLook_loose (hp.noLook i)] at h2
  exact ⟨u, h1, h2⟩

/-- What has been consumed can become a word. -/
theorem tries_viable (h : Tries rules e t o k p) : e.NoLook → e.Useful → Continuable rules e (t.take p) := by
  induction h with
  | eps | chrNot | chrEnd => intro he hu; rw [List.take_zero]; exact productive_word hp he hu
  | @chr S ch t h => intro _ _; exact ⟨[], by simpa using .chr h⟩
  | @seq a b t u r k k' q q' h1 h2 ih1 ih2 =>
    intro he hu
    obtain ⟨x, rfl, hx⟩ := noLook_lang hp he.1 h1
    have hlen : (x ++ u).length - u.length = x.length := by simp
    have hleft : Continuable rules (.seq a b) ((x ++ u).take q) := by
      obtain ⟨w, hw1⟩ := ih1 he.1 hu.1
      obtain ⟨y, hy⟩ := productive_word hp he.2 hu.2
      exact ⟨w ++ y, by rw [← List.append_assoc]; exact .seq hw1 hy⟩
    rw [hlen]
    rcases Nat.le_total q (x.length + q') with h | h
    · rw [Nat.max_eq_right h, List.take_length_add_append]
      obtain ⟨w, hw1⟩ := ih2 he.2 hu.2
      exact ⟨w, by rw [List.append_assoc]; exact .seq hx hw1⟩
    · rw [Nat.max_eq_left h]; exact hleft
  | seqFail h1 ih1 =>
    intro he hu
    obtain ⟨w, hw1⟩ := ih1 he.1 hu.1
    obtain ⟨y, hy⟩ := productive_word hp he.2 hu.2
    exact ⟨w ++ y, by rw [← List.append_assoc]; exact .seq hw1 hy⟩
  | altLeft h1 ih1 =>
    intro he hu
    obtain ⟨w, h⟩ := ih1 he.1 hu.1; exact ⟨w, .left h⟩
  | @altRight a b t r k k' q q' h1 h2 ih1 ih2 =>
    intro he hu
    rcases Nat.le_total q q' with h | h
    · rw [Nat.max_eq_right h]; obtain ⟨w, h⟩ := ih2 he.2 hu.2; exact ⟨w, .right h⟩
    · rw [Nat.max_eq_left h]; obtain ⟨w, h⟩ := ih1 he.1 hu.1; exact ⟨w, .left h⟩
  | starEnd h1 ih1 =>
    intro he hu
    obtain ⟨w, h⟩ := ih1 he hu
    exact ⟨w, by simpa using Lang.starMore h .starEnd⟩
  | @starMore a t u r k k' q q' h1 h2 ih1 ih2 =>
    intro he hu
    obtain ⟨x, rfl, hx⟩ := noLook_lang (e := a) hp he h1
    rw [show (x ++ u).length - u.length = x.length by simp]
    rcases Nat.le_total q (x.length + q') with h | h
    · rw [Nat.max_eq_right h, List.take_length_add_append]
      obtain ⟨w, hw1⟩ := ih2 he hu
      exact ⟨w, by rw [List.append_assoc]; exact .starMore hx hw1⟩
    · rw [Nat.max_eq_left h]
      obtain ⟨w, h⟩ := ih1 he hu
      exact ⟨w, by simpa using Lang.starMore h .starEnd⟩
  | notYes | notNo => intro he; exact he.elim
  | var h1 ih1 =>
    intro he hu
    obtain ⟨w, h⟩ := ih1 (hp.noLook _) (hp.useful _)
    exact ⟨w, .var h⟩

end

variable (hll : ∀ i, LL1 rules follow (rules i) (follow i))

/-- What comes behind the first character that is not consumed makes no difference. -/
theorem tries_local {ch : Char} {y : List Char} (y' : List Char) (h : Tries rules e t o k p) : ∀ x, t = x ++ ch :: y → p ≤ x.length →
    ∃ o', Tries rules e (x ++ ch :: y') o' k p ∧ ((o = none ∧ o' = none) ∨ ∃ u v, x = u ++ v ∧ o = some (v ++ ch :: y) ∧ o' = some (v ++ ch :: y')) := by
  induction h with
  | eps => rintro x rfl _; exact ⟨_, .eps, .inr ⟨[], x, rfl, rfl, rfl⟩⟩
  | @chr S a t h =>
    intro x hx hp
    cases x with
    | nil => simp at hp
    | cons b x => injection hx with h1 h2; subst h1 h2; exact ⟨_, .chr h, .inr ⟨[a], x, rfl, rfl, rfl⟩⟩
  | @chrNot S a t h =>
    intro x hx hp
    cases x with
    | nil => injection hx with h1 h2; subst h1; exact ⟨_, .chrNot h, .inl ⟨rfl, rfl⟩⟩
    | cons b x => injection hx with h1 h2; subst h1; exact ⟨_, .chrNot h, .inl ⟨rfl, rfl⟩⟩
  | chrEnd => intro x hx; simp at hx
  | @seq a b t u r k k' q q' h1 h2 ih1 ih2 =>
    intro x hx hp
    obtain ⟨o1, t1, ⟨h, -⟩ | ⟨z, v, rfl, e1, rfl⟩⟩ := ih1 x hx (Nat.le_trans (Nat.le_max_left _ _) hp)
    · cases h
    cases e1
    have e2 := Nat.le_max_right q (t.length - (v ++ ch :: y).length + q')
    have e3 : t.length - (v ++ ch :: y).length = z.length := by rw [hx]; simp
    have e4 : (z ++ v ++ ch :: y').length - (v ++ ch :: y').length = z.length := by simp
    have e5 : q' ≤ v.length := by rw [e3] at e2; rw [e3] at hp; simp only [List.length_append] at hp; omega
    obtain ⟨o2, t2, h⟩ := ih2 v rfl e5
    have := Tries.seq t1 t2
    rw [e4, ← e3] at this
    refine ⟨o2, this, h.imp_right ?_⟩
    rintro ⟨u, w, rfl, h1, h2⟩
    exact ⟨z ++ u, w, by simp, h1, h2⟩
  | seqFail h1 ih =>
    intro x hx hp
    obtain ⟨o1, t1, ⟨-, rfl⟩ | ⟨_, _, _, h, _⟩⟩ := ih x hx hp
    · exact ⟨_, .seqFail t1, .inl ⟨rfl, rfl⟩⟩
    · cases h
  | altLeft h1 ih =>
    intro x hx hp
    obtain ⟨o1, t1, ⟨h, _⟩ | ⟨u, v, h1, h2, rfl⟩⟩ := ih x hx hp
    · cases h
    · exact ⟨_, .altLeft t1, .inr ⟨u, v, h1, h2, rfl⟩⟩
  | altRight h1 h2 ih1 ih2 =>
    intro x hx hp
    obtain ⟨o1, t1, ⟨-, rfl⟩ | ⟨_, _, _, h, _⟩⟩ := ih1 x hx (Nat.le_trans (Nat.le_max_left _ _) hp)
    · obtain ⟨o2, t2, h⟩ := ih2 x hx (Nat.le_trans (Nat.le_max_right _ _) hp)
      exact ⟨o2, .altRight t1 t2, h⟩
    · cases h
  | starEnd h1 ih =>
    rintro x rfl hp
    obtain ⟨o1, t1, ⟨-, rfl⟩ | ⟨_, _, _, h, _⟩⟩ := ih x rfl hp
    · exact ⟨_, .starEnd t1, .inr ⟨[], x, rfl, rfl, rfl⟩⟩
    · cases h
  | @starMore a t u r k k' q q' h1 h2 ih1 ih2 =>
    intro x hx hp
    obtain ⟨o1, t1, ⟨h, -⟩ | ⟨z, v, rfl, e1, rfl⟩⟩ := ih1 x hx (Nat.le_trans (Nat.le_max_left _ _) hp)
    · cases h
    cases e1
    have e2 := Nat.le_max_right q (t.length - (v ++ ch :: y).length + q')
    have e3 : t.length - (v ++ ch :: y).length = z.length := by rw [hx]; simp
    have e4 : (z ++ v ++ ch :: y').length - (v ++ ch :: y').length = z.length := by simp
    have e5 : q' ≤ v.length := by rw [e3] at e2; rw [e3] at hp; simp only [List.length_append] at hp; omega
    obtain ⟨o2, t2, h⟩ := ih2 v rfl e5
    have := Tries.starMore t1 t2
    rw [e4, ← e3] at this
    refine ⟨o2, this, h.imp_right ?_⟩
    rintro ⟨u, w, rfl, h1, h2⟩
    exact ⟨z ++ u, w, by simp, h1, h2⟩
  | notYes h1 ih =>
    rintro x rfl hp
    obtain ⟨o1, t1, ⟨-, rfl⟩ | ⟨_, _, _, h, _⟩⟩ := ih x rfl hp
    · exact ⟨_, .notYes t1, .inr ⟨[], x, rfl, rfl, rfl⟩⟩
    · cases h
  | notNo h1 ih =>
    intro x hx hp
    obtain ⟨o1, t1, ⟨h, _⟩ | ⟨u, v, h1, h2, rfl⟩⟩ := ih x hx hp
    · cases h
    · exact ⟨_, .notNo t1, .inl ⟨rfl, rfl⟩⟩
  | var h1 ih =>
    intro x hx hp
    obtain ⟨o1, t1, h⟩ := ih x hx hp
    exact ⟨o1, .var t1, h⟩

/-- How a word of two parts that begins like the text goes on behind its first part. -/
theorem viable_split {a : Peg} {x y t w : List Char} {p P : Nat} (hx : Lang rules a x) (h : x ++ y = t.take (P + 1) ++ w) (hp : p ≤ P) (hP : P < t.length)
    (ha : p < t.length → ¬ Continuable rules a (t.take (p + 1))) : ∃ ch r y', t = x ++ ch :: r ∧ y = ch :: y' ∧ y = (ch :: r).take (P + 1 - x.length) ++ w := by
  have no : ∀ d, x = t.take (P + 1) ++ d → False := by
    intro d hd
    refine ha (by omega) (viable_prefix (y := (t.take (P + 1)).drop (p + 1)) ?_)
    have e1 : t.take (p + 1) = (t.take (P + 1)).take (p + 1) := by rw [List.take_take, Nat.min_eq_left (by omega)]
    rw [e1, List.take_append_drop]
    exact ⟨d, hd ▸ hx⟩
  rcases List.append_eq_append_iff.1 h with ⟨d, h1, h2⟩ | ⟨d, h1, h2⟩
  · cases d with
    | nil => exact (no [] (by simpa using h1.symm)).elim
    | cons ch d =>
      refine ⟨ch, d ++ t.drop (P + 1), d ++ w, ?_, h2, ?_⟩
      · have := (List.take_append_drop (P + 1) t).symm
        rw [h1] at this
        simpa using this
      · have hl := congrArg List.length h1
        rw [List.length_take, Nat.min_eq_left (by omega), List.length_append] at hl
        rw [h2, show (ch :: (d ++ t.drop (P + 1))) = (ch :: d) ++ t.drop (P + 1) from rfl, hl,
          show x.length + (ch :: d).length - x.length = (ch :: d).length by omega, List.take_left]
  · exact (no d h1).elim

theorem viable_less {a : Peg} {t w : List Char} {p q : Nat} (hp : p < t.length) (hq : p + 1 ≤ q) (ha : p < t.length → ¬ Continuable rules a (t.take (p + 1)))
    (h : Lang rules a (t.take q ++ w)) : False := by
  refine ha hp (viable_prefix (y := (t.take q).drop (p + 1)) ?_)
  have e1 : t.take (p + 1) = (t.take q).take (p + 1) := by rw [List.take_take, Nat.min_eq_left (by omega)]
  rw [e1, List.take_append_drop]
  exact ⟨w, h⟩

include hll in
/-- What has been consumed is as long as possible. -/
theorem ll1_longest (hwf : NoLeftRecursion rules) (h : Tries rules e t o k p) :
    ∀ F, LL1 rules follow e F → p < t.length → ¬ Continuable rules e (t.take (p + 1)) := by
  have same : ∀ {a t o k p F x r}, LL1 rules follow a F → Tries rules a t o k p → Lang rules a x → t = x ++ r → (r = [] ∨ ∃ ch r', r = ch :: r' ∧ F ch) → o = some r := by
    intro a t o k p F x r ha h1 hx ht hF
    obtain ⟨o', f1, -, f2⟩ := ll1_decides hll hwf t a F ha
    rw [ford_unique h1.ford f1]
    exact f2 x r ht hx hF
  induction h with
  | eps =>
    rintro F _ hp ⟨w, h⟩
    have e1 : ∀ x, Lang rules .eps x → x = [] := by intro x h; cases h; rfl
    have := e1 _ h
    have := congrArg List.length this
    simp only [List.length_append, List.length_take, List.length_nil] at this
    omega
  | @chr S ch t h =>
    rintro F _ hp ⟨w, h⟩
    have e1 : ∀ x, Lang rules (.chr S) x → x.length = 1 := by intro x h; cases h; rfl
    have := e1 _ h
    simp only [List.length_append, List.length_take, List.length_cons] at this hp
    omega
  | @chrNot S ch t hn =>
    rintro F _ hp ⟨w, h⟩
    have e1 : ∀ ch w, Lang rules (.chr S) (ch :: w) → S ch := by intro x w h; cases h; assumption
    exact hn (e1 _ _ h)
  | chrEnd => intro F _ hp; simp at hp
  | @seq a b t u r k k' p p' h1 h2 ih1 ih2 =>
    rintro F he hP ⟨w, h⟩
    cases he with
    | seq ha hb =>
    generalize hz : t.take _ ++ w = z at h
    cases h with
    | @seq _ _ x y hx hy =>
    obtain ⟨ch, s, y', ht, hy', hy2⟩ := viable_split hx hz.symm (Nat.le_max_left _ _) hP (ih1 _ ha)
    have := same ha h1 hx ht (.inr ⟨ch, s, rfl, .inl ⟨y', hy' ▸ hy⟩⟩)
    cases this
    have e1 := congrArg List.length ht
    simp only [List.length_append] at e1
    have hle := Nat.le_max_right p (t.length - (ch :: s).length + p')
    exact viable_less (p := p') (by omega) (by omega) (ih2 _ hb) (hy2 ▸ hy)
  | @seqFail a b t k p h1 ih1 =>
    rintro F he hP ⟨w, h⟩
    cases he with
    | seq ha hb =>
    generalize hz : t.take _ ++ w = z at h
    cases h with
    | @seq _ _ x y hx hy =>
    obtain ⟨ch, s, y', ht, hy', -⟩ := viable_split hx hz.symm (Nat.le_refl _) hP (ih1 _ ha)
    have := same ha h1 hx ht (.inr ⟨ch, s, rfl, .inl ⟨y', hy' ▸ hy⟩⟩)
    cases this
  | @altLeft a b t u k p h1 ih1 =>
    rintro F he hP ⟨w, h⟩
    cases he with
    | alt hn hd ha hb =>
    obtain ⟨x, rfl, hx⟩ := ll1_lang hll ha h1
    cases x with
    | nil => exact hn hx
    | cons ch x =>
    generalize hz : ((ch :: x) ++ u).take _ ++ w = z at h
    cases h with
    | left h => exact ih1 _ ha hP ⟨w, hz ▸ h⟩
    | right h => exact hd ch ⟨x, hx⟩ (.inl ⟨_, by rw [← hz] at h; exact h⟩)
  | @altRight a b t r k k' p p' h1 h2 ih1 ih2 =>
    rintro F he hP ⟨w, h⟩
    cases he with
    | alt hn hd ha hb =>
    have e1 := Nat.le_max_left p p'
    have e2 := Nat.le_max_right p p'
    generalize hz : t.take _ ++ w = z at h
    cases h with
    | left h => exact viable_less (p := p) (by omega) (by omega) (ih1 _ ha) (hz ▸ h)
    | right h => exact viable_less (p := p') (by omega) (by omega) (ih2 _ hb) (hz ▸ h)
  | @starEnd a t k p h1 ih1 =>
    rintro F he hP ⟨w, h⟩
    cases he with
    | star hn hd ha =>
    generalize hz : t.take _ ++ w = z at h
    rcases star_split hn h with rfl | ⟨x, y, rfl, _, hx, hy⟩
    · have := congrArg List.length hz
      simp only [List.length_append, List.length_take, List.length_nil] at this
      omega
    obtain ⟨ch, s, y', ht, hy', -⟩ := viable_split hx hz.symm (Nat.le_refl _) hP (ih1 _ ha)
    have := same ha h1 hx ht (.inr ⟨ch, s, rfl, .inl (star_starts (hy' ▸ hy))⟩)
    cases this
  | @starMore a t u r k k' p p' h1 h2 ih1 ih2 =>
    rintro F he hP ⟨w, h⟩
    cases he with
    | star hn hd ha =>
    generalize hz : t.take _ ++ w = z at h
    rcases star_split hn h with rfl | ⟨x, y, rfl, _, hx, hy⟩
    · have := congrArg List.length hz
      simp only [List.length_append, List.length_take, List.length_nil] at this
      omega
    obtain ⟨ch, s, y', ht, hy', hy2⟩ := viable_split hx hz.symm (Nat.le_max_left _ _) hP (ih1 _ ha)
    have := same ha h1 hx ht (.inr ⟨ch, s, rfl, .inl (star_starts (hy' ▸ hy))⟩)
    cases this
    have e1 := congrArg List.length ht
    simp only [List.length_append] at e1
    have hle := Nat.le_max_right p (t.length - (ch :: s).length + p')
    exact viable_less (p := p') (by omega) (by omega) (ih2 _ (.star hn hd ha)) (hy2 ▸ hy)
  | notYes | notNo => intro F he; cases he
  | var h1 ih1 =>
    rintro F he hP ⟨w, h⟩
    generalize hz : List.take _ _ ++ w = z at h
    cases h with
    | var h => exact ih1 _ (hll _) hP ⟨w, hz ▸ h⟩

end
end Takenoco
