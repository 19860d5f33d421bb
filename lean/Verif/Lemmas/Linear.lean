import Verif.Spec.Linear
import Verif.Lemmas.Language
import Verif.Lemmas.Loose
/-
Under the LL(1) condition the number of expressions tried is linear in the length of the text.
-/
namespace Takenoco
open Spec

section
variable {rules : Nat → Peg} {follow : Nat → Char → Prop} {e a b : Peg} {F : Char → Prop} {t u v : List Char} {o : Option (List Char)} {k p : Nat}

theorem Spec.Tries.ford (h : Tries rules e t o k p) : Ford rules e t o := by
  induction h with
  | eps => exact .eps
  | chr h => exact .chr h
  | chrNot h => exact .chrNot h
  | chrEnd => exact .chrEnd
  | seq _ _ h1 h2 => exact .seq h1 h2
  | seqFail _ h => exact .seqFail h
  | altLeft _ h => exact .altLeft h
  | altRight _ _ h1 h2 => exact .altRight h1 h2
  | starEnd _ h => exact .starEnd h
  | starMore _ _ h1 h2 => exact .starMore h1 h2
  | notYes _ h => exact .notYes h
  | notNo _ h => exact .notNo h
  | var _ h => exact .var h

theorem tries_of (h : Ford rules e t o) : ∃ k p, Tries rules e t o k p := by
  induction h with
  | eps => exact ⟨_, _, .eps⟩
  | chr h => exact ⟨_, _, .chr h⟩
  | chrNot h => exact ⟨_, _, .chrNot h⟩
  | chrEnd => exact ⟨_, _, .chrEnd⟩
  | seq _ _ h1 h2 => obtain ⟨_, _, h1⟩ := h1; obtain ⟨_, _, h2⟩ := h2; exact ⟨_, _, .seq h1 h2⟩
  | seqFail _ h => obtain ⟨_, _, h⟩ := h; exact ⟨_, _, .seqFail h⟩
  | altLeft _ h => obtain ⟨_, _, h⟩ := h; exact ⟨_, _, .altLeft h⟩
  | altRight _ _ h1 h2 => obtain ⟨_, _, h1⟩ := h1; obtain ⟨_, _, h2⟩ := h2; exact ⟨_, _, .altRight h1 h2⟩
  | starEnd _ h => obtain ⟨_, _, h⟩ := h; exact ⟨_, _, .starEnd h⟩
  | starMore _ _ h1 h2 => obtain ⟨_, _, h1⟩ := h1; obtain ⟨_, _, h2⟩ := h2; exact ⟨_, _, .starMore h1 h2⟩
  | notYes _ h => obtain ⟨_, _, h⟩ := h; exact ⟨_, _, .notYes h⟩
  | notNo _ h => obtain ⟨_, _, h⟩ := h; exact ⟨_, _, .notNo h⟩
  | var _ h => obtain ⟨_, _, h⟩ := h; exact ⟨_, _, .var h⟩

theorem Spec.Tries.shorter (h : Tries rules e t (some v) k p) : v.length ≤ t.length := by
  obtain ⟨u, rfl⟩ := ford_suffix h.ford v rfl
  simp

theorem Spec.Tries.pos (h : Tries rules e t o k p) : 1 ≤ k := by
  cases h <;> omega

/-- What is consumed has been reached, and nothing behind the text is. -/
theorem Spec.Tries.reach (h : Tries rules e t o k p) : p ≤ t.length ∧ ∀ v, o = some v → t.length ≤ v.length + p := by
  induction h with
  | eps => exact ⟨Nat.zero_le _, by rintro _ ⟨⟩; simp⟩
  | chr _ => exact ⟨by simp, by rintro _ ⟨⟩; simp⟩
  | chrNot | chrEnd => exact ⟨Nat.zero_le _, by rintro _ ⟨⟩⟩
  | seq h1 h2 ih1 ih2 | starMore h1 h2 ih1 ih2 =>
    have := h1.shorter
    have := ih1.2 _ rfl
    refine ⟨by have := ih1.1; have := ih2.1; omega, fun v hv => ?_⟩
    have := ih2.2 v hv
    omega
  | seqFail _ ih => exact ⟨ih.1, by rintro _ ⟨⟩⟩
  | altLeft _ ih | var _ ih => exact ih
  | altRight _ _ ih1 ih2 => exact ⟨by have := ih1.1; have := ih2.1; omega, fun v hv => by have := ih2.2 v hv; omega⟩
  | starEnd _ ih | notYes _ ih => exact ⟨ih.1, by rintro _ ⟨⟩; omega⟩
  | notNo _ ih => exact ⟨ih.1, by rintro _ ⟨⟩⟩

/-- The expression generates a word. -/
theorem useful_word (hw : ∀ i, ∃ w, Lang rules (rules i) w) (hll : LL1 rules follow e F) (hu : e.Useful) : ∃ w, Lang rules e w := by
  induction hll with
  | eps => exact ⟨[], .eps⟩
  | chr => obtain ⟨ch, h⟩ := hu; exact ⟨[ch], .chr h⟩
  | seq _ _ ih1 ih2 =>
    obtain ⟨x, hx⟩ := ih1 hu.1
    obtain ⟨y, hy⟩ := ih2 hu.2
    exact ⟨x ++ y, .seq hx hy⟩
  | alt _ _ _ _ ih _ => obtain ⟨x, hx⟩ := ih hu.1; exact ⟨x, .left hx⟩
  | star => exact ⟨[], .starEnd⟩
  | @var i => obtain ⟨x, hx⟩ := hw i; exact ⟨x, .var hx⟩

variable (hll : ∀ i, LL1 rules follow (rules i) (follow i))
include hll

theorem ll1_lang (he : LL1 rules follow e F) (h : Tries rules e t (some v) k p) : ∃ u, t = u ++ v ∧ Lang rules e u := by
  obtain ⟨u, h1, h2⟩ := ford_loose h.ford v rfl
  rw [Peg.loose_eq he, show (fun i => (rules i).loose) = rules from funext fun i => Peg.loose_eq (hll i)] at h2
  exact ⟨u, h1, h2⟩

variable (huse : ∀ i, (rules i).Useful) (hw : ∀ i, ∃ w, Lang rules (rules i) w)
include huse hw

/-- Where something has been consumed, the text begins like a word. -/
theorem ll1_first (h : Tries rules e t o k p) : ∀ F, LL1 rules follow e F → e.Useful → 0 < p → ∃ ch t', t = ch :: t' ∧ FirstOf rules e ch := by
  induction h with
  | eps | chrNot | chrEnd => intro F _ _ h; omega
  | @chr S ch t h => intro F _ _ _; exact ⟨ch, t, rfl, [], .chr h⟩
  | @seq a b t u r k k' p p' h1 h2 ih1 ih2 =>
    intro F he hu hp
    cases he with
    | seq ha hb =>
    by_cases h0 : 0 < p
    · obtain ⟨ch, t', e1, w, hf⟩ := ih1 _ ha hu.1 h0
      obtain ⟨x, hx⟩ := useful_word hw hb hu.2
      exact ⟨ch, t', e1, w ++ x, .seq hf hx⟩
    · obtain ⟨x, rfl, hx⟩ := ll1_lang hll ha h1
      have := h1.reach.2 _ rfl
      simp only [List.length_append] at this hp
      have : x = [] := List.eq_nil_of_length_eq_zero (by omega)
      subst this
      obtain ⟨ch, t', e1, w, hf⟩ := ih2 _ hb hu.2 (by simp only [List.length_nil] at hp; omega)
      exact ⟨ch, t', by rw [← e1]; rfl, w, .seq hx hf⟩
  | @seqFail a b t k p h1 ih1 =>
    intro F he hu hp
    cases he with
    | seq ha hb =>
    obtain ⟨ch, t', e1, w, hf⟩ := ih1 _ ha hu.1 hp
    obtain ⟨x, hx⟩ := useful_word hw hb hu.2
    exact ⟨ch, t', e1, w ++ x, .seq hf hx⟩
  | altLeft h1 ih1 =>
    intro F he hu hp
    cases he with
    | alt _ _ ha hb =>
    obtain ⟨ch, t', e1, w, hf⟩ := ih1 _ ha hu.1 hp
    exact ⟨ch, t', e1, w, .left hf⟩
  | @altRight a b t r k k' p p' h1 h2 ih1 ih2 =>
    intro F he hu hp
    cases he with
    | alt _ _ ha hb =>
    by_cases h0 : 0 < p
    · obtain ⟨ch, t', e1, w, hf⟩ := ih1 _ ha hu.1 h0
      exact ⟨ch, t', e1, w, .left hf⟩
    · obtain ⟨ch, t', e1, w, hf⟩ := ih2 _ hb hu.2 (by omega)
      exact ⟨ch, t', e1, w, .right hf⟩
  | starEnd h1 ih1 =>
    intro F he hu hp
    cases he with
    | star _ _ ha =>
    obtain ⟨ch, t', e1, w, hf⟩ := ih1 _ ha hu hp
    exact ⟨ch, t', e1, w, by simpa using Lang.starMore hf .starEnd⟩
  | @starMore a t u r k k' p p' h1 h2 ih1 ih2 =>
    intro F he hu hp
    cases he with
    | star hn hd ha =>
    obtain ⟨x, rfl, hx⟩ := ll1_lang hll ha h1
    cases x with
    | nil => exact absurd hx hn
    | cons ch x => exact ⟨ch, x ++ u, rfl, x, by simpa using Lang.starMore hx .starEnd⟩
  | notYes | notNo => intro F he; cases he
  | var h1 ih1 =>
    intro F he hu hp
    obtain ⟨ch, t', e1, w, hf⟩ := ih1 _ (hll _) (huse _) hp
    exact ⟨ch, t', e1, w, .var hf⟩

end

/-! ### The constants -/

/-- `1 + B * (1 + B * … (1 + B * x))`. -/
def grow (B x : Nat) : Nat → Nat
  | 0 => x
  | r + 1 => 1 + B * grow B x r

theorem grow_mono (B x : Nat) (hB : 1 ≤ B) {r s : Nat} (h : r ≤ s) : grow B x r ≤ grow B x s := by
  induction h with
  | refl => exact Nat.le_refl _
  | @step m _ ih =>
    have : 1 * grow B x m ≤ B * grow B x m := Nat.mul_le_mul_right _ hB
    show _ ≤ 1 + B * grow B x m
    omega

section
variable {rules : Nat → Peg} {follow : Nat → Char → Prop} {e : Peg} {t : List Char} {o : Option (List Char)} {k p : Nat}

theorem ll1_tries (hll : ∀ i, LL1 rules follow (rules i) (follow i)) (huse : ∀ i, (rules i).Useful) (hw : ∀ i, ∃ w, Lang rules (rules i) w)
    {B R E : Nat} {rank V U : Nat → Nat} (hR : ∀ i, rank i < R) (hrank : ∀ i j, Leftmost rules (rules i) j → rank j < rank i)
    (hB : ∀ i, (rules i).size ≤ B) (V1 : ∀ r, 1 ≤ V r) (Vs : ∀ i r, i < r → 1 + B * V i ≤ V r) (U1 : ∀ r, 1 + B * V R ≤ U r) (UV : ∀ r, V R ≤ U r)
    (Us : ∀ i r, i < r → 1 + B * U i ≤ U r) (hE : 1 + B * U R ≤ E) (h : Tries rules e t o k p) :
    ∀ F r, LL1 rules follow e F → e.Useful → (∀ j, Leftmost rules e j → rank j < r) → e.size ≤ B →
      (∀ v, o = some v → t.length = v.length + p ∨ ∃ ch v', v = ch :: v' ∧ ¬ F ch) ∧ (p = 0 → k ≤ e.size * V r) ∧
        k ≤ E * (p - 1) + e.size * U r := by
  have hUp : ∀ r, 1 ≤ U r := fun r => by have := U1 r; omega
  have hEm : ∀ m p' : Nat, 1 ≤ m → 1 ≤ p' → E * (m + p' - 1) = E * (m - 1) + E * (p' - 1) + E := fun m p' h1 h2 => by
    rw [show m + p' - 1 = (m - 1) + (p' - 1) + 1 by omega, Nat.mul_add, Nat.mul_add, Nat.mul_one]
  have hmono : ∀ p' p : Nat, p' ≤ p → E * (p' - 1) ≤ E * (p - 1) := fun p' p h => Nat.mul_le_mul_left _ (by omega)
  have first : ∀ {e t o k p F}, Tries rules e t o k p → LL1 rules follow e F → e.Useful → 0 < p → ∃ ch t', t = ch :: t' ∧ FirstOf rules e ch :=
    fun h h1 h2 h3 => ll1_first hll huse hw h _ h1 h2 h3
  induction h with
  | eps =>
    intro F r _ _ _ _
    refine ⟨fun v hv => .inl (by cases hv; rfl), fun _ => ?_, ?_⟩
    · have := V1 r; simp only [Peg.size]; omega
    · have := hUp r; simp only [Peg.size]; omega
  | chr _ =>
    intro F r _ _ _ _
    refine ⟨fun v hv => .inl (by cases hv; rfl), fun _ => ?_, ?_⟩
    · have := V1 r; simp only [Peg.size]; omega
    · have := hUp r; simp only [Peg.size]; omega
  | chrNot | chrEnd =>
    intro F r _ _ _ _
    refine ⟨fun v hv => (by cases hv), fun _ => ?_, ?_⟩
    · have := V1 r; simp only [Peg.size]; omega
    · have := hUp r; simp only [Peg.size]; omega
  | @seq a b t u o k k' p p' h1 h2 ih1 ih2 =>
    intro F r he hu hl hz
    simp only [Peg.size] at hz ⊢
    cases he with
    | seq ha hb =>
    obtain ⟨x, rfl, hx⟩ := ll1_lang hll ha h1
    obtain ⟨i1, i2, i3⟩ := ih1 _ r ha hu.1 (fun j hj => hl j (.seqLeft hj)) (by omega)
    have r1 := h1.reach.2 _ rfl
    have r2 := h2.reach
    simp only [List.length_append, Nat.add_sub_cancel, Nat.add_mul, Nat.one_mul] at r1 i1 ⊢
    have hV := V1 r
    have hU := hUp r
    refine ⟨fun v hv => ?_, fun h0 => ?_, ?_⟩
    · rcases i1 u rfl with hp | ⟨ch, v', rfl, hch⟩
      · rcases (ih2 F R hb hu.2 (fun j _ => hR j) (by omega)).1 v hv with h3 | h3
        · exact .inl (by omega)
        · exact .inr h3
      · have h0 : p' = 0 := by
          refine Nat.eq_zero_of_not_pos fun h0 => ?_
          obtain ⟨c', t', e1, hf⟩ := first h2 hb hu.2 h0
          cases e1
          exact hch (.inl hf)
        subst hv
        obtain ⟨y, hy, hly⟩ := ll1_lang hll hb h2
        have := r2.2 _ rfl
        rw [hy, List.length_append] at this
        have : y = [] := List.eq_nil_of_length_eq_zero (by omega)
        subst this
        exact .inr ⟨ch, v', by rw [hy]; rfl, fun h => hch (.inr ⟨hly, h⟩)⟩
    · have : x = [] := List.eq_nil_of_length_eq_zero (by omega)
      subst this
      have := i2 (by omega)
      have := (ih2 F r hb hu.2 (fun j hj => hl j (.seqRight hx hj)) (by omega)).2.1 (by omega)
      omega
    · obtain ⟨-, j2, j3⟩ := ih2 F R hb hu.2 (fun j _ => hR j) (by omega)
      have hb1 : b.size * V R ≤ b.size * U r := Nat.mul_le_mul_left _ (UV r)
      have hb2 : b.size * U R ≤ B * U R := Nat.mul_le_mul_right _ (by omega)
      by_cases h0 : p' = 0
      · have := j2 h0
        have := hmono p (max p (x.length + p')) (by omega)
        omega
      · rcases i1 u rfl with hp | ⟨ch, v', rfl, hch⟩
        · by_cases hm : x.length = 0
          · have : x = [] := List.eq_nil_of_length_eq_zero hm
            subst this
            have := (ih2 F r hb hu.2 (fun j hj => hl j (.seqRight hx hj)) (by omega)).2.2
            have hp0 : p = 0 := by simp at hp; omega
            subst hp0
            have := hmono p' (max 0 ([].length + p' : Nat)) (by omega)
            simp only [List.length_nil, Nat.zero_add, Nat.zero_sub, Nat.mul_zero] at *
            omega
          · have := hEm p p' (by omega) (by omega)
            rw [show max p (x.length + p') = p + p' by omega]
            omega
        · exfalso
          obtain ⟨c', t', e1, hf⟩ := first h2 hb hu.2 (Nat.pos_of_ne_zero h0)
          cases e1
          exact hch (.inl hf)
  | @seqFail a b t k p h1 ih1 =>
    intro F r he hu hl hz
    simp only [Peg.size] at hz ⊢
    cases he with
    | seq ha hb =>
    obtain ⟨-, i2, i3⟩ := ih1 _ r ha hu.1 (fun j hj => hl j (.seqLeft hj)) (by omega)
    simp only [Nat.add_mul, Nat.one_mul]
    have hV := V1 r
    have hU := hUp r
    exact ⟨fun v hv => (by cases hv), fun h0 => by have := i2 h0; omega, by omega⟩
  | @altLeft a b t u k p h1 ih1 =>
    intro F r he hu hl hz
    simp only [Peg.size] at hz ⊢
    cases he with
    | alt _ _ ha hb =>
    obtain ⟨i1, i2, i3⟩ := ih1 _ r ha hu.1 (fun j hj => hl j (.altLeft hj)) (by omega)
    simp only [Nat.add_mul, Nat.one_mul]
    have hV := V1 r
    have hU := hUp r
    exact ⟨i1, fun h0 => by have := i2 h0; omega, by omega⟩
  | @altRight a b t o k k' p p' h1 h2 ih1 ih2 =>
    intro F r he hu hl hz
    simp only [Peg.size] at hz ⊢
    cases he with
    | alt hn hd ha hb =>
    obtain ⟨-, i2, i3⟩ := ih1 _ r ha hu.1 (fun j hj => hl j (.altLeft hj)) (by omega)
    obtain ⟨j1, j2, j3⟩ := ih2 _ r hb hu.2 (fun j hj => hl j (.altRight hj)) (by omega)
    simp only [Nat.add_mul, Nat.one_mul]
    have hV := V1 r
    have hU := hUp r
    have r2 := h2.reach
    by_cases h0 : p = 0
    · subst h0
      simp only [Nat.zero_max, Nat.zero_sub, Nat.mul_zero] at i3 ⊢
      exact ⟨j1, fun h => by have := i2 rfl; have := j2 h; omega, by omega⟩
    · obtain ⟨ch, t', rfl, hf⟩ := first h1 ha hu.1 (Nat.pos_of_ne_zero h0)
      have hch := hd ch hf
      have h0' : p' = 0 := by
        refine Nat.eq_zero_of_not_pos fun h0 => ?_
        obtain ⟨c', t', e1, hf⟩ := first h2 hb hu.2 h0
        cases e1
        exact hch (.inl hf)
      subst h0'
      refine ⟨fun v hv => ?_, fun h => by omega, ?_⟩
      · subst hv
        obtain ⟨y, hy, hly⟩ := ll1_lang hll hb h2
        have := r2.2 _ rfl
        rw [hy, List.length_append] at this
        have : y = [] := List.eq_nil_of_length_eq_zero (by omega)
        subst this
        exact .inr ⟨ch, t', by rw [hy]; rfl, fun h => hch (.inr ⟨hly, h⟩)⟩
      · have := (ih2 F R hb hu.2 (fun j _ => hR j) (by omega)).2.1 rfl
        have hb1 : b.size * V R ≤ b.size * U r := Nat.mul_le_mul_left _ (UV r)
        simp only [Nat.max_zero]
        omega
  | @starEnd a t k p h1 ih1 =>
    intro F r he hu hl hz
    simp only [Peg.size] at hz ⊢
    cases he with
    | star hn hd ha =>
    obtain ⟨-, i2, i3⟩ := ih1 _ r ha hu (fun j hj => hl j (.star hj)) (by omega)
    simp only [Nat.add_mul, Nat.one_mul]
    have hV := V1 r
    have hU := hUp r
    refine ⟨fun v hv => ?_, fun h0 => by have := i2 h0; omega, by omega⟩
    cases hv
    by_cases h0 : p = 0
    · exact .inl (by omega)
    · obtain ⟨ch, t', rfl, hf⟩ := first h1 ha hu (Nat.pos_of_ne_zero h0)
      exact .inr ⟨ch, t', rfl, hd ch hf⟩
  | @starMore a t u o k k' p p' h1 h2 ih1 ih2 =>
    intro F r he hu hl hz
    simp only [Peg.size] at hz ⊢
    have hs := he
    cases he with
    | star hn hd ha =>
    obtain ⟨x, rfl, hx⟩ := ll1_lang hll ha h1
    have hm : 1 ≤ x.length := by
      cases x with
      | nil => exact absurd hx hn
      | cons => simp
    obtain ⟨i1, -, i3⟩ := ih1 _ r ha hu (fun j hj => hl j (.star hj)) (by omega)
    obtain ⟨j1, j2, j3⟩ := ih2 F R hs hu (fun j _ => hR j) hz
    have r1 := h1.reach.2 _ rfl
    have r2 := h2.reach
    simp only [List.length_append, Nat.add_sub_cancel, Nat.add_mul, Nat.one_mul, Peg.size] at r1 i1 j2 j3 ⊢
    have hU := U1 r
    have hb1 : (a.size + 1) * V R ≤ B * V R := Nat.mul_le_mul_right _ hz
    have hb2 : (a.size + 1) * U R ≤ B * U R := Nat.mul_le_mul_right _ hz
    simp only [Nat.add_mul, Nat.one_mul] at hb1 hb2
    have stop : ∀ ch v', u = ch :: v' → ¬ (FirstOf rules a ch ∨ F ch) → p' = 0 := by
      rintro ch v' rfl hch
      refine Nat.eq_zero_of_not_pos fun h0 => ?_
      obtain ⟨c', t', e1, w, hf⟩ := first h2 hs hu h0
      cases e1
      exact hch (.inl (star_starts hf))
    refine ⟨fun v hv => ?_, fun h0 => by omega, ?_⟩
    · rcases i1 u rfl with hp | ⟨ch, v', rfl, hch⟩
      · rcases j1 v hv with h3 | h3
        · exact .inl (by omega)
        · exact .inr h3
      · have h0 := stop ch v' rfl hch
        subst hv
        obtain ⟨y, hy, hly⟩ := ll1_lang hll hs h2
        have := r2.2 _ rfl
        rw [hy, List.length_append] at this
        have : y = [] := List.eq_nil_of_length_eq_zero (by omega)
        subst this
        exact .inr ⟨ch, v', by rw [hy]; rfl, fun h => hch (.inr h)⟩
    · by_cases h0 : p' = 0
      · have := j2 h0
        have := hmono p (max p (x.length + p')) (by omega)
        omega
      · rcases i1 u rfl with hp | ⟨ch, v', e1, hch⟩
        · have := hEm p p' (by omega) (by omega)
          rw [show max p (x.length + p') = p + p' by omega]
          omega
        · exact absurd (stop ch v' e1 hch) h0
  | notYes | notNo => intro F r he; cases he
  | @var i t o k p h1 ih1 =>
    intro F r he hu hl hz
    cases he with
    | var hF =>
    obtain ⟨i1, i2, i3⟩ := ih1 _ (rank i) (hll i) (huse i) (fun j hj => hrank i j hj) (hB i)
    have hi := hl i .var
    have h1 := Vs _ _ hi
    have h2 := Us _ _ hi
    have h3 : (rules i).size * V (rank i) ≤ B * V (rank i) := Nat.mul_le_mul_right _ (hB i)
    have h4 : (rules i).size * U (rank i) ≤ B * U (rank i) := Nat.mul_le_mul_right _ (hB i)
    simp only [Peg.size, Nat.one_mul]
    refine ⟨fun v hv => ?_, fun h0 => by have := i2 h0; omega, by omega⟩
    rcases i1 v hv with h | ⟨ch, v', e1, hch⟩
    · exact .inl h
    · exact .inr ⟨ch, v', e1, fun h => hch (hF ch h)⟩

/-- The number of expressions tried is linear in the length of the text. -/
theorem ll1_linear (hll : ∀ i, LL1 rules follow (rules i) (follow i)) (huse : ∀ i, (rules i).Useful) (hw : ∀ i, ∃ w, Lang rules (rules i) w)
    {B R : Nat} {rank : Nat → Nat} (hR : ∀ i, rank i < R) (hrank : ∀ i j, Leftmost rules (rules i) j → rank j < rank i)
    (hB : ∀ i, (rules i).size ≤ B) (he : ∃ F, LL1 rules follow e F) (hu : e.Useful) (hz : e.size ≤ B) :
    ∃ C, ∀ t o k p, Tries rules e t o k p → k ≤ C * (t.length + 1) := by
  obtain ⟨F, he⟩ := he
  have hB1 : 1 ≤ B := by have : 1 ≤ e.size := by cases e <;> simp [Peg.size]
                         omega
  let V := grow B 1
  let U := grow B (1 + (B + 1) * V R)
  have V1 : ∀ r, 1 ≤ V r := fun r => grow_mono B 1 hB1 (Nat.zero_le r)
  have U0 : ∀ r, 1 + (B + 1) * V R ≤ U r := fun r => grow_mono B (1 + (B + 1) * V R) hB1 (Nat.zero_le r)
  have hs : ∀ x i r, i < r → 1 + B * grow B x i ≤ grow B x r := fun x i r h => grow_mono B x hB1 (show i + 1 ≤ r from h)
  refine ⟨1 + B * U R, fun t o k p h => ?_⟩
  have h1 := (ll1_tries hll huse hw hR hrank hB V1 (hs 1) (U := U) (E := 1 + B * U R) (fun r => by have := U0 r; rw [Nat.add_mul] at this; omega)
    (fun r => by have := U0 r; rw [Nat.add_mul] at this; omega) (hs _) (Nat.le_refl _) h F R he hu (fun j _ => hR j) hz).2.2
  have h2 : e.size * U R ≤ B * U R := Nat.mul_le_mul_right _ hz
  have h3 : (1 + B * U R) * (p - 1) ≤ (1 + B * U R) * t.length := Nat.mul_le_mul_left _ (by have := h.reach.1; omega)
  rw [Nat.mul_add, Nat.mul_one]
  omega

end

/-! ### Ranks -/

/-- An upper bound for the numbers of the nonterminals in an expression. -/
def Spec.Peg.names : Peg → Nat
  | .eps | .chr _ => 0
  | .var i => i
  | .seq a b | .alt a b => max a.names b.names
  | .star a | .notP a => a.names

theorem leftmost_names {rules : Nat → Peg} {e : Peg} {i : Nat} (h : Leftmost rules e i) : i ≤ e.names := by
  induction h <;> simp only [Peg.names] <;> omega

theorem bounded_on {α : Type} (f : α → Nat) (l : List α) : ∃ B, ∀ x ∈ l, f x ≤ B := by
  induction l with
  | nil => exact ⟨0, by simp⟩
  | cons y l ih =>
    obtain ⟨B, hB⟩ := ih
    refine ⟨max (f y) B, fun x hx => ?_⟩
    rcases List.mem_cons.1 hx with rfl | hx
    · omega
    · have := hB x hx; omega

theorem le_total (f : Nat → Nat) {m j : Nat} (h : j < m) : f j ≤ ((List.range m).map f).sum := by
  induction m with
  | zero => omega
  | succ m ih =>
    rw [List.range_succ, List.map_append, List.sum_append]
    rcases Nat.lt_succ_iff_lt_or_eq.1 h with h | rfl
    · have := ih h; omega
    · simp

/-- Without left recursion the nonterminals have bounded ranks, which get smaller until something is consumed. -/
theorem rank_of {rules : Nat → Peg} (hwf : NoLeftRecursion rules) {l : List Peg} (hl : ∀ i, rules i ∈ l) :
    ∃ (rank : Nat → Nat) (R : Nat), (∀ i, rank i < R) ∧ ∀ i j, Leftmost rules (rules i) j → rank j < rank i := by
  classical
  obtain ⟨M, hM⟩ := bounded_on Peg.names l
  let rank : Nat → Nat := hwf.fix fun i ih => 1 + ((List.range (M + 1)).map fun j => if h : Leftmost rules (rules i) j then ih j h else 0).sum
  let G : Peg → Nat := fun e => 1 + ((List.range (M + 1)).map fun j => if Leftmost rules e j then rank j else 0).sum
  have hG : ∀ i, rank i = G (rules i) := fun i => by
    show hwf.fix _ i = _
    rw [hwf.fix_eq]
    simp only [dite_eq_ite]
    rfl
  obtain ⟨R, hR⟩ := bounded_on G l
  refine ⟨rank, R + 1, fun i => ?_, fun i j h => ?_⟩
  · rw [hG]; exact Nat.lt_succ_of_le (hR _ (hl i))
  · have h1 := leftmost_names h
    have h2 := hM _ (hl i)
    have h3 := le_total (fun j => if Leftmost rules (rules i) j then rank j else 0) (show j < M + 1 by omega)
    simp only [h, if_true] at h3
    rw [hG i]
    show rank j < 1 + _
    omega

end Takenoco
