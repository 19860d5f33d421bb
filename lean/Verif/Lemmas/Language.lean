import Verif.Spec.Language
import Verif.Lemmas.FordTools
/-
Under the LL(1) condition a parsing expression matches the words of its context-free language.
-/
namespace Takenoco
open Spec

section
variable {rules : Nat → Peg} {follow : Nat → Char → Prop} {e a b : Peg} {F : Char → Prop} {t : List Char}

/-- `v` is empty or begins with a character of `F`. -/
def CharAhead (F : Char → Prop) (v : List Char) : Prop := v = [] ∨ ∃ ch v', v = ch :: v' ∧ F ch

theorem CharAhead.mono {F G : Char → Prop} {v : List Char} (h : CharAhead F v) (hF : ∀ ch, F ch → G ch) : CharAhead G v :=
  h.imp id fun ⟨ch, v', e, h⟩ => ⟨ch, v', e, hF ch h⟩

/-- The expression has a result, a match is a word, and words that are followed by a character of `F` or the end are matched. -/
def Ll1Decides (rules : Nat → Peg) (e : Peg) (F : Char → Prop) (t : List Char) : Prop :=
  ∃ o, Ford rules e t o ∧ (∀ v, o = some v → ∃ u, t = u ++ v ∧ Lang rules e u) ∧
    ∀ u v, t = u ++ v → Lang rules e u → CharAhead F v → o = some v

theorem Ll1Decides.weak {F G : Char → Prop} (h : Ll1Decides rules e G t) (hF : ∀ ch, F ch → G ch) : Ll1Decides rules e F t := by
  obtain ⟨o, h1, h2, h3⟩ := h
  exact ⟨o, h1, h2, fun u v e1 e2 e3 => h3 u v e1 e2 (e3.mono hF)⟩

/-- The first character of a nonempty repetition. -/
theorem star_starts {ch : Char} {w : List Char} (h : Lang rules (.star a) (ch :: w)) : FirstOf rules a ch := by
  generalize he : Peg.star a = e at h
  generalize hw : ch :: w = x at h
  induction h with
  | starEnd => cases hw
  | @starMore a u v h1 _ _ ih =>
    cases he
    cases u with
    | nil => exact ih rfl hw
    | cons c u => injection hw with e1 _; subst e1; exact ⟨u, h1⟩
  | _ => cases he

/-- A nonempty word of a repetition begins with a word of the body, if that is not empty itself. -/
theorem star_split (hn : ¬ Nullable rules a) {w : List Char} (h : Lang rules (.star a) w) :
    w = [] ∨ ∃ u v, w = u ++ v ∧ u ≠ [] ∧ Lang rules a u ∧ Lang rules (.star a) v := by
  cases h with
  | starEnd => exact .inl rfl
  | @starMore _ u v h1 h2 => exact .inr ⟨u, v, rfl, fun e => hn (by rw [e] at h1; exact h1), h1, h2⟩

/-- Where an expression that is not empty can match nothing it fails. -/
theorem fails_ahead {o : Option (List Char)} (hn : ¬ Nullable rules a) (hs : ∀ v, o = some v → ∃ u, t = u ++ v ∧ Lang rules a u)
    (h : ∀ ch v, t = ch :: v → ¬ FirstOf rules a ch) : o = none := by
  cases o with
  | none => rfl
  | some v =>
    obtain ⟨u, rfl, hu⟩ := hs v rfl
    cases u with
    | nil => exact absurd hu hn
    | cons ch u => exact absurd ⟨u, hu⟩ (h ch (u ++ v) rfl)

/-- One level of the induction: the nonterminals that are called at once are done, and everything is done for shorter texts. -/
theorem ll1_step (h : LL1 rules follow e F) : ∀ t : List Char, (∀ i, Leftmost rules e i → Ll1Decides rules (.var i) (follow i) t) →
    (∀ u e F, u.length < t.length → LL1 rules follow e F → Ll1Decides rules e F u) → Ll1Decides rules e F t := by
  induction h with
  | eps =>
    intro t _ _
    refine ⟨some t, .eps, fun v hv => ⟨[], by cases hv; rfl, .eps⟩, fun u v e1 e2 _ => ?_⟩
    cases e2; rw [e1]; rfl
  | @chr S F =>
    intro t _ _
    cases t with
    | nil =>
      refine ⟨none, .chrEnd, by simp, fun u v e1 e2 _ => ?_⟩
      cases e2; cases e1
    | cons ch t =>
      by_cases hS : S ch
      · refine ⟨some t, .chr hS, fun v hv => ⟨[ch], by cases hv; rfl, .chr hS⟩, fun u v e1 e2 _ => ?_⟩
        cases e2
        rw [(List.cons.inj e1).2]; rfl
      · refine ⟨none, .chrNot hS, by simp, fun u v e1 e2 _ => ?_⟩
        cases e2 with
        | chr h => rw [← (List.cons.inj e1).1] at h; exact absurd h hS
  | @seq a b F ha hb iha ihb =>
    intro t hv hsh
    obtain ⟨o, f1, s1, c1⟩ := iha t (fun i hi => hv i (.seqLeft hi)) hsh
    have comp : ∀ u1 u2 v, t = (u1 ++ u2) ++ v → Lang rules a u1 → Lang rules b u2 → CharAhead F v → o = some (u2 ++ v) := by
      intro u1 u2 v e1 l1 l2 hF
      refine c1 u1 (u2 ++ v) (by rw [e1, List.append_assoc]) l1 ?_
      cases u2 with
      | nil =>
        rcases hF with rfl | ⟨ch, v', rfl, hF⟩
        · exact .inl rfl
        · exact .inr ⟨ch, v', rfl, .inr ⟨l2, hF⟩⟩
      | cons ch u2 => exact .inr ⟨ch, u2 ++ v, rfl, .inl ⟨u2, l2⟩⟩
    cases o with
    | none =>
      refine ⟨none, .seqFail f1, by simp, fun u v e1 e2 hF => ?_⟩
      cases e2 with
      | @seq _ _ u1 u2 l1 l2 => exact absurd (comp u1 u2 v e1 l1 l2 hF) (by simp)
    | some w =>
      obtain ⟨x, hx, lx⟩ := s1 w rfl
      have hb' : Ll1Decides rules b F w := by
        cases x with
        | nil =>
          rw [List.nil_append] at hx
          subst hx
          exact ihb _ (fun i hi => hv i (.seqRight lx hi)) hsh
        | cons ch x => exact hsh w b F (by rw [hx]; simp; omega) hb
      obtain ⟨o2, f2, s2, c2⟩ := hb'
      refine ⟨o2, .seq f1 f2, fun v hv => ?_, fun u v e1 e2 hF => ?_⟩
      · obtain ⟨y, rfl, ly⟩ := s2 v hv
        exact ⟨x ++ y, by rw [hx, List.append_assoc], .seq lx ly⟩
      · cases e2 with
        | @seq _ _ u1 u2 l1 l2 =>
          have := comp u1 u2 v e1 l1 l2 hF
          exact c2 u2 v (Option.some.inj this) l2 hF
  | @alt a b F hn hd _ _ iha ihb =>
    intro t hv hsh
    obtain ⟨o, f1, s1, c1⟩ := iha t (fun i hi => hv i (.altLeft hi)) hsh
    cases o with
    | some w =>
      obtain ⟨x, hx, lx⟩ := s1 w rfl
      refine ⟨some w, .altLeft f1, fun v hv => ?_, fun u v e1 e2 hF => ?_⟩
      · cases hv; exact ⟨x, hx, .left lx⟩
      · cases e2 with
        | left l => exact c1 u v e1 l hF
        | right l =>
          cases x with
          | nil => exact absurd lx hn
          | cons ch x =>
            refine absurd ?_ (hd ch ⟨x, lx⟩)
            cases u with
            | nil =>
              rcases hF with rfl | ⟨ch', v', rfl, hF⟩
              · rw [e1] at hx; cases hx
              · rw [e1] at hx; injection hx with h1 _; subst h1; exact .inr ⟨l, hF⟩
            | cons ch' u => rw [e1] at hx; injection hx with h1 _; subst h1; exact .inl ⟨u, l⟩
    | none =>
      obtain ⟨o2, f2, s2, c2⟩ := ihb t (fun i hi => hv i (.altRight hi)) hsh
      refine ⟨o2, .altRight f1 f2, fun v hv => ?_, fun u v e1 e2 hF => ?_⟩
      · obtain ⟨x, hx, lx⟩ := s2 v hv
        exact ⟨x, hx, .right lx⟩
      · cases e2 with
        | left l => exact absurd (c1 u v e1 l hF) (by simp)
        | right l => exact c2 u v e1 l hF
  | @star a F hn hd ha iha =>
    intro t hv hsh
    obtain ⟨o, f1, s1, c1⟩ := iha t (fun i hi => hv i (.star hi)) hsh
    have comp : ∀ u1 u2 v, t = (u1 ++ u2) ++ v → Lang rules a u1 → Lang rules (.star a) u2 → CharAhead F v → o = some (u2 ++ v) := by
      intro u1 u2 v e1 l1 l2 hF
      refine c1 u1 (u2 ++ v) (by rw [e1, List.append_assoc]) l1 ?_
      cases u2 with
      | nil =>
        rcases hF with rfl | ⟨ch, v', rfl, hF⟩
        · exact .inl rfl
        · exact .inr ⟨ch, v', rfl, .inr hF⟩
      | cons ch u2 => exact .inr ⟨ch, u2 ++ v, rfl, .inl (star_starts l2)⟩
    cases o with
    | none =>
      refine ⟨some t, .starEnd f1, fun v hv => ⟨[], by cases hv; rfl, .starEnd⟩, fun u v e1 e2 hF => ?_⟩
      rcases star_split hn e2 with rfl | ⟨u1, u2, rfl, _, l1, l2⟩
      · rw [e1]; rfl
      · exact absurd (comp u1 u2 v e1 l1 l2 hF) (by simp)
    | some w =>
      obtain ⟨x, hx, lx⟩ := s1 w rfl
      cases x with
      | nil => exact absurd lx hn
      | cons ch x =>
        obtain ⟨o2, f2, s2, c2⟩ := hsh w (.star a) F (by rw [hx]; simp; omega) (.star hn hd ha)
        refine ⟨o2, .starMore f1 f2, fun v hv => ?_, fun u v e1 e2 hF => ?_⟩
        · obtain ⟨y, rfl, ly⟩ := s2 v hv
          exact ⟨ch :: x ++ y, by rw [hx, List.append_assoc], .starMore lx ly⟩
        · rcases star_split hn e2 with rfl | ⟨u1, u2, rfl, _, l1, l2⟩
          · rcases hF with rfl | ⟨ch', v', rfl, hF⟩
            · rw [e1] at hx; cases hx
            · rw [e1] at hx; injection hx with h1 _; subst h1; exact absurd hF (hd _ ⟨x, lx⟩)
          · exact c2 u2 v (Option.some.inj (comp u1 u2 v e1 l1 l2 hF)) l2 hF
  | var hF =>
    intro t hv _
    exact (hv _ .var).weak hF

/-- Under the LL(1) condition and without left recursion. -/
theorem ll1_decides (hll : ∀ i, LL1 rules follow (rules i) (follow i)) (hwf : NoLeftRecursion rules) : ∀ t e F, LL1 rules follow e F → Ll1Decides rules e F t := by
  intro t
  obtain ⟨n, hn⟩ : ∃ n, t.length = n := ⟨_, rfl⟩
  induction n using Nat.strongRecOn generalizing t with
  | ind n ih =>
    have hsh : ∀ u e F, u.length < t.length → LL1 rules follow e F → Ll1Decides rules e F u := fun u e F hu => ih _ (hn ▸ hu) u rfl e F
    have hvar : ∀ i, Ll1Decides rules (.var i) (follow i) t := fun i => by
      induction i using hwf.induction with
      | _ i ihi =>
        obtain ⟨o, f, s, c⟩ := ll1_step (hll i) t (fun j hj => ihi j hj) hsh
        exact ⟨o, .var f, fun v hv => let ⟨u, h1, h2⟩ := s v hv; ⟨u, h1, .var h2⟩, fun u v e1 e2 hF => by cases e2 with
          | var l => exact c u v e1 l hF⟩
    exact fun e F h => ll1_step h t (fun i _ => hvar i) hsh

/-! ### The words of the operators -/

theorem lang_eps {w : List Char} : Lang rules .eps w ↔ w = [] := ⟨fun h => by cases h; rfl, fun h => h ▸ .eps⟩

theorem lang_chr {S : Char → Prop} {w : List Char} : Lang rules (.chr S) w ↔ ∃ ch, S ch ∧ w = [ch] :=
  ⟨fun h => by cases h with | @chr _ ch h => exact ⟨ch, h, rfl⟩, fun ⟨_, h, e⟩ => e ▸ .chr h⟩

theorem lang_seq {w : List Char} : Lang rules (.seq a b) w ↔ ∃ u v, w = u ++ v ∧ Lang rules a u ∧ Lang rules b v :=
  ⟨fun h => by cases h with | @seq _ _ u v h1 h2 => exact ⟨u, v, rfl, h1, h2⟩, fun ⟨_, _, e, h1, h2⟩ => e ▸ .seq h1 h2⟩

theorem lang_alt {w : List Char} : Lang rules (.alt a b) w ↔ Lang rules a w ∨ Lang rules b w :=
  ⟨fun h => by cases h with | left h => exact .inl h | right h => exact .inr h, fun h => h.elim .left .right⟩

theorem lang_var {i : Nat} {w : List Char} : Lang rules (.var i) w ↔ Lang rules (rules i) w :=
  ⟨fun h => by cases h; assumption, .var⟩

theorem lang_lit {l w : List Char} : Lang rules (.lit l) w ↔ w = l := by
  induction l generalizing w with
  | nil => exact lang_eps
  | cons ch l ih =>
    show Lang rules (.seq (.chr (· = ch)) (.lit l)) w ↔ _
    rw [lang_seq]
    constructor
    · rintro ⟨u, v, rfl, h1, h2⟩
      obtain ⟨_, rfl, rfl⟩ := lang_chr.1 h1
      rw [ih.1 h2]; rfl
    · rintro rfl
      exact ⟨[ch], l, rfl, .chr rfl, ih.2 rfl⟩

/-- What begins with a literal text. -/
theorem lang_litSeq {l w : List Char} : Lang rules (.seq (.lit l) b) w ↔ ∃ v, w = l ++ v ∧ Lang rules b v := by
  rw [lang_seq]
  constructor
  · rintro ⟨u, v, rfl, h1, h2⟩
    exact ⟨v, by rw [lang_lit.1 h1], h2⟩
  · rintro ⟨v, rfl, h2⟩
    exact ⟨l, v, rfl, lang_lit.2 rfl, h2⟩

theorem ll1_lit {l : List Char} : LL1 rules follow (.lit l) F := by
  induction l generalizing F with
  | nil => exact .eps
  | cons ch l ih => exact .seq .chr ih

theorem not_leftmost_lit {l : List Char} {i : Nat} : ¬ Leftmost rules (.lit l) i := by
  induction l with
  | nil => intro h; cases h
  | cons ch l ih =>
    intro h
    cases h with
    | seqLeft h => cases h
    | seqRight _ h => exact ih h

theorem not_nullable_litSeq {ch : Char} {l : List Char} : ¬ Nullable rules (.seq (.lit (ch :: l)) b) := fun h => by
  obtain ⟨v, hv, _⟩ := lang_litSeq.1 h
  cases hv

theorem firstOf_litSeq {ch ch' : Char} {l : List Char} (h : FirstOf rules (.seq (.lit (ch :: l)) b) ch') : ch' = ch := by
  obtain ⟨w, hw⟩ := h
  obtain ⟨v, hv, _⟩ := lang_litSeq.1 hw
  exact (List.cons.inj hv).1

theorem not_leftmost_litSeq {ch : Char} {l : List Char} {i : Nat} : ¬ Leftmost rules (.seq (.lit (ch :: l)) b) i := by
  intro h
  cases h with
  | seqLeft h => exact not_leftmost_lit h
  | seqRight h _ =>
    have := lang_lit.1 h
    cases this

end

/-! ### Brackets -/

namespace Brackets
/-- `S = "(" S ")" S | ""`. -/
def env : Env := fun _ => .first [.flatGroup [.prim (seqS (utf8s ['('])), .indirect 0, .prim (seqS (utf8s [')'])), .indirect 0], .prim (zeroP [])]

def rules : Nat → Peg := fun _ => .alt (.seq (.lit ['(']) (.seq (.var 0) (.seq (.lit [')']) (.seq (.var 0) .eps)))) .eps

/-- Reading from the left with `d` open brackets, none is closed that is not open, and in the end none is open. -/
def Closes : Nat → List Char → Prop
  | d, [] => d = 0
  | d, ch :: t => ch = '(' ∧ Closes (d + 1) t ∨ ch = ')' ∧ ∃ k, d = k + 1 ∧ Closes k t

theorem means (i : Nat) : Means (fun _ => True) (.gram (env i)) (rules i) :=
  .first (by simp) (.choiceCons (by simp) (.flatGroup (.seqCons (.lit (by decide)) (.seqCons .indirect (.seqCons (.lit (by decide)) (.seqCons .indirect .seqNil)))))
    (.choiceOne (.zero (by simp))))

theorem ll1 (i : Nat) : LL1 rules (fun _ ch => ch = ')') (rules i) (fun ch => ch = ')') := by
  refine .alt not_nullable_litSeq ?_ (.seq ll1_lit (.seq (.var ?_) (.seq ll1_lit (.seq (.var ?_) .eps)))) .eps
  · intro ch h1 h2
    rw [firstOf_litSeq h1] at h2
    rcases h2 with ⟨w, h⟩ | ⟨_, h⟩
    · cases lang_eps.1 h
    · exact absurd h (by decide)
  · rintro ch (h | ⟨h, _⟩)
    · exact firstOf_litSeq h
    · exact absurd h not_nullable_litSeq
  · rintro ch (⟨w, h⟩ | ⟨_, h⟩)
    · cases lang_eps.1 h
    · exact h

theorem wf : NoLeftRecursion rules := ⟨fun i => ⟨_, fun j hj => by
  exfalso
  cases hj with
  | altLeft h => exact not_leftmost_litSeq h
  | altRight h => cases h⟩⟩

theorem lang {w : List Char} : Lang rules (.var 0) w ↔ w = [] ∨ ∃ u v, w = '(' :: (u ++ ')' :: v) ∧ Lang rules (.var 0) u ∧ Lang rules (.var 0) v := by
  rw [lang_var]
  show Lang rules (.alt _ _) w ↔ _
  rw [lang_alt, or_comm, lang_eps, lang_litSeq]
  refine or_congr Iff.rfl ⟨?_, ?_⟩
  · rintro ⟨x, rfl, hx⟩
    obtain ⟨u, y, rfl, hu, hy⟩ := lang_seq.1 hx
    obtain ⟨z, rfl, hz⟩ := lang_litSeq.1 hy
    obtain ⟨v, y, rfl, hv, hy⟩ := lang_seq.1 hz
    rw [lang_eps.1 hy]
    exact ⟨u, v, by simp, hu, hv⟩
  · rintro ⟨u, v, rfl, hu, hv⟩
    exact ⟨_, rfl, .seq hu (lang_litSeq.2 ⟨v, rfl, by simpa using Lang.seq hv .eps⟩)⟩

/-- The text closes `d` brackets, with words of the grammar between them. -/
def Pieces : Nat → List Char → Prop
  | 0, t => Lang rules (.var 0) t
  | d + 1, t => ∃ u v, Lang rules (.var 0) u ∧ t = u ++ ')' :: v ∧ Pieces d v

theorem pieces_open {d : Nat} {t : List Char} (h : Pieces (d + 1) t) : Pieces d ('(' :: t) := by
  obtain ⟨u, v, hu, rfl, hv⟩ := h
  cases d with
  | zero => exact lang.2 (.inr ⟨u, v, rfl, hu, hv⟩)
  | succ d =>
    obtain ⟨x, y, hx, rfl, hy⟩ := hv
    exact ⟨'(' :: (u ++ ')' :: x), y, lang.2 (.inr ⟨u, x, rfl, hu, hx⟩), by simp, hy⟩

theorem pieces {d : Nat} {t : List Char} (h : Closes d t) : Pieces d t := by
  induction t generalizing d with
  | nil =>
    have : d = 0 := h
    subst this
    exact lang.2 (.inl rfl)
  | cons ch t ih =>
    rcases h with ⟨rfl, h⟩ | ⟨rfl, k, rfl, h⟩
    · exact pieces_open (ih h)
    · exact ⟨[], t, lang.2 (.inl rfl), rfl, ih h⟩

theorem closes_open {d : Nat} {t : List Char} : Closes d ('(' :: t) ↔ Closes (d + 1) t :=
  ⟨fun h => h.elim And.right fun h => absurd h.1 (by decide), fun h => .inl ⟨rfl, h⟩⟩

theorem closes_close {d : Nat} {t : List Char} : Closes (d + 1) (')' :: t) ↔ Closes d t :=
  ⟨fun h => h.elim (fun h => absurd h.1 (by decide)) fun ⟨_, k, e, h⟩ => by rw [Nat.succ.inj e]; exact h, fun h => .inr ⟨rfl, d, rfl, h⟩⟩

theorem closes_word : ∀ (n : Nat) (w : List Char), w.length ≤ n → Lang rules (.var 0) w → ∀ d t, Closes d (w ++ t) ↔ Closes d t := by
  intro n
  induction n with
  | zero => intro w hw _ d t; rw [List.eq_nil_of_length_eq_zero (Nat.le_zero.1 hw)]; rfl
  | succ n ih =>
    intro w hw h d t
    rcases lang.1 h with rfl | ⟨u, v, rfl, hu, hv⟩
    · rfl
    · simp only [List.length_cons, List.length_append] at hw
      have e : '(' :: (u ++ ')' :: v) ++ t = '(' :: (u ++ (')' :: (v ++ t))) := by simp
      rw [e, closes_open, ih u (by omega) hu, closes_close, ih v (by omega) hv]

theorem lang_closes {w : List Char} : Lang rules (.var 0) w ↔ Closes 0 w :=
  ⟨fun h => by simpa using (closes_word _ w (Nat.le_refl _) h 0 []).2 rfl, pieces⟩

theorem closes_plain {d : Nat} {t : List Char} (h : Closes d t) : '�' ∉ t := by
  induction t generalizing d with
  | nil => simp
  | cons ch t ih =>
    rcases h with ⟨rfl, h⟩ | ⟨rfl, k, _, h⟩
    · simp [ih h]
    · simp [ih h]

end Brackets

end Takenoco
