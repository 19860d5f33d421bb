import Verif.Spec.Expressive
import Verif.Lemmas.Language
import Verif.Props.StrTerminals
/-
What is written spells the expression up to empty sequences, which make no difference.
-/
namespace Takenoco
open Spec

/-- What the combinators spell: every sequence ends with the empty one. -/
def Spec.Peg.pad : Peg → Peg
  | .eps => .eps
  | .chr S => .chr S
  | .seq a b => .seq a.pad (.seq b.pad .eps)
  | .alt a b => .alt a.pad b.pad
  | .star a => .star (.seq a.pad .eps)
  | .notP a => .notP (.seq a.pad .eps)
  | .var i => .var i

theorem pex_means (p : Pex) : Means (fun _ => True) (.gram p.gram) p.peg.pad := by
  induction p with
  | eps => exact .zero (by simp)
  | chr f => exact .chr (C18_charClassFn f)
  | seq a b iha ihb => exact .flatGroup (.seqCons iha (.seqCons ihb .seqNil))
  | alt a b iha ihb => exact .first (by simp) (.choiceCons (by simp) iha (.choiceOne ihb))
  | star a ih => exact .repeat (.repsStar (by decide) (by decide) (.seqCons ih .seqNil))
  | notP a ih => exact .lookAheadN (.seqCons ih .seqNil)
  | var i => exact .indirect

section
variable {rules : Nat → Peg} {e : Peg} {t : List Char} {o : Option (List Char)}

theorem ford_pad (h : Ford rules e t o) : Ford (fun i => (rules i).pad) e.pad t o := by
  have one : ∀ {a t o}, Ford (fun i => (rules i).pad) a t o → Ford (fun i => (rules i).pad) (.seq a .eps) t o := fun {a t o} h => by
    cases o with
    | none => exact .seqFail h
    | some v => exact .seq h .eps
  induction h with
  | eps => exact .eps
  | chr h => exact .chr h
  | chrNot h => exact .chrNot h
  | chrEnd => exact .chrEnd
  | seq _ _ h1 h2 => exact .seq h1 (one h2)
  | seqFail _ h => exact .seqFail h
  | altLeft _ h => exact .altLeft h
  | altRight _ _ h1 h2 => exact .altRight h1 h2
  | starEnd _ h => exact .starEnd (one h)
  | starMore _ _ h1 h2 => exact .starMore (one h1) h2
  | notYes _ h => exact .notYes (one h)
  | notNo _ h => exact .notNo (one h)
  | var _ h => exact .var h

theorem ford_unpad_aux {rules' : Nat → Peg} {e' : Peg} (hr : rules' = fun i => (rules i).pad) (h : Ford rules' e' t o) :
    (∀ e, e' = e.pad → Ford rules e t o) ∧ ∀ b, e' = .seq b.pad .eps → Ford rules b t o := by
  subst hr
  induction h with
  | eps => exact ⟨fun e he => by cases e <;> simp [Peg.pad] at he; exact .eps, by simp⟩
  | chr h => exact ⟨fun e he => by cases e <;> simp [Peg.pad] at he; subst he; exact .chr h, by simp⟩
  | chrNot h => exact ⟨fun e he => by cases e <;> simp [Peg.pad] at he; subst he; exact .chrNot h, by simp⟩
  | chrEnd => exact ⟨fun e he => by cases e <;> simp [Peg.pad] at he; subst he; exact .chrEnd, by simp⟩
  | seq h1 h2 ih1 ih2 =>
    refine ⟨fun e he => ?_, fun b hb => ?_⟩
    · cases e with
      | seq a b => simp only [Peg.pad, Peg.seq.injEq] at he; exact .seq (ih1.1 a he.1) (ih2.2 b he.2)
      | _ => simp [Peg.pad] at he
    · simp only [Peg.seq.injEq] at hb
      obtain ⟨hb, rfl⟩ := hb
      cases h2
      exact ih1.1 b hb
  | seqFail h1 ih =>
    refine ⟨fun e he => ?_, fun b hb => ?_⟩
    · cases e with
      | seq a b => simp only [Peg.pad, Peg.seq.injEq] at he; exact .seqFail (ih.1 a he.1)
      | _ => simp [Peg.pad] at he
    · simp only [Peg.seq.injEq] at hb
      exact ih.1 b hb.1
  | altLeft h1 ih =>
    refine ⟨fun e he => ?_, by simp⟩
    cases e with
    | alt a b => simp only [Peg.pad, Peg.alt.injEq] at he; exact .altLeft (ih.1 a he.1)
    | _ => simp [Peg.pad] at he
  | altRight h1 h2 ih1 ih2 =>
    refine ⟨fun e he => ?_, by simp⟩
    cases e with
    | alt a b => simp only [Peg.pad, Peg.alt.injEq] at he; exact .altRight (ih1.1 a he.1) (ih2.1 b he.2)
    | _ => simp [Peg.pad] at he
  | starEnd h1 ih =>
    refine ⟨fun e he => ?_, by simp⟩
    cases e with
    | star a => simp only [Peg.pad, Peg.star.injEq] at he; exact .starEnd (ih.2 a he)
    | _ => simp [Peg.pad] at he
  | starMore h1 h2 ih1 ih2 =>
    refine ⟨fun e he => ?_, by simp⟩
    cases e with
    | star a => exact .starMore (ih1.2 a (by simpa [Peg.pad] using he)) (ih2.1 (.star a) he)
    | _ => simp [Peg.pad] at he
  | notYes h1 ih =>
    refine ⟨fun e he => ?_, by simp⟩
    cases e with
    | notP a => simp only [Peg.pad, Peg.notP.injEq] at he; exact .notYes (ih.2 a he)
    | _ => simp [Peg.pad] at he
  | notNo h1 ih =>
    refine ⟨fun e he => ?_, by simp⟩
    cases e with
    | notP a => simp only [Peg.pad, Peg.notP.injEq] at he; exact .notNo (ih.2 a he)
    | _ => simp [Peg.pad] at he
  | var h1 ih =>
    refine ⟨fun e he => ?_, by simp⟩
    cases e with
    | var i => simp only [Peg.pad, Peg.var.injEq] at he; subst he; exact .var (ih.1 _ rfl)
    | _ => simp [Peg.pad] at he

theorem ford_unpad : Ford (fun i => (rules i).pad) e.pad t o ↔ Ford rules e t o := ⟨fun h => (ford_unpad_aux rfl h).1 e rfl, ford_pad⟩

/-! ### As a context-free grammar -/

theorem lang_pad {w : List Char} (h : Lang rules e w) : Lang (fun i => (rules i).pad) e.pad w := by
  have one : ∀ {a w}, Lang (fun i => (rules i).pad) a w → Lang (fun i => (rules i).pad) (.seq a .eps) w := fun {a w} h => by
    simpa using Lang.seq h .eps
  induction h with
  | eps => exact .eps
  | chr h => exact .chr h
  | seq _ _ h1 h2 => exact .seq h1 (one h2)
  | left _ h => exact .left h
  | right _ h => exact .right h
  | starEnd => exact .starEnd
  | starMore _ _ h1 h2 => exact .starMore (one h1) h2
  | var _ h => exact .var h

theorem lang_unpad_aux {rules' : Nat → Peg} {e' : Peg} {w : List Char} (hr : rules' = fun i => (rules i).pad) (h : Lang rules' e' w) :
    (∀ e, e' = e.pad → Lang rules e w) ∧ ∀ b, e' = .seq b.pad .eps → Lang rules b w := by
  subst hr
  induction h with
  | eps => exact ⟨fun e he => by cases e <;> simp [Peg.pad] at he; exact .eps, by simp⟩
  | chr h => exact ⟨fun e he => by cases e <;> simp [Peg.pad] at he; subst he; exact .chr h, by simp⟩
  | seq h1 h2 ih1 ih2 =>
    refine ⟨fun e he => ?_, fun b hb => ?_⟩
    · cases e with
      | seq a b => simp only [Peg.pad, Peg.seq.injEq] at he; exact .seq (ih1.1 a he.1) (ih2.2 b he.2)
      | _ => simp [Peg.pad] at he
    · simp only [Peg.seq.injEq] at hb
      obtain ⟨hb, rfl⟩ := hb
      cases h2
      simpa using ih1.1 b hb
  | left h1 ih =>
    refine ⟨fun e he => ?_, by simp⟩
    cases e with
    | alt a b => simp only [Peg.pad, Peg.alt.injEq] at he; exact .left (ih.1 a he.1)
    | _ => simp [Peg.pad] at he
  | right h1 ih =>
    refine ⟨fun e he => ?_, by simp⟩
    cases e with
    | alt a b => simp only [Peg.pad, Peg.alt.injEq] at he; exact .right (ih.1 b he.2)
    | _ => simp [Peg.pad] at he
  | starEnd =>
    refine ⟨fun e he => ?_, by simp⟩
    cases e with
    | star a => exact .starEnd
    | _ => simp [Peg.pad] at he
  | starMore h1 h2 ih1 ih2 =>
    refine ⟨fun e he => ?_, by simp⟩
    cases e with
    | star a => exact .starMore (ih1.2 a (by simpa [Peg.pad] using he)) (ih2.1 (.star a) he)
    | _ => simp [Peg.pad] at he
  | var h1 ih =>
    refine ⟨fun e he => ?_, by simp⟩
    cases e with
    | var i => simp only [Peg.pad, Peg.var.injEq] at he; subst he; exact .var (ih.1 _ rfl)
    | _ => simp [Peg.pad] at he

theorem lang_unpad {w : List Char} : Lang (fun i => (rules i).pad) e.pad w ↔ Lang rules e w := ⟨fun h => (lang_unpad_aux rfl h).1 e rfl, lang_pad⟩

theorem lang_pad_one {w : List Char} : Lang (fun i => (rules i).pad) (.seq e.pad .eps) w ↔ Lang rules e w :=
  ⟨fun h => (lang_unpad_aux rfl h).2 e rfl, fun h => by simpa using Lang.seq (lang_pad h) .eps⟩

variable {follow : Nat → Char → Prop} {F : Char → Prop}

theorem ll1_pad (h : LL1 rules follow e F) : LL1 (fun i => (rules i).pad) follow e.pad F := by
  have fst : ∀ e, FirstOf (fun i => (rules i).pad) e.pad = FirstOf rules e := fun e => funext fun ch => propext (exists_congr fun w => lang_unpad)
  have fst1 : ∀ e : Peg, FirstOf (fun i => (rules i).pad) (.seq e.pad .eps) = FirstOf rules e := fun e => funext fun ch => propext (exists_congr fun w => lang_pad_one)
  have thn : ∀ e F, FirstThen (fun i => (rules i).pad) e.pad F = FirstThen rules e F := fun e F => funext fun ch => by
    unfold FirstThen Nullable
    rw [fst, show Lang (fun i => (rules i).pad) e.pad [] = Lang rules e [] from propext lang_unpad]
  have thn1 : ∀ (e : Peg) F, FirstThen (fun i => (rules i).pad) (.seq e.pad .eps) F = FirstThen rules e F := fun e F => funext fun ch => by
    unfold FirstThen Nullable
    rw [fst1, show Lang (fun i => (rules i).pad) (.seq e.pad .eps) [] = Lang rules e [] from propext lang_pad_one]
  have one : ∀ {a F}, LL1 (fun i => (rules i).pad) follow a F → LL1 (fun i => (rules i).pad) follow (.seq a .eps) F := fun {a F} h => by
    refine .seq ?_ .eps
    have : FirstThen (fun i => (rules i).pad) .eps F = F := funext fun ch => propext
      ⟨fun h => h.elim (fun ⟨w, h⟩ => by cases h) fun h => h.2, fun h => .inr ⟨.eps, h⟩⟩
    rw [this]; exact h
  induction h with
  | eps => exact .eps
  | chr => exact .chr
  | seq _ _ ih1 ih2 => exact .seq (by rw [thn1]; exact ih1) (one ih2)
  | alt hn hd _ _ ih1 ih2 => exact .alt (fun h => hn (lang_unpad.1 h)) (fun ch h => by rw [thn]; rw [fst] at h; exact hd ch h) ih1 ih2
  | star hn hd _ ih => exact .star (fun h => hn (lang_pad_one.1 h)) (fun ch h => by rw [fst1] at h; exact hd ch h) (by rw [fst1]; exact one ih)
  | var h => exact .var h

theorem leftmost_pad_aux {rules' : Nat → Peg} {e' : Peg} {i : Nat} (hr : rules' = fun i => (rules i).pad) (h : Leftmost rules' e' i) :
    (∀ e, e' = e.pad → Leftmost rules e i) ∧ ∀ b, e' = .seq b.pad .eps → Leftmost rules b i := by
  subst hr
  induction h with
  | seqLeft h ih =>
    refine ⟨fun e he => ?_, fun b hb => ?_⟩
    · cases e with
      | seq a b => simp only [Peg.pad, Peg.seq.injEq] at he; exact .seqLeft (ih.1 a he.1)
      | _ => simp [Peg.pad] at he
    · simp only [Peg.seq.injEq] at hb; exact ih.1 b hb.1
  | seqRight h1 h2 ih =>
    refine ⟨fun e he => ?_, fun b hb => ?_⟩
    · cases e with
      | seq a b =>
        simp only [Peg.pad, Peg.seq.injEq] at he
        obtain ⟨rfl, h⟩ := he
        exact .seqRight (lang_unpad.1 h1) (ih.2 b h)
      | _ => simp [Peg.pad] at he
    · simp only [Peg.seq.injEq] at hb
      obtain ⟨_, rfl⟩ := hb
      cases h2
  | altLeft h ih =>
    refine ⟨fun e he => ?_, by simp⟩
    cases e with
    | alt a b => simp only [Peg.pad, Peg.alt.injEq] at he; exact .altLeft (ih.1 a he.1)
    | _ => simp [Peg.pad] at he
  | altRight h ih =>
    refine ⟨fun e he => ?_, by simp⟩
    cases e with
    | alt a b => simp only [Peg.pad, Peg.alt.injEq] at he; exact .altRight (ih.1 b he.2)
    | _ => simp [Peg.pad] at he
  | star h ih =>
    refine ⟨fun e he => ?_, by simp⟩
    cases e with
    | star a => simp only [Peg.pad, Peg.star.injEq] at he; exact .star (ih.2 a he)
    | _ => simp [Peg.pad] at he
  | var =>
    refine ⟨fun e he => ?_, by simp⟩
    cases e with
    | var i => simp only [Peg.pad, Peg.var.injEq] at he; subst he; exact .var
    | _ => simp [Peg.pad] at he

theorem noLeft_pad (h : NoLeftRecursion rules) : NoLeftRecursion fun i => (rules i).pad :=
  Subrelation.wf (fun {_ i} h => (leftmost_pad_aux rfl h).1 (rules i) rfl) h

theorem useful_pad (h : e.Useful) : e.pad.Useful := by
  induction e with
  | eps | var => trivial
  | chr => exact h
  | seq a b iha ihb => exact ⟨iha h.1, ihb h.2, trivial⟩
  | alt a b iha ihb => exact ⟨iha h.1, ihb h.2⟩
  | star a ih | notP a ih => exact ⟨ih h, trivial⟩

end
end Takenoco
