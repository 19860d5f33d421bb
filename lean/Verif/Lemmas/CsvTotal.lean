import Verif.Lemmas.FormulaTotal
import Verif.Model.Examples.Csv
/-
What the grammar of the csv example can do on any text.
-/
namespace Takenoco
open Spec Csv

section
variable {env : Env} {n : Nat} {X : Panic → Prop}

/-- String ASTs. -/
def AllTexts (l : List Ast) : Prop := ∃ vs, Texts l vs

/-- One string AST. -/
def OneText (l : List Ast) : Prop := ∃ a s, l = [a] ∧ a.val = .str s

theorem allTexts_nil {l : List Ast} (h : l = []) : AllTexts l := ⟨[], by subst h; exact .nil⟩

theorem allTexts_append {l l' : List Ast} (h : AllTexts l) (h' : AllTexts l') : AllTexts (l ++ l') := by
  obtain ⟨v, h⟩ := h
  obtain ⟨v', h'⟩ := h'
  exact ⟨v ++ v', texts_append h h'⟩

theorem csvSp_total : Total n X 0 (· = []) (den env sp) :=
  erased_total (star_total (gs := [.prim whitespaceNoLineBreak]) (SeqTotal.single (charTerminal_total C18_whitespaceNoLineBreak)) (by omega))

theorem quote_total : Total n X 1 (· = []) (den env (Gram.erased (.prim (seqS (b! "\""))))) := erased_total (seqS_total _)

theorem quotedChar_total : Total n X 1 AllTexts (den env quotedChar) :=
  first_total (gs := [Gram.erased (.prim (seqS (b! "\"\""))), .prim (charClassN [b! "\""])]) (by simp) fun g hg => by
    simp only [List.mem_cons, List.not_mem_nil, or_false] at hg
    rcases hg with rfl | rfl
    · exact (erased_total (seqS_total (b! "\"\""))).mono (by decide) fun _ => allTexts_nil
    · exact charClassN_total.mono (Nat.le_refl _) fun l ⟨w, hw⟩ => ⟨_, hw⟩

theorem quotedChunk_total : Total n X 1 AllTexts (den env quotedChunk) := by
  have hs : Total n X 0 AllTexts (den env (Gram.star [quotedChar])) :=
    (star_total (gs := [quotedChar]) (SeqTotal.single quotedChar_total) (by omega)).mono (Nat.le_refl _) fun _ ⟨m, hm⟩ => many_texts hm
  have hf : Total n X 0 (· = []) (den env (.first [Gram.erased (.prim (seqS (b! "\""))), .flatGroup [.prim endS, .prim (errorP "Unexpected EOF")]])) :=
    first_total (by simp) fun g hg => by
      simp only [List.mem_cons, List.not_mem_nil, or_false] at hg
      rcases hg with rfl | rfl
      · exact quote_total.mono (by omega) fun _ h => h
      · refine (flat_total (gs := [.prim endS, .prim (errorP "Unexpected EOF")])
          (SeqTotal.cons endS_total fun _ => SeqTotal.single (errorP_total (k := 0) (Q := (· = [])) _))).mono (by omega) fun l hl => ?_
        obtain ⟨a, b, rfl, rfl, rfl⟩ := hl; rfl
  refine (flat_total (gs := [sp, Gram.erased (.prim (seqS (b! "\""))), Gram.star [quotedChar], _, sp])
    (SeqTotal.cons csvSp_total fun _ => SeqTotal.cons quote_total fun _ => SeqTotal.cons (hs.weak (by omega)) fun _ =>
      SeqTotal.cons (hf.weak (by omega)) fun _ => SeqTotal.single csvSp_total)).mono (by omega) fun l hl => ?_
  obtain ⟨a, b, rfl, rfl, c, d, rfl, rfl, e, f, rfl, he, g, h, rfl, rfl, rfl⟩ := hl
  simpa using he

theorem quotedCell_total : Total n X 1 OneText (den env quotedCell) := by
  refine trans_total (by simp) ((plus_total (gs := [quotedChunk]) (SeqTotal.single quotedChunk_total) (by omega))) fun c l hl => ?_
  obtain ⟨m, _, hm⟩ := hl
  obtain ⟨vs, hv⟩ := many_texts hm
  simp only [List.map, denTr_fn, applyTrs, concat_texts hv]
  exact ⟨_, vs.flatten, rfl, by cases l <;> rfl⟩

theorem cell_total : Total n X 0 OneText (den env cell) := by
  refine trans_total (by simp) (star_total (k := 1) (gs := [.prim (charClassN cellBreakCharacters)])
    (SeqTotal.single (charClassN_total.mono (Nat.le_refl 1) fun l ⟨w, hw⟩ => (⟨[w], hw⟩ : AllTexts l))) (by omega)) fun c l hl => ?_
  obtain ⟨m, hm⟩ := hl
  obtain ⟨vs, hv⟩ := many_texts hm
  have hs : (summary l .string (.str vs.flatten)).val = .str vs.flatten := by cases l <;> rfl
  simp only [List.map, denTr_fn, applyTrs, trim, afterConcat, concat_texts hv, hs, asStr]
  exact ⟨_, trimBoth vs.flatten, rfl, rfl⟩

theorem anyCell_total : Total n X 0 OneText (den env (.first [quotedCell, cell])) :=
  first_total (by simp) fun g hg => by
    simp only [List.mem_cons, List.not_mem_nil, or_false] at hg
    rcases hg with rfl | rfl
    · exact quotedCell_total.mono (by omega) fun _ h => h
    · exact cell_total

/-- ASTs with string values. -/
inductive Strings : List Ast → List Bytes → Prop where
  | nil : Strings [] []
  | cons {a : Ast} {l : List Ast} {s : Bytes} {vs : List Bytes} : a.val = .str s → Strings l vs → Strings (a :: l) (s :: vs)

theorem strings_append {l l' : List Ast} {v v' : List Bytes} (h : Strings l v) (h' : Strings l' v') : Strings (l ++ l') (v ++ v') := by
  induction h with
  | nil => exact h'
  | cons h1 _ ih => exact .cons h1 ih

theorem strings_many {m : Nat} {l : List Ast} (h : Many (fun l => ∃ v, Strings l v) m l) : ∃ v, Strings l v := by
  induction h with
  | zero => exact ⟨[], .nil⟩
  | succ h _ ih =>
    obtain ⟨v, h⟩ := h
    obtain ⟨v', h'⟩ := ih
    exact ⟨_, strings_append h h'⟩

theorem cellValues_of {l : List Ast} {v : List Bytes} (h : Strings l v) : cellValues l = .ok v := by
  induction h with
  | nil => rfl
  | cons h1 _ ih => simp [cellValues, h1, asStr, ih]

/-- One AST for a row. -/
def OneRow (l : List Ast) : Prop := ∃ a r, l = [a] ∧ a.val = .strs r

theorem line_total : Total n X 0 OneRow (den env line) := by
  have h1 : SeqTotal n X 1 (fun l => ∃ v, Strings l v) ([.first [quotedCell, cell], Gram.erased (.prim (seqS (b! ",")))].map (den env)) :=
    (SeqTotal.cons anyCell_total fun _ => SeqTotal.single (erased_total (seqS_total (b! ",")))).mono (by decide) fun l hl => by
      obtain ⟨a, b, rfl, ⟨x, s, rfl, hx⟩, rfl⟩ := hl
      exact ⟨[s], .cons hx .nil⟩
  have h2 := flat_total (env := env) (gs := [Gram.star [.first [quotedCell, cell], Gram.erased (.prim (seqS (b! ",")))], .first [quotedCell, cell]])
    (SeqTotal.cons (star_total (gs := [.first [quotedCell, cell], Gram.erased (.prim (seqS (b! ",")))]) h1 (by omega)) fun _ => SeqTotal.single anyCell_total)
  refine trans_total (by simp) (h2.mono (by omega) fun l hl => hl) fun c l hl => ?_
  obtain ⟨a, b, rfl, ⟨m, hm⟩, x, s, rfl, hx⟩ := hl
  obtain ⟨v, hv⟩ := strings_many hm
  have := cellValues_of (strings_append hv (.cons hx .nil))
  simp only [List.map, denTr_fn, applyTrs, lineTransform, this]
  exact ⟨_, _, rfl, rfl⟩

theorem lineValues_of {m : Nat} {l : List Ast} (h : Many OneRow m l) (l' : List Ast) {r : List (List Bytes)} (h' : lineValues l' = .ok r) :
    ∃ r, lineValues (l ++ l') = .ok r := by
  induction h with
  | zero => exact ⟨r, h'⟩
  | succ h _ ih =>
    obtain ⟨a, x, rfl, ha⟩ := h
    obtain ⟨r, ih⟩ := ih
    refine ⟨x :: r, ?_⟩
    rw [List.append_assoc, List.singleton_append]
    simp [lineValues, ha, asStrs, ih]

theorem document_total : Total n X 0 (fun l => ∃ a t, l = [a] ∧ a.val = .strss t) (den env document) := by
  have h1 : SeqTotal n X 1 OneRow ([line, Gram.erased (Gram.plus [.prim lineBreak])].map (den env)) :=
    (SeqTotal.cons line_total fun _ => SeqTotal.single (erased_total (plus_total (gs := [.prim lineBreak])
      (SeqTotal.single (charTerminal_total C18_lineBreak)) (by omega)))).mono (by decide) fun l hl => by
      obtain ⟨a, b, rfl, ha, rfl⟩ := hl
      simpa using ha
  have h2 := flat_total (env := env) (gs := [Gram.star [line, Gram.erased (Gram.plus [.prim lineBreak])], line, .prim endS])
    (SeqTotal.cons (star_total (gs := [line, Gram.erased (Gram.plus [.prim lineBreak])]) h1 (by omega)) fun _ =>
      SeqTotal.cons line_total fun _ => SeqTotal.single endS_total)
  refine trans_total (by simp) (h2.mono (by omega) fun l hl => hl) fun c l hl => ?_
  obtain ⟨a, b, rfl, ⟨m, hm⟩, d, e, rfl, ⟨x, r, rfl, hx⟩, rfl⟩ := hl
  obtain ⟨v, hv⟩ := lineValues_of hm [x] (r := [r]) (by simp [lineValues, hx, asStrs])
  simp only [List.map, denTr_fn, applyTrs, documentTransform, List.append_nil, hv]
  exact ⟨_, _, rfl, rfl⟩

end
end Takenoco
