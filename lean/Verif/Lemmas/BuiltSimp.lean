import Verif.Spec.Grammar
/-
Rewrite rules that decide whether a concrete grammar belongs to a class of grammars.
-/
namespace Takenoco
open Spec

section
variable {P : Sem → Prop} {T : Tr → Prop} {F : ImplFn → Prop} {D : Int → Prop} {M : Prop}

theorem built_prim {p : Sem} : Built P T F D M (.prim p) ↔ P p :=
  ⟨fun h => by cases h; assumption, .prim⟩
theorem built_flatGroup {gs : List Gram} : Built P T F D M (.flatGroup gs) ↔ ∀ g ∈ gs, Built P T F D M g :=
  ⟨fun h => by cases h; assumption, .flatGroup⟩
theorem built_group {gs : List Gram} : Built P T F D M (.group gs) ↔ ∀ g ∈ gs, Built P T F D M g :=
  ⟨fun h => by cases h; assumption, .group⟩
theorem built_first {gs : List Gram} : Built P T F D M (.first gs) ↔ ∀ g ∈ gs, Built P T F D M g :=
  ⟨fun h => by cases h; assumption, .first⟩
theorem built_lookAhead {gs : List Gram} : Built P T F D M (.lookAhead gs) ↔ ∀ g ∈ gs, Built P T F D M g :=
  ⟨fun h => by cases h; assumption, .lookAhead⟩
theorem built_lookAheadN {gs : List Gram} : Built P T F D M (.lookAheadN gs) ↔ ∀ g ∈ gs, Built P T F D M g :=
  ⟨fun h => by cases h; assumption, .lookAheadN⟩
theorem built_lookBehind {a b : Int} {gs : List Gram} :
    Built P T F D M (.lookBehind a b gs) ↔ D a ∧ ∀ g ∈ gs, Built P T F D M g :=
  ⟨fun h => by cases h; constructor <;> assumption, fun h => .lookBehind h.1 h.2⟩
theorem built_lookBehindN {a b : Int} {gs : List Gram} :
    Built P T F D M (.lookBehindN a b gs) ↔ D a ∧ ∀ g ∈ gs, Built P T F D M g :=
  ⟨fun h => by cases h; constructor <;> assumption, fun h => .lookBehindN h.1 h.2⟩
theorem built_repeat {t : Times} {gs : List Gram} :
    Built P T F D M (.repeat t gs) ↔ ∀ g ∈ gs, Built P T F D M g :=
  ⟨fun h => by cases h; assumption, .repeat⟩
theorem built_trans {g : Gram} {trs : List Tr} :
    Built P T F D M (.trans g trs) ↔ Built P T F D M g ∧ ∀ t ∈ trs, T t :=
  ⟨fun h => by cases h; constructor <;> assumption, fun h => .trans h.1 h.2⟩
theorem built_indirect {i : Nat} : Built P T F D M (.indirect i) ↔ True := ⟨fun _ => trivial, fun _ => .indirect⟩
end

section
variable {A : Ast → Prop}
theorem strTerm_any : StrTerm A anyS ↔ True := ⟨fun _ => trivial, fun _ => .any⟩
theorem strTerm_end : StrTerm A endS ↔ True := ⟨fun _ => trivial, fun _ => .end⟩
theorem strTerm_seq {s : Bytes} : StrTerm A (seqS s) ↔ True := ⟨fun _ => trivial, fun _ => .seq s⟩
theorem strTerm_charRange {r : List RuneRange} : StrTerm A (charRange r) ↔ True :=
  ⟨fun _ => trivial, fun _ => .charRange r⟩
theorem strTerm_charClass {r : List Bytes} : StrTerm A (charClass r) ↔ True :=
  ⟨fun _ => trivial, fun _ => .charClass r⟩
theorem strTerm_charClassN {r : List Bytes} : StrTerm A (charClassN r) ↔ True :=
  ⟨fun _ => trivial, fun _ => .charClassN r⟩
theorem strTerm_charClassFn {f : Nat → Bool} : StrTerm A (charClassFn f) ↔ True :=
  ⟨fun _ => trivial, fun _ => .charClassFn f⟩
theorem strTerm_whitespace : StrTerm A whitespace ↔ True := ⟨fun _ => trivial, fun _ => .whitespace⟩
theorem strTerm_whitespaceNoLineBreak : StrTerm A whitespaceNoLineBreak ↔ True :=
  ⟨fun _ => trivial, fun _ => .whitespaceNoLineBreak⟩
theorem strTerm_lineBreak : StrTerm A lineBreak ↔ True := ⟨fun _ => trivial, fun _ => .lineBreak⟩
theorem strTerm_alpha : StrTerm A alpha ↔ True := ⟨fun _ => trivial, fun _ => .alpha⟩
theorem strTerm_number : StrTerm A number ↔ True := ⟨fun _ => trivial, fun _ => .number⟩
theorem strTerm_alnum : StrTerm A alnum ↔ True := ⟨fun _ => trivial, fun _ => .alnum⟩
theorem strTerm_wordBoundary : StrTerm A wordBoundary ↔ True := ⟨fun _ => trivial, fun _ => .wordBoundary⟩
theorem strTerm_error {m : String} : StrTerm A (errorP m) ↔ True := ⟨fun _ => trivial, fun _ => .base (.error m)⟩
theorem strTerm_unmatched : StrTerm A unmatchedP ↔ True := ⟨fun _ => trivial, fun _ => .base .unmatched⟩
theorem strTerm_start : StrTerm A startP ↔ True := ⟨fun _ => trivial, fun _ => .base .start⟩
end

theorem safeTr_erase : SafeTr (.fn erase) ↔ True := ⟨fun _ => trivial, fun _ => .erase⟩
theorem safeTr_concat : SafeTr (.fn concat) ↔ True := ⟨fun _ => trivial, fun _ => .concat⟩
theorem safeTr_trim : SafeTr (.fn trim) ↔ True := ⟨fun _ => trivial, fun _ => .trim⟩
theorem safeTr_changeClassName {s : String} : SafeTr (.fn (changeClassName s)) ↔ True :=
  ⟨fun _ => trivial, fun _ => .changeClassName s⟩

/-- Proves membership of a concrete grammar over string terminals in a class of grammars; the
definitions of the grammar are given in brackets. -/
macro "built" "[" ds:Lean.Parser.Tactic.simpLemma,* "]" : tactic => `(tactic|
  simp only [$ds,*, Gram.erased, Gram.star, Gram.plus, Gram.opt, Gram.one, Extra.range, Extra.seqG,
    LibTerm, List.forall_mem_cons, List.not_mem_nil,
    built_prim, built_flatGroup, built_group, built_first, built_lookAhead, built_lookAheadN,
    built_lookBehind, built_lookBehindN, built_repeat, built_trans, built_indirect,
    strTerm_any, strTerm_end, strTerm_seq, strTerm_charRange, strTerm_charClass, strTerm_charClassN,
    strTerm_charClassFn, strTerm_whitespace, strTerm_whitespaceNoLineBreak, strTerm_lineBreak, strTerm_alpha,
    strTerm_number, strTerm_alnum, strTerm_wordBoundary, strTerm_error, strTerm_unmatched, strTerm_start,
    safeTr_erase, safeTr_concat, safeTr_trim, safeTr_changeClassName,
    true_or, or_true, and_true, true_and, false_implies, implies_true, and_self])

end Takenoco
