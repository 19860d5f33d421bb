import Verif.Lemmas.Utf8
import Verif.Lemmas.Engine
import Verif.Model.StrParsers
import Verif.Model.ObjParsers
/-
What the terminal parsers do, as equations.
-/
namespace Takenoco
open Spec

/-- A string terminal that matched: one string AST is pushed and the position advances. -/
def tokenMatched (cls : String) (v : Bytes) (length : Nat) (c : Ctx) : Ctx :=
  { pushStr cls v length c with qty := 1, cls := cls }

/-- A string terminal that did not match. -/
def tokenUnmatched (cls : String) (c : Ctx) : Ctx := { c with status := .unmatched, cls := cls }

theorem light_unmatched (cls : String) {fn : Sem} {c o : Ctx} (h : fn c = .ok (o, none))
    (ho : o.status = .unmatched) : lightParser cls fn c = .ok ({ o with cls := cls }, none) := by
  simp [lightParser, h, fixStatus, ho]

theorem light_matched (cls : String) {fn : Sem} {c o : Ctx} (h : fn c = .ok (o, none))
    (ho : o.status = .matched) : lightParser cls fn c = .ok ({ o with qty := 1, cls := cls }, none) := by
  simp [lightParser, h, fixStatus, ho]

theorem light_panic (cls : String) {fn : Sem} {c : Ctx} {x : Panic} (h : fn c = .panic x) :
    lightParser cls fn c = .panic x := by
  simp [lightParser, h]

theorem drop_eq_nil_iff_pos (c : Ctx) (h : c.pos ≤ c.str.length) :
    c.str.drop c.pos = [] ↔ c.pos = c.str.length := by
  simp; omega

/-- One-character terminals, from a position inside the source. -/
theorem charFn_eq (cls cls' : String) (p : Nat → Bool) (c : Ctx) (h : c.pos ≤ c.str.length) :
    lightParser cls (charFn cls' p) c =
      if c.pos < c.str.length ∧ p (decodeRune (c.str.drop c.pos)).1 = true then
        .ok ({ pushStr cls' (encodeRune (decodeRune (c.str.drop c.pos)).1)
          (decodeRune (c.str.drop c.pos)).2 c with qty := 1, cls := cls }, none)
      else .ok (tokenUnmatched cls c, none) := by
  have h' : ¬ c.str.length < c.pos := by omega
  by_cases hp : c.pos = c.str.length
  · have h0 : (decodeRune (c.str.drop c.pos)).2 = 0 :=
      (decodeRune_len_zero _).2 ((drop_eq_nil_iff_pos c h).2 hp)
    have : ¬ c.pos < c.str.length := by omega
    simp only [this, false_and, if_false]
    exact light_unmatched cls (o := unm c) (by simp [charFn, h', h0]) rfl
  · have hlt : c.pos < c.str.length := by omega
    have h0 : (decodeRune (c.str.drop c.pos)).2 ≠ 0 := fun h0 =>
      hp ((drop_eq_nil_iff_pos c h).1 ((decodeRune_len_zero _).1 h0))
    by_cases hq : p (decodeRune (c.str.drop c.pos)).1 = true
    · rw [if_pos ⟨hlt, hq⟩]
      simp [lightParser, charFn, h', h0, hq, fixStatus, pushStr]
    · rw [if_neg (by simp [hq])]
      exact light_unmatched cls (o := unm c) (by simp [charFn, h', h0, hq]) rfl

/-- Past the end of the source the one-character terminals panic (slice bounds out of range). -/
theorem charFn_panic (cls cls' : String) (p : Nat → Bool) (c : Ctx) (h : c.str.length < c.pos) :
    lightParser cls (charFn cls' p) c = .panic .index :=
  light_panic cls (by simp [charFn, h])

theorem hasPrefixAt_iff (s : Bytes) (c : Ctx) (h : c.pos ≤ c.str.length) :
    hasPrefixAt s c = true ↔ s <+: c.str.drop c.pos := by
  unfold hasPrefixAt
  rw [List.prefix_iff_eq_take]
  simp only [Bool.and_eq_true, decide_eq_true_eq, beq_iff_eq]
  constructor
  · rintro ⟨_, h2⟩; exact h2.symm
  · intro h2
    refine ⟨?_, h2.symm⟩
    have := congrArg List.length h2
    simp at this; omega

theorem seqS_eq (s : Bytes) (c : Ctx) :
    seqS s c = if hasPrefixAt s c then .ok (tokenMatched ":string:Seq" s s.length c, none)
      else .ok (tokenUnmatched ":string:Seq" c, none) := by
  by_cases h : hasPrefixAt s c = true
  · rw [if_pos h]
    simp [seqS, lightParser, h, fixStatus, tokenMatched, pushStr]
  · rw [if_neg h]
    simp [seqS, lightParser, h, fixStatus, tokenUnmatched, unm]

theorem charClassFn'_eq (c : Ctx) (cc : List Bytes) :
    charClassFn' c cc = match cc.find? (fun s => hasPrefixAt s c) with
      | some s => .ok (pushStr ":string:CharClass" s s.length c, none)
      | none => .ok (unm c, none) := by
  induction cc with
  | nil => rfl
  | cons s cc ih =>
    by_cases h : hasPrefixAt s c = true
    · simp [charClassFn', h]
    · simp [charClassFn', h, ih]

theorem charClass_eq (cc : List Bytes) (c : Ctx) :
    charClass cc c = match cc.find? (fun s => hasPrefixAt s c) with
      | some s => .ok (tokenMatched ":string:CharClass" s s.length c, none)
      | none => .ok (tokenUnmatched ":string:CharClass" c, none) := by
  have := charClassFn'_eq c cc
  cases h : cc.find? (fun s => hasPrefixAt s c) with
  | none => rw [h] at this; simp [charClass, lightParser, this, fixStatus, tokenUnmatched, unm]
  | some s => rw [h] at this; simp [charClass, lightParser, this, fixStatus, tokenMatched, pushStr]

theorem charClassN_eq (cc : List Bytes) (c : Ctx) (h : c.pos ≤ c.str.length) :
    charClassN cc c =
      if c.pos < c.str.length ∧ cc.all (fun s => !hasPrefixAt s c) = true then
        .ok (tokenMatched ":string:CharClassN" (encodeRune (decodeRune (c.str.drop c.pos)).1)
          (decodeRune (c.str.drop c.pos)).2 c, none)
      else .ok (tokenUnmatched ":string:CharClassN" c, none) := by
  by_cases ha : cc.any (fun s => hasPrefixAt s c) = true
  · have : ¬ cc.all (fun s => !hasPrefixAt s c) = true := by simpa using ha
    rw [if_neg (fun h => this h.2)]
    simp [charClassN, lightParser, ha, fixStatus, tokenUnmatched, unm]
  · have hall : cc.all (fun s => !hasPrefixAt s c) = true := by simpa using ha
    have e := charFn_eq ":string:CharClassN" ":string:CharClassN" (fun _ => true) c h
    have : charClassN cc c = lightParser ":string:CharClassN" (charFn ":string:CharClassN" fun _ => true) c := by
      simp [charClassN, lightParser, ha]
    rw [this, e]
    simp only [hall]
    rfl

theorem endS_eq (c : Ctx) :
    endS c = if c.pos = c.str.length then
        .ok ({ c with len := 0, status := .matched, qty := 1, cls := ":string:End" }, none)
      else .ok (tokenUnmatched ":string:End" c, none) := by
  by_cases h : c.pos = c.str.length
  · rw [if_pos h]; simp [endS, lightParser, h, fixStatus]
  · rw [if_neg h]; simp [endS, lightParser, h, fixStatus, tokenUnmatched, unm]

theorem startP_eq (c : Ctx) :
    startP c = if c.pos = 0 then
        .ok ({ c with len := 0, status := .matched, qty := 1, cls := ":base:Start" }, none)
      else .ok (tokenUnmatched ":base:Start" c, none) := by
  by_cases h : c.pos = 0
  · rw [if_pos h]; simp [startP, lightParser, h, fixStatus]
  · rw [if_neg h]; simp [startP, lightParser, h, fixStatus, tokenUnmatched]

theorem zeroP_eq (asts : List Ast) (c : Ctx) :
    zeroP asts c = .ok ({ c with
      stack := c.stack ++ asts.map (fun a => { a with pos := c.pos, len := c.len }),
      len := 0, status := .matched, qty := 1, cls := ":base:Zero" }, none) := by
  simp [zeroP, lightParser, fixStatus]

theorem errorP_eq (msg : String) (c : Ctx) :
    errorP msg c = .ok ({ c with len := 0, status := .error, cls := ":base:Error" }, some (.msg msg)) := by
  simp [errorP, lightParser, fixStatus]

theorem unmatchedP_eq (c : Ctx) :
    unmatchedP c = .ok ({ c with len := 0, status := .unmatched, cls := ":base:Unmatched" }, none) := by
  simp [unmatchedP, lightParser, fixStatus]

/-- The word-boundary parsers decide by a truth value and never move. -/
theorem wordBoundary_form (cls : String) (isW : Nat → Bool) (c : Ctx) (h : c.pos ≤ c.str.length) :
    ∃ b : Bool, lightParser cls (wordBoundaryFn isW) c =
      if b then .ok ({ c with len := 0, status := .matched, qty := 1, cls := cls }, none)
      else .ok ({ c with len := 0, status := .unmatched, cls := cls }, none) := by
  have h' : ¬ c.str.length < c.pos := by omega
  have key : ∃ b : Bool, wordBoundaryFn isW c =
      if b then .ok ({ c with len := 0, status := .matched }, none)
      else .ok ({ c with len := 0, status := .unmatched }, none) := by
    unfold wordBoundaryFn
    simp only [h', if_false]
    repeat' split
    all_goals first | exact ⟨true, rfl⟩ | exact ⟨false, rfl⟩
  obtain ⟨b, hb⟩ := key
  refine ⟨b, ?_⟩
  cases b with
  | true => exact light_matched _ hb rfl
  | false => exact light_unmatched _ hb rfl

end Takenoco
