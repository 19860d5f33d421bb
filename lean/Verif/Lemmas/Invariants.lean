import Verif.Lemmas.Frame
/-
The instances of the Hoare-style closure theorem used for the properties of whole grammars.
-/
namespace Takenoco
open Spec

theorem laws_stack : Laws (fun _ => True) (fun _ => True) (fun a b => a.stack <+: b.stack) (fun _ => True)
    (fun _ => True) False where
  refl := fun _ => List.prefix_rfl
  trans := fun h h' => h.trans h'
  upd := fun _ _ _ _ => trivial
  updR := fun _ _ _ h => h
  updL := fun _ _ h => h
  stackJ := fun _ _ => trivial
  take := fun {a b} l h => by
    obtain ⟨t, ht⟩ := h
    rw [← ht]; simp
  len := fun h => .inl trivial
  grp := fun _ _ => trivial
  behind := .inl fun _ => trivial
  lenJ := fun h => h.elim
  replace := fun h => h.elim

/-- Position and source of a string parser. -/
theorem laws_strPos : Laws (fun c => c.pos ≤ c.str.length) (fun _ => True)
    (fun a b => a.pos ≤ b.pos ∧ b.str = a.str) (fun _ => True) (fun _ => True) True where
  refl := fun _ => ⟨Nat.le_refl _, rfl⟩
  trans := fun h h' => ⟨Nat.le_trans h.1 h'.1, h'.2.trans h.2⟩
  upd := fun _ _ _ h => h
  updR := fun _ _ _ h => h
  updL := fun _ _ h => h
  stackJ := fun _ h => h
  take := fun _ h => h
  len := fun _ => .inl trivial
  grp := fun _ _ => trivial
  behind := .inl fun _ => trivial
  lenJ := fun _ {_} _ h => h
  replace := fun _ => ⟨trivial, fun _ _ _ => ⟨Nat.le_refl _, rfl⟩⟩

/-- Position and source of a parser of a slice. -/
theorem laws_objPos : Laws (fun c => c.pos ≤ sliceLen c) (fun _ => True)
    (fun a b => a.pos ≤ b.pos ∧ b.slice = a.slice) (fun _ => True) (fun _ => True) True where
  refl := fun _ => ⟨Nat.le_refl _, rfl⟩
  trans := fun h h' => ⟨Nat.le_trans h.1 h'.1, h'.2.trans h.2⟩
  upd := fun _ _ _ h => h
  updR := fun _ _ _ h => h
  updL := fun _ _ h => h
  stackJ := fun _ h => h
  take := fun _ h => h
  len := fun _ => .inl trivial
  grp := fun _ _ => trivial
  behind := .inl fun _ => trivial
  lenJ := fun _ {_} _ h => h
  replace := fun _ => ⟨trivial, fun _ _ _ => ⟨Nat.le_refl _, rfl⟩⟩

/-- Absence of panics. -/
theorem laws_safe : Laws (fun c => c.pos ≤ c.str.length) StrTyped
    (fun a b => a.stack <+: b.stack ∧ b.str = a.str) (fun _ => False) (fun a => 0 ≤ a) False where
  refl := fun _ => ⟨List.prefix_rfl, rfl⟩
  trans := fun h h' => ⟨h.1.trans h'.1, h'.2.trans h.2⟩
  upd := fun _ _ _ h => h
  updR := fun _ _ _ h => h
  updL := fun _ _ h => h
  stackJ := fun _ h => h
  take := fun {a b} l h => by
    obtain ⟨⟨t, ht⟩, h2⟩ := h
    refine ⟨?_, h2⟩
    rw [← ht]; simp
  len := fun h => .inr h.1.length_le
  grp := fun l _ => by intro h; simp at h
  behind := .inr fun a i c h1 h2 h3 h4 => by
    show ((c.pos : Int) - i).toNat ≤ c.str.length
    have : (0 : Int) ≤ a := h1
    omega
  lenJ := fun h => h.elim
  replace := fun h => h.elim

theorem TermRes.matched_inv {Bad : Panic → Prop} {A : Ast → Prop} {L : Nat} {c o : Ctx} {r : Out PRes}
    (h : TermRes Bad A L c r) (ho : Outcome.of r = .matched o) :
    ∃ k new, (c.pos ≤ L → c.pos + k ≤ L) ∧ (∀ a ∈ new, A a) ∧ o.stack = c.stack ++ new ∧ o.pos = c.pos + k ∧
      o.str = c.str ∧ o.slice = c.slice := by
  cases h with
  | panic h => simp [Outcome.of] at ho
  | timeout => simp [Outcome.of] at ho
  | unmatched => simp [Outcome.of] at ho
  | error => simp [Outcome.of] at ho
  | @matched k l s new hk hA =>
    simp [Outcome.of] at ho
    subst ho
    exact ⟨k, new, hk, hA, rfl, rfl, rfl, rfl⟩

theorem libTerm_res {p : Sem} (h : LibTerm p) (c : Ctx) :
    ∃ Bad L, TermRes Bad (fun _ => True) L c (p c) := by
  rcases h with h | h
  · exact ⟨_, _, strTerm_res (fun _ _ _ _ => trivial) h c⟩
  · exact ⟨_, _, objTerm_res (fun _ => trivial) h c⟩

/-! ### Transformers -/

/-- A transformer that does not panic on well-tagged ASTs and keeps them well tagged. -/
abbrev SafeT (t : TSem) : Prop := ∀ c asts, (∀ a ∈ asts, StrTyped a) →
  (∀ x, t c asts ≠ .panic x) ∧ ∀ l, t c asts = .ok (l, none) → ∀ a ∈ l, StrTyped a

theorem rewriteHead_safe (f : Ast → Ast) (hf : ∀ a, StrTyped a → StrTyped (f a)) : SafeT (rewriteHead f) := by
  intro c asts h
  cases asts with
  | nil => simp [rewriteHead]
  | cons a as =>
    refine ⟨by simp [rewriteHead], ?_⟩
    intro l hl
    simp [rewriteHead] at hl
    subst hl
    intro b hb
    simp at hb
    rcases hb with rfl | hb
    · exact hf a (h a (by simp))
    · exact h b (by simp [hb])

theorem concatLoop_safe (acc : Bytes) (asts : List Ast) (h : ∀ a ∈ asts, StrTyped a) :
    ∃ s e, concatLoop acc asts = .ok (s, e) := by
  induction asts generalizing acc with
  | nil => exact ⟨_, _, rfl⟩
  | cons a as ih =>
    unfold concatLoop
    split
    · exact ⟨_, _, rfl⟩
    · rename_i hty
      simp at hty
      obtain ⟨s, hs⟩ := h a (by simp) hty
      rw [hs]
      exact ih _ (fun b hb => h b (by simp [hb]))

theorem concat_safe' (c : Ctx) (asts : List Ast) (h : ∀ a ∈ asts, StrTyped a) :
    (∃ e, concat c asts = .ok ([], some e)) ∨
    (∃ a s, concat c asts = .ok ([a], none) ∧ a.ty = .string ∧ a.val = .str s) := by
  cases asts with
  | nil => exact .inr ⟨_, _, rfl, rfl, rfl⟩
  | cons a as =>
    obtain ⟨s, e, hse⟩ := concatLoop_safe [] (a :: as) h
    unfold concat
    simp only [hse]
    cases e with
    | some e => exact .inl ⟨_, rfl⟩
    | none => exact .inr ⟨_, _, rfl, rfl, rfl⟩

theorem concat_safe : SafeT concat := by
  intro c asts h
  rcases concat_safe' c asts h with ⟨e, he⟩ | ⟨a, s, he, ht, hv⟩
  · rw [he]; simp
  · rw [he]
    refine ⟨by simp, ?_⟩
    intro l hl
    simp at hl; subst hl
    intro b hb
    simp at hb; subst hb
    exact fun _ => ⟨s, hv⟩

theorem afterConcat_safe (f : Bytes → Ast → Out (List Ast × Option Err))
    (hf : ∀ s a, a.ty = .string → (∀ x, f s a ≠ .panic x) ∧ ∀ l, f s a = .ok (l, none) → ∀ b ∈ l, StrTyped b) :
    SafeT (afterConcat f) := by
  intro c asts h
  unfold afterConcat
  rcases concat_safe' c asts h with ⟨e, he⟩ | ⟨a, s, he, ht, hv⟩
  · rw [he]; simp
  · rw [he]
    simp only [hv, asStr]
    exact hf s a ht

theorem safeTr_fn {t : Tr} (h : SafeTr t) : ∃ f, t = .fn f ∧ SafeT f := by
  cases h with
  | erase => exact ⟨_, rfl, fun c asts _ => by simp [erase]⟩
  | transformError s => exact ⟨_, rfl, fun c asts _ => by simp [transformError]⟩
  | grouping =>
    refine ⟨_, rfl, fun c asts _ => ⟨by simp [groupingTransform], ?_⟩⟩
    intro l hl
    simp [groupingTransform] at hl
    subst hl
    intro a ha
    simp at ha; subst ha
    intro h; simp at h
  | setOpCode n => exact ⟨_, rfl, rewriteHead_safe _ fun a h => h⟩
  | changeClassName s => exact ⟨_, rfl, rewriteHead_safe _ fun a h => h⟩
  | setOpCodeAndClassName n s => exact ⟨_, rfl, rewriteHead_safe _ fun a h => h⟩
  | setValue ty v hv => exact ⟨_, rfl, rewriteHead_safe _ fun a _ => hv⟩
  | pop =>
    refine ⟨_, rfl, fun c asts h => ⟨by simp [pop], ?_⟩⟩
    intro l hl
    simp [pop] at hl; subst hl
    exact fun a ha => h a ((List.dropLast_subset asts) ha)
  | roll n =>
    refine ⟨_, rfl, fun c asts h => ?_⟩
    have : roll n c asts = .ok (asts, none) := by unfold roll; split <;> split <;> rfl
    rw [this]
    refine ⟨by simp, ?_⟩
    intro l hl
    simp at hl; subst hl
    exact h
  | concat => exact ⟨_, rfl, concat_safe⟩
  | trim | trimStart | trimEnd =>
    refine ⟨_, rfl, afterConcat_safe _ fun s a ht => ⟨by simp, ?_⟩⟩
    intro l hl
    simp at hl; subst hl
    intro b hb
    simp at hb; subst hb
    exact fun _ => ⟨_, rfl⟩
  | parseIntRadix base =>
    refine ⟨_, rfl, afterConcat_safe _ fun s a ht => ?_⟩
    cases parseInt s base with
    | error e => simp
    | ok v =>
      refine ⟨by simp, ?_⟩
      intro l hl
      simp at hl; subst hl
      intro b hb
      simp at hb; subst hb
      intro h; simp at h
  | parseFloat pf =>
    refine ⟨_, rfl, afterConcat_safe _ fun s a ht => ?_⟩
    cases pf s with
    | error e => simp
    | ok v =>
      refine ⟨by simp, ?_⟩
      intro l hl
      simp at hl; subst hl
      intro b hb
      simp at hb; subst hb
      intro h; simp at h
  | user t h => exact ⟨_, rfl, h⟩

theorem safeTr_obeys {t : Tr} (h : SafeTr t) (env : Env) (n : Nat) (J : Ctx → Prop) :
    ObeysT J StrTyped (fun _ => False) (runTr env n t) := by
  obtain ⟨f, rfl, hf⟩ := safeTr_fn h
  intro c asts _ hA
  cases n with
  | zero => simp [runTr]
  | succ n =>
    obtain ⟨h1, h2⟩ := hf c asts hA
    exact ⟨fun x hx => h1 x hx, h2⟩

end Takenoco
