import Verif.Lemmas.CostSem
import Verif.Lemmas.Terminals
import Verif.Lemmas.Utf8
import Verif.Model.Examples.Csv
/-
The number of parser calls of the CSV parser.
-/
namespace Takenoco
open Spec Trace

variable {str : Bytes}

/-! ### The semantics is deterministic, up to failing transformers -/

theorem endOf_unique {x : Out PRes} {r r' : End} (h : EndOf str x r) (h' : EndOf str x r') : r = r' := by
  cases r with
  | hit y =>
    obtain ⟨o, h1, h2, h3, h4⟩ := h
    cases r' with
    | hit y' => obtain ⟨o', h1', h2', h3', h4'⟩ := h'; rw [h1] at h1'; cases h1'; rw [← h4, ← h4']
    | miss => obtain ⟨o', h1', h2'⟩ := h'; rw [h1] at h1'; cases h1'; rw [h2] at h2'; cases h2'
    | abort => have := h' o none h1; rw [fixStatus_none, h2] at this; cases this
  | miss =>
    obtain ⟨o, h1, h2⟩ := h
    cases r' with
    | hit y' => obtain ⟨o', h1', h2', h3', h4'⟩ := h'; rw [h1] at h1'; cases h1'; rw [h2] at h2'; cases h2'
    | miss => rfl
    | abort => have := h' o none h1; rw [fixStatus_none, h2] at this; cases this
  | abort =>
    cases r' with
    | hit y' => obtain ⟨o', h1', h2', h3', h4'⟩ := h'; have := h o' none h1'; rw [fixStatus_none, h2'] at this; cases this
    | miss => obtain ⟨o', h1', h2'⟩ := h'; have := h o' none h1'; rw [fixStatus_none, h2'] at this; cases this
    | abort => rfl

theorem termEnds_unique {p : Sem} {x : Nat} {r r' : End} (h : TermEnds str p x r) (h' : TermEnds str p x r') : r = r' :=
  let c : Ctx := { str := str, slice := none, pos := x, len := 0, qty := 0, stack := [], status := .matched, cls := "", tag := .nil }
  endOf_unique (h.1 c rfl rfl rfl) (h'.1 c rfl rfl rfl)

/-- Forms that differ in the number of iterations only. -/
inductive Alike' : CForm → CForm → Prop where
  | refl (f : CForm) : Alike' f f
  | loop (m m' : Nat) (gs : List Gram) : Alike' (.loop m gs) (.loop m' gs)

theorem cost_det {f : CForm} {x : Nat} {r : End} {k : Nat} (h : Cost str f x r k) : ∀ {f' : CForm} {r' : End} {k' : Nat}, Cost str f' x r' k' →
    Alike' f f' → r ≠ .abort → r' ≠ .abort → r = r' ∧ f = f' := by
  induction h with
  | timeout => intro _ _ _ _ _ h; exact absurd rfl h
  | forever => intro _ _ _ _ _ h; exact absurd rfl h
  | prim hp =>
    intro f' r' k' h' hf hr hr'
    cases hf
    cases h' with
    | timeout => exact absurd rfl hr'
    | prim hp' => exact ⟨termEnds_unique hp hp', rfl⟩
  | nil =>
    intro f' r' k' h' hf hr hr'
    cases hf
    cases h' with
    | nil => exact ⟨rfl, rfl⟩
  | cons _ _ ih ih' =>
    intro f' r' k' h' hf hr hr'
    cases hf
    cases h' with
    | cons h1 h2 =>
      obtain ⟨h3, -⟩ := ih h1 (.refl _) (by simp) (by simp)
      cases h3
      exact ⟨(ih' h2 (.refl _) hr hr').1, rfl⟩
    | stop h1 h2 => exact absurd (ih h1 (.refl _) (by simp) hr').1.symm (h2 _)
  | stop _ h ih =>
    intro f' r' k' h' hf hr hr'
    cases hf
    cases h' with
    | cons h1 h2 => exact absurd (ih h1 (.refl _) hr (by simp)).1 (h _)
    | stop h1 h2 => exact ⟨(ih h1 (.refl _) hr hr').1, rfl⟩
  | none =>
    intro f' r' k' h' hf hr hr'
    cases hf
    cases h' with
    | none => exact ⟨rfl, rfl⟩
  | take _ h ih =>
    intro f' r' k' h' hf hr hr'
    cases hf
    cases h' with
    | take h1 h2 => exact ⟨(ih h1 (.refl _) hr hr').1, rfl⟩
    | skip h1 h2 => exact absurd (ih h1 (.refl _) hr (by simp)).1 h
  | skip _ _ ih ih' =>
    intro f' r' k' h' hf hr hr'
    cases hf
    cases h' with
    | take h1 h2 => exact absurd (ih h1 (.refl _) (by simp) hr').1.symm h2
    | skip h1 h2 => exact ⟨(ih' h2 (.refl _) hr hr').1, rfl⟩
  | flatGroup _ ih =>
    intro f' r' k' h' hf hr hr'
    cases hf
    cases h' with
    | timeout => exact absurd rfl hr'
    | flatGroup h => exact ⟨(ih h (.refl _) hr hr').1, rfl⟩
  | first _ _ ih =>
    intro f' r' k' h' hf hr hr'
    cases hf
    cases h' with
    | timeout => exact absurd rfl hr'
    | first _ h => exact ⟨(ih h (.refl _) hr hr').1, rfl⟩
  | @last gs x k _ ih =>
    intro f' r' k' h' hf hr hr'
    have : ∃ m, f' = .loop m gs := by cases hf <;> exact ⟨_, rfl⟩
    obtain ⟨m, rfl⟩ := this
    cases h' with
    | forever => exact absurd rfl hr'
    | last h => exact ⟨rfl, rfl⟩
    | ends _ => exact absurd rfl hr'
    | next h1 h2 => have := (ih h1 (.refl _) (by simp) (by simp)).1; cases this
  | ends _ _ => intro _ _ _ _ _ h; exact absurd rfl h
  | @next gs x y m r k k' _ _ ih ih' =>
    intro f' r' k' h' hf hr hr'
    have : ∃ m, f' = .loop m gs := by cases hf <;> exact ⟨_, rfl⟩
    obtain ⟨m', rfl⟩ := this
    cases h' with
    | forever => exact absurd rfl hr'
    | last h => have := (ih h (.refl _) (by simp) (by simp)).1; cases this
    | ends _ => exact absurd rfl hr'
    | next h1 h2 =>
      have := (ih h1 (.refl _) (by simp) (by simp)).1
      cases this
      obtain ⟨h3, h4⟩ := ih' h2 (.loop _ _ _) hr hr'
      cases h4
      exact ⟨h3, rfl⟩
  | @done gs x t m r k _ _ hm ih =>
    intro f' r' k' h' hf hr hr'
    cases hf
    cases h' with
    | timeout => exact absurd rfl hr'
    | done _ h1 h2 => exact ⟨(ih h1 (.loop _ _ _) hr hr').1, rfl⟩
    | few _ h1 h2 =>
      obtain ⟨-, h4⟩ := ih h1 (.loop _ _ _) hr (by simp)
      cases h4
      rcases hm with hm | hm
      · exact absurd hm hr
      · omega
  | @few gs x y t m k _ _ hm ih =>
    intro f' r' k' h' hf hr hr'
    cases hf
    cases h' with
    | timeout => exact absurd rfl hr'
    | done _ h1 h2 =>
      obtain ⟨-, h4⟩ := ih h1 (.loop _ _ _) (by simp) hr'
      cases h4
      rcases h2 with hm' | hm'
      · exact absurd hm' hr'
      · omega
    | few _ _ _ => exact ⟨rfl, rfl⟩
  | trans _ ih =>
    intro f' r' k' h' hf hr hr'
    cases hf
    generalize hg : Gram.trans _ _ = g at h'
    cases h' with
    | timeout => exact absurd rfl hr'
    | trans h => obtain ⟨rfl, -⟩ := Gram.trans.inj hg; exact ⟨(ih h (.refl _) hr hr').1, rfl⟩
    | transFails _ => exact absurd rfl hr'
    | _ => cases hg
  | transFails _ _ => intro _ _ _ _ _ h; exact absurd rfl h

/-! ### Linear costs -/

/-- The bounds for an end: `a` calls and `b` for each byte. -/
def CostIn (n a b x : Nat) (r : End) (k : Nat) : Prop :=
  match r with
  | .hit y => k + b * x ≤ a + b * y
  | .miss => k ≤ a
  | .abort => k + b * x ≤ a + b * n

/-- The form has linear costs, and constant ones if it does not match. -/
def Lin (str : Bytes) (a b : Nat) (f : CForm) : Prop := ∀ x r k, x ≤ str.length → Cost str f x r k → CostIn str.length a b x r k

/-- The form does not fail to match. -/
def Sure (str : Bytes) (f : CForm) : Prop := ∀ x k, x ≤ str.length → ¬ Cost str f x .miss k

/-- A match consumes input. -/
def Eats (str : Bytes) (f : CForm) : Prop := ∀ x y k, x ≤ str.length → Cost str f x (.hit y) k → x < y

theorem lin_prim (p : Sem) : Lin str 1 0 (.gram (.prim p)) := by
  intro x r k hx h
  have : k ≤ 1 := by cases h <;> omega
  cases r <;> simp only [CostIn] <;> omega

theorem lin_trans {a b : Nat} {g : Gram} {ts : List TSem} (h : Lin str a b (.gram g)) : Lin str (a + 1) b (.gram (.trans g (ts.map .fn))) := by
  intro x r k hx hk
  generalize hg : Gram.trans g (ts.map .fn) = g' at hk
  cases hk with
  | timeout => have := Nat.mul_le_mul_left b hx; simp only [CostIn]; omega
  | trans hk => obtain ⟨rfl, -⟩ := Gram.trans.inj hg; have := h _ _ _ hx hk; cases r <;> simp only [CostIn] at * <;> omega
  | transFails hk =>
    obtain ⟨rfl, -⟩ := Gram.trans.inj hg
    have h1 := h _ _ _ hx hk
    have h2 := Nat.mul_le_mul_left b (cost_hit_le hk _ hx rfl).2
    simp only [CostIn] at *; omega
  | _ => cases hg

theorem sure_trans {g : Gram} {ts : List TSem} (h : Sure str (.gram g)) : Sure str (.gram (.trans g (ts.map .fn))) := by
  intro x k hx hk
  generalize hg : Gram.trans g (ts.map .fn) = g' at hk
  cases hk with
  | trans hk => obtain ⟨rfl, -⟩ := Gram.trans.inj hg; exact h _ _ hx hk
  | _ => cases hg

theorem trans_hit {g : Gram} {ts : List TSem} {x y k : Nat} (hk : Cost str (.gram (.trans g (ts.map .fn))) x (.hit y) k) : ∃ k', k = 1 + k' ∧ Cost str (.gram g) x (.hit y) k' := by
  generalize hg : Gram.trans g (ts.map .fn) = g' at hk
  cases hk with
  | trans hk => obtain ⟨rfl, -⟩ := Gram.trans.inj hg; exact ⟨_, rfl, hk⟩
  | _ => cases hg

theorem eats_trans {g : Gram} {ts : List TSem} (h : Eats str (.gram g)) : Eats str (.gram (.trans g (ts.map .fn))) := by
  intro x y k hx hk
  obtain ⟨k', -, hk⟩ := trans_hit hk
  exact h _ _ _ hx hk

/-- The iterations of a loop whose body consumes input. -/
theorem lin_loop {a b : Nat} {gs : List Gram} (h : Lin str a b (.seq gs)) (he : Eats str (.seq gs)) {m x k : Nat} {r : End} (hx : x ≤ str.length)
    (hk : Cost str (.loop m gs) x r k) : CostIn str.length a (a + b) x r k ∧ r ≠ .miss ∧ ∀ y, r = .hit y → ∃ k, Cost str (.seq gs) y .miss k := by
  generalize hf : CForm.loop m gs = f at hk
  induction hk generalizing m with
  | forever =>
    have := Nat.mul_le_mul_left (a + b) hx
    refine ⟨?_, by simp, by simp⟩
    simp only [CostIn]; omega
  | last hk =>
    cases hf
    have := h _ _ _ hx hk
    refine ⟨?_, by simp, fun y hy => by cases hy; exact ⟨_, hk⟩⟩
    simp only [CostIn] at *; omega
  | @ends gs x k hk =>
    cases hf
    have h1 := h _ _ _ hx hk
    have h2 := Nat.mul_le_mul_left a hx
    refine ⟨?_, by simp, by simp⟩
    simp only [CostIn, Nat.add_mul] at *; omega
  | @next gs x y m r k k' hk _ _ ih =>
    cases hf
    have h1 := h _ _ _ hx hk
    have h2 := he _ _ _ hx hk
    obtain ⟨h3, h4, h5⟩ := ih (cost_hit_le hk _ hx rfl).2 rfl
    refine ⟨?_, h4, h5⟩
    have h6 := Nat.mul_le_mul_left a (show x + 1 ≤ y from h2)
    cases r with
    | miss => exact absurd rfl h4
    | _ => simp only [CostIn, Nat.add_mul, Nat.mul_add, Nat.mul_one] at *; omega
  | _ => cases hf

/-- An unbounded repetition. -/
theorem lin_repeat {a b : Nat} {t : Times} {gs : List Gram} (h : Lin str a b (.seq gs)) (he : Eats str (.seq gs)) (ht : t.min ≤ 1) : Lin str (a + 1) (a + b) (.gram (.repeat t gs)) := by
  intro x r k hx hk
  cases hk with
  | timeout => have := Nat.mul_le_mul_left (a + b) hx; simp only [CostIn]; omega
  | done _ hk _ =>
    have := (lin_loop h he hx hk).1
    cases r <;> simp only [CostIn] at * <;> omega
  | @few _ _ y _ m _ _ hk hm =>
    have hm : m = 0 := by omega
    subst hm
    have := (lin_loop h he hx hk).1
    cases hk with
    | last hk => simp only [CostIn] at *; omega

theorem repeat_hit {t : Times} {gs : List Gram} {x y k : Nat} (hk : Cost str (.gram (.repeat t gs)) x (.hit y) k) :
    ∃ m k', k = 1 + k' ∧ Cost str (.loop m gs) x (.hit y) k' ∧ t.min ≤ m := by
  cases hk with
  | done _ hk hm => exact ⟨_, _, rfl, hk, hm.resolve_left (by simp)⟩

theorem sure_star {a b : Nat} {gs : List Gram} (h : Lin str a b (.seq gs)) (he : Eats str (.seq gs)) : Sure str (.gram (.repeat ⟨0, -1⟩ gs)) := by
  intro x k hx hk
  cases hk with
  | done _ hk _ => exact (lin_loop h he hx hk).2.1 rfl
  | few _ _ hm => simp at hm; omega

theorem eats_plus {gs : List Gram} (he : Eats str (.seq gs)) : Eats str (.gram (.repeat ⟨1, -1⟩ gs)) := by
  intro x y k hx hk
  obtain ⟨m, k', -, hk, hm⟩ := repeat_hit hk
  cases hk with
  | last _ => simp at hm
  | next h1 h2 =>
    have := he _ _ _ hx h1
    have := cost_hit_le h2 _ (cost_hit_le h1 _ hx rfl).2 rfl
    omega

theorem seq_one {g : Gram} {x k : Nat} {r : End} (h : Cost str (.seq [g]) x r k) : Cost str (.gram g) x r k := by
  cases h with
  | cons h h' => cases h' with | nil => exact h
  | stop h _ => exact h

theorem lin_one {a b : Nat} {g : Gram} (h : Lin str a b (.gram g)) : Lin str a b (.seq [g]) := fun x r k hx hk => h x r k hx (seq_one hk)
theorem eats_one {g : Gram} (h : Eats str (.gram g)) : Eats str (.seq [g]) := fun x r k hx hk => h x r k hx (seq_one hk)

/-! ### Terminals -/

theorem seqS_termEnds (w : Bytes) {x : Nat} (hx : x ≤ str.length) : TermEnds str (seqS w) x (if w <+: str.drop x then .hit (x + w.length) else .miss) := by
  refine ⟨fun c h1 h2 h3 => ?_, fun y hy => ?_⟩
  · subst h1 h2
    rw [seqS_eq]
    have := hasPrefixAt_iff w c hx
    by_cases h : w <+: c.str.drop c.pos
    · rw [if_pos h, if_pos (this.2 h)]
      exact ⟨_, rfl, rfl, rfl, rfl⟩
    · rw [if_neg h, if_neg (fun hh => h (this.1 hh))]
      exact ⟨_, rfl, rfl⟩
  · split at hy
    next h =>
      cases hy
      have := h.length_le
      simp at this
      omega
    next => cases hy

theorem charFn_termEnds (cls cls' : String) (p : Nat → Bool) {x : Nat} (hx : x ≤ str.length) : TermEnds str (lightParser cls (charFn cls' p)) x
    (if x < str.length ∧ p (decodeRune (str.drop x)).1 = true then .hit (x + (decodeRune (str.drop x)).2) else .miss) := by
  refine ⟨fun c h1 h2 h3 => ?_, fun y hy => ?_⟩
  · subst h1 h2
    rw [charFn_eq _ _ _ _ hx]
    split
    · exact ⟨_, rfl, rfl, rfl, rfl⟩
    · exact ⟨_, rfl, rfl⟩
  · split at hy
    next h =>
      cases hy
      have := decodeRune_len_le (str.drop x)
      simp at this
      omega
    next => cases hy

theorem charClassN_termEnds (cc : List Bytes) {x : Nat} (hx : x ≤ str.length) : TermEnds str (charClassN cc) x
    (if x < str.length ∧ ∀ w ∈ cc, ¬ w <+: str.drop x then .hit (x + (decodeRune (str.drop x)).2) else .miss) := by
  refine ⟨fun c h1 h2 h3 => ?_, fun y hy => ?_⟩
  · subst h1 h2
    rw [charClassN_eq _ _ hx]
    have : (cc.all (fun s => !hasPrefixAt s c) = true) ↔ ∀ w ∈ cc, ¬ w <+: c.str.drop c.pos := by
      simp only [List.all_eq_true, Bool.not_eq_true', ← Bool.not_eq_true, hasPrefixAt_iff _ _ hx]
    split
    next h =>
      rw [if_pos ⟨h.1, this.1 h.2⟩]
      exact ⟨_, rfl, rfl, rfl, rfl⟩
    next h =>
      rw [if_neg (fun hh => h ⟨hh.1, this.2 hh.2⟩)]
      exact ⟨_, rfl, rfl⟩
  · split at hy
    next h =>
      cases hy
      have := decodeRune_len_le (str.drop x)
      simp at this
      omega
    next => cases hy

theorem endS_termEnds {x : Nat} (hx : x ≤ str.length) : TermEnds str endS x (if x = str.length then .hit x else .miss) := by
  refine ⟨fun c h1 h2 h3 => ?_, fun y hy => ?_⟩
  · subst h1 h2
    rw [endS_eq]
    split
    · exact ⟨_, rfl, rfl, rfl, rfl⟩
    · exact ⟨_, rfl, rfl⟩
  · split at hy <;> cases hy
    exact ⟨Nat.le_refl _, hx⟩

theorem errorP_termEnds (msg : String) {x : Nat} : TermEnds str (errorP msg) x .abort := by
  refine ⟨fun c h1 h2 h3 => ?_, fun y hy => by cases hy⟩
  intro o e h
  rw [errorP_eq] at h
  cases h
  simp [fixStatus]

theorem prim_end {p : Sem} {x k : Nat} {r r' : End} (h : Cost str (.gram (.prim p)) x r k) (h' : TermEnds str p x r') (hr : r ≠ .abort) : r = r' := by
  cases h with
  | timeout => exact absurd rfl hr
  | prim h => exact termEnds_unique h h'

end Takenoco
