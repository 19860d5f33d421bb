import Verif.Lemmas.FormulaRules
import Verif.Spec.OpTable
/-
The production rules of a table of operators reduce an expression operator by operator.
-/
namespace Takenoco.OpTable
open Spec Spec.Ops

/-! ### Lists related one by one -/

section
variable {α β : Type} {R : α → β → Prop}

theorem each_append {l : List α} {a b : List β} (h : Matching R l (a ++ b)) :
    Matching R (l.take a.length) a ∧ Matching R (l.drop a.length) b := by
  induction a generalizing l with
  | nil => exact ⟨.nil, h⟩
  | cons t a ih =>
    cases h with
    | cons h1 h2 => exact ⟨.cons h1 (ih h2).1, (ih h2).2⟩

theorem each_join {l m : List α} {a b : List β} (h1 : Matching R l a) (h2 : Matching R m b) : Matching R (l ++ m) (a ++ b) := by
  induction h1 with
  | nil => exact h2
  | cons h _ ih => exact .cons h ih

theorem each_length {l : List α} {a : List β} (h : Matching R l a) : l.length = a.length := by
  induction h with
  | nil => rfl
  | cons _ _ ih => simp [ih]

theorem each_get {l : List α} {ts : List β} (h : Matching R l ts) (p : Nat) :
    (∀ t, ts[p]? = some t → ∃ a, l[p]? = some a ∧ R a t) ∧ (∀ a, l[p]? = some a → ∃ t, ts[p]? = some t ∧ R a t) := by
  induction h generalizing p with
  | nil => simp
  | cons h1 _ ih =>
    cases p with
    | zero => simp [h1]
    | succ p => simpa using ih p

theorem each_splice {l : List α} {a m b : List β} {y : α} {t : β} (h : Matching R l (a ++ (m ++ b))) (hy : R y t) :
    Matching R (l.take a.length ++ [y] ++ l.drop (a.length + m.length)) (a ++ (t :: b)) := by
  have h1 := each_append h
  have h2 := each_append h1.2
  rw [List.drop_drop] at h2
  rw [List.append_assoc]
  exact each_join h1.1 (.cons hy h2.2)

theorem each_middle {l : List α} {a m b : List β} (h : Matching R l (a ++ (m ++ b))) :
    Matching R ((l.drop a.length).take m.length) m := (each_append (each_append h).2).1
end

/-! ### Subexpressions in their surroundings -/

section
variable {D : Type} {T : Table} {app : Nat → Bytes → List D → Except Failure D}

/-- `plug` puts an expression into the middle of `pre` and `post`. -/
structure Around (T : Table) (app : Nat → Bytes → List D → Except Failure D) (n : Nat) (pre post : List (OpTok D))
    (plug : Term D → Term D) : Prop where
  toks : ∀ y, (plug y).toks = pre ++ (y.toks ++ post)
  word : ∀ d, Word T n (plug (.operand d))
  value : ∀ x y, x.value app = y.value app → (plug x).value app = (plug y).value app
  bad : ∀ x f, x.value app = .error f → ∃ f', (plug x).value app = .error f'
  fails : ∀ x f, Breaks app x f → Breaks app (plug x) f
  back : ∀ d x f, x.value app = .ok d → Breaks app (plug (.operand d)) f → Breaks app (plug x) f

variable {n m : Nat} {pre post : List (OpTok D)} {plug : Term D → Term D}

theorem around_id (n : Nat) : Around T app n [] [] id where
  toks y := by simp
  word d := .operand
  value x y h := h
  bad x f h := ⟨f, h⟩
  fails x f h := h
  back d x f h hf := by cases hf

theorem bind_bad {ε α β : Type} {x : Except ε α} {k : α → Except ε β} (h : ∃ f, x = .error f) : ∃ f, x.bind k = .error f := by
  obtain ⟨f, rfl⟩ := h
  exact ⟨f, rfl⟩

theorem bind_bad2 {ε α β : Type} {x : Except ε α} {k : α → Except ε β} (h : ∀ a, ∃ f, k a = .error f) : ∃ f, x.bind k = .error f := by
  cases x with
  | error f => exact ⟨f, rfl⟩
  | ok a => exact h a

theorem around_infL {i : Nat} {s : Bytes} {r : Term D} (h : Around T app m pre post plug)
    (hw : ∀ l : Term D, Word T m l → Word T n (.inf i s l r)) :
    Around T app n pre (post ++ .op i s :: r.toks) (fun x => .inf i s (plug x) r) where
  toks y := by simp [Term.toks, h.toks]
  word d := hw _ (h.word d)
  value x y hv := by simp only [Term.value, h.value x y hv]
  bad x f hv := bind_bad (h.bad x f hv)
  fails x f hf := .infL (h.fails x f hf)
  back d x f hv hf := by
    have e := h.value x (.operand d) hv
    cases hf with
    | inf h1 h2 h3 => exact .inf (e.trans h1) h2 h3
    | infL h1 => exact .infL (h.back d x f hv h1)
    | infR h1 => exact .infR h1

theorem around_infR {i : Nat} {s : Bytes} {l : Term D} (h : Around T app m pre post plug)
    (hw : ∀ r : Term D, Word T m r → Word T n (.inf i s l r)) :
    Around T app n (l.toks ++ .op i s :: pre) post (fun x => .inf i s l (plug x)) where
  toks y := by simp [Term.toks, h.toks]
  word d := hw _ (h.word d)
  value x y hv := by simp only [Term.value, h.value x y hv]
  bad x f hv := bind_bad2 fun _ => bind_bad (h.bad x f hv)
  fails x f hf := .infR (h.fails x f hf)
  back d x f hv hf := by
    have e := h.value x (.operand d) hv
    cases hf with
    | inf h1 h2 h3 => exact .inf h1 (e.trans h2) h3
    | infL h1 => exact .infL h1
    | infR h1 => exact .infR (h.back d x f hv h1)

theorem around_pre {i : Nat} {s : Bytes} (h : Around T app m pre post plug)
    (hw : ∀ e : Term D, Word T m e → Word T n (.pre i s e)) :
    Around T app n (.op i s :: pre) post (fun x => .pre i s (plug x)) where
  toks y := by simp [Term.toks, h.toks]
  word d := hw _ (h.word d)
  value x y hv := by simp only [Term.value, h.value x y hv]
  bad x f hv := bind_bad (h.bad x f hv)
  fails x f hf := .preE (h.fails x f hf)
  back d x f hv hf := by
    have e := h.value x (.operand d) hv
    cases hf with
    | pre h1 h2 => exact .pre (e.trans h1) h2
    | preE h1 => exact .preE (h.back d x f hv h1)

theorem around_post {i : Nat} {s : Bytes} (h : Around T app m pre post plug)
    (hw : ∀ e : Term D, Word T m e → Word T n (.post i s e)) :
    Around T app n pre (post ++ [.op i s]) (fun x => .post i s (plug x)) where
  toks y := by simp [Term.toks, h.toks]
  word d := hw _ (h.word d)
  value x y hv := by simp only [Term.value, h.value x y hv]
  bad x f hv := bind_bad (h.bad x f hv)
  fails x f hf := .postE (h.fails x f hf)
  back d x f hv hf := by
    have e := h.value x (.operand d) hv
    cases hf with
    | post h1 h2 => exact .post (e.trans h1) h2
    | postE h1 => exact .postE (h.back d x f hv h1)

theorem around_condC {i : Nat} {s : Bytes} {a b : Term D} (h : Around T app m pre post plug)
    (hw : ∀ c : Term D, Word T m c → Word T n (.cond i s c a b)) :
    Around T app n pre (post ++ .op i s :: (a.toks ++ .colon :: b.toks)) (fun x => .cond i s (plug x) a b) where
  toks y := by simp [Term.toks, h.toks]
  word d := hw _ (h.word d)
  value x y hv := by simp only [Term.value, h.value x y hv]
  bad x f hv := bind_bad (h.bad x f hv)
  fails x f hf := .condC (h.fails x f hf)
  back d x f hv hf := by
    have e := h.value x (.operand d) hv
    cases hf with
    | cond h1 h2 h3 h4 => exact .cond (e.trans h1) h2 h3 h4
    | condC h1 => exact .condC (h.back d x f hv h1)
    | condA h1 => exact .condA h1
    | condB h1 => exact .condB h1

theorem around_condA {i : Nat} {s : Bytes} {c b : Term D} (h : Around T app m pre post plug)
    (hw : ∀ a : Term D, Word T m a → Word T n (.cond i s c a b)) :
    Around T app n (c.toks ++ .op i s :: pre) (post ++ .colon :: b.toks) (fun x => .cond i s c (plug x) b) where
  toks y := by simp [Term.toks, h.toks]
  word d := hw _ (h.word d)
  value x y hv := by simp only [Term.value, h.value x y hv]
  bad x f hv := bind_bad2 fun _ => bind_bad (h.bad x f hv)
  fails x f hf := .condA (h.fails x f hf)
  back d x f hv hf := by
    have e := h.value x (.operand d) hv
    cases hf with
    | cond h1 h2 h3 h4 => exact .cond h1 (e.trans h2) h3 h4
    | condC h1 => exact .condC h1
    | condA h1 => exact .condA (h.back d x f hv h1)
    | condB h1 => exact .condB h1

theorem around_condB {i : Nat} {s : Bytes} {c a : Term D} (h : Around T app m pre post plug)
    (hw : ∀ b : Term D, Word T m b → Word T n (.cond i s c a b)) :
    Around T app n (c.toks ++ .op i s :: (a.toks ++ .colon :: pre)) post (fun x => .cond i s c a (plug x)) where
  toks y := by simp [Term.toks, h.toks]
  word d := hw _ (h.word d)
  value x y hv := by simp only [Term.value, h.value x y hv]
  bad x f hv := bind_bad2 fun _ => bind_bad2 fun _ => bind_bad (h.bad x f hv)
  fails x f hf := .condB (h.fails x f hf)
  back d x f hv hf := by
    have e := h.value x (.operand d) hv
    cases hf with
    | cond h1 h2 h3 h4 => exact .cond h1 h2 (e.trans h3) h4
    | condC h1 => exact .condC h1
    | condA h1 => exact .condA h1
    | condB h1 => exact .condB (h.back d x f hv h1)

/-! ### The operator that is reduced next -/

/-- There is an operator of level `i`. -/
def Has (i : Nat) (ts : List (OpTok D)) : Prop := ∃ s, .op i s ∈ ts
/-- All operators are of level `i` or looser. -/
def From (i : Nat) (ts : List (OpTok D)) : Prop := ∀ j s, .op j s ∈ ts → i ≤ j

theorem From.mono {i : Nat} {a b : List (OpTok D)} (h : From i b) (hs : ∀ t ∈ a, t ∈ b) : From i a :=
  fun j s ht => h j s (hs _ ht)

theorem From.succ {i : Nat} {a : List (OpTok D)} (h : From i a) (hn : ¬ Has i a) : From (i + 1) a := fun j s ht => by
  have := h j s ht
  by_cases he : j = i
  · subst he; exact absurd ⟨s, ht⟩ hn
  · omega

/-- Without operators of its level, an expression is an operand. -/
theorem leaf {e : Term D} (hw : Word T n e) (hf : From n e.toks) : ∃ d, e = .operand d := by
  cases hw with
  | operand => exact ⟨_, rfl⟩
  | left h => exact absurd (hf _ _ (by simp [Term.toks]; exact .inr (.inl ⟨rfl, rfl⟩))) (by omega)
  | right h => exact absurd (hf _ _ (by simp [Term.toks]; exact .inr (.inl ⟨rfl, rfl⟩))) (by omega)
  | pre h => exact absurd (hf _ _ (by simp [Term.toks]; exact .inl ⟨rfl, rfl⟩)) (by omega)
  | post h => exact absurd (hf _ _ (by simp [Term.toks]; exact .inr ⟨rfl, rfl⟩)) (by omega)
  | cond h => exact absurd (hf _ _ (by simp [Term.toks]; exact .inr (.inl ⟨rfl, rfl⟩))) (by omega)

/-- The operator of level `i` that is the first one in the direction of the level, with operands around it. -/
def Redex (T : Table) (app : Nat → Bytes → List D → Except Failure D) (n i : Nat) (L : OpLevel) (e : Term D) : Prop :=
  ∃ pre post plug x s ds, e = plug x ∧ Around T app n pre post plug ∧ x.toks = form L.fixity i s ds ∧ s ∈ L.ops ∧
    ds.length = L.fixity.arity ∧ x.value app = app i s ds ∧ (∀ f, app i s ds = .error f → Breaks app x f) ∧
    ¬ Has i (if L.fixity.rtol then post else pre)

theorem has_append {i : Nat} {a b : List (OpTok D)} : Has i (a ++ b) ↔ Has i a ∨ Has i b := by
  simp only [Has, List.mem_append, exists_or]

theorem has_cons {i : Nat} {t : OpTok D} {b : List (OpTok D)} : Has i (t :: b) ↔ (∃ s, t = .op i s) ∨ Has i b := by
  simp only [Has, List.mem_cons, exists_or, eq_comm]

theorem has_nil {i : Nat} : ¬ Has i ([] : List (OpTok D)) := fun ⟨_, h⟩ => by cases h

theorem has_op {i j : Nat} {s : Bytes} : (∃ s', (OpTok.op j s : OpTok D) = .op i s') ↔ j = i := by
  constructor
  · rintro ⟨_, h⟩; injection h
  · rintro rfl; exact ⟨s, rfl⟩

theorem redex {i : Nat} {L : OpLevel} (hL : T[i]? = some L) {e : Term D} (hw : Word T n e) (hf : From i e.toks) (hh : Has i e.toks) :
    Redex T app n i L e := by
  induction hw with
  | operand => obtain ⟨s, hs⟩ := hh; simp [Term.toks] at hs
  | @left n j s l r M hj hM hx hs hl hr ihl ihr =>
    have fl : From i l.toks := hf.mono (by simp [Term.toks]; grind)
    have fr : From i r.toks := hf.mono (by simp [Term.toks]; grind)
    simp only [Term.toks, has_append, has_cons, has_op] at hh
    have viaL : Has i l.toks → (L.fixity.rtol = true → j ≠ i ∧ ¬ Has i r.toks) → Redex T app n i L (.inf j s l r) := by
      intro h1 h2
      obtain ⟨pre, post, plug, x, s', ds, rfl, k1, k2, k3, k4, k5, k6, k7⟩ := ihl fl h1
      refine ⟨_, _, _, x, s', ds, rfl, around_infL k1 (fun l hl => .left hj hM hx hs hl hr), k2, k3, k4, k5, k6, ?_⟩
      cases ht : L.fixity.rtol with
      | false => simpa [ht] using k7
      | true => simpa [ht, has_append, has_cons, has_op, h2 ht] using k7
    have viaR : Has i r.toks → (L.fixity.rtol = false → j ≠ i ∧ ¬ Has i l.toks) → Redex T app n i L (.inf j s l r) := by
      intro h1 h2
      obtain ⟨pre, post, plug, x, s', ds, rfl, k1, k2, k3, k4, k5, k6, k7⟩ := ihr fr h1
      refine ⟨_, _, _, x, s', ds, rfl, around_infR k1 (fun r hr => .left hj hM hx hs hl hr), k2, k3, k4, k5, k6, ?_⟩
      cases ht : L.fixity.rtol with
      | true => simpa [ht] using k7
      | false => simpa [ht, has_append, has_cons, has_op, h2 ht] using k7
    by_cases hji : j = i
    · subst hji
      obtain rfl : M = L := by rw [hL] at hM; injection hM with h; exact h.symm
      by_cases h1 : Has j l.toks
      · exact viaL h1 (fun ht => by rw [hx] at ht; cases ht)
      · obtain ⟨x, rfl⟩ := leaf hl (fl.succ h1)
        obtain ⟨y, rfl⟩ := leaf hr fr
        exact ⟨[], [], id, _, s, [x, y], rfl, around_id n, rfl, hs, by rw [hx]; rfl, rfl, fun f h => .inf rfl rfl h,
          by cases M.fixity.rtol <;> exact has_nil⟩
    · by_cases h1 : Has i l.toks
      · by_cases h2 : Has i r.toks
        · cases ht : L.fixity.rtol with
          | false => exact viaL h1 (fun h => by rw [ht] at h; cases h)
          | true => exact viaR h2 (fun h => by rw [ht] at h; cases h)
        · exact viaL h1 fun _ => ⟨hji, h2⟩
      · exact viaR (by grind) fun _ => ⟨hji, h1⟩
  | @right n j s l r M hj hM hx hs hl hr ihl ihr =>
    have fl : From i l.toks := hf.mono (by simp [Term.toks]; grind)
    have fr : From i r.toks := hf.mono (by simp [Term.toks]; grind)
    simp only [Term.toks, has_append, has_cons, has_op] at hh
    have viaL : Has i l.toks → (L.fixity.rtol = true → j ≠ i ∧ ¬ Has i r.toks) → Redex T app n i L (.inf j s l r) := by
      intro h1 h2
      obtain ⟨pre, post, plug, x, s', ds, rfl, k1, k2, k3, k4, k5, k6, k7⟩ := ihl fl h1
      refine ⟨_, _, _, x, s', ds, rfl, around_infL k1 (fun l hl => .right hj hM hx hs hl hr), k2, k3, k4, k5, k6, ?_⟩
      cases ht : L.fixity.rtol with
      | false => simpa [ht] using k7
      | true => simpa [ht, has_append, has_cons, has_op, h2 ht] using k7
    have viaR : Has i r.toks → (L.fixity.rtol = false → j ≠ i ∧ ¬ Has i l.toks) → Redex T app n i L (.inf j s l r) := by
      intro h1 h2
      obtain ⟨pre, post, plug, x, s', ds, rfl, k1, k2, k3, k4, k5, k6, k7⟩ := ihr fr h1
      refine ⟨_, _, _, x, s', ds, rfl, around_infR k1 (fun r hr => .right hj hM hx hs hl hr), k2, k3, k4, k5, k6, ?_⟩
      cases ht : L.fixity.rtol with
      | true => simpa [ht] using k7
      | false => simpa [ht, has_append, has_cons, has_op, h2 ht] using k7
    by_cases hji : j = i
    · subst hji
      obtain rfl : M = L := by rw [hL] at hM; injection hM with h; exact h.symm
      by_cases h1 : Has j r.toks
      · exact viaR h1 (fun ht => by rw [hx] at ht; cases ht)
      · obtain ⟨x, rfl⟩ := leaf hl fl
        obtain ⟨y, rfl⟩ := leaf hr (fr.succ h1)
        exact ⟨[], [], id, _, s, [x, y], rfl, around_id n, rfl, hs, by rw [hx]; rfl, rfl, fun f h => .inf rfl rfl h,
          by cases M.fixity.rtol <;> exact has_nil⟩
    · by_cases h1 : Has i l.toks
      · by_cases h2 : Has i r.toks
        · cases ht : L.fixity.rtol with
          | false => exact viaL h1 (fun h => by rw [ht] at h; cases h)
          | true => exact viaR h2 (fun h => by rw [ht] at h; cases h)
        · exact viaL h1 fun _ => ⟨hji, h2⟩
      · exact viaR (by grind) fun _ => ⟨hji, h1⟩
  | @pre n j s e M hj hM hx hs he ih =>
    have fe : From i e.toks := hf.mono (by simp [Term.toks]; grind)
    simp only [Term.toks, has_cons, has_op] at hh
    by_cases h1 : Has i e.toks
    · obtain ⟨pre, post, plug, x, s', ds, rfl, k1, k2, k3, k4, k5, k6, k7⟩ := ih fe h1
      refine ⟨_, _, _, x, s', ds, rfl, around_pre k1 (fun e he => .pre hj hM hx hs he), k2, k3, k4, k5, k6, ?_⟩
      cases ht : L.fixity.rtol with
      | true => simpa [ht] using k7
      | false =>
        have : j ≠ i := by
          rintro rfl
          rw [hL] at hM; injection hM with h; subst h; rw [hx] at ht; cases ht
        simpa [ht, has_cons, has_op, this] using k7
    · obtain rfl : j = i := by grind
      obtain rfl : M = L := by rw [hL] at hM; injection hM with h; exact h.symm
      obtain ⟨x, rfl⟩ := leaf he (fe.succ h1)
      exact ⟨[], [], id, _, s, [x], rfl, around_id n, by rw [hx]; rfl, hs, by rw [hx]; rfl, rfl, fun f h => .pre rfl h,
        by cases M.fixity.rtol <;> exact has_nil⟩
  | @post n j s e M hj hM hx hs he ih =>
    have fe : From i e.toks := hf.mono (by simp [Term.toks]; grind)
    simp only [Term.toks, has_append, has_cons, has_op, has_nil, or_false] at hh
    by_cases h1 : Has i e.toks
    · obtain ⟨pre, post, plug, x, s', ds, rfl, k1, k2, k3, k4, k5, k6, k7⟩ := ih fe h1
      refine ⟨_, _, _, x, s', ds, rfl, around_post k1 (fun e he => .post hj hM hx hs he), k2, k3, k4, k5, k6, ?_⟩
      cases ht : L.fixity.rtol with
      | false => simpa [ht] using k7
      | true =>
        have : j ≠ i := by
          rintro rfl
          rw [hL] at hM; injection hM with h; subst h; rw [hx] at ht; cases ht
        simpa [ht, has_append, has_cons, has_op, has_nil, this] using k7
    · obtain rfl : j = i := by grind
      obtain rfl : M = L := by rw [hL] at hM; injection hM with h; exact h.symm
      obtain ⟨x, rfl⟩ := leaf he (fe.succ h1)
      exact ⟨[], [], id, _, s, [x], rfl, around_id n, by rw [hx]; rfl, hs, by rw [hx]; rfl, rfl, fun f h => .post rfl h,
        by cases M.fixity.rtol <;> exact has_nil⟩
  | @cond n j s c a b M hj hM hx hs hc ha hb ihc iha ihb =>
    have fc : From i c.toks := hf.mono (by simp [Term.toks]; grind)
    have fa : From i a.toks := hf.mono (by simp [Term.toks]; grind)
    have fb : From i b.toks := hf.mono (by simp [Term.toks]; grind)
    have hcol : ¬ ∃ s, (OpTok.colon : OpTok D) = .op i s := fun ⟨_, h⟩ => by cases h
    simp only [Term.toks, has_append, has_cons, has_op, hcol, false_or] at hh
    have viaC : Has i c.toks → (L.fixity.rtol = true → j ≠ i ∧ ¬ Has i a.toks ∧ ¬ Has i b.toks) → Redex T app n i L (.cond j s c a b) := by
      intro h1 h2
      obtain ⟨pre, post, plug, x, s', ds, rfl, k1, k2, k3, k4, k5, k6, k7⟩ := ihc fc h1
      refine ⟨_, _, _, x, s', ds, rfl, around_condC k1 (fun c hc => .cond hj hM hx hs hc ha hb), k2, k3, k4, k5, k6, ?_⟩
      cases ht : L.fixity.rtol with
      | false => simpa [ht] using k7
      | true => simpa [ht, has_append, has_cons, has_op, hcol, h2 ht] using k7
    have viaA : Has i a.toks → (L.fixity.rtol = true → ¬ Has i b.toks) → (L.fixity.rtol = false → j ≠ i ∧ ¬ Has i c.toks) →
        Redex T app n i L (.cond j s c a b) := by
      intro h1 h2 h3
      obtain ⟨pre, post, plug, x, s', ds, rfl, k1, k2, k3, k4, k5, k6, k7⟩ := iha fa h1
      refine ⟨_, _, _, x, s', ds, rfl, around_condA k1 (fun a ha => .cond hj hM hx hs hc ha hb), k2, k3, k4, k5, k6, ?_⟩
      cases ht : L.fixity.rtol with
      | false => simpa [ht, has_append, has_cons, has_op, hcol, h3 ht] using k7
      | true => simpa [ht, has_append, has_cons, has_op, hcol, h2 ht] using k7
    have viaB : Has i b.toks → (L.fixity.rtol = false → j ≠ i ∧ ¬ Has i c.toks ∧ ¬ Has i a.toks) →
        Redex T app n i L (.cond j s c a b) := by
      intro h1 h3
      obtain ⟨pre, post, plug, x, s', ds, rfl, k1, k2, k3, k4, k5, k6, k7⟩ := ihb fb h1
      refine ⟨_, _, _, x, s', ds, rfl, around_condB k1 (fun b hb => .cond hj hM hx hs hc ha hb), k2, k3, k4, k5, k6, ?_⟩
      cases ht : L.fixity.rtol with
      | false => simpa [ht, has_append, has_cons, has_op, hcol, h3 ht] using k7
      | true => simpa [ht] using k7
    by_cases hji : j = i
    · subst hji
      obtain rfl : M = L := by rw [hL] at hM; injection hM with h; exact h.symm
      have no : M.fixity.rtol ≠ false := by rw [hx]; decide
      by_cases h1 : Has j b.toks
      · exact viaB h1 fun h => absurd h no
      · by_cases h2 : Has j a.toks
        · exact viaA h2 (fun _ => h1) fun h => absurd h no
        · obtain ⟨x, rfl⟩ := leaf hc fc
          obtain ⟨y, rfl⟩ := leaf ha (fa.succ h2)
          obtain ⟨z, rfl⟩ := leaf hb (fb.succ h1)
          exact ⟨[], [], id, _, s, [x, y, z], rfl, around_id n, rfl, hs, by rw [hx]; rfl, rfl, fun f h => .cond rfl rfl rfl h,
            by cases M.fixity.rtol <;> exact has_nil⟩
    · cases ht : L.fixity.rtol with
      | false =>
        have no : L.fixity.rtol ≠ true := by rw [ht]; decide
        by_cases h1 : Has i c.toks
        · exact viaC h1 fun h => absurd h no
        · by_cases h2 : Has i a.toks
          · exact viaA h2 (fun h => absurd h no) fun _ => ⟨hji, h1⟩
          · exact viaB (by grind) fun _ => ⟨hji, h1, h2⟩
      | true =>
        have no : L.fixity.rtol ≠ false := by rw [ht]; decide
        by_cases h1 : Has i b.toks
        · exact viaB h1 fun h => absurd h no
        · by_cases h2 : Has i a.toks
          · exact viaA h2 (fun _ => h1) fun h => absurd h no
          · exact viaC (by grind) fun _ => ⟨hji, h2, h1⟩
end

end Takenoco.OpTable
