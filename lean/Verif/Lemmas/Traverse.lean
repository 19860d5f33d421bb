import Verif.Spec.Traverse
/-
The calls made by `Ast.Traverse`.
-/
namespace Takenoco
open Spec

theorem Out.bind_eq_ok {α β : Type} {x : Out α} {f : α → Out β} {b : β} (h : (x >>= f) = .ok b) : ∃ a, x = .ok a ∧ f a = .ok b := by
  cases x with
  | ok a => exact ⟨a, rfl, h⟩
  | panic p => cases h
  | timeout => cases h

section
variable {σ T E : Type}

/-- The traversal has failed; the nodes `st0` are still to be told. -/
def Broken (st0 : List Ast) (l : List (Call T E)) (th : Option T) (e : Option E) : Prop :=
  ∃ l1 ev cs open_ left, l = l1 ++ ev :: cs ∧ Trail l1 open_ ∧ Failing th e ev open_ (left ++ st0) ∧ Unwound th e left cs

theorem unwound_append {th : Option T} {e : Option E} {a b : List Ast} {cs ds : List (Call T E)} (h : Unwound th e a cs) (h' : Unwound th e b ds) :
    Unwound th e (a ++ b) (cs ++ ds) := by
  induction h with
  | nil => exact h'
  | cons s child _ ih => exact .cons s child ih

theorem Broken.tell {s : Ast} {st0 : List Ast} {l : List (Call T E)} {th : Option T} {e : Option E} (h : Broken (s :: st0) l th e) (child : Ast) :
    Broken st0 (l ++ [.childrenErr s child th e]) th e := by
  obtain ⟨l1, ev, cs, open_, left, rfl, h1, h2, h3⟩ := h
  exact ⟨l1, ev, cs ++ [.childrenErr s child th e], open_, left ++ [s], by simp, h1, by simpa using h2, unwound_append h3 (.cons s child .nil)⟩

/-- What the calls look like after a traversal that started with the nodes `st0` entered. -/
def Traced (st0 : List Ast) (l : List (Call T E)) (r : Visited T E) : Prop :=
  (r.failed = false → Trail l st0) ∧ (r.failed = true → Broken st0 l r.thrown r.err)

/-- The same for a function that traverses. -/
def Tracing (trav : σ × List (Call T E) → Ast → Out ((σ × List (Call T E)) × Visited T E)) : Prop :=
  ∀ w a w' r st0, trav w a = .ok (w', r) → Trail w.2 st0 → Traced st0 w'.2 r

variable {v : Visitor σ T E}

theorem childFailed_traced {w w' : σ × List (Call T E)} {s child : Ast} {r r' : Visited T E} {st0 : List Ast}
    (h : childFailed (logged v) w s child r = .ok (w', r')) (hf : r.failed = true) (hb : Broken (s :: st0) w.2 r.thrown r.err) :
    Traced st0 w'.2 r' := by
  obtain ⟨w1, h1, h2⟩ := Out.bind_eq_ok h
  cases h2
  obtain ⟨w2, h3, h4⟩ := Out.bind_eq_ok h1
  cases h4
  refine ⟨fun hn => ?_, fun _ => hb.tell child⟩
  have : ({ ast := s, pcIncr := 0, op := .nop, thrown := r.thrown, err := r.err } : Visited T E).failed = r.failed := rfl
  rw [this, hf] at hn; cases hn

theorem wayBack_traced {w w' : σ × List (Call T E)} {s : Ast} {val : Value} {r : Visited T E} {st0 : List Ast}
    (h : wayBack (logged v) w { s with val := val } = .ok (w', r)) (ht : Trail w.2 (s :: st0)) : Traced st0 w'.2 r := by
  obtain ⟨⟨w1, a, pc, op, th, e⟩, h1, h2⟩ := Out.bind_eq_ok h
  cases h2
  obtain ⟨⟨w2, a2, pc2, op2, th2, e2⟩, h3, h4⟩ := Out.bind_eq_ok h1
  cases h4
  refine ⟨fun hn => ?_, fun hf => ?_⟩
  · cases th <;> cases e <;> simp [Visited.failed] at hn
    exact ht.back val a
  · refine ⟨w.2, _, [], s :: st0, [], rfl, ht, .back s a val st0 ?_, .nil⟩
    simpa [Visited.failed] using hf

theorem listLoop_traced {trav : σ × List (Call T E) → Ast → Out ((σ × List (Call T E)) × Visited T E)} (htr : Tracing trav) {s : Ast} {st0 : List Ast}
    (xs : List Ast) : ∀ (w w' : σ × List (Call T E)) (slice : List Ast) (r : Visited T E),
    listLoop (logged v) trav s w slice xs = .ok (w', r) → Trail w.2 (s :: st0) → Traced st0 w'.2 r := by
  induction xs with
  | nil => intro w w' slice r h ht; exact wayBack_traced h ht
  | cons x xs ih =>
    intro w w' slice r h ht
    rw [listLoop] at h
    obtain ⟨⟨w1, r1⟩, h1, h2⟩ := Out.bind_eq_ok h
    have h3 := htr _ _ _ _ _ h1 ht
    simp only at h2
    by_cases hf : r1.failed = true
    · rw [if_pos hf] at h2
      exact childFailed_traced h2 hf (h3.2 hf)
    · rw [if_neg hf] at h2
      exact ih _ _ _ _ h2 (h3.1 (by simpa using hf))

theorem lastLoop_traced {trav : σ × List (Call T E) → Ast → Out ((σ × List (Call T E)) × Visited T E)} (htr : Tracing trav) {s : Ast} {st0 : List Ast}
    (orig : List Ast) (k : Nat) : ∀ (w w' : σ × List (Call T E)) (buf : Ast) (i : Int) (r : Visited T E),
    lastLoop (logged v) trav s orig k w buf i = .ok (w', r) → Trail w.2 (s :: st0) → Traced st0 w'.2 r := by
  induction k with
  | zero => intro w w' buf i r h; cases h
  | succ k ih =>
    intro w w' buf i r h ht
    rw [lastLoop] at h
    split at h
    · split at h
      · cases h
      · split at h
        · cases h
        · obtain ⟨⟨w1, r1⟩, h1, h2⟩ := Out.bind_eq_ok h
          have h3 := htr _ _ _ _ _ h1 ht
          simp only at h2
          by_cases hf : r1.failed = true
          · rw [if_pos hf] at h2
            exact childFailed_traced h2 hf (h3.2 hf)
          · rw [if_neg hf] at h2
            exact ih _ _ _ _ _ h2 (h3.1 (by simpa using hf))
    · exact wayBack_traced h ht

theorem traverse_traced (v : Visitor σ T E) (n : Nat) : Tracing (traverse (logged v) n) := by
  induction n with
  | zero => intro w a w' r st0 h; cases h
  | succ n ih =>
    intro w a w' r st0 h ht
    rw [traverse] at h
    obtain ⟨⟨w1, s, mode, err⟩, h1, h⟩ := Out.bind_eq_ok h
    obtain ⟨⟨w2, s2, mode2, err2⟩, h2, h3⟩ := Out.bind_eq_ok h1
    cases h3
    simp only at h
    cases err with
    | some e =>
      cases h
      refine ⟨fun hn => by simp [Visited.failed] at hn, fun _ => ?_⟩
      exact ⟨w.2, _, [], st0, [], rfl, ht, .there a s mode st0 rfl rfl, .nil⟩
    | none =>
      have ht' : Trail (w2, w.2 ++ [Call.there a s mode none]).2 (s :: st0) := ht.there a s mode
      simp only at h
      split at h
      · exact wayBack_traced (v := v) (s := s) (val := s.val) (by cases s; exact h) ht'
      · split at h
        · split at h
          · obtain ⟨⟨w3, r1⟩, h3, h⟩ := Out.bind_eq_ok h
            have h4 := ih _ _ _ _ _ h3 ht'
            simp only at h
            by_cases hf : r1.failed = true
            · rw [if_pos hf] at h
              exact childFailed_traced h hf (h4.2 hf)
            · rw [if_neg hf] at h
              obtain ⟨⟨w4, r2⟩, h5, h⟩ := Out.bind_eq_ok h
              have h6 := ih _ _ _ _ _ h5 (h4.1 (by simpa using hf))
              simp only at h
              by_cases hf' : r2.failed = true
              · rw [if_pos hf'] at h
                exact childFailed_traced h hf' (h6.2 hf')
              · rw [if_neg hf'] at h
                exact wayBack_traced h (h6.1 (by simpa using hf'))
          · cases h
          · cases h
        · split at h
          · split at h
            · exact lastLoop_traced ih _ _ _ _ _ _ _ h ht'
            · exact listLoop_traced ih _ _ _ _ _ h ht'
          · cases h
          · cases h
        · exact wayBack_traced (v := v) (s := s) (val := s.val) (by cases s; exact h) ht'

/-! ### Recording the calls changes nothing -/

/-- A run without the record. -/
def forget (x : Out ((σ × List (Call T E)) × Visited T E)) : Out (σ × Visited T E) := x.bind fun p => .ok (p.1.1, p.2)

theorem forget_childFailed (v : Visitor σ T E) (w : σ × List (Call T E)) (s child : Ast) (r : Visited T E) :
    forget (childFailed (logged v) w s child r) = childFailed v w.1 s child r := by
  have : (logged v).childrenErr w s child r.thrown r.err =
      (v.childrenErr w.1 s child r.thrown r.err >>= fun w' => .ok (w', w.2 ++ [.childrenErr s child r.thrown r.err])) := rfl
  unfold childFailed
  rw [this]
  cases v.childrenErr w.1 s child r.thrown r.err <;> rfl

theorem forget_wayBack (v : Visitor σ T E) (w : σ × List (Call T E)) (s : Ast) :
    forget (wayBack (logged v) w s) = wayBack v w.1 s := by
  have : (logged v).back w s = (v.back w.1 s >>= fun p =>
      .ok ((p.1, w.2 ++ [.back s p.2.1 p.2.2.2.2.1 p.2.2.2.2.2]), p.2.1, p.2.2.1, p.2.2.2.1, p.2.2.2.2.1, p.2.2.2.2.2)) := rfl
  unfold wayBack
  rw [this]
  cases v.back w.1 s <;> rfl

theorem forget_bind {x : Out ((σ × List (Call T E)) × Visited T E)} {f : (σ × List (Call T E)) × Visited T E → Out ((σ × List (Call T E)) × Visited T E)}
    {y : Out (σ × Visited T E)} {g : σ × Visited T E → Out (σ × Visited T E)} (hx : forget x = y) (hf : ∀ p, forget (f p) = g (p.1.1, p.2)) :
    forget (x >>= f) = (y >>= g) := by
  subst hx
  cases x with
  | ok p => exact hf p
  | panic p => rfl
  | timeout => rfl

theorem forget_listLoop {trav : σ × List (Call T E) → Ast → Out ((σ × List (Call T E)) × Visited T E)} {trav' : σ → Ast → Out (σ × Visited T E)}
    (htr : ∀ w a, forget (trav w a) = trav' w.1 a) (s : Ast) (xs : List Ast) : ∀ (w : σ × List (Call T E)) (slice : List Ast),
    forget (listLoop (logged v) trav s w slice xs) = listLoop v trav' s w.1 slice xs := by
  induction xs with
  | nil => intro w slice; exact forget_wayBack v w _
  | cons x xs ih =>
    intro w slice
    rw [listLoop, listLoop]
    refine forget_bind (htr w x) fun p => ?_
    simp only
    split
    · exact forget_childFailed v _ _ _ _
    · exact ih _ _

theorem forget_lastLoop {trav : σ × List (Call T E) → Ast → Out ((σ × List (Call T E)) × Visited T E)} {trav' : σ → Ast → Out (σ × Visited T E)}
    (htr : ∀ w a, forget (trav w a) = trav' w.1 a) (s : Ast) (orig : List Ast) (k : Nat) : ∀ (w : σ × List (Call T E)) (buf : Ast) (i : Int),
    forget (lastLoop (logged v) trav s orig k w buf i) = lastLoop v trav' s orig k w.1 buf i := by
  induction k with
  | zero => intro w buf i; rfl
  | succ k ih =>
    intro w buf i
    rw [lastLoop, lastLoop]
    split
    · split
      · rfl
      · split
        · rfl
        · refine forget_bind (htr w _) fun p => ?_
          simp only
          split
          · exact forget_childFailed v _ _ _ _
          · exact ih _ _ _
    · exact forget_wayBack v w _

theorem forget_traverse (v : Visitor σ T E) (n : Nat) : ∀ (w : σ × List (Call T E)) (a : Ast), forget (traverse (logged v) n w a) = traverse v n w.1 a := by
  induction n with
  | zero => intro w a; rfl
  | succ n ih =>
    intro w a
    rw [traverse, traverse]
    have : (logged v).there w a = (v.there w.1 a >>= fun p => .ok ((p.1, w.2 ++ [.there a p.2.1 p.2.2.1 p.2.2.2]), p.2.1, p.2.2.1, p.2.2.2)) := rfl
    rw [this]
    cases v.there w.1 a with
    | panic p => rfl
    | timeout => rfl
    | ok p =>
      obtain ⟨w1, s, mode, err⟩ := p
      simp only [Out.bind_ok]
      cases err with
      | some e => rfl
      | none =>
        simp only
        split
        · exact forget_wayBack v _ _
        · split
          · split
            · refine forget_bind (ih _ _) fun p => ?_
              simp only
              split
              · exact forget_childFailed v _ _ _ _
              · refine forget_bind (ih _ _) fun p => ?_
                simp only
                split
                · exact forget_childFailed v _ _ _ _
                · exact forget_wayBack v _ _
            · rfl
            · rfl
          · split
            · split
              · exact forget_lastLoop ih _ _ _ _ _ _
              · exact forget_listLoop ih _ _ _ _
            · rfl
            · rfl
          · exact forget_wayBack v _ _

/-! ### Walks -/

theorem logged_there {mode : Ast → WayThereMode} (h : IdleVisitor v mode) (w : σ) (l : List (Call T E)) (a : Ast) :
    ∃ w', (logged v).there (w, l) a = .ok ((w', l ++ [.there a a (mode a) none]), a, mode a, none) := by
  obtain ⟨w', h'⟩ := h.there w a
  refine ⟨w', ?_⟩
  show (v.there w a >>= _) = _
  rw [h']; rfl

theorem logged_wayBack {mode : Ast → WayThereMode} (h : IdleVisitor v mode) (w : σ) (l : List (Call T E)) (a : Ast) :
    ∃ w', wayBack (logged v) (w, l) a = .ok ((w', l ++ [.back a a none none]), { ast := a, pcIncr := 0, op := .nop, thrown := none, err := none }) := by
  obtain ⟨w', h'⟩ := h.back w a
  refine ⟨w', ?_⟩
  have : (logged v).back (w, l) a = .ok ((w', l ++ [.back a a none none]), a, 0, .nop, none, none) := by
    show (v.back w a >>= _) = _
    rw [h']; rfl
  unfold wayBack
  rw [this]; rfl

/-- From depth `N` on, the traversal of `a` gives `a'` and makes the calls `cs`. -/
def Visits (v : Visitor σ T E) (N : Nat) (a a' : Ast) (cs : List (Call T E)) : Prop :=
  ∀ n, N ≤ n → ∀ (w : σ) (l : List (Call T E)), ∃ w', traverse (logged v) n (w, l) a =
    .ok ((w', l ++ cs), { ast := a', pcIncr := 0, op := .nop, thrown := none, err := none })

/-- The same for the trees of a list. -/
inductive VisitsAll (v : Visitor σ T E) (N : Nat) : List Ast → List Ast → List (Call T E) → Prop where
  | nil : VisitsAll v N [] [] []
  | cons {a a' : Ast} {as as' : List Ast} {cs ds : List (Call T E)} : Visits v N a a' cs → VisitsAll v N as as' ds →
      VisitsAll v N (a :: as) (a' :: as') (cs ++ ds)

theorem Visits.mono {N M : Nat} {a a' : Ast} {cs : List (Call T E)} (h : Visits v N a a' cs) (hm : N ≤ M) : Visits v M a a' cs :=
  fun n hn => h n (by omega)

theorem VisitsAll.mono {N M : Nat} {as as' : List Ast} {cs : List (Call T E)} (h : VisitsAll v N as as' cs) (hm : N ≤ M) : VisitsAll v M as as' cs := by
  induction h with
  | nil => exact .nil
  | cons h _ ih => exact .cons (h.mono hm) ih

theorem VisitsAll.length {N : Nat} {as as' : List Ast} {cs : List (Call T E)} (h : VisitsAll v N as as' cs) : as.length = as'.length := by
  induction h with
  | nil => rfl
  | cons _ _ ih => simp [ih]

theorem not_failed (a : Ast) : ({ ast := a, pcIncr := 0, op := .nop, thrown := none, err := none } : Visited T E).failed = false := rfl

theorem listLoop_visits {mode : Ast → WayThereMode} (hv : IdleVisitor v mode) {N n : Nat} (hn : N ≤ n) (s : Ast) {as as' : List Ast} {cs : List (Call T E)}
    (h : VisitsAll v N as as' cs) : ∀ (w : σ) (l : List (Call T E)) (slice : List Ast),
    ∃ w', listLoop (logged v) (traverse (logged v) n) s (w, l) slice as =
      .ok ((w', l ++ cs ++ [.back { s with val := .list (slice ++ as') } { s with val := .list (slice ++ as') } none none]),
        { ast := { s with val := .list (slice ++ as') }, pcIncr := 0, op := .nop, thrown := none, err := none }) := by
  induction h with
  | nil =>
    intro w l slice
    rw [listLoop]
    simpa using logged_wayBack hv w l { s with val := .list slice }
  | @cons a a' as as' cs ds h _ ih =>
    intro w l slice
    obtain ⟨w1, h1⟩ := h n hn w l
    obtain ⟨w2, h2⟩ := ih w1 (l ++ cs) (slice ++ [a'])
    refine ⟨w2, ?_⟩
    rw [listLoop, h1]
    simp only [Out.bind_ok, not_failed]
    simpa using h2

theorem lastLoop_visits {mode : Ast → WayThereMode} (hv : IdleVisitor v mode) {N n : Nat} (hn : N ≤ n) (s : Ast) {as as' : List Ast} {cs : List (Call T E)}
    (h : VisitsAll v N as as' cs) : ∀ (w : σ) (l : List (Call T E)) (pre : List Ast) (k : Nat) (buf : Ast), as.length < k →
    ∃ w', lastLoop (logged v) (traverse (logged v) n) s (pre ++ as) k (w, l) buf pre.length =
      .ok ((w', l ++ cs ++ [.back { s with val := .list (if pre ++ as = [] then [] else [as'.getLast?.getD buf]) }
          { s with val := .list (if pre ++ as = [] then [] else [as'.getLast?.getD buf]) } none none]),
        { ast := { s with val := .list (if pre ++ as = [] then [] else [as'.getLast?.getD buf]) }, pcIncr := 0, op := .nop, thrown := none, err := none }) := by
  induction h with
  | nil =>
    intro w l pre k buf hk
    obtain ⟨k, rfl⟩ : ∃ m, k = m + 1 := ⟨k - 1, by simp at hk; omega⟩
    rw [lastLoop, if_neg (by simp)]
    simpa using logged_wayBack hv w l _
  | @cons a a' as as' cs ds h _ ih =>
    intro w l pre k buf hk
    obtain ⟨k, rfl⟩ : ∃ m, k = m + 1 := ⟨k - 1, by simp at hk; omega⟩
    obtain ⟨w1, h1⟩ := h n hn w l
    obtain ⟨w2, h2⟩ := ih w1 (l ++ cs) (pre ++ [a]) k a' (by simp at hk; omega)
    refine ⟨w2, ?_⟩
    have hi : (pre ++ a :: as)[(pre.length : Int).toNat]? = some a := by simp
    rw [lastLoop, if_pos (by simp; omega), if_neg (by omega), hi]
    simp only [h1, Out.bind_ok, not_failed, nextIndex]
    have hl : (a' :: as').getLast?.getD buf = as'.getLast?.getD a' := by
      cases as' with
      | nil => rfl
      | cons b bs => simp [List.getLast?_cons]
    rw [hl]
    have e1 : (pre ++ [a]) ++ as = pre ++ a :: as := by simp
    have e2 : (((pre ++ [a]).length : Nat) : Int) = (pre.length : Int) + 0 + 1 := by simp
    rw [e1, e2, List.append_assoc l cs ds] at h2
    exact h2

theorem walk_visits {mode : Ast → WayThereMode} (hv : IdleVisitor v mode) {as as' : List Ast} {cs : List (Call T E)} (h : Walk mode as as' cs) :
    ∃ N, VisitsAll v N as as' cs := by
  induction h with
  | nil => exact ⟨0, .nil⟩
  | @leaf a rest outs cs hl _ ih =>
    obtain ⟨N, ih⟩ := ih
    refine ⟨N + 1, .cons (cs := [_, _]) (fun n hn w l => ?_) (ih.mono (by omega))⟩
    obtain ⟨n, rfl⟩ : ∃ m, n = m + 1 := ⟨n - 1, by omega⟩
    obtain ⟨w1, h1⟩ := logged_there hv w l a
    obtain ⟨w2, h2⟩ := logged_wayBack hv w1 (l ++ [.there a a (mode a) none]) a
    refine ⟨w2, ?_⟩
    rw [traverse, h1]
    simp only [Out.bind_ok]
    split
    · simpa using h2
    · obtain ⟨hc, hl⟩ := hl.resolve_left (by assumption)
      split
      · exact absurd (by assumption) hc
      · exact absurd (by assumption) hl
      · simpa using h2
  | @cons a x y x' y' rest outs ci cs hm ht hval _ _ ih1 ih2 =>
    obtain ⟨N, ih1⟩ := ih1
    obtain ⟨M, ih2⟩ := ih2
    have hsplit : ∃ c1 c2, ci = c1 ++ c2 ∧ Visits v N x x' c1 ∧ Visits v N y y' c2 := by
      cases ih1 with
      | cons h1 h2 =>
        cases h2 with
        | cons h2 h3 => cases h3; exact ⟨_, _, by simp, h1, h2⟩
    obtain ⟨c1, c2, rfl, h1, h2⟩ := hsplit
    have : Visits v (N + 1) a { a with val := .cons x' y' } (.there a a (mode a) none :: (c1 ++ c2) ++
        [.back { a with val := .cons x' y' } { a with val := .cons x' y' } none none]) := by
      intro n hn w l
      obtain ⟨n, rfl⟩ : ∃ m, n = m + 1 := ⟨n - 1, by omega⟩
      obtain ⟨w1, e1⟩ := logged_there hv w l a
      obtain ⟨w2, e2⟩ := h1 n (by omega) w1 (l ++ [.there a a (mode a) none])
      obtain ⟨w3, e3⟩ := h2 n (by omega) w2 (l ++ [.there a a (mode a) none] ++ c1)
      obtain ⟨w4, e4⟩ := logged_wayBack hv w3 (l ++ [.there a a (mode a) none] ++ c1 ++ c2) { a with val := .cons x' y' }
      refine ⟨w4, ?_⟩
      rw [traverse, e1]
      simp only [Out.bind_ok, if_neg hm, ht, hval, e2, e3, not_failed]
      rw [ht] at e4
      simpa using e4
    have h3 := VisitsAll.cons (this.mono (Nat.le_max_left (N + 1) M)) (ih2.mono (Nat.le_max_right (N + 1) M))
    exact ⟨_, by simpa using h3⟩
  | @list a l l' rest outs ci cs hm ht hval _ _ ih1 ih2 =>
    obtain ⟨N, ih1⟩ := ih1
    obtain ⟨M, ih2⟩ := ih2
    have : Visits v (N + 1) a { a with val := .list l' } (.there a a (mode a) none :: ci ++
        [.back { a with val := .list l' } { a with val := .list l' } none none]) := by
      intro n hn w lg
      obtain ⟨n, rfl⟩ : ∃ m, n = m + 1 := ⟨n - 1, by omega⟩
      obtain ⟨w1, e1⟩ := logged_there hv w lg a
      obtain ⟨w2, e2⟩ := listLoop_visits hv (show N ≤ n by omega) a ih1 w1 (lg ++ [.there a a (mode a) none]) []
      refine ⟨w2, ?_⟩
      rw [traverse, e1]
      simp only [Out.bind_ok, hm, ht, hval]
      rw [hm, ht] at e2
      simpa using e2
    have h3 := VisitsAll.cons (this.mono (Nat.le_max_left (N + 1) M)) (ih2.mono (Nat.le_max_right (N + 1) M))
    exact ⟨_, by simpa using h3⟩
  | @last a l l' rest outs ci cs hm ht hval _ _ ih1 ih2 =>
    obtain ⟨N, ih1⟩ := ih1
    obtain ⟨M, ih2⟩ := ih2
    have hlen := ih1.length
    have : Visits v (N + l.length + 2) a { a with val := .list l'.getLast?.toList } (.there a a (mode a) none :: ci ++
        [.back { a with val := .list l'.getLast?.toList } { a with val := .list l'.getLast?.toList } none none]) := by
      intro n hn w lg
      obtain ⟨n, rfl⟩ : ∃ m, n = m + 1 := ⟨n - 1, by omega⟩
      obtain ⟨w1, e1⟩ := logged_there hv w lg a
      obtain ⟨w2, e2⟩ := lastLoop_visits hv (show N ≤ n by omega) a ih1 w1 (lg ++ [.there a a (mode a) none]) [] n Ast.zero (by omega)
      refine ⟨w2, ?_⟩
      have e3 : (if l = [] then [] else [l'.getLast?.getD Ast.zero]) = l'.getLast?.toList := by
        cases l' with
        | nil => simp at hlen; simp [hlen]
        | cons b bs => cases l with
          | nil => simp at hlen
          | cons c cs => simp [List.getLast?_cons]
      rw [traverse, e1]
      simp only [Out.bind_ok, hm, ht, hval]
      rw [hm, ht] at e2
      rw [← e3]
      simpa using e2
    have h3 := VisitsAll.cons (this.mono (Nat.le_max_left (N + l.length + 2) M)) (ih2.mono (Nat.le_max_right (N + l.length + 2) M))
    exact ⟨_, by simpa using h3⟩

theorem walk_append {mode : Ast → WayThereMode} {a a' : Ast} {rest outs : List Ast} {cs ds : List (Call T E)} (h : Walk mode [a] [a'] cs)
    (h' : Walk mode rest outs ds) : Walk mode (a :: rest) (a' :: outs) (cs ++ ds) := by
  cases h with
  | leaf hl hn => cases hn; exact .leaf hl h'
  | cons h1 h2 h3 h4 hn => cases hn; simpa using Walk.cons h1 h2 h3 h4 h'
  | list h1 h2 h3 h4 hn => cases hn; simpa using Walk.list h1 h2 h3 h4 h'
  | last h1 h2 h3 h4 hn => cases hn; simpa using Walk.last h1 h2 h3 h4 h'

theorem walk_forest (T E : Type) {mode : Ast → WayThereMode} (l : List Ast) (h : ∀ x ∈ l, ∃ x' cs, Walk (T := T) (E := E) mode [x] [x'] cs) :
    ∃ l' cs, Walk (T := T) (E := E) mode l l' cs := by
  induction l with
  | nil => exact ⟨_, _, .nil⟩
  | cons x xs ih =>
    obtain ⟨x', cs, h1⟩ := h x (by simp)
    obtain ⟨l', ds, h2⟩ := ih fun y hy => h y (by simp [hy])
    exact ⟨_, _, walk_append h1 h2⟩

theorem walk_exists (T E : Type) (mode : Ast → WayThereMode) {a : Ast} (h : Tagged a) : ∃ a' cs, Walk (T := T) (E := E) mode [a] [a'] cs := by
  induction h with
  | leaf h1 h2 => exact ⟨_, _, .leaf (.inr ⟨h1, h2⟩) .nil⟩
  | @cons a x y h1 h2 _ _ ih1 ih2 =>
    by_cases hl : mode a = .lazy
    · exact ⟨_, _, .leaf (.inl hl) .nil⟩
    · obtain ⟨x', c1, w1⟩ := ih1
      obtain ⟨y', c2, w2⟩ := ih2
      exact ⟨_, _, .cons hl h1 h2 (walk_append w1 w2) .nil⟩
  | @list a l h1 h2 _ ih =>
    obtain ⟨l', cs, hw⟩ := walk_forest T E l ih
    cases hm : mode a with
    | lazy => exact ⟨_, _, .leaf (.inl hm) .nil⟩
    | none => exact ⟨_, _, .list hm h1 h2 hw .nil⟩
    | last => exact ⟨_, _, .last hm h1 h2 hw .nil⟩

theorem walk_same {mode : Ast → WayThereMode} (hm : ∀ a, mode a ≠ .last) {as as' : List Ast} {cs : List (Call T E)} (h : Walk mode as as' cs) : as' = as := by
  induction h with
  | nil => rfl
  | leaf _ _ ih => rw [ih]
  | @cons a x y x' y' rest outs ci cs _ _ hval _ _ ih1 ih2 =>
    cases ih1; subst ih2; rw [← hval]; cases a; rfl
  | @list a l l' rest outs ci cs _ _ hval _ _ ih1 ih2 => subst ih1 ih2; rw [← hval]; cases a; rfl
  | last h _ => exact absurd h (hm _)

end
end Takenoco
