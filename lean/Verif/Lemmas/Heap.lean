import Verif.Spec.Heap
/-
The engine with slices does what the engine with lists does, as long as nothing below the top of a stack is overwritten.
-/
namespace Takenoco
open Spec
namespace Heap

/-! ### Memory -/

@[simp] theorem length_read (m : Mem) (s : Slice) : (m.read s).length = s.len := by simp [Mem.read]

theorem read_congr {m m' : Mem} {s : Slice} (h : ∀ i, i < s.len → m'.cell s.arr (s.off + i) = m.cell s.arr (s.off + i)) :
    m'.read s = m.read s := List.map_congr_left fun i hi => h i (List.mem_range.1 hi)

theorem getElem_read (m : Mem) (s : Slice) (i : Nat) (h : i < (m.read s).length) : (m.read s)[i] = m.cell s.arr (s.off + i) := by
  simp [Mem.read]

theorem read_upTo (m : Mem) (s : Slice) (n : Nat) (h : n ≤ s.len) : m.read (upTo s n) = (m.read s).take n := by
  apply List.ext_getElem
  · simp [upTo]; omega
  · intro i h1 h2; simp [getElem_read, upTo]

theorem read_from (m : Mem) (s : Slice) (n : Nat) : m.read (from_ s n) = (m.read s).drop n := by
  apply List.ext_getElem
  · simp [from_]
  · intro i h1 h2; simp [getElem_read, from_, Nat.add_assoc]

/-- Nothing that existed has changed. -/
def Keeps (m m' : Mem) : Prop := m.next ≤ m'.next ∧ ∀ a i, a < m.next → m'.cell a i = m.cell a i

/-- What existed has changed only behind the end of the slice. -/
def Frame (m m' : Mem) (s : Slice) : Prop := m.next ≤ m'.next ∧ ∀ a i, a < m.next → (a = s.arr → i < s.off + s.len) → m'.cell a i = m.cell a i

/-- `s'` is an extension of `s` in the same array, or a slice of a new array. -/
structure Extends (m m' : Mem) (s s' : Slice) : Prop where
  arr : s'.arr < m'.next
  cap : s'.len ≤ s'.cap
  len : s.len ≤ s'.len
  place : (s'.arr = s.arr ∧ s'.off = s.off) ∨ m.next ≤ s'.arr

theorem Keeps.refl (m : Mem) : Keeps m m := ⟨Nat.le_refl _, fun _ _ _ => rfl⟩
theorem Keeps.trans {a b c : Mem} (h : Keeps a b) (h' : Keeps b c) : Keeps a c :=
  ⟨Nat.le_trans h.1 h'.1, fun x i hx => (h'.2 x i (Nat.lt_of_lt_of_le hx h.1)).trans (h.2 x i hx)⟩
theorem Keeps.frame {m m' : Mem} (h : Keeps m m') (s : Slice) : Frame m m' s := ⟨h.1, fun a i ha _ => h.2 a i ha⟩
theorem Frame.refl (m : Mem) (s : Slice) : Frame m m s := (Keeps.refl m).frame s

theorem Keeps.read {m m' : Mem} (h : Keeps m m') {s : Slice} (hs : s.arr < m.next) : m'.read s = m.read s :=
  read_congr fun _ _ => h.2 _ _ hs

theorem Frame.read {m m' : Mem} {s t : Slice} (h : Frame m m' s) (ht : t.arr < m.next) (hb : t.arr = s.arr → t.off + t.len ≤ s.off + s.len) :
    m'.read t = m.read t := read_congr fun i hi => h.2 _ _ ht fun he => by have := hb he; omega

/-- Writing to an array that is not older than `m0`. -/
theorem Frame.keeps {m0 m m' : Mem} {s : Slice} (h0 : Keeps m0 m) (h : Frame m m' s) (hs : m0.next ≤ s.arr) : Keeps m0 m' :=
  ⟨Nat.le_trans h0.1 h.1, fun a i ha => (h.2 a i (Nat.lt_of_lt_of_le ha h0.1) (by intro he; omega)).trans (h0.2 a i ha)⟩

theorem Frame.trans {m0 m m' : Mem} {s0 s : Slice} (h0 : Frame m0 m s0) (he : Extends m0 m s0 s) (h : Frame m m' s) : Frame m0 m' s0 := by
  refine ⟨Nat.le_trans h0.1 h.1, fun a i ha hi => (h.2 a i (Nat.lt_of_lt_of_le ha h0.1) fun hs => ?_).trans (h0.2 a i ha hi)⟩
  have := he.len
  rcases he.place with ⟨h1, h2⟩ | h1
  · have := hi (hs.trans h1); omega
  · omega

theorem Extends.trans {m0 m m' : Mem} {s0 s s' : Slice} (hn : m0.next ≤ m.next) (h0 : Extends m0 m s0 s) (h : Extends m m' s s') :
    Extends m0 m' s0 s' := by
  refine ⟨h.arr, h.cap, Nat.le_trans h0.len h.len, ?_⟩
  rcases h.place with ⟨h1, h2⟩ | h1
  · rcases h0.place with ⟨h3, h4⟩ | h3
    · exact .inl ⟨h1.trans h3, h2.trans h4⟩
    · exact .inr (h1 ▸ h3)
  · exact .inr (Nat.le_trans hn h1)

theorem write_other {m : Mem} {a i : Nat} {l : List Ast} {b j : Nat} (h : b = a → j < i ∨ i + l.length ≤ j) : (m.write a i l).cell b j = m.cell b j := by
  simp only [Mem.write]
  rw [if_neg]
  rintro ⟨h1, h2, h3⟩
  have := h h1; omega

theorem write_here {m : Mem} {a i : Nat} {l : List Ast} {k : Nat} (h : k < l.length) : (m.write a i l).cell a (i + k) = l[k] := by
  simp only [Mem.write]
  rw [if_pos ⟨trivial, by omega, by omega⟩, Nat.add_sub_cancel_left, List.getD_eq_getElem?_getD, List.getElem?_eq_getElem h, Option.getD_some]

theorem make_spec (l : List Ast) (cap : Nat) (m : Mem) (hc : l.length ≤ cap) : ∃ s m', make l cap m = .ok (s, m') ∧ m'.read s = l ∧ Keeps m m' ∧
    m.next ≤ s.arr ∧ s.arr < m'.next ∧ s.len = l.length ∧ s.len ≤ s.cap := by
  refine ⟨_, _, rfl, ?_, ⟨Nat.le_succ _, fun a i ha => write_other (by intro he; omega)⟩, Nat.le_refl _, Nat.lt_succ_self _, rfl, hc⟩
  apply List.ext_getElem
  · simp
  · intro i h1 h2; simp only [getElem_read]; exact write_here h2

theorem append_spec (w : World) {m : Mem} {s : Slice} (hs : s.arr < m.next) (hc : s.len ≤ s.cap) (l : List Ast) :
    ∃ s' m', append w s l m = .ok (s', m') ∧ m'.read s' = m.read s ++ l ∧ Frame m m' s ∧ Extends m m' s s' ∧ s'.len = s.len + l.length := by
  unfold append
  split
  · rename_i h
    refine ⟨_, _, rfl, ?_, ⟨Nat.le_refl _, fun a i ha hi => write_other fun he => .inl (hi he)⟩, ⟨hs, h, Nat.le_add_right _ _, .inl ⟨rfl, rfl⟩⟩, rfl⟩
    apply List.ext_getElem
    · simp
    · intro i h1 h2
      rw [getElem_read]
      by_cases hi : i < s.len
      · rw [List.getElem_append_left (by simpa using hi), getElem_read]
        exact write_other fun _ => .inl (show s.off + i < s.off + s.len by omega)
      · simp only [length_read] at h1
        rw [List.getElem_append_right (by simpa using hi)]
        simp only [length_read]
        have h3 := write_here (m := m) (a := s.arr) (i := s.off + s.len) (l := l) (k := i - s.len) (by omega)
        rwa [show s.off + s.len + (i - s.len) = s.off + i by omega] at h3
  · obtain ⟨s', m', h1, h2, h3, h4, h5, h6, h7⟩ := make_spec (m.read s ++ l) (s.len + l.length + w.spare m s l) m (by simp)
    exact ⟨s', m', h1, h2, h3.frame s, ⟨h5, h7, by simp [h6], .inr h4⟩, by simp [h6]⟩

/-- Replacing the upper part of a slice by itself and more leaves the slice as it is. -/
theorem append_same (w : World) {m : Mem} {s : Slice} {b : Nat} (hb : b ≤ s.len) {l : List Ast} (hl : (m.read s).drop b <+: l)
    {s' : Slice} {m' : Mem} (h : append w (upTo s b) l m = .ok (s', m')) : Frame m m' s := by
  unfold append at h
  split at h
  · injection h with h
    injection h with h1 h2
    subst h2
    refine ⟨Nat.le_refl _, fun a i ha hi => ?_⟩
    by_cases hc : a = s.arr ∧ s.off + b ≤ i
    · obtain ⟨rfl, hc⟩ := hc
      have hi := hi rfl
      have hlen := hl.length_le
      simp only [List.length_drop, length_read] at hlen
      have h3 := write_here (m := m) (a := s.arr) (i := s.off + b) (l := l) (k := i - (s.off + b)) (by omega)
      rw [show s.off + b + (i - (s.off + b)) = i by omega] at h3
      refine h3.trans ?_
      obtain ⟨t, rfl⟩ := hl
      rw [List.getElem_append_left (by simp; omega), List.getElem_drop, getElem_read]
      congr 1; omega
    · exact write_other fun he => .inl (by simp only [upTo] at he ⊢; omega)
  · obtain ⟨s2, m2, h1, _, h3, _⟩ := make_spec (m.read (upTo s b) ++ l) ((upTo s b).len + l.length + w.spare m (upTo s b) l) m (by simp)
    rw [h1] at h
    injection h with h
    injection h with h4 h5
    subst h5
    exact h3.frame s

/-! ### Contexts -/

/-- From one context to another: memory has changed only behind the end of the stack, and the new stack is an extension. -/
structure Step (m : Mem) (c : HCtx) (m' : Mem) (c' : HCtx) : Prop where
  frame : Frame m m' c.stack
  ext : Extends m m' c.stack c'.stack
  src : c'.slice = c.slice

theorem Step.refl {m : Mem} {c : HCtx} (h : Usable m c) : Step m c m c :=
  ⟨.refl _ _, ⟨h.arr, h.cap, Nat.le_refl _, .inl ⟨rfl, rfl⟩⟩, rfl⟩

theorem Step.trans {m m' m'' : Mem} {c c' c'' : HCtx} (h : Step m c m' c') (h' : Step m' c' m'' c'') : Step m c m'' c'' :=
  ⟨h.frame.trans h.ext h'.frame, h.ext.trans h.frame.1 h'.ext, h'.src.trans h.src⟩

theorem Step.usable {m m' : Mem} {c c' : HCtx} (h : Step m c m' c') (hc : Usable m c) : Usable m' c' := by
  refine ⟨h.ext.arr, h.ext.cap, fun s hs => ?_⟩
  obtain ⟨h1, h2⟩ := hc.src s (h.src ▸ hs)
  refine ⟨Nat.lt_of_lt_of_le h1 h.frame.1, ?_⟩
  rcases h.ext.place with ⟨h3, -⟩ | h3
  · exact h3 ▸ h2
  · omega

theorem src_frame {m m' : Mem} {c : HCtx} (hc : Usable m c) (h : Frame m m' c.stack) : c.slice.map m'.src = c.slice.map m.src := by
  cases hs : c.slice with
  | none => rfl
  | some s =>
    cases s with
    | other s => rfl
    | asts s =>
      obtain ⟨h1, h2⟩ := hc.src s hs
      simp only [Option.map_some, Mem.src]
      rw [h.read h1 fun he => absurd he h2]

/-- Rewinding: a saved context is what it was. -/
theorem view_frame {m m' : Mem} {c : HCtx} (hc : Usable m c) (h : Frame m m' c.stack) : c.view m' = c.view m := by
  simp only [HCtx.view]
  rw [src_frame hc h, h.read hc.arr fun _ => Nat.le_refl _]

theorem usable_later {m m' : Mem} {c : HCtx} (hc : Usable m c) (h : m.next ≤ m'.next) : Usable m' c :=
  ⟨Nat.lt_of_lt_of_le hc.arr h, hc.cap, fun s hs => ⟨Nat.lt_of_lt_of_le (hc.src s hs).1 h, (hc.src s hs).2⟩⟩

theorem Step.back {m m' : Mem} {c : HCtx} (hc : Usable m c) (h : Frame m m' c.stack) : Step m c m' c :=
  ⟨h, ⟨Nat.lt_of_lt_of_le hc.arr h.1, hc.cap, Nat.le_refl _, .inl ⟨rfl, rfl⟩⟩, rfl⟩

/-! ### Simulation -/

/-- The computation with slices ends like the one with lists, with results related by `R`. -/
def Sim {α β : Type} (R : α → Mem → β → Prop) (x : Out (α × Mem)) (y : Out β) : Prop :=
  match y with
  | .ok b => ∃ a m', x = .ok (a, m') ∧ R a m' b
  | .panic p => x = .panic p
  | .timeout => x = .timeout

section
variable {α β γ δ : Type} {R : α → Mem → β → Prop} {S : γ → Mem → δ → Prop}

theorem Sim.ok {a : α} {m : Mem} {b : β} (h : R a m b) : Sim R (.ok (a, m)) (.ok b) := ⟨a, m, rfl, h⟩

theorem Sim.cases {x : Out (α × Mem)} {y : Out β} (h : Sim R x y) : (∃ a m b, x = .ok (a, m) ∧ y = .ok b ∧ R a m b) ∨
    (∃ p, x = .panic p ∧ y = .panic p) ∨ (x = .timeout ∧ y = .timeout) := by
  cases y with
  | ok b => obtain ⟨a, m, h1, h2⟩ := h; exact .inl ⟨a, m, b, h1, rfl, h2⟩
  | panic p => exact .inr (.inl ⟨p, h, rfl⟩)
  | timeout => exact .inr (.inr ⟨h, rfl⟩)

theorem Sim.mono {R' : α → Mem → β → Prop} {x : Out (α × Mem)} {y : Out β} (h : Sim R x y) (hi : ∀ a m b, R a m b → R' a m b) : Sim R' x y := by
  rcases h.cases with ⟨a, m, b, rfl, rfl, hr⟩ | ⟨p, rfl, rfl⟩ | ⟨rfl, rfl⟩
  · exact Sim.ok (hi _ _ _ hr)
  · rfl
  · rfl

theorem bind_run {x : HM α} {f : α → HM γ} {m : Mem} : (x >>= f) m = match x m with
    | .ok (a, m) => f a m
    | .panic p => .panic p
    | .timeout => .timeout := rfl

theorem bind_ok_run {x : HM α} {f : α → HM γ} {m m' : Mem} {a : α} (h : x m = .ok (a, m')) : (x >>= f) m = f a m' := by rw [bind_run, h]
theorem bind_panic_run {x : HM α} {f : α → HM γ} {m : Mem} {p : Panic} (h : x m = .panic p) : (x >>= f) m = .panic p := by rw [bind_run, h]
theorem bind_timeout_run {x : HM α} {f : α → HM γ} {m : Mem} (h : x m = .timeout) : (x >>= f) m = .timeout := by rw [bind_run, h]

theorem pure_run (a : α) (m : Mem) : (pure a : HM α) m = .ok (a, m) := rfl

end

/-- The parser with slices does what the one with lists does, and memory changes only behind the end of the stack it is given. -/
def Refines (p : HSem) (q : Sem) : Prop := ∀ c m, Usable m c →
  Sim (fun r m' o => r.2 = o.2 ∧ r.1.view m' = o.1 ∧ Step m c m' r.1) (p c m) (q (c.view m))

/-- The same for transformers: memory does not change. -/
def RefinesT (t : HTSem) (t' : TSem) : Prop := ∀ c m s, Usable m c → s.arr < m.next →
  Sim (fun r m' o => r.2 = o.2 ∧ m'.read r.1 = o.1 ∧ Keeps m m' ∧ (r.2 = none → r.1.arr < m'.next)) (t c s m) (t' (c.view m) (m.read s))

/-! ### Parsers without sub-parsers -/

theorem view_withStack {m : Mem} {c : HCtx} {s : Slice} {o : Ctx} (h1 : c.slice.map m.src = o.slice) (h2 : m.read s = o.stack) :
    (withStack c s o).view m = o := by
  cases o; simp_all [withStack, HCtx.view]

theorem terminal_refines (w : World) {p : Sem} (hp : Appends p) : Refines (terminal w p) p := by
  intro c m hc
  unfold terminal
  cases h : p (c.view m) with
  | panic x => rfl
  | timeout => rfl
  | ok r =>
    obtain ⟨o, e⟩ := r
    obtain ⟨h1, h2⟩ := hp _ _ _ h
    obtain ⟨s, m', h3, h4, h5, h6, h7⟩ := append_spec w hc.arr hc.cap (o.stack.drop c.stack.len)
    refine ⟨(withStack c s o, e), m', by simp only [h3], rfl, view_withStack ?_ ?_, h5, h6, rfl⟩
    · rw [h1]; exact src_frame hc h5
    · rw [h4]
      obtain ⟨t, ht⟩ := h2
      rw [← ht]
      simp [HCtx.view]

/-- A callback: it keeps what is below `b`, and if it says that the round does not match, everything. -/
theorem callback_refines (w : World) {f : ImplFn} (hf : KeepsBelow f) (k : Int) (b : Nat) (c : HCtx) (m : Mem) (hc : Usable m c) (hb : b ≤ c.stack.len) :
    Sim (fun r m' o => r.2 = o.2 ∧ r.1.view m' = o.1 ∧ Step m { c with stack := upTo c.stack b } m' r.1 ∧
      (0 ≤ k → r.2 = none → r.1.status = .unmatched → Frame m m' c.stack)) (callback w f k b c m) (f k b (c.view m)) := by
  unfold callback
  cases h : f k b (c.view m) with
  | panic x => rfl
  | timeout => rfl
  | ok r =>
    obtain ⟨o, e⟩ := r
    obtain ⟨h1, h2, h8⟩ := hf _ _ _ _ _ h (by simpa [HCtx.view] using hb)
    have hu : Usable m { c with stack := upTo c.stack b } := ⟨hc.arr, Nat.le_trans hb hc.cap, hc.src⟩
    obtain ⟨s, m', h3, h4, h5, h6, h7⟩ := append_spec w hu.arr hu.cap (o.stack.drop b)
    simp only [h3]
    refine Sim.ok ⟨rfl, view_withStack ?_ ?_, ⟨h5, h6, rfl⟩, fun hk he hs => ?_⟩
    · rw [h1]; have := src_frame hu h5; exact this
    · rw [h4, read_upTo _ _ _ hb]
      obtain ⟨t, ht⟩ := h2
      rw [← ht]
      simp [HCtx.view, Nat.min_eq_left hb]
    · obtain ⟨t, ht⟩ := h8 hk he hs
      refine append_same w hb (l := o.stack.drop b) ?_ h3
      rw [← ht]
      rw [List.drop_append_of_le_length (by simpa [HCtx.view] using hb)]
      exact List.prefix_append _ _

theorem transformer_refines (w : World) (t : TSem) : RefinesT (transformer w t) t := by
  intro c m s hc hs
  unfold transformer
  cases h : t (c.view m) (m.read s) with
  | panic x => rfl
  | timeout => rfl
  | ok r =>
    obtain ⟨l, e⟩ := r
    simp only
    cases hp : w.part m s l with
    | some i =>
      obtain ⟨h1, h2⟩ := w.part_spec m s l i hp
      exact Sim.ok ⟨rfl, h2, .refl m, fun _ => hs⟩
    | none =>
      obtain ⟨s', m', h1, h2, h3, h4, h5, h6, h7⟩ := make_spec l (l.length + w.spare m s l) m (by simp)
      simp only [h1]
      exact Sim.ok ⟨rfl, h2, h3, fun _ => h5⟩

/-! ### The engine -/

theorem fixStatus_view (o : HCtx) (e : Option Err) (m : Mem) : (fixStatus o e).view m = Takenoco.fixStatus (o.view m) e := by
  unfold fixStatus Takenoco.fixStatus
  by_cases h : e.isSome = true ∧ o.status ≠ .error
  · rw [if_pos h]; exact (if_pos h).symm
  · rw [if_neg h]; exact (if_neg h).symm

theorem fixStatus_step {o : HCtx} {e : Option Err} {m m' : Mem} {c : HCtx} (h : Step m c m' o) : Step m c m' (fixStatus o e) := by
  unfold fixStatus
  split
  · exact ⟨h.frame, h.ext, h.src⟩
  · exact h

theorem status_view (o : HCtx) (m : Mem) : (o.view m).status = o.status := rfl

theorem light_refines {cls : String} {p : HSem} {q : Sem} (h : Refines p q) : Refines (light cls p) (lightParser cls q) := by
  intro c m hc
  unfold light lightParser
  rcases (h c m hc).cases with ⟨⟨o, e⟩, m', ⟨o', e'⟩, h1, h2, h3, h4, h5⟩ | ⟨x, h1, h2⟩ | ⟨h1, h2⟩
  · simp only [bind_ok_run h1, h2, pure_run]
    simp only at h3 h4
    subst h3 h4
    refine Sim.ok ⟨rfl, ?_, ?_⟩
    · simp only [← fixStatus_view, status_view]
      split <;> simp [HCtx.view]
    · have := fixStatus_step (e := e) h5
      simp only
      split <;> exact ⟨this.frame, this.ext, this.src⟩
  · simp only [bind_panic_run h1, h2]; rfl
  · simp only [bind_timeout_run h1, h2]; rfl

/-- Related ends of the `CHILDREN` loop. -/
def ChildR (m0 : Mem) (c0 : HCtx) (r : ChildEnd) (m' : Mem) (r' : Takenoco.ChildEnd) : Prop :=
  match r, r' with
  | .fell k o, .fell k' o' => k = k' ∧ o.view m' = o' ∧ Step m0 c0 m' o
  | .unmatched, .unmatched => Step m0 c0 m' c0
  | .ret o e, .ret o' e' => e = e' ∧ o.view m' = o' ∧ Step m0 c0 m' o
  | _, _ => False

/-- Corresponding elements of two lists. -/
inductive Pairs {α β : Type} (R : α → β → Prop) : List α → List β → Prop where
  | nil : Pairs R [] []
  | cons {a : α} {b : β} {as : List α} {bs : List β} : R a b → Pairs R as bs → Pairs R (a :: as) (b :: bs)

theorem pairs_map {α β γ : Type} {R : β → γ → Prop} {f : α → β} {g : α → γ} (l : List α) (h : ∀ a ∈ l, R (f a) (g a)) : Pairs R (l.map f) (l.map g) := by
  induction l with
  | nil => exact .nil
  | cons a l ih => exact .cons (h a (by simp)) (ih fun b hb => h b (by simp [hb]))

theorem Pairs.length {α β : Type} {R : α → β → Prop} {l : List α} {l' : List β} (h : Pairs R l l') : l.length = l'.length := by
  induction h with
  | nil => rfl
  | cons _ _ ih => simp [ih]

theorem childLoop_sim {ex : Bool} {ps : List HSem} {qs : List Sem} (h : Pairs Refines ps qs) {m0 : Mem} {c0 : HCtx} (h0 : Usable m0 c0) :
    ∀ (k : Nat) (m : Mem) (c : HCtx), Step m0 c0 m c → Sim (ChildR m0 c0) (childLoop ex ps k c m) (Takenoco.childLoop ex qs k (c.view m)) := by
  induction h with
  | nil => intro k m c hc; exact Sim.ok ⟨rfl, rfl, hc⟩
  | @cons p q ps qs hp hps ih =>
    intro k m c hs
    have hc := hs.usable h0
    unfold childLoop Takenoco.childLoop
    rcases (hp c m hc).cases with ⟨⟨o, e⟩, m', ⟨o', e'⟩, h1, h2, h3, h4, h5⟩ | ⟨x, h1, h2⟩ | ⟨h1, h2⟩
    · simp only [bind_ok_run h1, h2]
      simp only at h3 h4
      subst h3 h4
      simp only [← fixStatus_view, status_view]
      have h6 := fixStatus_step (e := e) h5
      have h7 : Step m0 c0 m' (fixStatus o e) := hs.trans h6
      have h8 : Step m0 c0 m' c := hs.trans (Step.back hc h5.frame)
      cases (fixStatus o e).status with
      | error => exact Sim.ok ⟨rfl, rfl, h7⟩
      | unmatched =>
        cases ex with
        | true =>
          have := ih k m' c h8
          rw [view_frame hc h5.frame] at this
          simpa using this
        | false => exact Sim.ok (show Step m0 c0 m' c0 from Step.back h0 (hs.frame.trans hs.ext h5.frame))
      | matched =>
        cases ex with
        | true => exact Sim.ok ⟨rfl, rfl, h7⟩
        | false => exact ih (k + 1) m' _ h7
    · simp only [bind_panic_run h1, h2]; rfl
    · simp only [bind_timeout_run h1, h2]; rfl

/-- Related lists of sub-parsers: the `CHILDREN` loop ends alike. -/
def Kids (ex : Bool) (ps : List HSem) (qs : List Sem) : Prop := ps.length = qs.length ∧
  ∀ c m, Usable m c → Sim (ChildR m c) (childLoop ex ps 0 c m) (Takenoco.childLoop ex qs 0 (c.view m))

theorem Pairs.kids {ex : Bool} {ps : List HSem} {qs : List Sem} (h : Pairs Refines ps qs) : Kids ex ps qs :=
  ⟨h.length, fun c m hc => childLoop_sim h hc 0 m c (.refl hc)⟩

/-- Related callbacks. -/
inductive FnR : Option HImplFn → Option ImplFn → Prop where
  | none : FnR none none
  | some {w : World} {f : ImplFn} : KeepsBelow f → FnR (some (callback w f)) (some f)

theorem callFn_sim {fn : Option HImplFn} {fn' : Option ImplFn} (hf : FnR fn fn') {m0 : Mem} {c0 : HCtx} (h0 : Usable m0 c0) (k : Int) {m : Mem} {c : HCtx}
    (hs : Step m0 c0 m c) :
    Sim (fun r m' o => r.2 = o.2 ∧ r.1.view m' = o.1 ∧ Step m0 c0 m' r.1 ∧ (0 ≤ k → r.1.status = .unmatched → Frame m m' c.stack))
      (callFn fn k c0.stack.len c m) (Takenoco.callFn fn' k c0.stack.len (c.view m)) := by
  cases hf with
  | none => exact Sim.ok ⟨rfl, rfl, hs, fun _ _ => .refl _ _⟩
  | @some w f hf =>
    have hc := hs.usable h0
    unfold callFn Takenoco.callFn
    have hb := hs.ext.len
    rcases (callback_refines w hf k c0.stack.len c m hc hb).cases with ⟨⟨o, e⟩, m', ⟨o', e'⟩, h1, h2, h3, h4, h5, h6⟩ | ⟨x, h1, h2⟩ | ⟨h1, h2⟩
    · simp only [bind_ok_run h1, h2, pure_run]
      simp only at h3 h4
      subst h3 h4
      refine Sim.ok ⟨rfl, fixStatus_view _ _ _, fixStatus_step ?_, fun hk he => ?_⟩
      · have : Step m0 c0 m { c with stack := upTo c.stack c0.stack.len } :=
          ⟨hs.frame, ⟨hs.ext.arr, Nat.le_trans hb hs.ext.cap, Nat.le_refl _, hs.ext.place⟩, hs.src⟩
        exact this.trans h5
      · cases e with
        | none =>
          refine h6 hk rfl ?_
          simpa [fixStatus] using he
        | some e =>
          simp only [fixStatus] at he
          split at he
          · simp at he
          · rename_i hn; simp at hn; rw [hn] at he; simp at he
    · simp only [bind_panic_run h1, h2]; rfl
    · simp only [bind_timeout_run h1, h2]; rfl

/-- Related ends of an iteration. -/
def IterR (m0 : Mem) (c0 : HCtx) (r : IterEnd) (m' : Mem) (r' : Takenoco.IterEnd) : Prop :=
  match r, r' with
  | .next o, .next o' => o.view m' = o' ∧ Step m0 c0 m' o
  | .brk o, .brk o' => o.view m' = o' ∧ Step m0 c0 m' o
  | .ret o e, .ret o' e' => e = e' ∧ o.view m' = o' ∧ Step m0 c0 m' o
  | _, _ => False

theorem iteration_sim {fn : Option HImplFn} {fn' : Option ImplFn} (hf : FnR fn fn') {ex : Bool} {ps : List HSem} {qs : List Sem}
    (h : Kids ex ps qs) {m0 : Mem} {c0 : HCtx} (h0 : Usable m0 c0) (count : Nat) (m : Mem) (c : HCtx) (hs : Step m0 c0 m c) :
    Sim (IterR m0 c0) (iteration fn ex ps c0.stack.len count c m) (Takenoco.iteration fn' ex qs c0.stack.len count (c.view m)) := by
  have hc := hs.usable h0
  unfold iteration Takenoco.iteration
  rcases (h.2 c m hc).cases with ⟨r, m', r', h1, h2, h3⟩ | ⟨x, h1, h2⟩ | ⟨h1, h2⟩
  · simp only [bind_ok_run h1, h2]
    cases r with
    | unmatched =>
      cases r' with
      | unmatched => exact Sim.ok ⟨view_frame hc (Step.frame h3), hs.trans h3⟩
      | fell _ _ => exact h3.elim
      | ret _ _ => exact h3.elim
    | ret o e =>
      cases r' with
      | unmatched => exact h3.elim
      | fell _ _ => exact h3.elim
      | ret _ _ => exact Sim.ok ⟨h3.1, h3.2.1, hs.trans h3.2.2⟩
    | fell k o =>
      cases r' with
      | unmatched => exact h3.elim
      | ret _ _ => exact h3.elim
      | fell k' o' =>
        obtain ⟨rfl, rfl, h4⟩ := h3
        simp only [h.1]
        split
        · exact Sim.ok ⟨view_frame hc h4.frame, hs.trans (Step.back hc h4.frame)⟩
        · have h5 : Step m0 c0 m' { o with qty := count } := ⟨(hs.trans h4).frame, (hs.trans h4).ext, (hs.trans h4).src⟩
          rcases (callFn_sim hf h0 k h5).cases with ⟨⟨o1, e1⟩, m1, ⟨o2, e2⟩, g1, g2, g3, g4, g5, g6⟩ | ⟨x, g1, g2⟩ | ⟨g1, g2⟩
          · simp only at g3 g4
            subst g3 g4
            have g2 : Takenoco.callFn fn' k c0.stack.len { HCtx.view m' o with qty := count } = _ := g2
            simp only [bind_ok_run g1, g2]
            simp only [status_view]
            cases hst : o1.status with
            | error => exact Sim.ok ⟨rfl, rfl, g5⟩
            | matched => exact Sim.ok ⟨rfl, g5⟩
            | unmatched =>
              have g7 := g6 (by omega) hst
              have g8 : Frame m m1 c.stack := h4.frame.trans h4.ext g7
              exact Sim.ok ⟨view_frame hc g8, hs.trans (Step.back hc g8)⟩
          · have g2 : Takenoco.callFn fn' k c0.stack.len { HCtx.view m' o with qty := count } = _ := g2
            simp only [bind_panic_run g1, g2]; rfl
          · have g2 : Takenoco.callFn fn' k c0.stack.len { HCtx.view m' o with qty := count } = _ := g2
            simp only [bind_timeout_run g1, g2]; rfl
  · simp only [bind_panic_run h1, h2]; rfl
  · simp only [bind_timeout_run h1, h2]; rfl

/-- Related ends of the `PARENT` loop. -/
def LoopR (m0 : Mem) (c0 : HCtx) (r : LoopEnd) (m' : Mem) (r' : Takenoco.LoopEnd) : Prop :=
  match r, r' with
  | .done k o, .done k' o' => k = k' ∧ o.view m' = o' ∧ Step m0 c0 m' o
  | .ret o e, .ret o' e' => e = e' ∧ o.view m' = o' ∧ Step m0 c0 m' o
  | _, _ => False

theorem parentLoop_sim {unb : Bool} {body : Nat → HCtx → HM IterEnd} {body' : Nat → Ctx → Out Takenoco.IterEnd} {m0 : Mem} {c0 : HCtx}
    (hb : ∀ k m c, Step m0 c0 m c → Sim (IterR m0 c0) (body k c m) (body' k (c.view m))) (n : Nat) :
    ∀ (k : Nat) (m : Mem) (c : HCtx), Step m0 c0 m c → Sim (LoopR m0 c0) (parentLoop unb body n k c m) (Takenoco.parentLoop unb body' n k (c.view m)) := by
  induction n with
  | zero =>
    intro k m c hs
    unfold parentLoop Takenoco.parentLoop
    cases unb with
    | true => rfl
    | false => exact Sim.ok ⟨rfl, rfl, hs⟩
  | succ n ih =>
    intro k m c hs
    unfold parentLoop Takenoco.parentLoop
    rcases (hb k m c hs).cases with ⟨r, m', r', h1, h2, h3⟩ | ⟨x, h1, h2⟩ | ⟨h1, h2⟩
    · simp only [bind_ok_run h1, h2]
      cases r with
      | next o =>
        cases r' with
        | next o' => obtain ⟨rfl, h4⟩ := h3; exact ih _ _ _ h4
        | brk _ => exact h3.elim
        | ret _ _ => exact h3.elim
      | brk o =>
        cases r' with
        | brk o' => exact Sim.ok ⟨rfl, h3.1, h3.2⟩
        | next _ => exact h3.elim
        | ret _ _ => exact h3.elim
      | ret o e =>
        cases r' with
        | ret o' e' => exact Sim.ok h3
        | next _ => exact h3.elim
        | brk _ => exact h3.elim
    · simp only [bind_panic_run h1, h2]; rfl
    · simp only [bind_timeout_run h1, h2]; rfl

theorem Keeps.usable {m m' : Mem} (h : Keeps m m') {c : HCtx} (hc : Usable m c) : Usable m' c := usable_later hc h.1

theorem applyTrs_refines {ts : List HTSem} {ts' : List TSem} (h : Pairs RefinesT ts ts') :
    RefinesT (fun c s => applyTrs c ts s) (fun c s => Takenoco.applyTrs c ts' s) := by
  induction h with
  | nil => intro c m s hc hs; exact Sim.ok ⟨rfl, rfl, .refl m, fun _ => hs⟩
  | @cons t t' ts ts' ht hts ih =>
    intro c m s hc hs
    simp only
    unfold applyTrs Takenoco.applyTrs
    rcases (ht c m s hc hs).cases with ⟨⟨r, e⟩, m', ⟨r', e'⟩, h1, h2, h3, h4, h5, h6⟩ | ⟨x, h1, h2⟩ | ⟨h1, h2⟩
    · simp only at h3 h4
      subst h3 h4
      simp only [bind_ok_run h1, h2]
      cases e with
      | some e => exact Sim.ok ⟨rfl, rfl, h5, fun h => by simp at h⟩
      | none =>
        have := ih c m' r (h5.usable hc) (h6 rfl)
        rw [view_frame hc (h5.frame _)] at this
        rcases this.cases with ⟨⟨r1, e1⟩, m1, ⟨r1', e1'⟩, g1, g2, g3, g4, g5, g6⟩ | ⟨x, g1, g2⟩ | ⟨g1, g2⟩
        · simp only at g1 g2
          simp only [g1, g2]
          exact Sim.ok ⟨g3, g4, h5.trans g5, g6⟩
        · simp only at g1 g2
          simp only [g1, g2]; rfl
        · simp only at g1 g2
          simp only [g1, g2]; rfl
    · simp only [bind_panic_run h1, h2]; rfl
    · simp only [bind_timeout_run h1, h2]; rfl

/-- Related lists of transformers. -/
inductive TrsR : Option (List HTSem) → Option (List TSem) → Prop where
  | none : TrsR none none
  | some {ts : List HTSem} {ts' : List TSem} : Pairs RefinesT ts ts' → TrsR (some ts) (some ts')

theorem applyTransforms_sim (w : World) {tr : Option (List HTSem)} {tr' : Option (List TSem)} (ht : TrsR tr tr') {m0 : Mem} {c0 : HCtx} (h0 : Usable m0 c0)
    (m : Mem) (c : HCtx) (hs : Step m0 c0 m c) :
    Sim (fun r m' o => r.2 = o.2 ∧ r.1.view m' = o.1 ∧ Step m0 c0 m' r.1) (applyTransforms w tr c0 c m)
      (Takenoco.applyTransforms tr' (c0.view m0) (c.view m)) := by
  have hc := hs.usable h0
  cases ht with
  | none => exact Sim.ok ⟨rfl, rfl, hs⟩
  | @some ts ts' ht =>
    unfold applyTransforms Takenoco.applyTransforms
    have hl := hs.ext.len
    simp only
    rw [if_neg (by omega), if_neg (by simp [HCtx.view]; omega)]
    have h1 := applyTrs_refines ht c0 m (from_ c.stack c0.stack.len) (usable_later h0 hs.frame.1) hc.arr
    rw [view_frame h0 hs.frame, read_from] at h1
    simp only [show (c0.view m0).stack.length = c0.stack.len by simp [HCtx.view], show (c.view m).stack = m.read c.stack from rfl]
    rcases h1.cases with ⟨⟨r, e⟩, m', ⟨r', e'⟩, h1, h2, h3, h4, h5, h6⟩ | ⟨x, h1, h2⟩ | ⟨h1, h2⟩
    · simp only at h1 h2 h3 h4
      subst h3 h4
      simp only [bind_ok_run h1, h2]
      cases e with
      | some e =>
        refine Sim.ok ⟨rfl, ?_, ?_⟩
        · simp only [HCtx.view]
          rw [src_frame hc (h5.frame _), h5.read hc.arr]
        · have := hs.trans (Step.back hc (h5.frame _)); exact ⟨this.frame, this.ext, this.src⟩
      | none =>
        have hu : Usable m' { c with stack := upTo c.stack c0.stack.len } :=
          ⟨Nat.lt_of_lt_of_le hc.arr h5.1, Nat.le_trans hl hc.cap, (usable_later hc h5.1).src⟩
        obtain ⟨s, m2, g1, g2, g3, g4, g5⟩ := append_spec w hu.arr hu.cap (m'.read r)
        simp only
        rw [bind_ok_run (show load r m' = .ok (m'.read r, m') from rfl), bind_ok_run g1, pure_run]
        have hst : Step m0 c0 m { c with stack := upTo c.stack c0.stack.len } :=
          ⟨hs.frame, ⟨hs.ext.arr, Nat.le_trans hl hs.ext.cap, Nat.le_refl _, hs.ext.place⟩, hs.src⟩
        have hus : Usable m { c with stack := upTo c.stack c0.stack.len } := hst.usable h0
        have hst' := hst.trans (Step.back hus (h5.frame _))
        have hst2 : Step m' { c with stack := upTo c.stack c0.stack.len } m2 { c with stack := s } := ⟨g3, g4, rfl⟩
        refine Sim.ok ⟨rfl, ?_, hst'.trans hst2⟩
        simp only [HCtx.view, g2]
        rw [read_upTo _ _ _ hl, h5.read hc.arr]
        have e1 := src_frame hu g3
        simp only at e1
        have e2 : c.slice.map m'.src = c.slice.map m.src := src_frame hc (h5.frame _)
        rw [e1, e2]
    · simp only at h1 h2
      simp only [bind_panic_run h1, h2]; rfl
    · simp only at h1 h2
      simp only [bind_timeout_run h1, h2]; rfl

theorem negateStatus_view (b : Bool) (o : HCtx) (m : Mem) : (negateStatus b o).view m = Takenoco.negateStatus b (o.view m) := by
  cases b
  · rfl
  · obtain ⟨a1, a2, a3, a4, a5, a6, st, a7, a8⟩ := o
    cases st <;> rfl

theorem checkMin_view (k : Int) (n : Nat) (o : HCtx) (m : Mem) : (checkMin k n o).view m = Takenoco.checkMin k n (o.view m) := by
  unfold checkMin Takenoco.checkMin
  split <;> rfl

theorem adjusted_step {b : Bool} {k : Int} {n : Nat} {o : HCtx} {m m' : Mem} {c : HCtx} (h : Step m c m' o) : Step m c m' (negateStatus b (checkMin k n o)) := by
  have h1 : Step m c m' (checkMin k n o) := by
    unfold checkMin
    split
    · exact ⟨h.frame, h.ext, h.src⟩
    · exact h
  unfold negateStatus
  split
  · split
    · exact ⟨h1.frame, h1.ext, h1.src⟩
    · exact ⟨h1.frame, h1.ext, h1.src⟩
    · exact h1
  · exact h1

theorem afterLoop_sim (w : World) (f : Flags) {fn : Option HImplFn} {fn' : Option ImplFn} (hf : FnR fn fn') {tr : Option (List HTSem)}
    {tr' : Option (List TSem)} (ht : TrsR tr tr') {m0 : Mem} {c0 : HCtx} (h0 : Usable m0 c0) (count : Nat) (m : Mem) (c : HCtx) (hs : Step m0 c0 m c) :
    Sim (fun r m' o => r.2 = o.2 ∧ r.1.view m' = o.1 ∧ Step m0 c0 m' r.1) (afterLoop w f fn tr c0 count c m)
      (Takenoco.afterLoop f fn' tr' (c0.view m0) count (c.view m)) := by
  unfold afterLoop Takenoco.afterLoop
  simp only [← checkMin_view, ← negateStatus_view, status_view]
  have h1 := adjusted_step (b := f.negative) (k := f.qty.min) (n := count) hs
  generalize negateStatus f.negative (checkMin f.qty.min count c) = d at h1 ⊢
  split
  · exact Sim.ok ⟨rfl, rfl, h1⟩
  · have h2 : Step m0 c0 m { d with qty := count } := ⟨h1.frame, h1.ext, h1.src⟩
    simp only [show (c0.view m0).stack.length = c0.stack.len by simp [HCtx.view]]
    rcases (callFn_sim hf h0 (-1) h2).cases with ⟨⟨o1, e1⟩, m1, ⟨o2, e2⟩, g1, g2, g3, g4, g5, g6⟩ | ⟨x, g1, g2⟩ | ⟨g1, g2⟩
    · simp only at g3 g4
      subst g3 g4
      have g2 : Takenoco.callFn fn' (-1) c0.stack.len { HCtx.view m d with qty := count, status := d.status } = _ := g2
      simp only [bind_ok_run g1, g2, status_view]
      by_cases hst : o1.status = .matched
      rotate_left
      · simp only [ne_eq, hst, not_false_eq_true, ↓reduceIte]; exact Sim.ok ⟨rfl, rfl, g5⟩
      · simp only [ne_eq, hst, not_true_eq_false, ↓reduceIte]
        cases f.rewind with
        | false => exact applyTransforms_sim w ht h0 m1 o1 g5
        | true =>
          have := applyTransforms_sim w ht h0 m1 c0 (Step.back h0 g5.frame)
          rw [view_frame h0 g5.frame] at this
          exact this
    · have g2 : Takenoco.callFn fn' (-1) c0.stack.len { HCtx.view m d with qty := count, status := d.status } = _ := g2
      simp only [bind_panic_run g1, g2]; rfl
    · have g2 : Takenoco.callFn fn' (-1) c0.stack.len { HCtx.view m d with qty := count, status := d.status } = _ := g2
      simp only [bind_timeout_run g1, g2]; rfl

theorem base_kids (w : World) (fuel : Nat) (cls : String) {fn : Option HImplFn} {fn' : Option ImplFn} (hf : FnR fn fn') (props : List PropItem)
    {ps : List HSem} {qs : List Sem} (hp : Kids (readProps props).thereExists ps qs) {tr : Option (List HTSem)} {tr' : Option (List TSem)} (ht : TrsR tr tr') :
    Refines (base w fuel cls fn props ps tr) (baseParser fuel cls fn' props qs tr') := by
  intro c m hc
  unfold base baseParser
  simp only
  have hc0 : Usable m { c with cls := cls } := ⟨hc.arr, hc.cap, hc.src⟩
  have h1 := parentLoop_sim (unb := decide ((readProps props).qty.max < 0)) (fun k m1 c1 h => iteration_sim hf (ex := (readProps props).thereExists) hp hc0 k m1 c1 h)
    (if decide ((readProps props).qty.max < 0) = true then fuel else (readProps props).qty.max.toNat) 0 m { c with cls := cls, status := .matched }
    ⟨.refl _ _, ⟨hc.arr, hc.cap, Nat.le_refl _, .inl ⟨rfl, rfl⟩⟩, rfl⟩
  simp only [show ((c.view m).stack.length) = c.stack.len by simp [HCtx.view]]
  rcases h1.cases with ⟨r, m', r', g1, g2, h3⟩ | ⟨x, g1, g2⟩ | ⟨g1, g2⟩
  · have g2 : Takenoco.parentLoop (decide ((readProps props).qty.max < 0)) (Takenoco.iteration fn' (readProps props).thereExists qs c.stack.len)
      (if decide ((readProps props).qty.max < 0) = true then fuel else (readProps props).qty.max.toNat) 0
      { HCtx.view m c with cls := cls, status := .matched } = _ := g2
    have g1 : parentLoop (decide ((readProps props).qty.max < 0)) (iteration fn (readProps props).thereExists ps c.stack.len)
      (if decide ((readProps props).qty.max < 0) = true then fuel else (readProps props).qty.max.toNat) 0
      { c with cls := cls, status := .matched } m = _ := g1
    simp only [bind_ok_run g1, g2]
    cases r with
    | ret o e =>
      cases r' with
      | ret o' e' => exact Sim.ok ⟨h3.1, h3.2.1, h3.2.2.frame, h3.2.2.ext, h3.2.2.src⟩
      | done _ _ => exact h3.elim
    | done k o =>
      cases r' with
      | ret _ _ => exact h3.elim
      | done k' o' =>
        obtain ⟨rfl, rfl, h4⟩ := h3
        have := (afterLoop_sim w (readProps props) hf ht hc0 k m' o h4).mono
          (R' := fun r m' o => r.2 = o.2 ∧ r.1.view m' = o.1 ∧ Step m c m' r.1) fun r m2 r' h => ⟨h.1, h.2.1, h.2.2.frame, h.2.2.ext, h.2.2.src⟩
        exact this
  · have g2 : Takenoco.parentLoop (decide ((readProps props).qty.max < 0)) (Takenoco.iteration fn' (readProps props).thereExists qs c.stack.len)
      (if decide ((readProps props).qty.max < 0) = true then fuel else (readProps props).qty.max.toNat) 0
      { HCtx.view m c with cls := cls, status := .matched } = _ := g2
    have g1 : parentLoop (decide ((readProps props).qty.max < 0)) (iteration fn (readProps props).thereExists ps c.stack.len)
      (if decide ((readProps props).qty.max < 0) = true then fuel else (readProps props).qty.max.toNat) 0
      { c with cls := cls, status := .matched } m = _ := g1
    simp only [bind_panic_run g1, g2]; rfl
  · have g2 : Takenoco.parentLoop (decide ((readProps props).qty.max < 0)) (Takenoco.iteration fn' (readProps props).thereExists qs c.stack.len)
      (if decide ((readProps props).qty.max < 0) = true then fuel else (readProps props).qty.max.toNat) 0
      { HCtx.view m c with cls := cls, status := .matched } = _ := g2
    have g1 : parentLoop (decide ((readProps props).qty.max < 0)) (iteration fn (readProps props).thereExists ps c.stack.len)
      (if decide ((readProps props).qty.max < 0) = true then fuel else (readProps props).qty.max.toNat) 0
      { c with cls := cls, status := .matched } m = _ := g1
    simp only [bind_timeout_run g1, g2]; rfl

theorem base_refines (w : World) (fuel : Nat) (cls : String) {fn : Option HImplFn} {fn' : Option ImplFn} (hf : FnR fn fn') (props : List PropItem)
    {ps : List HSem} {qs : List Sem} (hp : Pairs Refines ps qs) {tr : Option (List HTSem)} {tr' : Option (List TSem)} (ht : TrsR tr tr') :
    Refines (base w fuel cls fn props ps tr) (baseParser fuel cls fn' props qs tr') := base_kids w fuel cls hf props hp.kids ht

end Heap
end Takenoco
