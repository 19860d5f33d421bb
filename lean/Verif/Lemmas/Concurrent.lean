import Verif.Model.Concurrent
import Verif.Lemmas.Heap
/-
What a goroutine does among others follows what it would do alone, up to the numbers of the arrays.
-/
namespace Takenoco
open Spec

theorem read_part (m : Mem) (s : Slice) {i n : Nat} (h : i + n ≤ s.len) : m.read { s with off := s.off + i, len := n } = ((m.read s).drop i).take n := by
  apply List.ext_getElem
  · simp [Mem.read]; omega
  · intro j h1 h2
    simp [Mem.read, Nat.add_assoc]

/-- The choices, as those of the engine that runs alone. -/
def Leeway.world (w : Leeway) : World where
  spare := fun _ s l => w.spare s.len s.cap l
  part := fun m s l => w.part (m.read s) l
  part_spec := fun m s l i h => by
    obtain ⟨h1, h2⟩ := w.part_spec _ _ _ h
    have h1 : i + l.length ≤ s.len := by simpa [Mem.read] using h1
    exact ⟨h1, by rw [read_part m s h1, h2]⟩

namespace Conc

/-- The numbers that the arrays of a goroutine have when it runs alone. -/
abbrev Ren := Nat → Option Nat

def Ren.add (ρ : Ren) (b x : Nat) : Ren := fun a => if a = b then some x else ρ a

def Ren.Le (ρ ρ' : Ren) : Prop := ∀ a x, ρ a = some x → ρ' a = some x

theorem Ren.Le.refl (ρ : Ren) : Ren.Le ρ ρ := fun _ _ h => h
theorem Ren.Le.trans {ρ ρ' ρ'' : Ren} (h : Ren.Le ρ ρ') (h' : Ren.Le ρ' ρ'') : Ren.Le ρ ρ'' := fun a x hx => h' a x (h a x hx)
theorem Ren.le_add {ρ : Ren} {b : Nat} (h : ρ b = none) (x : Nat) : Ren.Le ρ (ρ.add b x) := fun a y hy => by
  unfold Ren.add
  split
  · rename_i he; subst he; rw [h] at hy; cases hy
  · exact hy

/-- What a goroutine does, against the result of running alone from the memory `m`: whatever it reads is what it would read alone, and it only
touches arrays that it has been given or has allocated. -/
inductive Alike {α β : Type} (P : Ren → α → β → Prop) : Ren → Mem → Prog α → Out (β × Mem) → Prop where
  | ret {ρ m a b} : P ρ a b → Alike P ρ m (.ret a) (.ok (b, m))
  | panic {ρ m p} : Alike P ρ m (.panic p) (.panic p)
  | timeout {ρ m} : Alike P ρ m .timeout .timeout
  | read {ρ m a a' i k r} : ρ a = some a' → Alike P ρ m (k (m.cell a' i)) r → Alike P ρ m (.read a i k) r
  | write {ρ m a a' i x k r} : ρ a = some a' → Alike P ρ (m.set a' i x) k r → Alike P ρ m (.write a i x k) r
  | alloc {ρ m k r} : (∀ b, ρ b = none → Alike P (ρ.add b m.next) { m with next := m.next + 1 } (k b) r) → Alike P ρ m (.alloc k) r

/-- The same from all memories. -/
def Fol {α β : Type} (P : Ren → α → β → Prop) (ρ : Ren) (p : Prog α) (x : HM β) : Prop := ∀ m, Alike P ρ m p (x m)

section
variable {α β γ δ : Type} {P : Ren → α → β → Prop} {Q : Ren → γ → δ → Prop} {ρ : Ren}

theorem Fol.pure {a : α} {b : β} (h : P ρ a b) : Fol P ρ (pure a) (pure b) := fun _ => .ret h
theorem Fol.panic {p : Panic} : Fol P ρ (.panic p) (Heap.panic p) := fun _ => .panic
theorem Fol.timeout : Fol P ρ .timeout Heap.timeout := fun _ => .timeout

/-- What comes after a result. -/
def after {β δ : Type} (g : β → HM δ) : Out (β × Mem) → Out (δ × Mem)
  | .ok (b, m) => g b m
  | .panic x => .panic x
  | .timeout => .timeout

theorem Alike.bind {m : Mem} {p : Prog α} {r : Out (β × Mem)} (h : Alike P ρ m p r) {f : α → Prog γ} {g : β → HM δ}
    (hf : ∀ ρ', Ren.Le ρ ρ' → ∀ a b, P ρ' a b → Fol Q ρ' (f a) (g b)) :
    Alike Q ρ m (p.bind f) (after g r) := by
  induction h with
  | ret h => exact hf _ (.refl _) _ _ h _
  | panic => exact .panic
  | timeout => exact .timeout
  | read h _ ih => exact .read h (ih hf)
  | write h _ ih => exact .write h (ih hf)
  | alloc _ ih => exact .alloc fun b hb => ih b hb fun ρ' h => hf ρ' ((Ren.le_add hb _).trans h)

theorem Fol.bind {p : Prog α} {x : HM β} (h : Fol P ρ p x) {f : α → Prog γ} {g : β → HM δ} (hf : ∀ ρ', Ren.Le ρ ρ' → ∀ a b, P ρ' a b → Fol Q ρ' (f a) (g b)) :
    Fol Q ρ (p >>= f) (x >>= g) := fun m => by
  have := (h m).bind hf
  rw [Heap.bind_run]
  rcases hx : x m with ⟨b, m'⟩ | x | _ <;> rw [hx] at this <;> exact this

theorem Fol.mono {P' : Ren → α → β → Prop} {p : Prog α} {x : HM β} (h : Fol P ρ p x) (hi : ∀ ρ' a b, P ρ' a b → P' ρ' a b) : Fol P' ρ p x := fun m => by
  have := h m
  generalize x m = r at this
  clear h
  induction this with
  | ret h => exact .ret (hi _ _ _ h)
  | panic => exact .panic
  | timeout => exact .timeout
  | read h _ ih => exact .read h ih
  | write h _ ih => exact .write h ih
  | alloc _ ih => exact .alloc ih
end

/-! ### Slices -/

/-- The same slice, up to the number of the array. -/
def SliceLike (ρ : Ren) (s s' : Slice) : Prop := ∃ a', s' = { s with arr := a' } ∧ ρ s.arr = some a'

/-- The same source. -/
inductive SrcLike (ρ : Ren) : Option HSrc → Option HSrc → Prop where
  | none : SrcLike ρ none none
  | other {s} : SrcLike ρ (some (.other s)) (some (.other s))
  | asts {s s'} : SliceLike ρ s s' → SrcLike ρ (some (.asts s)) (some (.asts s'))

/-- The same context. -/
def CtxLike (ρ : Ren) (c c' : HCtx) : Prop := ∃ s' t', c' = { c with stack := s', slice := t' } ∧ SliceLike ρ c.stack s' ∧ SrcLike ρ c.slice t'

def ResLike (ρ : Ren) (r r' : HRes) : Prop := CtxLike ρ r.1 r'.1 ∧ r.2 = r'.2

/-- The same slice, if there is no error. -/
def TrLike (ρ : Ren) (r r' : Slice × Option Err) : Prop := r.2 = r'.2 ∧ (r.2 = none → SliceLike ρ r.1 r'.1)

def Equal {α : Type} (_ : Ren) (a b : α) : Prop := a = b

theorem SliceLike.le {ρ ρ' : Ren} (hl : Ren.Le ρ ρ') {s s' : Slice} (h : SliceLike ρ s s') : SliceLike ρ' s s' := by
  obtain ⟨a', h1, h2⟩ := h
  exact ⟨a', h1, hl _ _ h2⟩

theorem SrcLike.le {ρ ρ' : Ren} (hl : Ren.Le ρ ρ') {s s' : Option HSrc} (h : SrcLike ρ s s') : SrcLike ρ' s s' := by
  cases h with
  | none => exact .none
  | other => exact .other
  | asts h => exact .asts (h.le hl)

theorem CtxLike.le {ρ ρ' : Ren} (hl : Ren.Le ρ ρ') {c c' : HCtx} (h : CtxLike ρ c c') : CtxLike ρ' c c' := by
  obtain ⟨s', t', h1, h2, h3⟩ := h
  exact ⟨s', t', h1, h2.le hl, h3.le hl⟩

theorem loadCells_alike {ρ : Ren} {a a' : Nat} (h : ρ a = some a') (m : Mem) : ∀ n i,
    Alike Equal ρ m (loadCells a i n) (.ok ((List.range n).map fun j => m.cell a' (i + j), m))
  | 0, i => .ret rfl
  | n + 1, i => by
    refine .read h ?_
    have := (loadCells_alike h m n (i + 1)).bind (Q := Equal) (f := fun l => .ret (m.cell a' i :: l)) (g := fun l m' => .ok (m.cell a' i :: l, m')) fun ρ' _ x y hxy m' => by
      rw [show x = y from hxy]
      exact .ret rfl
    rw [List.range_succ_eq_map, List.map_cons, List.map_map]
    simp only [Function.comp_def, Nat.succ_eq_add_one]
    rw [show (fun j => m.cell a' (i + (j + 1))) = fun j => m.cell a' (i + 1 + j) from funext fun j => by rw [show i + (j + 1) = i + 1 + j by omega]]
    exact this

theorem load_fol {ρ : Ren} {s s' : Slice} (h : SliceLike ρ s s') : Fol Equal ρ (load s) (Heap.load s') := fun m => by
  obtain ⟨a', rfl, h⟩ := h
  exact loadCells_alike h m _ _

theorem write_nil (m : Mem) (a i : Nat) : m.write a i [] = m := by
  unfold Mem.write
  congr 1
  funext b j
  rw [if_neg]
  simp

theorem write_cons (m : Mem) (a i : Nat) (x : Ast) (l : List Ast) : (m.set a i x).write a (i + 1) l = m.write a i (x :: l) := by
  unfold Mem.write Mem.set
  congr 1
  funext b j
  simp only [List.length_cons]
  by_cases hb : b = a
  · subst hb
    by_cases hj : j = i
    · subst hj
      rw [if_neg (by omega), if_pos ⟨rfl, rfl⟩, if_pos ⟨rfl, by omega⟩]
      simp
    · by_cases h1 : i + 1 ≤ j ∧ j < i + 1 + l.length
      · rw [if_pos ⟨rfl, h1⟩, if_pos ⟨rfl, by omega⟩]
        rw [show j - i = (j - (i + 1)) + 1 by omega, List.getD_cons_succ]
      · rw [if_neg (by simpa using h1), if_neg (by omega), if_neg (by omega)]
  · simp [hb]

theorem store_alike {ρ : Ren} {a a' : Nat} (h : ρ a = some a') : ∀ (l : List Ast) (i : Nat) (m : Mem), Alike Equal ρ m (store a i l) (.ok ((), m.write a' i l))
  | [], i, m => by rw [write_nil]; exact .ret rfl
  | x :: l, i, m => by
    rw [← write_cons]
    exact .write h (store_alike h l (i + 1) _)

theorem make_fol {ρ : Ren} (l : List Ast) (cap : Nat) : Fol SliceLike ρ (make l cap) (Heap.make l cap) := fun m => by
  refine .alloc fun b hb => ?_
  have hb' : (ρ.add b m.next) b = some m.next := by simp [Ren.add]
  exact (store_alike hb' l 0 { m with next := m.next + 1 }).bind (Q := SliceLike) (g := fun _ m' => .ok ({ arr := m.next, off := 0, len := l.length, cap := cap }, m'))
    fun ρ' hl _ _ _ m' => .ret ⟨m.next, rfl, hl _ _ hb'⟩

theorem append_fol {ρ : Ren} (w : Leeway) {s s' : Slice} (h : SliceLike ρ s s') (l : List Ast) : Fol SliceLike ρ (append w s l) (Heap.append w.world s' l) := fun m => by
  obtain ⟨a', rfl, ha⟩ := h
  unfold append Heap.append
  simp only
  split
  · exact (store_alike ha l _ m).bind (Q := SliceLike) (g := fun _ m' => .ok ({ { s with arr := a' } with len := s.len + l.length }, m')) fun ρ' hl _ _ _ m' => .ret (P := SliceLike) (a := { s with len := s.len + l.length }) ⟨a', rfl, hl _ _ ha⟩
  · exact (load_fol ⟨a', rfl, ha⟩ m).bind (Q := SliceLike) (g := fun xs m' => Heap.make (xs ++ l) (s.len + l.length + w.spare s.len s.cap l) m') fun ρ' _ x y hxy => by
      rw [show x = y from hxy]
      exact make_fol _ _

theorem upTo_like {ρ : Ren} {s s' : Slice} (h : SliceLike ρ s s') (n : Nat) : SliceLike ρ (Heap.upTo s n) (Heap.upTo s' n) := by
  obtain ⟨a', rfl, ha⟩ := h
  exact ⟨a', rfl, ha⟩

theorem from_like {ρ : Ren} {s s' : Slice} (h : SliceLike ρ s s') (n : Nat) : SliceLike ρ (Heap.from_ s n) (Heap.from_ s' n) := by
  obtain ⟨a', rfl, ha⟩ := h
  exact ⟨a', rfl, ha⟩

/-! ### Contexts -/

/-- Looking at a context. -/
def seen (c : HCtx) : HM Ctx := fun m => .ok (c.view m, m)

theorem loadSrc_fol {ρ : Ren} {s s' : Option HSrc} (h : SrcLike ρ s s') : Fol Equal ρ (loadSrc s) (fun m => .ok (s'.map m.src, m)) := by
  cases h with
  | none => exact .pure rfl
  | other => exact .pure (b := some _) rfl
  | @asts s s' h =>
    intro m
    exact (load_fol h m).bind (Q := Equal) (g := fun l m' => .ok (some (astSliceSrc l), m')) fun ρ' _ x y hxy m' => by
      rw [show x = y from hxy]
      exact .ret rfl

theorem view_fol {ρ : Ren} {c c' : HCtx} (h : CtxLike ρ c c') : Fol Equal ρ (view c) (seen c') := fun m => by
  obtain ⟨s', t', rfl, h1, h2⟩ := h
  have := (Fol.bind (loadSrc_fol h2) (Q := Equal) (f := fun src => load c.stack >>= fun l => pure (Ctx.mk c.str src c.pos c.len c.qty l c.status c.cls c.tag))
    (g := fun src => Heap.load s' >>= fun l => pure (Ctx.mk c.str src c.pos c.len c.qty l c.status c.cls c.tag)) fun ρ' hl x y hxy => by
      rw [show x = y from hxy]
      exact (load_fol (h1.le hl)).bind fun ρ'' _ x y hxy => by rw [show x = y from hxy]; exact .pure rfl) m
  exact this

theorem withStack_like {ρ ρ' : Ren} (hl : Ren.Le ρ ρ') {c c' : HCtx} (h : CtxLike ρ c c') {s s' : Slice} (hs : SliceLike ρ' s s') (o : Ctx) :
    CtxLike ρ' (Heap.withStack c s o) (Heap.withStack c' s' o) := by
  obtain ⟨_, t', rfl, _, h2⟩ := h
  exact ⟨s', t', rfl, hs, h2.le hl⟩

/-- A parser of both engines. -/
def FolP (p : CSem) (q : HSem) : Prop := ∀ ρ c c', CtxLike ρ c c' → Fol ResLike ρ (p c) (q c')

def FolT (t : CTSem) (u : HTSem) : Prop := ∀ ρ c c' s s', CtxLike ρ c c' → SliceLike ρ s s' → Fol TrLike ρ (t c s) (u c' s')

theorem CtxLike.len {ρ : Ren} {c c' : HCtx} (h : CtxLike ρ c c') : c'.stack.len = c.stack.len := by
  obtain ⟨_, t', rfl, ⟨a', rfl, _⟩, h2⟩ := h
  rfl

theorem CtxLike.stack {ρ : Ren} {c c' : HCtx} (h : CtxLike ρ c c') : SliceLike ρ c.stack c'.stack := by
  obtain ⟨_, t', rfl, h1, h2⟩ := h
  exact h1

theorem terminal_eq (w : World) (p : Sem) (c : HCtx) : Heap.terminal w p c = seen c >>= fun v =>
    match p v with
    | .panic x => Heap.panic x
    | .timeout => Heap.timeout
    | .ok (o, err) => Heap.append w c.stack (o.stack.drop c.stack.len) >>= fun s => pure (Heap.withStack c s o, err) := by
  funext m
  show Heap.terminal w p c m = _
  unfold Heap.terminal
  rw [Heap.bind_ok_run (show seen c m = .ok (c.view m, m) from rfl)]
  cases p (c.view m) with
  | panic x => rfl
  | timeout => rfl
  | ok r =>
    simp only
    rw [Heap.bind_run]
    rcases Heap.append w c.stack (List.drop c.stack.len r.1.stack) m with ⟨s, m'⟩ | x | _ <;> rfl

theorem callback_eq (w : World) (f : ImplFn) (k : Int) (b : Nat) (c : HCtx) : Heap.callback w f k b c = seen c >>= fun v =>
    match f k b v with
    | .panic x => Heap.panic x
    | .timeout => Heap.timeout
    | .ok (o, err) => Heap.append w (Heap.upTo c.stack b) (o.stack.drop b) >>= fun s => pure (Heap.withStack c s o, err) := by
  funext m
  show Heap.callback w f k b c m = _
  unfold Heap.callback
  rw [Heap.bind_ok_run (show seen c m = .ok (c.view m, m) from rfl)]
  cases f k b (c.view m) with
  | panic x => rfl
  | timeout => rfl
  | ok r =>
    simp only
    rw [Heap.bind_run]
    rcases Heap.append w (Heap.upTo c.stack b) (List.drop b r.1.stack) m with ⟨s, m'⟩ | x | _ <;> rfl

theorem transformer_eq (w : Leeway) (t : TSem) (c : HCtx) (s : Slice) : Heap.transformer w.world t c s = seen c >>= fun v => Heap.load s >>= fun xs =>
    match t v xs with
    | .panic x => Heap.panic x
    | .timeout => Heap.timeout
    | .ok (l, err) =>
      match w.part xs l with
      | some i => pure ({ s with off := s.off + i, len := l.length, cap := s.cap - i }, err)
      | none => Heap.make l (l.length + w.spare s.len s.cap l) >>= fun s' => pure (s', err) := by
  funext m
  show Heap.transformer w.world t c s m = _
  unfold Heap.transformer
  rw [Heap.bind_ok_run (show seen c m = .ok (c.view m, m) from rfl), Heap.bind_ok_run (show Heap.load s m = .ok (m.read s, m) from rfl)]
  cases t (c.view m) (m.read s) with
  | panic x => rfl
  | timeout => rfl
  | ok r =>
    simp only [Leeway.world]
    cases w.part (m.read s) r.1 with
    | some i => rfl
    | none => rfl

theorem terminal_fol (w : Leeway) (p : Sem) : FolP (terminal w p) (Heap.terminal w.world p) := fun ρ c c' hc => by
  rw [terminal_eq]
  refine (view_fol hc).bind fun ρ' hl v v' hv => ?_
  rw [show v = v' from hv]
  cases p v' with
  | panic x => exact .panic
  | timeout => exact .timeout
  | ok r =>
    obtain ⟨o, err⟩ := r
    simp only
    rw [hc.len]
    exact (append_fol w (hc.stack.le hl) _).bind fun ρ'' hl' s s' hs => .pure ⟨withStack_like (hl.trans hl') hc hs o, rfl⟩

theorem callback_fol (w : Leeway) (f : ImplFn) (k : Int) (b : Nat) : FolP (callback w f k b) (Heap.callback w.world f k b) := fun ρ c c' hc => by
  rw [callback_eq]
  refine (view_fol hc).bind fun ρ' hl v v' hv => ?_
  rw [show v = v' from hv]
  cases f k b v' with
  | panic x => exact .panic
  | timeout => exact .timeout
  | ok r =>
    obtain ⟨o, err⟩ := r
    exact (append_fol w (upTo_like (hc.stack.le hl) b) _).bind fun ρ'' hl' s s' hs => .pure ⟨withStack_like (hl.trans hl') hc hs o, rfl⟩

theorem transformer_fol (w : Leeway) (t : TSem) : FolT (transformer w t) (Heap.transformer w.world t) := fun ρ c c' s s' hc hs => by
  rw [transformer_eq]
  refine (view_fol hc).bind fun ρ' hl v v' hv => (load_fol (hs.le hl)).bind fun ρ'' hl' xs xs' hx => ?_
  rw [show v = v' from hv, show xs = xs' from hx]
  cases t v' xs' with
  | panic x => exact .panic
  | timeout => exact .timeout
  | ok r =>
    obtain ⟨l, err⟩ := r
    obtain ⟨a', rfl, ha⟩ := hs.le (hl.trans hl')
    simp only
    cases w.part xs' l with
    | some i => exact .pure ⟨rfl, fun _ => ⟨a', rfl, ha⟩⟩
    | none => exact (make_fol _ _).bind fun _ _ s s' hs => .pure ⟨rfl, fun _ => hs⟩

/-! ### The engine -/

theorem CtxLike.set {ρ : Ren} {c c' : HCtx} (h : CtxLike ρ c c') (f : HCtx → HCtx) (hf : ∀ s t, f { c with stack := s, slice := t } = { f c with stack := s, slice := t }) :
    CtxLike ρ (f c) (f c') := by
  have h0 : f c = { f c with stack := c.stack, slice := c.slice } := hf c.stack c.slice
  obtain ⟨s', t', rfl, h1, h2⟩ := h
  refine ⟨s', t', hf _ _, ?_, ?_⟩
  · rw [h0]; exact h1
  · rw [h0]; exact h2

theorem CtxLike.status {ρ : Ren} {c c' : HCtx} (h : CtxLike ρ c c') : c'.status = c.status := by
  obtain ⟨s', t', rfl, h1, h2⟩ := h
  rfl

theorem CtxLike.pos {ρ : Ren} {c c' : HCtx} (h : CtxLike ρ c c') : c'.pos = c.pos := by
  obtain ⟨s', t', rfl, h1, h2⟩ := h
  rfl

theorem CtxLike.tag {ρ : Ren} {c c' : HCtx} (h : CtxLike ρ c c') : c'.tag = c.tag := by
  obtain ⟨s', t', rfl, h1, h2⟩ := h
  rfl

theorem fixStatus_like {ρ : Ren} {c c' : HCtx} (h : CtxLike ρ c c') (e : Option Err) : CtxLike ρ (Heap.fixStatus c e) (Heap.fixStatus c' e) :=
  h.set (Heap.fixStatus · e) fun s t => by unfold Heap.fixStatus; dsimp only; split <;> rfl

theorem light_fol {cls : String} {p : CSem} {q : HSem} (h : FolP p q) : FolP (light cls p) (Heap.light cls q) := fun ρ c c' hc => by
  refine (h ρ c c' hc).bind fun ρ' _ ⟨o, e⟩ ⟨o', e'⟩ ⟨h1, h2⟩ => .pure ⟨?_, h2⟩
  simp only at h1 h2 ⊢
  subst h2
  exact (fixStatus_like h1 e).set (fun o => { (if o.status = .matched then { o with qty := 1 } else o) with cls := cls }) fun s t => by dsimp only; split <;> rfl

/-- The same end of a `CHILDREN` loop. -/
inductive ChildLike (ρ : Ren) : Heap.ChildEnd → Heap.ChildEnd → Prop where
  | fell {k o o'} : CtxLike ρ o o' → ChildLike ρ (.fell k o) (.fell k o')
  | unmatched : ChildLike ρ .unmatched .unmatched
  | ret {o o' e} : CtxLike ρ o o' → ChildLike ρ (.ret o e) (.ret o' e)

/-- Lists of the same parsers. -/
inductive FolPs : List CSem → List HSem → Prop where
  | nil : FolPs [] []
  | cons {p q ps qs} : FolP p q → FolPs ps qs → FolPs (p :: ps) (q :: qs)

theorem FolPs.length {ps : List CSem} {qs : List HSem} (h : FolPs ps qs) : qs.length = ps.length := by
  induction h with
  | nil => rfl
  | cons _ _ ih => simp [ih]

inductive FolTs : List CTSem → List HTSem → Prop where
  | nil : FolTs [] []
  | cons {p q ps qs} : FolT p q → FolTs ps qs → FolTs (p :: ps) (q :: qs)

theorem childLoop_fol {ex : Bool} {ps : List CSem} {qs : List HSem} (h : FolPs ps qs) : ∀ {ρ : Ren} (k : Nat) {c c' : HCtx}, CtxLike ρ c c' →
    Fol ChildLike ρ (childLoop ex ps k c) (Heap.childLoop ex qs k c') := by
  induction h with
  | nil => exact fun k c c' hc => .pure (.fell hc)
  | cons hp _ ih =>
    intro ρ k c c' hc
    rw [childLoop, Heap.childLoop]
    refine (hp ρ c c' hc).bind fun ρ' hl ⟨o, e⟩ ⟨o', e'⟩ ⟨h1, h2⟩ => ?_
    simp only at h1 h2 ⊢
    subst h2
    have h3 := fixStatus_like h1 e
    rw [h3.status]
    cases (Heap.fixStatus o e).status with
    | error => exact .pure (.ret h3)
    | unmatched =>
      simp only
      split
      · exact ih k (hc.le hl)
      · exact .pure .unmatched
    | matched =>
      simp only
      split
      · exact .pure (.fell h3)
      · exact ih (k + 1) h3

/-- The same callback. -/
inductive FolF : Option CImplFn → Option HImplFn → Prop where
  | none : FolF none none
  | some {f g} : (∀ k b, FolP (f k b) (g k b)) → FolF (some f) (some g)

theorem callFn_fol {f : Option CImplFn} {g : Option HImplFn} (hf : FolF f g) {ρ : Ren} (k : Int) (b : Nat) {c c' : HCtx} (hc : CtxLike ρ c c') :
    Fol ResLike ρ (callFn f k b c) (Heap.callFn g k b c') := by
  cases hf with
  | none => exact .pure ⟨hc, rfl⟩
  | some h =>
    refine (h k b ρ c c' hc).bind fun ρ' _ ⟨o, e⟩ ⟨o', e'⟩ ⟨h1, h2⟩ => .pure ⟨?_, h2⟩
    simp only at h1 h2 ⊢
    subst h2
    exact fixStatus_like h1 e

/-- The same end of an iteration. -/
inductive IterLike (ρ : Ren) : Heap.IterEnd → Heap.IterEnd → Prop where
  | next {o o'} : CtxLike ρ o o' → IterLike ρ (.next o) (.next o')
  | brk {o o'} : CtxLike ρ o o' → IterLike ρ (.brk o) (.brk o')
  | ret {o o' e} : CtxLike ρ o o' → IterLike ρ (.ret o e) (.ret o' e)

theorem iteration_fol {f : Option CImplFn} {g : Option HImplFn} (hf : FolF f g) {ex : Bool} {ps : List CSem} {qs : List HSem} (h : FolPs ps qs) {ρ : Ren}
    (b count : Nat) {c c' : HCtx} (hc : CtxLike ρ c c') : Fol IterLike ρ (iteration f ex ps b count c) (Heap.iteration g ex qs b count c') := by
  refine (childLoop_fol h 0 hc).bind fun ρ' hl r r' hr => ?_
  cases hr with
  | ret h => exact .pure (.ret h)
  | unmatched => exact .pure (.brk (hc.le hl))
  | fell ho =>
    simp only [h.length]
    split
    · exact .pure (.brk (hc.le hl))
    · refine (callFn_fol hf _ b (ho.set ({ · with qty := count }) fun _ _ => rfl)).bind fun ρ'' hl' ⟨o1, e1⟩ ⟨o2, e2⟩ ⟨h1, h2⟩ => ?_
      simp only at h1 h2 ⊢
      subst h2
      rw [h1.status]
      cases o1.status with
      | error => exact .pure (.ret h1)
      | unmatched => exact .pure (.brk (hc.le (hl.trans hl')))
      | matched => exact .pure (.next h1)

/-- The same end of a `PARENT` loop. -/
inductive LoopLike (ρ : Ren) : Heap.LoopEnd → Heap.LoopEnd → Prop where
  | done {k o o'} : CtxLike ρ o o' → LoopLike ρ (.done k o) (.done k o')
  | ret {o o' e} : CtxLike ρ o o' → LoopLike ρ (.ret o e) (.ret o' e)

theorem parentLoop_fol {unb : Bool} {body : Nat → HCtx → Prog Heap.IterEnd} {body' : Nat → HCtx → HM Heap.IterEnd}
    (h : ∀ ρ k c c', CtxLike ρ c c' → Fol IterLike ρ (body k c) (body' k c')) :
    ∀ n {ρ : Ren} k {c c'}, CtxLike ρ c c' → Fol LoopLike ρ (parentLoop unb body n k c) (Heap.parentLoop unb body' n k c')
  | 0, ρ, k, c, c', hc => by
    unfold parentLoop Heap.parentLoop
    split
    · exact .timeout
    · exact .pure (.done hc)
  | n + 1, ρ, k, c, c', hc => by
    unfold parentLoop Heap.parentLoop
    refine (h ρ k c c' hc).bind fun ρ' _ r r' hr => ?_
    cases hr with
    | ret h => exact .pure (.ret h)
    | brk h => exact .pure (.done h)
    | next ho => exact parentLoop_fol h n (k + 1) ho

theorem applyTrs_fol {ts : List CTSem} {us : List HTSem} (h : FolTs ts us) : ∀ {ρ : Ren} {c c' : HCtx} {s s' : Slice}, CtxLike ρ c c' → SliceLike ρ s s' →
    Fol TrLike ρ (applyTrs c ts s) (Heap.applyTrs c' us s') := by
  induction h with
  | nil => exact fun _ hs => .pure ⟨rfl, fun _ => hs⟩
  | cons ht _ ih =>
    intro ρ c c' s s' hc hs
    unfold applyTrs Heap.applyTrs
    refine (ht ρ c c' s s' hc hs).bind fun ρ' hl ⟨s1, e⟩ ⟨s2, e'⟩ ⟨h1, h2⟩ => ?_
    simp only at h1 h2 ⊢
    subst h1
    cases e with
    | none => exact ih (hc.le hl) (h2 rfl)
    | some e => exact .pure ⟨rfl, fun h => nomatch h⟩

/-- The same transformers, or none. -/
inductive FolO : Option (List CTSem) → Option (List HTSem) → Prop where
  | none : FolO none none
  | some {ts us} : FolTs ts us → FolO (some ts) (some us)

theorem applyTransforms_fol (w : Leeway) {tr : Option (List CTSem)} {us : Option (List HTSem)} (h : FolO tr us) {ρ : Ren} {c c' o o' : HCtx}
    (hc : CtxLike ρ c c') (ho : CtxLike ρ o o') : Fol ResLike ρ (applyTransforms w tr c o) (Heap.applyTransforms w.world us c' o') := by
  cases h with
  | none => exact .pure ⟨ho, rfl⟩
  | some h =>
    unfold applyTransforms Heap.applyTransforms
    simp only [ho.len, hc.len]
    split
    · exact .panic
    · refine (applyTrs_fol h hc (from_like ho.stack _)).bind fun ρ' hl ⟨s, e⟩ ⟨s', e'⟩ ⟨h1, h2⟩ => ?_
      simp only at h1 h2 ⊢
      subst h1
      cases e with
      | some e => exact .pure ⟨(ho.le hl).set ({ · with status := .error }) fun _ _ => rfl, rfl⟩
      | none =>
        refine (load_fol (h2 rfl)).bind fun ρ'' hl' l l' hll => ?_
        rw [show l = l' from hll]
        refine (append_fol w (upTo_like (ho.stack.le (hl.trans hl')) _) l').bind fun ρ3 hl3 s s' hs => .pure ⟨?_, rfl⟩
        obtain ⟨_, t', rfl, _, h5⟩ := ho
        exact ⟨s', t', rfl, hs, h5.le (hl.trans (hl'.trans hl3))⟩

theorem adjusted_like {ρ : Ren} (b : Bool) (k : Int) (n : Nat) {o o' : HCtx} (h : CtxLike ρ o o') :
    CtxLike ρ (Heap.negateStatus b (Heap.checkMin k n o)) (Heap.negateStatus b (Heap.checkMin k n o')) :=
  h.set (fun o => Heap.negateStatus b (Heap.checkMin k n o)) fun s t => by
    unfold Heap.negateStatus Heap.checkMin
    dsimp only
    split <;> split <;> (try split) <;> simp_all

theorem base_fol (w : Leeway) (fuel : Nat) (cls : String) {f : Option CImplFn} {g : Option HImplFn} (hf : FolF f g) (props : List PropItem) {ps : List CSem}
    {qs : List HSem} (h : FolPs ps qs) {tr : Option (List CTSem)} {us : Option (List HTSem)} (ht : FolO tr us) :
    FolP (base w fuel cls f props ps tr) (Heap.base w.world fuel cls g props qs us) := by
  intro ρ c0 c0' hc0
  have hc := hc0.set ({ · with cls := cls }) fun _ _ => rfl
  unfold base Heap.base
  simp only
  rw [hc0.len]
  refine Fol.bind (P := LoopLike) (parentLoop_fol (fun ρ k c c' hc => iteration_fol hf h _ k hc) _ _ (hc.set ({ · with status := .matched }) fun _ _ => rfl)) fun ρ' hl r r' hr => ?_
  cases hr with
  | ret h => exact .pure ⟨h, rfl⟩
  | @done k o o' ho =>
    unfold afterLoop Heap.afterLoop
    simp only
    have h1 := adjusted_like (readProps props).negative (readProps props).qty.min k ho
    rw [hc0.len]
    generalize Heap.negateStatus (readProps props).negative (Heap.checkMin (readProps props).qty.min k o) = x at h1 ⊢
    generalize Heap.negateStatus (readProps props).negative (Heap.checkMin (readProps props).qty.min k o') = x' at h1 ⊢
    obtain ⟨s', t', rfl, h2, h3⟩ := id h1
    dsimp only
    split
    · exact .pure ⟨h1, rfl⟩
    · refine Fol.bind (callFn_fol hf _ _ (h1.set ({ · with qty := k }) fun _ _ => rfl)) fun ρ'' hl' ⟨o1, e1⟩ ⟨o2, e2⟩ ⟨h2, h3⟩ => ?_
      simp only at h2 h3 ⊢
      rw [h2.status]
      split
      · exact .pure ⟨h2, rfl⟩
      · refine applyTransforms_fol w ht (hc.le (hl.trans hl')) ?_
        split
        · exact hc.le (hl.trans hl')
        · exact h2

theorem lookBehindLoop_fol {neg : Bool} {p : CSem} {q : HSem} (hp : FolP p q) : ∀ k i {ρ : Ren} {c c' : HCtx}, CtxLike ρ c c' →
    Fol ResLike ρ (lookBehindLoop neg p c k i) (Heap.lookBehindLoop neg q c' k i)
  | 0, i, ρ, c, c', hc => .pure ⟨hc.set ({ · with status := if neg then .matched else .unmatched }) fun _ _ => rfl, rfl⟩
  | k + 1, i, ρ, c, c', hc => by
    unfold lookBehindLoop Heap.lookBehindLoop
    rw [hc.pos]
    split
    · exact lookBehindLoop_fol hp k (i + 1) hc
    · refine Fol.bind (hp ρ _ _ (hc.set ({ · with pos := ((c.pos : Int) - i).toNat }) fun _ _ => rfl)) fun ρ' hl ⟨o, e⟩ ⟨o', e'⟩ ⟨h1, h2⟩ => ?_
      simp only at h1 h2 ⊢
      subst h2
      cases e with
      | some e => exact .pure ⟨h1, rfl⟩
      | none =>
        simp only [h1.status]
        split
        · split
          · exact .pure ⟨h1.set ({ · with status := .unmatched }) fun _ _ => rfl, rfl⟩
          · exact .pure ⟨hc.le hl, rfl⟩
        · exact lookBehindLoop_fol hp k (i + 1) (hc.le hl)

theorem lookBehindBase_fol (w : Leeway) (neg : Bool) (a b : Int) {ps : List CSem} {qs : List HSem} (h : FolPs ps qs) :
    FolP (lookBehindBase w neg a b ps) (Heap.lookBehindBase w.world neg a b qs) :=
  fun _ _ _ hc => lookBehindLoop_fol (base_fol w 0 _ .none _ h .none) _ _ hc

/-- The same cases of `Match`. -/
inductive FolCs : List ((List Ast → Bool) × List CTSem) → List ((List Ast → Bool) × List HTSem) → Prop where
  | nil : FolCs [] []
  | cons {g ts us cs ds} : FolTs ts us → FolCs cs ds → FolCs ((g, ts) :: cs) ((g, us) :: ds)

theorem matchFn_fol (w : Leeway) (n : Int) {cs : List ((List Ast → Bool) × List CTSem)} {ds : List ((List Ast → Bool) × List HTSem)} (h : FolCs cs ds) :
    FolP (matchFn w n cs) (Heap.matchFn w.world n ds) := by
  induction h with
  | nil => exact fun ρ c c' hc => .pure ⟨hc.set ({ · with len := 0, status := .unmatched }) fun _ _ => rfl, rfl⟩
  | cons ht _ ih =>
    intro ρ c c' hc
    unfold matchFn Heap.matchFn
    refine (load_fol hc.stack).bind fun ρ' hl l l' hll => ?_
    rw [show l = l' from hll]
    split
    · simp only [hc.len]
      split
      · exact .panic
      · have hc' := (hc.le hl).set ({ · with len := 0, status := .unmatched }) fun _ _ => rfl
        refine (applyTrs_fol ht hc' (from_like (hc.stack.le hl) _)).bind fun ρ'' hl' ⟨s, e⟩ ⟨s', e'⟩ ⟨h1, h2⟩ => ?_
        simp only at h1 h2 ⊢
        subst h1
        cases e with
        | some e => exact .pure ⟨((hc.le hl).le hl').set ({ · with len := 0, status := .error }) fun _ _ => rfl, rfl⟩
        | none =>
          refine (load_fol (h2 rfl)).bind fun ρ3 hl3 l l' hll => ?_
          rw [show l = l' from hll]
          refine (append_fol w (upTo_like (hc.stack.le (hl.trans (hl'.trans hl3))) _) l').bind fun ρ4 hl4 s s' hs => .pure ⟨?_, rfl⟩
          obtain ⟨_, t', rfl, _, h5⟩ := hc
          exact ⟨s', t', rfl, hs, h5.le (hl.trans (hl'.trans (hl3.trans hl4)))⟩
    · exact ih ρ' c c' (hc.le hl)

/-! ### Production rules -/

theorem newContext_fol {ρ : Ren} {s s' : Slice} (hs : SliceLike ρ s s') (tag : Value) : Fol CtxLike ρ (newContext s tag) (Heap.newContext s' tag) :=
  (make_fol [] 1024).bind fun _ hl _ t' ht => .pure ⟨t', _, rfl, ht, .asts (hs.le hl)⟩

/-- The same end of a search. -/
inductive SearchLike (ρ : Ren) : Heap.Search → Heap.Search → Prop where
  | noMatch : SearchLike ρ .noMatch .noMatch
  | rewritten {s s'} : SliceLike ρ s s' → SearchLike ρ (.rewritten s) (.rewritten s')
  | err {e} : SearchLike ρ (.err e) (.err e)

theorem SliceLike.len {ρ : Ren} {s s' : Slice} (h : SliceLike ρ s s') : s'.len = s.len := by
  obtain ⟨a', rfl, _⟩ := h
  rfl

theorem tryRules_fol (w : Leeway) (p : Nat) {rs : List CSem} {qs : List HSem} (h : FolPs rs qs) : ∀ {ρ : Ren} {c c' : HCtx} {s s' : Slice},
    CtxLike ρ c c' → SliceLike ρ s s' → Fol SearchLike ρ (tryRules w c s p rs) (Heap.tryRules w.world c' s' p qs) := by
  induction h with
  | nil => exact fun _ _ => .pure .noMatch
  | cons hp _ ih =>
    intro ρ c c' s s' hc hs
    unfold tryRules Heap.tryRules
    refine Fol.bind (hp ρ _ _ (hc.set ({ · with pos := p }) fun _ _ => rfl)) fun ρ1 l1 ⟨o, e⟩ ⟨o', e'⟩ ⟨h1, h2⟩ => ?_
    simp only at h1 h2 ⊢
    subst h2
    cases e with
    | some e => exact .pure .err
    | none =>
      simp only [h1.status]
      split
      · exact ih (hc.le l1) (hs.le l1)
      · simp only [hs.len]
        refine (make_fol _ _).bind fun ρ2 l2 z z' hz => (load_fol (upTo_like (hs.le (l1.trans l2)) p)).bind fun ρ3 l3 x x' hx => ?_
        rw [show x = x' from hx]
        refine (append_fol w (hz.le l3) x').bind fun ρ4 l4 z z' hz => (load_fol (h1.stack.le (l2.trans (l3.trans l4)))).bind fun ρ5 l5 x x' hx => ?_
        rw [show x = x' from hx]
        refine (append_fol w (hz.le l5) x').bind fun ρ6 l6 z z' hz => ?_
        rw [h1.pos]
        split
        · exact .panic
        · refine (load_fol (from_like (hs.le (l1.trans (l2.trans (l3.trans (l4.trans (l5.trans l6)))))) _)).bind fun ρ7 l7 x x' hx => ?_
          rw [show x = x' from hx]
          exact (append_fol w (hz.le l7) x').bind fun ρ8 l8 z z' hz => .pure (.rewritten hz)

theorem tryPositions_fol (w : Leeway) {rs : List CSem} {qs : List HSem} (h : FolPs rs qs) (rtol : Bool) : ∀ k i {ρ : Ren} {c c' : HCtx} {s s' : Slice},
    CtxLike ρ c c' → SliceLike ρ s s' → Fol SearchLike ρ (tryPositions w c s rs rtol k i) (Heap.tryPositions w.world c' s' qs rtol k i)
  | 0, _, _, _, _, _, _, _, _ => .pure .noMatch
  | k + 1, i, ρ, c, c', s, s', hc, hs => by
    unfold tryPositions Heap.tryPositions
    rw [hs.len]
    refine (tryRules_fol w _ h hc hs).bind fun ρ' hl r r' hr => ?_
    cases hr with
    | noMatch => exact tryPositions_fol w h rtol k (i + 1) (hc.le hl) (hs.le hl)
    | rewritten hz => exact .pure (.rewritten hz)
    | err => exact .pure .err

/-- The same rules. -/
inductive FolRs : List (List CSem × Bool) → List (List HSem × Bool) → Prop where
  | nil : FolRs [] []
  | cons {rs qs b ps us} : FolPs rs qs → FolRs ps us → FolRs ((rs, b) :: ps) ((qs, b) :: us)

theorem tryPrecedences_fol (w : Leeway) (tag : Value) {ps : List (List CSem × Bool)} {us : List (List HSem × Bool)} (h : FolRs ps us) : ∀ {ρ : Ren} {s s' : Slice},
    SliceLike ρ s s' → Fol SearchLike ρ (tryPrecedences w tag s ps) (Heap.tryPrecedences w.world tag s' us) := by
  induction h with
  | nil => exact fun _ => .pure .noMatch
  | cons hr _ ih =>
    intro ρ s s' hs
    unfold tryPrecedences Heap.tryPrecedences
    refine (newContext_fol hs tag).bind fun ρ1 l1 c c' hc => ?_
    rw [hs.len]
    refine (tryPositions_fol w hr _ _ _ hc (hs.le l1)).bind fun ρ2 l2 r r' hr => ?_
    cases hr with
    | noMatch => exact ih (hs.le (l1.trans l2))
    | rewritten hz => exact .pure (.rewritten hz)
    | err => exact .pure .err

theorem checkHolds_fol {p : CSem} {q : HSem} (h : FolP p q) (tag : Value) {ρ : Ren} {s s' : Slice} (hs : SliceLike ρ s s') :
    Fol Equal ρ (checkHolds p tag s) (Heap.checkHolds q tag s') :=
  (newContext_fol hs tag).bind fun ρ1 _ c c' hc => (h ρ1 c c' hc).bind fun ρ2 _ ⟨o, e⟩ ⟨o', e'⟩ ⟨h1, h2⟩ => .pure (by
    simp only at h1 h2 ⊢
    subst h2
    rw [h1.status]
    rfl)

theorem productionLoop_fol (w : Leeway) {ps : List (List CSem × Bool)} {us : List (List HSem × Bool)} (h : FolRs ps us) {p : CSem} {q : HSem} (hp : FolP p q)
    (tag : Value) : ∀ n {ρ : Ren} {s s' : Slice}, SliceLike ρ s s' → Fol TrLike ρ (productionLoop w ps p tag n s) (Heap.productionLoop w.world us q tag n s')
  | 0, _, _, _, _ => .timeout
  | n + 1, ρ, s, s', hs => by
    unfold productionLoop Heap.productionLoop
    refine (tryPrecedences_fol w tag h hs).bind fun ρ1 l1 r r' hr => ?_
    cases hr with
    | err => exact .pure ⟨rfl, fun h => nomatch h⟩
    | noMatch =>
      refine (checkHolds_fol hp tag (hs.le l1)).bind fun ρ2 l2 b b' hb => ?_
      rw [show b = b' from hb]
      cases b' with
      | false => exact .pure ⟨rfl, fun h => nomatch h⟩
      | true => exact .pure ⟨rfl, fun _ => hs.le (l1.trans l2)⟩
    | rewritten hz =>
      refine (checkHolds_fol hp tag hz).bind fun ρ2 l2 b b' hb => ?_
      rw [show b = b' from hb]
      cases b' with
      | false => exact productionLoop_fol w h hp tag n (hz.le l2)
      | true => exact .pure ⟨rfl, fun _ => hz.le l2⟩

/-! ### Grammars -/

/-- Every grammar does among other goroutines what it does alone. -/
theorem run_fol (w : Leeway) (env : Env) : ∀ n, (∀ g, FolP (run w env n g) (Heap.run w.world env n g)) ∧ ∀ t, FolT (runTr w env n t) (Heap.runTr w.world env n t)
  | 0 => ⟨fun g ρ c c' _ => by rw [run.eq_def, Heap.run.eq_def]; exact .timeout, fun t ρ c c' s s' _ _ => by rw [runTr.eq_def, Heap.runTr.eq_def]; exact .timeout⟩
  | n + 1 => by
    obtain ⟨ih, iht⟩ := run_fol w env n
    have hm : ∀ gs : List Gram, FolPs (gs.map (run w env n)) (gs.map (Heap.run w.world env n)) := fun gs => by
      induction gs with
      | nil => exact .nil
      | cons g gs h => exact .cons (ih g) h
    have hmt : ∀ ts : List Tr, FolTs (ts.map (runTr w env n)) (ts.map (Heap.runTr w.world env n)) := fun ts => by
      induction ts with
      | nil => exact .nil
      | cons t ts h => exact .cons (iht t) h
    constructor
    · intro g
      rw [run.eq_def, Heap.run.eq_def]
      cases g with
      | prim p => exact terminal_fol w p
      | flatGroup gs => exact base_fol w _ _ .none _ (hm gs) .none
      | group gs => exact base_fol w _ _ .none _ (hm gs) (.some (.cons (transformer_fol w _) .nil))
      | first gs => exact base_fol w _ _ .none _ (hm gs) .none
      | lookAhead gs => exact base_fol w _ _ .none _ (hm gs) .none
      | lookAheadN gs => exact base_fol w _ _ .none _ (hm gs) .none
      | lookBehind a b gs => exact lookBehindBase_fol w _ _ _ (hm gs)
      | lookBehindN a b gs => exact lookBehindBase_fol w _ _ _ (hm gs)
      | «repeat» t gs => exact base_fol w _ _ .none _ (hm gs) .none
      | trans g trs =>
        refine base_fol w _ _ .none _ (hm [g]) ?_
        split
        · exact .none
        · exact .some (hmt trs)
      | indirect name => exact light_fol (ih _)
      | «match» k cases =>
        refine light_fol (matchFn_fol w k ?_)
        induction cases with
        | nil => exact .nil
        | cons x cases h => exact .cons (hmt x.2) h
      | base cls fn props gs tr =>
        refine base_fol w _ _ ?_ _ (hm gs) ?_
        · cases fn with
          | none => exact .none
          | some f => exact .some fun k b => callback_fol w f k b
        · cases tr with
          | none => exact .none
          | some ts => exact .some (hmt ts)
    · intro t
      rw [runTr.eq_def, Heap.runTr.eq_def]
      cases t with
      | fn f => exact transformer_fol w f
      | production precs check =>
        intro ρ c c' s s' hc hs
        simp only [hc.tag]
        refine productionLoop_fol w ?_ (ih check) c.tag n hs
        induction precs with
        | nil => exact .nil
        | cons x precs h => exact .cons (hm x.1) h

theorem newStrCtx_fol (s : Bytes) (ρ : Ren) : Fol CtxLike ρ (newStrCtx s) (Heap.newStrCtx s) :=
  (make_fol [] 1024).bind fun _ _ _ t' ht => .pure ⟨t', none, rfl, ht, .none⟩

end Conc
end Takenoco
