import Verif.Spec.SliceLike
import Verif.Lemmas.Heap
/-
C69: `AstSlice` is a `SliceLike`: its elements are variables, which `Reslice` shares and `Copy` does not.
-/
namespace Takenoco
open Spec Heap

/-- `Get` returns the element, or panics when there is none. It changes nothing. -/
theorem C69_get (s : Slice) (i : Int) (m : Mem) :
    (∀ a, sliceGet s i m = .ok (.ast a, m) ↔ 0 ≤ i ∧ (m.read s)[i.toNat]? = some a) ∧
    ((0 ≤ i ∧ i < s.len) ∨ ∃ p, sliceGet s i m = .panic p) := by
  unfold sliceGet
  split
  · rename_i h
    refine ⟨fun a => ?_, .inl h⟩
    have hl : i.toNat < (m.read s).length := by simp; omega
    rw [List.getElem?_eq_getElem hl, getElem_read]
    simp [h.1]
  · rename_i h
    refine ⟨fun a => Iff.intro (fun h' => by cases h') (fun ⟨h1, h2⟩ => ?_), .inr ⟨_, rfl⟩⟩
    have := (List.getElem?_eq_some_iff.1 h2).1
    simp at this
    omega

/-- `Len` is the number of elements, so that `Get` returns for the indexes below it. It changes nothing. -/
theorem C69_len (s : Slice) (m : Mem) : ∃ n, sliceLen s m = .ok (n, m) ∧ n = (m.read s).length ∧
    ∀ i : Int, (∃ a, sliceGet s i m = .ok (.ast a, m)) ↔ 0 ≤ i ∧ i < n := by
  refine ⟨s.len, rfl, (length_read m s).symm, fun i => ⟨fun ⟨a, h⟩ => ?_, fun h => ?_⟩⟩
  · obtain ⟨h1, h2⟩ := ((C69_get s i m).1 a).1 h
    have := (List.getElem?_eq_some_iff.1 h2).1
    rw [length_read] at this
    omega
  · have hl : i.toNat < (m.read s).length := by rw [length_read]; omega
    exact ⟨_, ((C69_get s i m).1 _).2 ⟨h.1, List.getElem?_eq_getElem hl⟩⟩

/-- `Set` gives the variable the value, for every slice that has it, and changes no other one. -/
theorem C69_set (s : Slice) (i : Nat) (a : Ast) (m : Mem) (hi : i < s.len) :
    ∃ m', sliceSet s i (.ast a) m = .ok ((), m') ∧ m'.next = m.next ∧
      ∀ t j, j < t.len → (SameVar s i t j → (m'.read t)[j]? = some a) ∧ (¬ SameVar s i t j → (m'.read t)[j]? = (m.read t)[j]?) := by
  refine ⟨m.write s.arr (s.off + i) [a], ?_, rfl, fun t j hj => ?_⟩
  · show (if _ then _ else _) = _
    rw [if_pos (by omega)]
    rfl
  · rw [List.getElem?_eq_getElem (by simpa using hj), getElem_read, List.getElem?_eq_getElem (by simpa using hj), getElem_read]
    constructor
    · rintro ⟨h1, h2⟩
      rw [← h1, ← h2]
      exact congrArg some (write_here (k := 0) (by simp))
    · intro h
      rw [write_other]
      intro he
      have : s.off + i ≠ t.off + j := fun h2 => h ⟨he.symm, h2⟩
      simp only [List.length_singleton]
      omega

/-- `Set` panics when there is no such element, and when the value is not an `Ast`. -/
theorem C69_set_panics (s : Slice) (i : Int) (v : Value) (m : Mem) :
    (∃ p, sliceSet s i v m = .panic p) ↔ ¬ (0 ≤ i ∧ i < s.len ∧ ∃ a, v = .ast a) := by
  unfold sliceSet
  split
  · split
    · rename_i h
      simp [h.1, h.2]
    · rename_i h
      simp only [Out.panic.injEq, exists_eq', true_iff]
      exact fun h' => h ⟨h'.1, h'.2.1⟩
  · rename_i h
    simp only [Out.panic.injEq, exists_eq', true_iff]
    rintro ⟨_, _, a, rfl⟩
    exact h a rfl

theorem sliceExpr_ok {s : Slice} {a b : Nat} (h : a ≤ b ∧ b ≤ s.cap) (m : Mem) :
    sliceExpr s a b m = .ok ({ s with off := s.off + a, len := b - a, cap := s.cap - a }, m) := by
  unfold sliceExpr
  rw [if_pos (by omega)]
  simp only [Int.toNat_natCast, Out.ok.injEq, Prod.mk.injEq, and_true]
  congr 1
  omega

theorem sliceExpr_panics {s : Slice} {a b : Int} {m : Mem} : (∃ p, sliceExpr s a b m = .panic p) ↔ ¬ (0 ≤ a ∧ a ≤ b ∧ b ≤ s.cap) := by
  unfold sliceExpr
  split
  · rename_i h; simp [h]
  · rename_i h; simpa using h

/-- The elements of `Reslice(a, b)` are the variables of the slice from `a` to `b`. Nothing changes. The bounds may exceed the
length, up to the capacity; otherwise it panics. -/
theorem C69_reslice (s : Slice) (m : Mem) :
    (∀ a b : Nat, a ≤ b ∧ b ≤ s.cap → ∃ t, sliceReslice s a b m = .ok (t, m) ∧ t.len = b - a ∧ t.cap = s.cap - a ∧
      (∀ j, SameVar t j s (a + j)) ∧ (b ≤ s.len → m.read t = ((m.read s).take b).drop a)) ∧
    ∀ a b : Int, (∃ p, sliceReslice s a b m = .panic p) ↔ ¬ (0 ≤ a ∧ a ≤ b ∧ b ≤ s.cap) := by
  refine ⟨fun a b h => ⟨_, sliceExpr_ok h m, rfl, rfl, fun j => ⟨rfl, Nat.add_assoc _ _ _⟩, fun hb => ?_⟩, fun a b => sliceExpr_panics⟩
  apply List.ext_getElem
  · simp; omega
  · intro i h1 h2
    rw [getElem_read, List.getElem_drop, List.getElem_take, getElem_read]
    simp only [Nat.add_assoc]

/-- `Make(l, c)` has `l` zero ASTs, in variables that no slice of the program has. -/
theorem C69_make (s : Slice) (m : Mem) :
    (∀ l c : Nat, l ≤ c → ∃ t m', sliceMake s l c m = .ok (t, m') ∧ m'.read t = List.replicate l Ast.zero ∧ t.cap = c ∧ Known m' t ∧
      ∀ u, Known m u → Known m' u ∧ m'.read u = m.read u ∧ ∀ i j, ¬ SameVar t i u j) ∧
    ∀ l c : Int, (∃ p, sliceMake s l c m = .panic p) ↔ ¬ (0 ≤ l ∧ l ≤ c) := by
  constructor
  · intro l c h
    unfold sliceMake sliceNew
    rw [if_pos (by omega)]
    refine ⟨_, _, rfl, ?_, rfl, ⟨Nat.lt_succ_self _, by simp; omega⟩, fun u hu => ⟨⟨Nat.lt_succ_of_lt hu.1, hu.2⟩, read_congr fun i hi => ?_, fun i j h => ?_⟩⟩
    · apply List.ext_getElem
      · simp
      · intro i h1 h2
        simp only [length_read, Int.toNat_natCast] at h1
        have h3 := write_here (m := m) (a := m.next) (i := 0) (l := List.replicate c Ast.zero) (k := i) (by simp; omega)
        rw [List.getElem_replicate] at h3 ⊢
        simpa [getElem_read] using h3
    · exact write_other fun h => by have := hu.1; omega
    · have := hu.1; have := h.1; simp at this; omega
  · intro l c
    unfold sliceMake sliceNew
    split
    · rename_i h; simp [h]
    · rename_i h; simpa using h

/-- `Copy(a, b)` has the elements that `Reslice(a, b)` has, in variables that no slice of the program has. -/
theorem C69_copy (w : World) (s : Slice) (m : Mem) (hs : Known m s) :
    (∀ a b : Nat, a ≤ b ∧ b ≤ s.cap → ∃ r t m', sliceReslice s a b m = .ok (r, m) ∧ sliceCopy w s a b m = .ok (t, m') ∧
      m'.read t = m.read r ∧ t.len = b - a ∧ t.cap = b - a ∧ Known m' t ∧
      ∀ u, Known m u → Known m' u ∧ m'.read u = m.read u ∧ ∀ i j, ¬ SameVar t i u j) ∧
    ∀ a b : Int, (∃ p, sliceCopy w s a b m = .panic p) ↔ ¬ (0 ≤ a ∧ a ≤ b ∧ b ≤ s.cap) := by
  have main : ∀ a b : Nat, a ≤ b ∧ b ≤ s.cap → ∃ r t m', sliceReslice s a b m = .ok (r, m) ∧ sliceCopy w s a b m = .ok (t, m') ∧
      m'.read t = m.read r ∧ t.len = b - a ∧ t.cap = b - a ∧ Known m' t ∧
      ∀ u, Known m u → Known m' u ∧ m'.read u = m.read u ∧ ∀ i j, ¬ SameVar t i u j := by
    intro a b h
    obtain ⟨d, m1, h1, h2, h3, h4, h5⟩ := (C69_make s m).1 0 (b - a) (Nat.zero_le _)
    have hd : d.len = 0 := by have := congrArg List.length h2; simpa using this
    let r : Slice := { s with off := s.off + a, len := b - a, cap := s.cap - a }
    have hr : Known m r := ⟨hs.1, Nat.sub_le_sub_right h.2 a⟩
    have hap : append w d (m1.read r) m1 = .ok ({ d with len := d.len + (m1.read r).length }, m1.write d.arr (d.off + d.len) (m1.read r)) := by
      unfold append
      rw [if_pos]
      simp [hd, h3, r]
    have hcopy : sliceCopy w s a b m = .ok ({ d with len := d.len + (m1.read r).length }, m1.write d.arr (d.off + d.len) (m1.read r)) := by
      have e1 : sliceNew 0 ((b : Int) - a) m = .ok (d, m1) := by
        rw [← h1]; unfold sliceMake; congr 1; omega
      show HM.bind _ _ m = _
      unfold HM.bind
      rw [e1]
      show HM.bind _ _ m1 = _
      unfold HM.bind
      rw [sliceExpr_ok h]
      exact hap
    refine ⟨r, _, _, sliceExpr_ok h m, hcopy, ?_, ?_, h3, ⟨h4.1, ?_⟩, fun u hu => ⟨⟨(h5 u hu).1.1, hu.2⟩, ?_, (h5 u hu).2.2⟩⟩
    · rw [← (h5 r hr).2.1]
      apply List.ext_getElem
      · simp [hd]
      · intro i g1 g2
        rw [getElem_read]
        simp only [hd, Nat.add_zero]
        exact write_here g2
    · simp [hd, r]
    · simp [hd, h3, r]
    · rw [← (h5 u hu).2.1]
      refine read_congr fun i hi => write_other fun he => ?_
      exact absurd ⟨he.symm, Nat.add_comm _ _⟩ ((h5 u hu).2.2 u.off d.off)
  · refine ⟨main, fun a b => ?_⟩
    constructor
    · rintro ⟨p, hp⟩ ⟨h1, h2, h3⟩
      obtain ⟨a, rfl⟩ := Int.eq_ofNat_of_zero_le h1
      obtain ⟨b, rfl⟩ := Int.eq_ofNat_of_zero_le (Int.le_trans h1 h2)
      obtain ⟨r, t, m', -, h4, -⟩ := main a b (by omega)
      rw [h4] at hp
      cases hp
    · intro h
      show ∃ p, HM.bind _ _ m = _
      unfold HM.bind
      by_cases h1 : 0 ≤ b - a
      · have e1 : ∃ d m1, sliceNew 0 (b - a) m = .ok (d, m1) := by unfold sliceNew; rw [if_pos ⟨Int.le_refl _, h1⟩]; exact ⟨_, _, rfl⟩
        obtain ⟨d, m1, e1⟩ := e1
        obtain ⟨p, hp⟩ := (sliceExpr_panics (m := m1)).2 h
        refine ⟨p, ?_⟩
        rw [e1]
        show HM.bind _ _ m1 = _
        unfold HM.bind
        rw [hp]
      · refine ⟨.index, ?_⟩
        unfold sliceNew
        rw [if_neg (by omega)]

theorem known_call {w : World} {c : SCall} {m m' : Mem} (h : c.run w m = some m') {t : Slice} (ht : Known m t) {j : Nat} (hj : j < t.len)
    (hc : ¬ c.writes t j) (hk : Known m c.slice) : Known m' t ∧ (m'.read t)[j]? = (m.read t)[j]? := by
  cases c with
  | get s i =>
    simp only [SCall.run, sliceGet] at h
    split at h <;> rename_i h1
    · split at h1 <;> cases h1
      cases h; exact ⟨ht, rfl⟩
    · cases h
  | set s i v =>
    by_cases hp : 0 ≤ i ∧ i < s.len ∧ ∃ a, v = .ast a
    · obtain ⟨h1, h2, a, rfl⟩ := hp
      obtain ⟨i, rfl⟩ := Int.eq_ofNat_of_zero_le h1
      obtain ⟨m1, h3, h4, h5⟩ := C69_set s i a m (by omega)
      simp only [SCall.run, h3] at h
      cases h
      exact ⟨⟨h4 ▸ ht.1, ht.2⟩, (h5 t j hj).2 hc⟩
    · obtain ⟨p, hp⟩ := (C69_set_panics s i v m).2 hp
      simp [SCall.run, hp] at h
  | reslice s a b =>
    simp only [SCall.run, sliceReslice, sliceExpr] at h
    split at h <;> rename_i h1
    · split at h1 <;> cases h1
      cases h; exact ⟨ht, rfl⟩
    · cases h
  | copy s a b =>
    have hs : Known m s := hk
    by_cases hp : 0 ≤ a ∧ a ≤ b ∧ b ≤ s.cap
    · obtain ⟨h1, h2, h3⟩ := hp
      obtain ⟨a, rfl⟩ := Int.eq_ofNat_of_zero_le h1
      obtain ⟨b, rfl⟩ := Int.eq_ofNat_of_zero_le (Int.le_trans h1 h2)
      obtain ⟨r, u, m1, -, h4, -, -, -, -, h5⟩ := (C69_copy w s m hs).1 a b (by omega)
      simp only [SCall.run, h4] at h
      cases h
      exact ⟨(h5 t ht).1, by rw [(h5 t ht).2.1]⟩
    · obtain ⟨p, hp⟩ := ((C69_copy w s m hs).2 a b).2 hp
      simp [SCall.run, hp] at h
  | make s l c =>
    by_cases hp : 0 ≤ l ∧ l ≤ c
    · obtain ⟨h1, h2⟩ := hp
      obtain ⟨l, rfl⟩ := Int.eq_ofNat_of_zero_le h1
      obtain ⟨c, rfl⟩ := Int.eq_ofNat_of_zero_le (Int.le_trans h1 h2)
      obtain ⟨u, m1, h3, -, -, -, h4⟩ := (C69_make s m).1 l c (by omega)
      simp only [SCall.run, h3] at h
      cases h
      exact ⟨(h4 t ht).1, by rw [(h4 t ht).2.1]⟩
    · obtain ⟨p, hp⟩ := ((C69_make s m).2 l c).2 hp
      simp [SCall.run, hp] at h

/-- Whatever methods a program calls: an element of a slice changes only by a `Set` of that variable. -/
theorem C69_history (w : World) {cs : List SCall} {m m' : Mem} (h : runCalls w cs m = some m') (hk : Held w cs m) {t : Slice} (ht : Known m t)
    {j : Nat} (hj : j < t.len) (hw : ∀ c ∈ cs, ¬ c.writes t j) : (m'.read t)[j]? = (m.read t)[j]? := by
  induction cs generalizing m with
  | nil => cases h; rfl
  | cons c cs ih =>
    obtain ⟨m1, h1, h2⟩ := Option.bind_eq_some_iff.1 h
    obtain ⟨h3, h4⟩ := known_call h1 ht hj (hw c (by simp)) hk.1
    rw [ih h2 (hk.2 m1 h1) h3 fun c hc => hw c (by simp [hc]), h4]

/-! ## Examples -/

/-- An AST with the given class. -/
def sliceAst (cls : String) : Ast := { Ast.zero with cls := cls }

/-- A memory with one array `a b c d`, and the slice of its first three elements. -/
def sliceMem : Mem := { next := 1, cell := fun _ i => ([sliceAst "a", sliceAst "b", sliceAst "c", sliceAst "d"]).getD i Ast.zero }
def sliceAbc : Slice := { arr := 0, off := 0, len := 3, cap := 4 }

/-- A Go implementation that never allocates more than necessary. -/
def sliceWorld : World := ⟨fun _ _ _ => 0, fun _ _ _ => none, fun _ _ _ _ h => nomatch h⟩

/-- The class names of the elements. -/
def sliceNames (m : Mem) (s : Slice) : List String := (m.read s).map (·.cls)

def sliceTry {α β : Type} (x : HM α) (m : Mem) (f : α → Mem → β) : Option β := match x m with | .ok (a, m') => some (f a m') | _ => none

example : Known sliceMem sliceAbc := ⟨Nat.zero_lt_one, by decide⟩
example : sliceTry (sliceLen sliceAbc) sliceMem (fun n _ => n) = some 3 := by decide
example : sliceNames sliceMem sliceAbc = ["a", "b", "c"] := by decide
-- `Set` through a part of the slice is seen in the slice, `Set` in a copy is not.
example : sliceTry (do let r ← sliceReslice sliceAbc 1 3; sliceSet r 0 (.ast (sliceAst "x"))) sliceMem (fun _ m => sliceNames m sliceAbc) =
    some ["a", "x", "c"] := by decide
example : sliceTry (do let r ← sliceCopy sliceWorld sliceAbc 1 3; sliceSet r 0 (.ast (sliceAst "x")); pure r) sliceMem
    (fun r m => (sliceNames m sliceAbc, sliceNames m r)) = some (["a", "b", "c"], ["x", "c"]) := by decide

/-- "`Reslice` and `Copy` panic when the end exceeds the length" is false: they show what is behind the end of the slice. -/
theorem C69_beyond_length : ∃ (m : Mem) (s : Slice) (b : Nat), Known m s ∧ s.len < b ∧ ∃ t, sliceReslice s 0 b m = .ok (t, m) ∧ t.len = b :=
  ⟨sliceMem, sliceAbc, 4, ⟨Nat.zero_lt_one, by decide⟩, by decide, _, sliceExpr_ok (a := 0) (b := 4) ⟨by decide, by decide⟩ _, rfl⟩
example : sliceTry (sliceReslice sliceAbc 1 4) sliceMem (fun r m => sliceNames m r) = some ["b", "c", "d"] := by decide

example : ∃ m', runCalls sliceWorld [.copy sliceAbc 0 2, .set sliceAbc 2 (.ast (sliceAst "y")), .make sliceAbc 2 2] sliceMem = some m' ∧
    sliceNames m' sliceAbc = ["a", "b", "y"] := ⟨_, rfl, by decide⟩

end Takenoco
