import Verif.Lemmas.Termination
import Verif.Lemmas.LibTerms
import Verif.Lemmas.SeqI
/-
The terminals of the library terminate, and move forward.
-/
namespace Takenoco
open Spec

/-- The results of a terminal that terminates and, if it matches, moves by at least `k`. -/
def Steps (size : Nat) (k : Nat) (c : Ctx) : Out PRes → Prop
  | .panic _ => True
  | .timeout => False
  | .ok (_, some _) => True
  | .ok (o, none) => o.status = .matched → c.pos + k ≤ o.pos ∧ o.pos ≤ size ∧ o.str = c.str ∧ o.slice = c.slice

theorem steps_prim {S : Sources} {k : Nat} {p : Sem} (h : ∀ c, Inside S c → Steps (S.size c) k c (p c)) : Halts S p ∧ Moves S k p := by
  constructor
  · intro c hc hp
    have := h c hc
    rw [hp] at this; exact this
  · intro c o hc hp ho
    have := h c hc
    rw [hp] at this; exact this ho

theorem Steps.mono {size k k' : Nat} {c : Ctx} {r : Out PRes} (h : Steps size k c r) (hk : k' ≤ k) : Steps size k' c r := by
  match r, h with
  | .panic _, _ => trivial
  | .timeout, h => exact h
  | .ok (_, some _), _ => trivial
  | .ok (o, none), h => exact fun ho => ⟨by have := (h ho).1; omega, (h ho).2⟩

theorem unmatched_steps {size k l : Nat} {c : Ctx} {s : String} : Steps size k c (.ok ({ c with len := l, status := .unmatched, cls := s }, none)) :=
  fun h => by cases h

theorem token_steps {size k n : Nat} {c : Ctx} {cls : String} {v : Bytes} (h1 : k ≤ n) (h2 : c.pos + n ≤ size) : Steps size k c (.ok (tokenMatched cls v n c, none)) :=
  fun _ => ⟨by simp only [tokenMatched, pushStr]; omega, h2, rfl, rfl⟩

theorem here_steps {size l q : Nat} {c : Ctx} {s : String} {st : List Ast} (h : c.pos ≤ size) :
    Steps size 0 c (.ok ({ c with stack := st, len := l, status := .matched, qty := q, cls := s }, none)) :=
  fun _ => ⟨Nat.le_refl _, h, rfl, rfl⟩

theorem decode_pos {c : Ctx} (h : c.pos < c.str.length) : 1 ≤ (decodeRune (c.str.drop c.pos)).2 ∧ c.pos + (decodeRune (c.str.drop c.pos)).2 ≤ c.str.length := by
  have h1 : c.str.drop c.pos ≠ [] := by intro h'; rw [List.drop_eq_nil_iff] at h'; omega
  have h2 := decodeRune_len_pos h1
  have h3 := decodeRune_len_le (c.str.drop c.pos)
  rw [List.length_drop] at h3
  omega

theorem charFn_steps (cls cls' : String) (p : Nat → Bool) (c : Ctx) (hc : c.pos ≤ c.str.length) : Steps c.str.length 1 c (lightParser cls (charFn cls' p) c) := by
  rw [charFn_eq _ _ _ _ hc]
  split
  · rename_i h
    have := decode_pos h.1
    exact fun _ => ⟨by simp only [pushStr]; omega, this.2, rfl, rfl⟩
  · exact unmatched_steps

theorem eatsStr_steps {p : Sem} (h : EatsStr p) (c : Ctx) (hc : c.pos ≤ c.str.length) : Steps c.str.length 1 c (p c) := by
  cases h with
  | any => exact charFn_steps _ _ _ _ hc
  | seq s h =>
    rw [seqS_eq]
    split
    · exact token_steps (List.length_pos_iff.2 h) (hasPrefixAt_le ‹_›)
    · exact unmatched_steps
  | seqI orbit s h =>
    rw [seqIS_eq]
    split
    · rename_i h1; exact token_steps (List.length_pos_iff.2 h) h1.1
    · exact unmatched_steps
  | charRange cr => exact charFn_steps _ _ _ _ hc
  | charRangeN cr => exact charFn_steps _ _ _ _ hc
  | charClass cc h =>
    rw [charClass_eq]
    split
    · rename_i s hs
      have h1 := List.mem_of_find?_eq_some hs
      exact token_steps (List.length_pos_iff.2 fun h2 => h (h2 ▸ h1)) (hasPrefixAt_le (by simpa using List.find?_some hs))
    · exact unmatched_steps
  | charClassN cc =>
    rw [charClassN_eq _ _ hc]
    split
    · rename_i h; exact token_steps (decode_pos h.1).1 (decode_pos h.1).2
    · exact unmatched_steps
  | charClassFn fn => exact charFn_steps _ _ _ _ hc
  | whitespace => exact charFn_steps _ _ _ _ hc
  | whitespaceNoLineBreak => exact charFn_steps _ _ _ _ hc
  | lineBreak => exact charFn_steps _ _ _ _ hc
  | alpha => exact charFn_steps _ _ _ _ hc
  | number => exact charFn_steps _ _ _ _ hc
  | alnum => exact charFn_steps _ _ _ _ hc
  | binNumber => exact charFn_steps _ _ _ _ hc
  | octNumber => exact charFn_steps _ _ _ _ hc
  | hexNumber => exact charFn_steps _ _ _ _ hc

theorem baseTerm_steps {A : Ast → Prop} {p : Sem} (h : BaseTerm A p) (size : Nat) (c : Ctx) (hc : c.pos ≤ size) : Steps size 0 c (p c) := by
  cases h with
  | error msg => rw [errorP_eq]; trivial
  | unmatched => rw [unmatchedP_eq]; exact unmatched_steps
  | zero asts hA => rw [zeroP_eq]; exact here_steps hc
  | start =>
    rw [startP_eq]
    split
    · exact here_steps hc
    · exact unmatched_steps

theorem strTerm_steps {p : Sem} (h : StrTerm (fun _ => True) p) (c : Ctx) (hc : c.pos ≤ c.str.length) : Steps c.str.length 0 c (p c) := by
  have hwb : ∀ cls isW, Steps c.str.length 0 c (lightParser cls (wordBoundaryFn isW) c) := by
    intro cls isW
    obtain ⟨b, hb⟩ := wordBoundary_form cls isW c hc
    rw [hb]
    split
    · exact here_steps hc
    · exact unmatched_steps
  have e : ∀ p, EatsStr p → Steps c.str.length 0 c (p c) := fun p hp => (eatsStr_steps hp c hc).mono (Nat.zero_le _)
  cases h with
  | base h => exact baseTerm_steps h _ c hc
  | «end» =>
    rw [endS_eq]
    split
    · exact here_steps hc
    · exact unmatched_steps
  | wordBoundary => exact hwb _ _
  | unicodeWordBoundary u => exact hwb _ _
  | seq s =>
    rw [seqS_eq]
    split
    · exact token_steps (Nat.zero_le _) (hasPrefixAt_le ‹_›)
    · exact unmatched_steps
  | seqI orbit s =>
    rw [seqIS_eq]
    split
    · rename_i h1; exact token_steps (Nat.zero_le _) h1.1
    · exact unmatched_steps
  | charClass cc =>
    rw [charClass_eq]
    split
    · rename_i s hs
      exact token_steps (Nat.zero_le _) (hasPrefixAt_le (by simpa using List.find?_some hs))
    · exact unmatched_steps
  | any => exact e _ .any
  | charRange cr => exact e _ (.charRange cr)
  | charRangeN cr => exact e _ (.charRangeN cr)
  | charClassN cc => exact e _ (.charClassN cc)
  | charClassFn fn => exact e _ (.charClassFn fn)
  | whitespace => exact e _ .whitespace
  | whitespaceNoLineBreak => exact e _ .whitespaceNoLineBreak
  | lineBreak => exact e _ .lineBreak
  | alpha => exact e _ .alpha
  | number => exact e _ .number
  | alnum => exact e _ .alnum
  | binNumber => exact e _ .binNumber
  | octNumber => exact e _ .octNumber
  | hexNumber => exact e _ .hexNumber

theorem objSeqLoop_halts {eq : Value → Value → Out Bool} (h : ∀ v w, eq v w ≠ .timeout) (ws vs : List Value) : objSeqLoop eq ws vs ≠ .timeout := by
  fun_induction objSeqLoop eq ws vs with
  | case1 w ws s ss _ ih => exact ih
  | case4 w ws s ss ht => exact absurd ht (h w s)
  | _ => simp

theorem anyEquals_halts {eq : Value → Value → Out Bool} (h : ∀ v w, eq v w ≠ .timeout) (w : Value) (vs : List Value) : anyEquals eq w vs ≠ .timeout := by
  fun_induction anyEquals eq w vs with
  | case3 s ss _ ih => exact ih
  | case5 s ss ht => exact absurd ht (h w s)
  | _ => simp

theorem light_steps {size k : Nat} {c : Ctx} {cls : String} {p : Sem} (h : Steps size k c (p c)) : Steps size k c (lightParser cls p c) := by
  unfold lightParser
  match hp : p c, h with
  | .panic _, _ => trivial
  | .timeout, h => exact h
  | .ok (o, some _), _ => trivial
  | .ok (o, none), h =>
    intro ho
    cases hs : o.status with
    | matched =>
      have := h hs
      simpa [fixStatus, hs] using this
    | unmatched => simp [fixStatus, hs] at ho
    | error => simp [fixStatus, hs] at ho

theorem slice_steps {size k : Nat} {c : Ctx} {f : SliceSrc → Ctx → Out PRes}
    (h : ∀ src, c.slice = some src → Steps size k c (f src { c with status := .unmatched })) : Steps size k c (withSlice f c) := by
  unfold withSlice
  cases hs : c.slice with
  | none => trivial
  | some src => have := h src hs; rw [hs] at this; exact this

theorem pushObj_steps {size k n : Nat} {c : Ctx} {cls : String} {ty : AstType} {v : Value} (h1 : k ≤ n) (h2 : c.pos + n ≤ size) :
    Steps size k c (.ok (pushObj cls ty v n { c with status := .unmatched }, none)) :=
  fun _ => ⟨by simp only [pushObj]; omega, h2, rfl, rfl⟩

theorem objects_size {c : Ctx} {src : SliceSrc} (h : c.slice = some src) : objects.size c = src.items.length := by simp [objects, h]

theorem item_le {c : Ctx} {src : SliceSrc} (h : c.slice = some src) {w : Value} (hw : src.items[c.pos]? = some w) : c.pos + 1 ≤ objects.size c := by
  rw [objects_size h]; exact (List.getElem?_eq_some_iff.1 hw).1

theorem objSeq_steps {c : Ctx} (hc : Inside objects c) (vs : List Value) : Steps (objects.size c) vs.length c (objSeq vs c) := by
  refine light_steps (slice_steps fun src hs => ?_)
  simp only
  split
  · rename_i h1
    have := objSeqLoop_halts (hc.2.1 src hs) ((src.items.drop c.pos).take vs.length) vs
    split
    · exact pushObj_steps (Nat.le_refl _) (by rw [objects_size hs]; exact h1)
    · trivial
    · rename_i h2; exact absurd h2 this
  · exact fun h => by cases h

theorem eatsObj_steps {p : Sem} (h : EatsObj p) (c : Ctx) (hc : Inside objects c) : Steps (objects.size c) 1 c (p c) := by
  cases h with
  | any =>
    refine light_steps (slice_steps fun src hs => ?_)
    simp only
    split
    · exact pushObj_steps (Nat.le_refl _) (item_le hs ‹_›)
    · exact fun h => by cases h
  | seq vs h => exact (objSeq_steps hc vs).mono (List.length_pos_iff.2 h)
  | objClass vs =>
    refine light_steps (slice_steps fun src hs => ?_)
    simp only
    split
    · exact fun h => by cases h
    · rename_i w hw
      have := anyEquals_halts (hc.2.1 src hs) w vs
      split
      · exact pushObj_steps (Nat.le_refl _) (item_le hs hw)
      · exact fun h => by cases h
      · trivial
      · rename_i h2; exact absurd h2 this
  | objClassN vs =>
    refine light_steps (slice_steps fun src hs => ?_)
    simp only
    split
    · exact fun h => by cases h
    · rename_i w hw
      have := anyEquals_halts (hc.2.1 src hs) w vs
      split
      · exact fun h => by cases h
      · exact pushObj_steps (Nat.le_refl _) (item_le hs hw)
      · trivial
      · rename_i h2; exact absurd h2 this
  | objClassFn fn h =>
    refine light_steps (slice_steps fun src hs => ?_)
    simp only
    split
    · exact fun h => by cases h
    · rename_i w hw
      split
      · exact pushObj_steps (Nat.le_refl _) (item_le hs hw)
      · exact fun h => by cases h
      · trivial
      · rename_i h2; exact absurd h2 (h w)

theorem objEnd_steps (c : Ctx) (hc : Inside objects c) : Steps (objects.size c) 0 c (objEnd c) := by
  refine light_steps (slice_steps fun src hs => ?_)
  simp only
  split
  · exact fun _ => ⟨Nat.le_refl _, hc.2.2, rfl, rfl⟩
  · exact fun h => by cases h

end Takenoco
