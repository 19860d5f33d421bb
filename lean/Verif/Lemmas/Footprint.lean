import Verif.Lemmas.Heap
/-
Where a parser writes to, for all grammars.
-/
namespace Takenoco
open Spec
namespace Heap

/-- Since `m0` nothing has been written to the arrays that existed then, except to `A`. -/
def Only (A : Nat) (m0 m : Mem) : Prop := m0.next ≤ m.next ∧ ∀ a i, a < m0.next → a ≠ A → m.cell a i = m0.cell a i

/-- The array of a slice is `A`, or it has been allocated since `m0`. -/
def Own (A : Nat) (m0 : Mem) (s : Slice) : Prop := s.arr = A ∨ m0.next ≤ s.arr

/-- Whatever a computation returns, it satisfies `P`, and it only wrote where it may. -/
def Tidy {α : Type} (A : Nat) (m0 : Mem) (x : HM α) (P : α → Prop) : Prop :=
  ∀ m, Only A m0 m → ∀ a m', x m = .ok (a, m') → Only A m0 m' ∧ P a

section
variable {α β : Type} {A : Nat} {m0 : Mem}

theorem Tidy.pure {a : α} {P : α → Prop} (h : P a) : Tidy A m0 (pure a) P := by
  intro m hm b m' hb
  injection hb with hb
  injection hb with h1 h2
  subst h1 h2
  exact ⟨hm, h⟩

theorem Tidy.bind {x : HM α} {f : α → HM β} {P : α → Prop} {Q : β → Prop} (hx : Tidy A m0 x P) (hf : ∀ a, P a → Tidy A m0 (f a) Q) :
    Tidy A m0 (x >>= f) Q := by
  intro m hm b m' hb
  rw [bind_run] at hb
  cases h : x m with
  | panic p => rw [h] at hb; cases hb
  | timeout => rw [h] at hb; cases hb
  | ok r =>
    obtain ⟨a, m1⟩ := r
    rw [h] at hb
    obtain ⟨h1, h2⟩ := hx m hm a m1 h
    exact hf a h2 m1 h1 b m' hb

theorem Tidy.panic {p : Panic} {P : α → Prop} : Tidy A m0 (panic p) P := fun _ _ _ _ h => nomatch h
theorem Tidy.timeout {P : α → Prop} : Tidy A m0 timeout P := fun _ _ _ _ h => nomatch h
theorem Tidy.load {s : Slice} : Tidy A m0 (load s) fun _ => True := by
  intro m hm b m' hb
  injection hb with hb
  injection hb with h1 h2
  subst h2
  exact ⟨hm, trivial⟩

theorem Tidy.make {l : List Ast} {cap : Nat} : Tidy A m0 (make l cap) (Own A m0) := by
  intro m hm s m' hs
  injection hs with hs
  injection hs with h1 h2
  subst h1 h2
  refine ⟨⟨Nat.le_trans hm.1 (Nat.le_succ _), fun a i ha hA => ?_⟩, .inr hm.1⟩
  exact (write_other fun he => absurd he (Nat.ne_of_lt (Nat.lt_of_lt_of_le ha hm.1))).trans (hm.2 a i ha hA)

theorem Tidy.append {w : World} {s : Slice} (hs : Own A m0 s) {l : List Ast} : Tidy A m0 (append w s l) (Own A m0) := by
  intro m hm t m' ht
  unfold Heap.append at ht
  split at ht
  · injection ht with ht
    injection ht with h1 h2
    subst h1 h2
    refine ⟨⟨hm.1, fun a i ha hA => ?_⟩, hs⟩
    refine (write_other fun he => ?_).trans (hm.2 a i ha hA)
    rcases hs with hs | hs
    · exact absurd (he.trans hs) hA
    · exact absurd he (Nat.ne_of_lt (Nat.lt_of_lt_of_le ha hs))
  · exact Tidy.make m hm t m' ht

theorem Tidy.mono {x : HM α} {P Q : α → Prop} (h : Tidy A m0 x P) (hi : ∀ a, P a → Q a) : Tidy A m0 x Q :=
  fun m hm a m' ha => ⟨(h m hm a m' ha).1, hi a (h m hm a m' ha).2⟩
end

/-- A parser that only writes where it may, whatever array it is given. -/
def TidyP (p : HSem) : Prop := ∀ A m0 c, Own A m0 c.stack → Tidy A m0 (p c) fun r => Own A m0 r.1.stack

/-- A transformer that only writes to what is new. -/
def TidyT (t : HTSem) : Prop := ∀ A m0 c s, Tidy A m0 (t c s) fun _ => True

theorem terminal_tidy (w : World) (p : Sem) : TidyP (terminal w p) := by
  intro A m0 c hc m hm r m' hr
  unfold terminal at hr
  split at hr
  · cases hr
  · cases hr
  · rename_i o e _
    cases ha : append w c.stack (o.stack.drop c.stack.len) m with
    | panic x => rw [ha] at hr; cases hr
    | timeout => rw [ha] at hr; cases hr
    | ok q =>
      obtain ⟨s, m1⟩ := q
      rw [ha] at hr
      injection hr with hr
      injection hr with h1 h2
      subst h1 h2
      exact Tidy.append hc m hm s m1 ha

theorem transformer_tidy (w : World) (t : TSem) : TidyT (transformer w t) := by
  intro A m0 c s m hm r m' hr
  unfold transformer at hr
  split at hr
  · cases hr
  · cases hr
  · rename_i l e _
    split at hr
    · injection hr with hr
      injection hr with h1 h2
      subst h2
      exact ⟨hm, trivial⟩
    · cases ha : make l (l.length + w.spare m s l) m with
      | panic x => rw [ha] at hr; cases hr
      | timeout => rw [ha] at hr; cases hr
      | ok q =>
        obtain ⟨s, m1⟩ := q
        rw [ha] at hr
        injection hr with hr
        injection hr with h1 h2
        subst h1 h2
        exact ⟨(Tidy.make (A := A) m hm s m1 ha).1, trivial⟩

/-- A callback that only writes where it may. -/
def TidyF (f : Option HImplFn) : Prop := ∀ g, f = some g → ∀ k b, TidyP (g k b)

theorem callback_tidy (w : World) (f : ImplFn) (k : Int) (b : Nat) : TidyP (callback w f k b) := by
  intro A m0 c hc m hm r m' hr
  unfold callback at hr
  split at hr
  · cases hr
  · cases hr
  · rename_i o e _
    cases ha : append w (upTo c.stack b) (o.stack.drop b) m with
    | panic x => rw [ha] at hr; cases hr
    | timeout => rw [ha] at hr; cases hr
    | ok q =>
      obtain ⟨s, m1⟩ := q
      rw [ha] at hr
      injection hr with hr
      injection hr with h1 h2
      subst h1 h2
      exact Tidy.append (s := upTo c.stack b) hc m hm s m1 ha

theorem fixStatus_stack (o : HCtx) (e : Option Err) : (fixStatus o e).stack = o.stack := by unfold fixStatus; split <;> rfl

theorem light_tidy {cls : String} {p : HSem} (h : TidyP p) : TidyP (light cls p) := by
  intro A m0 c hc
  refine (h A m0 c hc).bind fun ⟨o, e⟩ ho => .pure ?_
  simp only
  split <;> simpa [fixStatus_stack] using ho

/-- The context in the end of a `CHILDREN` loop. -/
def ChildOwn (A : Nat) (m0 : Mem) : ChildEnd → Prop
  | .fell _ o => Own A m0 o.stack
  | .unmatched => True
  | .ret o _ => Own A m0 o.stack

theorem childLoop_tidy {ex : Bool} {A : Nat} {m0 : Mem} {ps : List HSem} (h : ∀ p ∈ ps, TidyP p) : ∀ (k : Nat) (c : HCtx), Own A m0 c.stack →
    Tidy A m0 (childLoop ex ps k c) (ChildOwn A m0) := by
  induction ps with
  | nil => intro k c hc; exact .pure hc
  | cons p ps ih =>
    intro k c hc
    unfold childLoop
    refine (h p (by simp) A m0 c hc).bind fun ⟨o, e⟩ ho => ?_
    have ho' : Own A m0 (fixStatus o e).stack := by rw [fixStatus_stack]; exact ho
    simp only
    cases (fixStatus o e).status with
    | error => exact .pure ho'
    | unmatched =>
      simp only
      split
      · exact ih (fun q hq => h q (by simp [hq])) k c hc
      · exact .pure trivial
    | matched =>
      simp only
      split
      · exact .pure ho'
      · exact ih (fun q hq => h q (by simp [hq])) (k + 1) _ ho'

theorem callFn_tidy {fn : Option HImplFn} (hf : TidyF fn) {A : Nat} {m0 : Mem} (k : Int) (b : Nat) (c : HCtx) (hc : Own A m0 c.stack) :
    Tidy A m0 (callFn fn k b c) fun r => Own A m0 r.1.stack := by
  cases fn with
  | none => exact .pure hc
  | some f =>
    refine (hf f rfl k b A m0 c hc).bind fun ⟨o, e⟩ ho => .pure ?_
    simpa [fixStatus_stack] using ho

/-- The context in the end of an iteration. -/
def IterOwn (A : Nat) (m0 : Mem) : IterEnd → Prop
  | .next o => Own A m0 o.stack
  | .brk o => Own A m0 o.stack
  | .ret o _ => Own A m0 o.stack

theorem iteration_tidy {fn : Option HImplFn} (hf : TidyF fn) {ex : Bool} {ps : List HSem} (h : ∀ p ∈ ps, TidyP p) {A : Nat} {m0 : Mem}
    (b count : Nat) (c : HCtx) (hc : Own A m0 c.stack) : Tidy A m0 (iteration fn ex ps b count c) (IterOwn A m0) := by
  refine (childLoop_tidy h 0 c hc).bind fun r hr => ?_
  cases r with
  | ret o e => exact .pure hr
  | unmatched => exact .pure hc
  | fell k o =>
    simp only
    split
    · exact .pure hc
    · refine (callFn_tidy hf k b { o with qty := count } hr).bind fun ⟨o1, e1⟩ ho => ?_
      simp only
      cases o1.status with
      | error => exact .pure ho
      | unmatched => exact .pure hc
      | matched => exact .pure ho

/-- The context in the end of a `PARENT` loop. -/
def LoopOwn (A : Nat) (m0 : Mem) : LoopEnd → Prop
  | .done _ o => Own A m0 o.stack
  | .ret o _ => Own A m0 o.stack

theorem parentLoop_tidy {unb : Bool} {A : Nat} {m0 : Mem} {body : Nat → HCtx → HM IterEnd}
    (h : ∀ k c, Own A m0 c.stack → Tidy A m0 (body k c) (IterOwn A m0)) : ∀ n k c, Own A m0 c.stack → Tidy A m0 (parentLoop unb body n k c) (LoopOwn A m0)
  | 0, k, c, hc => by
    unfold parentLoop
    split
    · exact .timeout
    · exact .pure hc
  | n + 1, k, c, hc => by
    unfold parentLoop
    refine (h k c hc).bind fun r hr => ?_
    cases r with
    | ret o e => exact .pure hr
    | brk o => exact .pure hr
    | next o => exact parentLoop_tidy h n (k + 1) o hr

theorem applyTrs_tidy {ts : List HTSem} (h : ∀ t ∈ ts, TidyT t) {A : Nat} {m0 : Mem} (c : HCtx) : ∀ s, Tidy A m0 (applyTrs c ts s) fun _ => True := by
  induction ts with
  | nil => intro s; exact .pure trivial
  | cons t ts ih =>
    intro s
    unfold applyTrs
    refine (h t (by simp) A m0 c s).bind fun ⟨s', e⟩ _ => ?_
    cases e with
    | none => exact ih (fun u hu => h u (by simp [hu])) s'
    | some e => exact .pure trivial

theorem applyTransforms_tidy (w : World) {tr : Option (List HTSem)} (h : ∀ ts, tr = some ts → ∀ t ∈ ts, TidyT t) {A : Nat} {m0 : Mem} (c o : HCtx)
    (ho : Own A m0 o.stack) : Tidy A m0 (applyTransforms w tr c o) fun r => Own A m0 r.1.stack := by
  cases tr with
  | none => exact .pure ho
  | some ts =>
    unfold applyTransforms
    simp only
    split
    · exact .panic
    · refine (applyTrs_tidy (h ts rfl) c _).bind fun ⟨s, e⟩ _ => ?_
      cases e with
      | some e => exact .pure ho
      | none =>
        refine Tidy.load.bind fun l _ => ?_
        exact (Tidy.append (s := upTo o.stack c.stack.len) ho).bind fun s hs => .pure hs

theorem adjusted_stack (b : Bool) (k : Int) (n : Nat) (o : HCtx) : (negateStatus b (checkMin k n o)).stack = o.stack := by
  unfold negateStatus checkMin
  split <;> split <;> (try split) <;> rfl

theorem base_tidy (w : World) (fuel : Nat) (cls : String) {fn : Option HImplFn} (hf : TidyF fn) (props : List PropItem) {ps : List HSem}
    (h : ∀ p ∈ ps, TidyP p) {tr : Option (List HTSem)} (ht : ∀ ts, tr = some ts → ∀ t ∈ ts, TidyT t) : TidyP (base w fuel cls fn props ps tr) := by
  intro A m0 c hc
  unfold base
  simp only
  refine Tidy.bind (P := LoopOwn A m0) (parentLoop_tidy (fun k c hc => iteration_tidy hf h _ k c hc) _ _ _ (by exact hc)) fun r hr => ?_
  cases r with
  | ret o e => exact .pure hr
  | done k o =>
    unfold afterLoop
    simp only
    have ho : Own A m0 (negateStatus (readProps props).negative (checkMin (readProps props).qty.min k o)).stack := by
      rw [adjusted_stack]; exact hr
    split
    · exact .pure ho
    · refine Tidy.bind (callFn_tidy hf _ _ _ (by exact ho)) fun ⟨o1, e1⟩ ho1 => ?_
      simp only
      split
      · exact .pure ho1
      · refine applyTransforms_tidy w ht _ _ ?_
        split
        · exact hc
        · exact ho1

theorem lookBehindLoop_tidy {neg : Bool} {p : HSem} (hp : TidyP p) {A : Nat} {m0 : Mem} (c : HCtx) (hc : Own A m0 c.stack) :
    ∀ k i, Tidy A m0 (lookBehindLoop neg p c k i) fun r => Own A m0 r.1.stack
  | 0, i => .pure hc
  | k + 1, i => by
    unfold lookBehindLoop
    split
    · exact lookBehindLoop_tidy hp c hc k (i + 1)
    · refine Tidy.bind (hp A m0 _ (by exact hc)) fun ⟨o, e⟩ ho => ?_
      cases e with
      | some e => exact .pure ho
      | none =>
        simp only
        split
        · split
          · exact .pure ho
          · exact .pure hc
        · exact lookBehindLoop_tidy hp c hc k (i + 1)

theorem lookBehindBase_tidy (w : World) (neg : Bool) (a b : Int) {ps : List HSem} (h : ∀ p ∈ ps, TidyP p) : TidyP (lookBehindBase w neg a b ps) :=
  fun _ _ c hc => lookBehindLoop_tidy (base_tidy w 0 _ (fun g h => by cases h) _ h fun ts h => by cases h) c hc _ _

theorem matchFn_tidy (w : World) (n : Int) {cases : List ((List Ast → Bool) × List HTSem)} (h : ∀ c ∈ cases, ∀ t ∈ c.2, TidyT t) : TidyP (matchFn w n cases) := by
  induction cases with
  | nil => intro A m0 c hc; exact .pure hc
  | cons x cases ih =>
    intro A m0 c hc
    obtain ⟨g, trs⟩ := x
    unfold matchFn
    refine Tidy.load.bind fun l _ => ?_
    split
    · simp only
      split
      · exact .panic
      · refine (applyTrs_tidy (h (g, trs) (by simp)) _ _).bind fun ⟨s, e⟩ _ => ?_
        cases e with
        | some e => exact .pure hc
        | none =>
          refine Tidy.load.bind fun l _ => ?_
          exact Tidy.bind (Tidy.append (by exact hc)) fun s hs => .pure hs
    · exact ih (fun c hc => h c (by simp [hc])) A m0 c hc

theorem newContext_tidy {A : Nat} {m0 : Mem} (s : Slice) (tag : Value) : Tidy A m0 (newContext s tag) fun c => Own A m0 c.stack :=
  Tidy.make.bind fun _ hs => .pure hs

theorem tryRules_tidy (w : World) {A : Nat} {m0 : Mem} (c : HCtx) (hc : Own A m0 c.stack) (asts : Slice) (p : Nat) {rs : List HSem} (h : ∀ r ∈ rs, TidyP r) :
    Tidy A m0 (tryRules w c asts p rs) fun _ => True := by
  induction rs with
  | nil => exact .pure trivial
  | cons r rs ih =>
    unfold tryRules
    refine Tidy.bind (h r (by simp) A m0 _ (by exact hc)) fun ⟨o, e⟩ ho => ?_
    cases e with
    | some e => exact .pure trivial
    | none =>
      simp only
      split
      · exact ih fun q hq => h q (by simp [hq])
      · refine Tidy.make.bind fun z hz => Tidy.load.bind fun _ _ => (Tidy.append hz).bind fun z hz => Tidy.load.bind fun _ _ =>
          (Tidy.append hz).bind fun z hz => ?_
        split
        · exact .panic
        · exact Tidy.load.bind fun _ _ => (Tidy.append hz).bind fun z hz => .pure trivial

theorem tryPositions_tidy (w : World) {A : Nat} {m0 : Mem} (c : HCtx) (hc : Own A m0 c.stack) (asts : Slice) {rs : List HSem} (h : ∀ r ∈ rs, TidyP r) (rtol : Bool) :
    ∀ k i, Tidy A m0 (tryPositions w c asts rs rtol k i) fun _ => True
  | 0, _ => .pure trivial
  | k + 1, i => by
    unfold tryPositions
    refine (tryRules_tidy w c hc asts _ h).bind fun r _ => ?_
    cases r with
    | noMatch => exact tryPositions_tidy w c hc asts h rtol k (i + 1)
    | rewritten z => exact .pure trivial
    | err e => exact .pure trivial

theorem tryPrecedences_tidy (w : World) {A : Nat} {m0 : Mem} (tag : Value) (asts : Slice) {ps : List (List HSem × Bool)} (h : ∀ p ∈ ps, ∀ r ∈ p.1, TidyP r) :
    Tidy A m0 (tryPrecedences w tag asts ps) fun _ => True := by
  induction ps with
  | nil => exact .pure trivial
  | cons p ps ih =>
    obtain ⟨rs, b⟩ := p
    unfold tryPrecedences
    refine (newContext_tidy asts tag).bind fun c hc => (tryPositions_tidy w c hc asts (h (rs, b) (by simp)) b _ _).bind fun r _ => ?_
    cases r with
    | noMatch => exact ih fun q hq => h q (by simp [hq])
    | rewritten z => exact .pure trivial
    | err e => exact .pure trivial

theorem checkHolds_tidy {A : Nat} {m0 : Mem} {check : HSem} (h : TidyP check) (tag : Value) (asts : Slice) : Tidy A m0 (checkHolds check tag asts) fun _ => True :=
  (newContext_tidy asts tag).bind fun c hc => (h A m0 c hc).bind fun _ _ => .pure trivial

theorem productionLoop_tidy (w : World) {A : Nat} {m0 : Mem} {ps : List (List HSem × Bool)} (h : ∀ p ∈ ps, ∀ r ∈ p.1, TidyP r) {check : HSem} (hc : TidyP check)
    (tag : Value) : ∀ n asts, Tidy A m0 (productionLoop w ps check tag n asts) fun _ => True
  | 0, _ => .timeout
  | n + 1, asts => by
    unfold productionLoop
    refine (tryPrecedences_tidy w tag asts h).bind fun r _ => ?_
    cases r with
    | err e => exact .pure trivial
    | noMatch =>
      refine (checkHolds_tidy hc tag asts).bind fun b _ => ?_
      cases b <;> exact .pure trivial
    | rewritten z =>
      refine (checkHolds_tidy hc tag z).bind fun b _ => ?_
      cases b
      · exact productionLoop_tidy w h hc tag n z
      · exact .pure trivial

/-- Every grammar only writes to the array of the stack it is given, and to new ones. -/
theorem run_tidy (w : World) (env : Env) : ∀ n, (∀ g, TidyP (run w env n g)) ∧ ∀ t, TidyT (runTr w env n t)
  | 0 => ⟨fun g A m0 c _ => by rw [run.eq_def]; exact .timeout, fun t A m0 c s => by rw [runTr.eq_def]; exact .timeout⟩
  | n + 1 => by
    obtain ⟨ih, iht⟩ := run_tidy w env n
    have hm : ∀ gs : List Gram, ∀ p ∈ gs.map (run w env n), TidyP p := fun gs p hp => by
      obtain ⟨g, -, rfl⟩ := List.mem_map.1 hp; exact ih g
    have hmt : ∀ ts : List Tr, ∀ p ∈ ts.map (runTr w env n), TidyT p := fun ts p hp => by
      obtain ⟨t, -, rfl⟩ := List.mem_map.1 hp; exact iht t
    have hn : TidyF none := fun _ h => nomatch h
    constructor
    · intro g
      rw [run.eq_def]
      cases g with
      | prim p => exact terminal_tidy w p
      | flatGroup gs => exact base_tidy w _ _ hn _ (hm gs) fun _ h => nomatch h
      | group gs =>
        refine base_tidy w _ _ hn _ (hm gs) fun ts h t ht => ?_
        injection h with h
        subst h
        rw [List.mem_singleton.1 ht]
        exact transformer_tidy w _
      | first gs => exact base_tidy w _ _ hn _ (hm gs) fun _ h => nomatch h
      | lookAhead gs => exact base_tidy w _ _ hn _ (hm gs) fun _ h => nomatch h
      | lookAheadN gs => exact base_tidy w _ _ hn _ (hm gs) fun _ h => nomatch h
      | lookBehind a b gs => exact lookBehindBase_tidy w _ _ _ (hm gs)
      | lookBehindN a b gs => exact lookBehindBase_tidy w _ _ _ (hm gs)
      | «repeat» t gs => exact base_tidy w _ _ hn _ (hm gs) fun _ h => nomatch h
      | trans g trs =>
        refine base_tidy w _ _ hn _ (hm [g]) fun ts h => ?_
        split at h
        · cases h
        · injection h with h
          subst h
          exact hmt trs
      | indirect name => exact light_tidy (ih _)
      | «match» k cases =>
        refine light_tidy (matchFn_tidy w k fun c hc => ?_)
        obtain ⟨x, -, rfl⟩ := List.mem_map.1 hc
        exact hmt x.2
      | base cls fn props gs tr =>
        refine base_tidy w _ _ (fun f hf k b => ?_) _ (hm gs) fun ts h => ?_
        · cases fn with
          | none => cases hf
          | some f' =>
            injection hf with hf
            subst hf
            exact callback_tidy w f' k b
        · cases tr with
          | none => cases h
          | some ts' =>
            injection h with h
            subst h
            exact hmt ts'
    · intro t
      rw [runTr.eq_def]
      cases t with
      | fn f => exact transformer_tidy w f
      | production precs check =>
        intro A m0 c s
        refine productionLoop_tidy w (fun p hp => ?_) (ih check) c.tag n s
        obtain ⟨x, -, rfl⟩ := List.mem_map.1 hp
        exact hm x.1

end Heap
end Takenoco
