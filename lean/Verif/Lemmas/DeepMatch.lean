import Verif.Lemmas.HeapRun
import Verif.Spec.Match
/-
Parsers that replace some of the topmost ASTs of the stack they are given.
-/
namespace Takenoco
open Spec
namespace Heap

/-- The context without the `d` topmost ASTs. -/
def low (c : HCtx) (d : Nat) : HCtx := { c with stack := upTo c.stack (c.stack.len - d) }

theorem low_zero (c : HCtx) : low c 0 = c := rfl

/-- The parser with slices does what the one with lists does; memory changes only behind the end of the stack without its `d` topmost
ASTs, and if the parser does not match, only behind the end of the stack. -/
def RefinesAt (d : Nat) (p : HSem) (q : Sem) : Prop := ∀ c m, Usable m c → d ≤ c.stack.len →
  Sim (fun r m' o => r.2 = o.2 ∧ r.1.view m' = o.1 ∧ Step m (low c d) m' r.1 ∧ (r.1.status = .unmatched → r.2 = none → Frame m m' c.stack))
    (p c m) (q (c.view m))

theorem RefinesAt.of {p : HSem} {q : Sem} (h : Refines p q) : RefinesAt 0 p q :=
  fun c m hc _ => (h c m hc).mono fun _ _ _ hr => ⟨hr.1, hr.2.1, hr.2.2, fun _ _ => hr.2.2.frame⟩

theorem RefinesAt.refines {p : HSem} {q : Sem} (h : RefinesAt 0 p q) : Refines p q :=
  fun c m hc => (h c m hc (Nat.zero_le _)).mono fun _ _ _ hr => ⟨hr.1, hr.2.1, hr.2.2.1⟩

/-- From a lower part of one context to a lower part of the next. -/
theorem Step.low {m m' : Mem} {c c' : HCtx} (h : Step m c m' c') {x y : Nat} (hl : c.stack.len - x ≤ c'.stack.len - y) :
    Step m (low c x) m' (low c' y) := by
  refine ⟨⟨h.frame.1, fun a i ha hi => h.frame.2 a i ha fun he => ?_⟩, ⟨h.ext.arr, ?_, hl, h.ext.place⟩, h.src⟩
  · have := hi he
    simp only [Heap.low, upTo] at this
    omega
  · have := h.ext.cap
    simp only [Heap.low, upTo]
    omega

theorem Frame.low {m m' : Mem} {s : Slice} (h : Frame m m' s) (n : Nat) (hn : n ≤ s.len) : Frame m m' (upTo s n) :=
  ⟨h.1, fun a i ha hi => h.2 a i ha fun he => by have := hi he; simp only [upTo] at this; omega⟩

theorem Step.lower {m m' : Mem} {c c' : HCtx} {d e : Nat} (h : Step m (Heap.low c d) m' c') (hd : d ≤ e) : Step m (Heap.low c e) m' c' := by
  refine ⟨⟨h.frame.1, fun a i ha hi => h.frame.2 a i ha fun he => ?_⟩, ⟨h.ext.arr, h.ext.cap, ?_, h.ext.place⟩, h.src⟩
  · have := hi he
    simp only [Heap.low, upTo] at this ⊢
    omega
  · have := h.ext.len
    simp only [Heap.low, upTo] at this ⊢
    omega

theorem RefinesAt.mono {d e : Nat} {p : HSem} {q : Sem} (h : RefinesAt d p q) (hd : d ≤ e) : RefinesAt e p q :=
  fun c m hc hl => (h c m hc (Nat.le_trans hd hl)).mono fun _ _ _ hr => ⟨hr.1, hr.2.1, hr.2.2.1.lower hd, hr.2.2.2⟩

/-- Whenever the parser matches, at least `k` ASTs are above the first ones, which are all but `e`. -/
def GrowsBy (e k : Nat) (q : Sem) : Prop :=
  ∀ c o, e ≤ c.stack.length → q c = .ok (o, none) → o.status = .matched → c.stack.length + k ≤ o.stack.length + e

/-! ### `Match` -/

theorem light_deep {cls : String} {d : Nat} {p : HSem} {q : Sem} (h : RefinesAt d p q) : RefinesAt d (light cls p) (lightParser cls q) := by
  intro c m hc hl
  unfold light lightParser
  rcases (h c m hc hl).cases with ⟨⟨o, e⟩, m', ⟨o', e'⟩, h1, h2, h3, h4, h5, h6⟩ | ⟨x, h1, h2⟩ | ⟨h1, h2⟩
  · simp only [bind_ok_run h1, h2, pure_run]
    simp only at h3 h4
    subst h3 h4
    refine Sim.ok ⟨rfl, ?_, ?_, ?_⟩
    · simp only [← fixStatus_view, status_view]
      split <;> simp [HCtx.view]
    · have := fixStatus_step (e := e) h5
      simp only
      split <;> exact ⟨this.frame, this.ext, this.src⟩
    · intro hs he
      simp only at he
      subst he
      refine h6 ?_ rfl
      simp only [fixStatus] at hs
      simp at hs
      split at hs <;> simp_all
  · simp only [bind_panic_run h1, h2]; rfl
  · simp only [bind_timeout_run h1, h2]; rfl

theorem matchFn_deep (w : World) (n : Nat) {cs : List ((List Ast → Bool) × List HTSem)} {cs' : List ((List Ast → Bool) × List TSem)}
    (h : Pairs (fun a b => a.1 = b.1 ∧ Pairs RefinesT a.2 b.2) cs cs') : RefinesAt n (matchFn w n cs) (Takenoco.matchFn n cs') := by
  induction h with
  | nil =>
    intro c m hc hl
    refine Sim.ok ⟨rfl, rfl, ?_, fun _ _ => .refl _ _⟩
    have := (Step.refl hc).lower (d := 0) (Nat.zero_le n)
    exact ⟨this.frame, this.ext, this.src⟩
  | @cons x y cs cs' hxy _ ih =>
    intro c m hc hl
    obtain ⟨g, ts⟩ := x
    obtain ⟨g', ts'⟩ := y
    obtain ⟨rfl, ht⟩ := hxy
    unfold matchFn Takenoco.matchFn
    rw [bind_ok_run (load_run _ _), show (c.view m).stack = m.read c.stack from rfl]
    by_cases hg : g (m.read c.stack) = true
    rotate_left
    · simp only [hg, Bool.false_eq_true, ↓reduceIte]; exact ih c m hc hl
    · simp only [hg, ↓reduceIte, length_read]
      have hsp : ¬((c.stack.len : Int) - n < 0 ∨ (c.stack.len : Int) < (c.stack.len : Int) - n) := by omega
      have hn : ((c.stack.len : Int) - n).toNat = c.stack.len - n := by omega
      simp only [hsp, ↓reduceIte, hn]
      have hu : Usable m { c with len := 0, status := .unmatched } := ⟨hc.arr, hc.cap, hc.src⟩
      have h1 := applyTrs_refines ht { c with len := 0, status := .unmatched } m (from_ c.stack (c.stack.len - n)) hu hc.arr
      rw [read_from] at h1
      simp only at h1
      rcases h1.cases with ⟨⟨r, e⟩, m', ⟨r', e'⟩, h1, h2, h3, h4, h5, h6⟩ | ⟨x, h1, h2⟩ | ⟨h1, h2⟩
      · simp only at h3 h4
        subst h3 h4
        simp only [HCtx.view] at h2 ⊢
        simp only [bind_ok_run h1, h2]
        cases e with
        | some e =>
          refine Sim.ok ?_
          refine ⟨rfl, ?_, ?_, fun h => by cases h⟩
          · simp only [HCtx.view]
            rw [src_frame hc (h5.frame _), h5.read hc.arr]
          · have := (Step.back hc (h5.frame _)).lower (d := 0) (Nat.zero_le n)
            exact ⟨this.frame, this.ext, this.src⟩
        | none =>
          have hu' : Usable m' { c with stack := upTo c.stack (c.stack.len - n) } :=
            ⟨Nat.lt_of_lt_of_le hc.arr h5.1, Nat.le_trans (Nat.sub_le _ _) hc.cap, (usable_later hc h5.1).src⟩
          obtain ⟨s, m2, g1, g2, g3, g4, g5⟩ := append_spec w hu'.arr hu'.cap (m'.read r)
          simp only
          rw [bind_ok_run (load_run _ _), bind_ok_run g1, pure_run]
          have hst : Step m (low c n) m' (low c n) := Step.low (Step.back hc (h5.frame _)) (Nat.le_refl _)
          have hst2 : Step m' (low c n) m2 { c with stack := s, len := 0, status := .matched } := ⟨g3, g4, rfl⟩
          refine Sim.ok ?_
          refine ⟨rfl, ?_, hst.trans hst2, fun h => by cases h⟩
          simp only [HCtx.view, g2]
          rw [read_upTo _ _ _ (Nat.sub_le _ _), h5.read hc.arr]
          have e1 := src_frame hu' g3
          simp only at e1
          have e2 : c.slice.map m'.src = c.slice.map m.src := src_frame hc (h5.frame _)
          rw [e1, e2]
      · simp only [HCtx.view] at h2 ⊢
        simp only [bind_panic_run h1, h2]; rfl
      · simp only [HCtx.view] at h2 ⊢
        simp only [bind_timeout_run h1, h2]; rfl

/-! ### Sub-parsers -/

/-- Related ends of the `CHILDREN` loop, when up to `d` ASTs of the context are replaced. -/
def DeepR (d b : Nat) (m0 : Mem) (c0 : HCtx) (r : ChildEnd) (m' : Mem) (r' : Takenoco.ChildEnd) : Prop :=
  match r, r' with
  | .fell k o, .fell k' o' => k = k' ∧ o.view m' = o' ∧ Step m0 (low c0 d) m' o ∧ (k = 0 → Frame m0 m' c0.stack ∧ c0.stack.len ≤ o.stack.len) ∧
      (0 < k → c0.stack.len + b ≤ o.stack.len + d) ∧ (o.status = .matched ∨ o.status = c0.status)
  | .unmatched, .unmatched => Frame m0 m' c0.stack
  | .ret o e, .ret o' e' => e = e' ∧ o.view m' = o' ∧ Step m0 (low c0 d) m' o ∧ o.status = .error
  | _, _ => False

/-- Lists of sub-parsers, of which the last one may replace `d` ASTs more than the others have left. `a`: so many ASTs have been added so
far. `b`: so many are there in the end, above those that cannot be replaced. -/
inductive DeepSeq (d b : Nat) : Nat → List HSem → List Sem → Prop where
  | nil {a : Nat} : b ≤ a + d → DeepSeq d b a [] []
  | last {a e k : Nat} {p : HSem} {q : Sem} : e ≤ a + d → RefinesAt e p q → (k = 0 ∨ GrowsBy e k q) → b ≤ a + d - e + k → DeepSeq d b a [p] [q]
  | cons {a e k : Nat} {p : HSem} {q : Sem} {ps : List HSem} {qs : List Sem} : e ≤ a → RefinesAt e p q → (k = 0 ∨ GrowsBy e k q) →
      DeepSeq d b (a - e + k) ps qs → DeepSeq d b a (p :: ps) (q :: qs)

theorem DeepSeq.length {d b a : Nat} {ps : List HSem} {qs : List Sem} (h : DeepSeq d b a ps qs) : ps.length = qs.length := by
  induction h with
  | nil => rfl
  | last => rfl
  | cons _ _ _ _ ih => simp [ih]

theorem fixStatus_matched {o : HCtx} {e : Option Err} (h : (fixStatus o e).status = .matched) : o.status = .matched ∧ e = none := by
  unfold fixStatus at h
  split at h
  · cases h
  · rename_i hn
    cases e with
    | none => exact ⟨h, rfl⟩
    | some e => simp at hn; rw [hn] at h; cases h

theorem fixStatus_unmatched {o : HCtx} {e : Option Err} (h : (fixStatus o e).status = .unmatched) : o.status = .unmatched ∧ e = none := by
  unfold fixStatus at h
  split at h
  · cases h
  · rename_i hn
    cases e with
    | none => exact ⟨h, rfl⟩
    | some e => simp at hn; rw [hn] at h; cases h

theorem view_len (m : Mem) (c : HCtx) : (c.view m).stack.length = c.stack.len := by simp [HCtx.view]

theorem grown {e k : Nat} {q : Sem} (hk : k = 0 ∨ GrowsBy e k q) {m m' : Mem} {c o : HCtx} (he : e ≤ c.stack.len) (hs : Step m (low c e) m' o)
    (hq : q (c.view m) = .ok (o.view m', none)) (hm : o.status = .matched) : c.stack.len + k ≤ o.stack.len + e := by
  rcases hk with rfl | hk
  · have := hs.ext.len
    simp only [low, upTo] at this
    omega
  · have := hk (c.view m) (o.view m') (by rw [view_len]; exact he) hq hm
    rwa [view_len, view_len] at this

theorem childSeq_sim {d b : Nat} {m0 : Mem} {c0 : HCtx} (h0 : Usable m0 c0) (hd : d ≤ c0.stack.len) {a : Nat} {ps : List HSem} {qs : List Sem} (h : DeepSeq d b a ps qs) :
    ∀ (k : Nat) (m : Mem) (c : HCtx), Step m0 c0 m c → c0.stack.len + a ≤ c.stack.len → (c.status = .matched ∨ c.status = c0.status) →
      Sim (DeepR d b m0 c0) (childLoop false ps k c m) (Takenoco.childLoop false qs k (c.view m)) := by
  induction h with
  | @nil a hb =>
    intro k m c hs hl hst
    refine Sim.ok ⟨rfl, rfl, ?_, fun _ => ⟨hs.frame, hs.ext.len⟩, fun _ => by omega, hst⟩
    have := hs.low (x := d) (y := 0) (by omega)
    exact this
  | @last a e i p q he hp hk hb =>
    intro k m c hs hl hst
    have hc := hs.usable h0
    unfold childLoop Takenoco.childLoop
    rcases (hp c m hc (by omega)).cases with ⟨⟨o, x⟩, m', ⟨o', x'⟩, h1, h2, h3, h4, h5, h6⟩ | ⟨x, h1, h2⟩ | ⟨h1, h2⟩
    · simp only [bind_ok_run h1, h2]
      simp only at h3 h4
      subst h3 h4
      simp only [← fixStatus_view, status_view]
      have h7 : Step m0 (low c0 d) m' (fixStatus o x) := (hs.low (by omega)).trans (fixStatus_step (e := x) h5)
      cases hst' : (fixStatus o x).status with
      | error => exact Sim.ok ⟨rfl, rfl, h7, hst'⟩
      | unmatched =>
        obtain ⟨u1, u2⟩ := fixStatus_unmatched hst'
        exact Sim.ok (show Frame m0 m' c0.stack from hs.frame.trans hs.ext (h6 u1 u2))
      | matched =>
        obtain ⟨u1, u2⟩ := fixStatus_matched hst'
        subst u2
        have : c.stack.len + i ≤ o.stack.len + e := grown hk (show e ≤ c.stack.len by omega) h5 h2 u1
        refine Sim.ok ⟨rfl, rfl, h7, fun h => absurd h (by omega), fun _ => ?_, .inl hst'⟩
        have hf : (fixStatus o none).stack = o.stack := rfl
        rw [hf]; omega
    · simp only [bind_panic_run h1, h2]; rfl
    · simp only [bind_timeout_run h1, h2]; rfl
  | @cons a e i p q ps qs he hp hk _ ih =>
    intro k m c hs hl hst
    have hc := hs.usable h0
    unfold childLoop Takenoco.childLoop
    rcases (hp c m hc (by omega)).cases with ⟨⟨o, x⟩, m', ⟨o', x'⟩, h1, h2, h3, h4, h5, h6⟩ | ⟨x, h1, h2⟩ | ⟨h1, h2⟩
    · simp only [bind_ok_run h1, h2]
      simp only at h3 h4
      subst h3 h4
      simp only [← fixStatus_view, status_view]
      have h7 : Step m0 c0 m' (fixStatus o x) := by
        have := (hs.low (x := 0) (y := e) (by omega)).trans (fixStatus_step (e := x) h5)
        exact this
      cases hst' : (fixStatus o x).status with
      | error => exact Sim.ok ⟨rfl, rfl, h7.lower (d := 0) (Nat.zero_le d), hst'⟩
      | unmatched =>
        obtain ⟨u1, u2⟩ := fixStatus_unmatched hst'
        exact Sim.ok (show Frame m0 m' c0.stack from hs.frame.trans hs.ext (h6 u1 u2))
      | matched =>
        obtain ⟨u1, u2⟩ := fixStatus_matched hst'
        subst u2
        have : c.stack.len + i ≤ o.stack.len + e := grown hk (show e ≤ c.stack.len by omega) h5 h2 u1
        have hf : (fixStatus o none).stack = o.stack := rfl
        exact ih (k + 1) m' _ h7 (by rw [hf]; omega) (.inl hst')
    · simp only [bind_panic_run h1, h2]; rfl
    · simp only [bind_timeout_run h1, h2]; rfl

theorem childFirst_sim {d b : Nat} {m0 : Mem} {c0 : HCtx} (h0 : Usable m0 c0) (hd : d ≤ c0.stack.len) {ps : List HSem} {qs : List Sem}
    (h : Pairs (fun p q => RefinesAt d p q ∧ (b = 0 ∨ GrowsBy d b q)) ps qs) :
    ∀ (m : Mem), Frame m0 m c0.stack → Sim (DeepR d b m0 c0) (childLoop true ps 0 c0 m) (Takenoco.childLoop true qs 0 (c0.view m0)) := by
  induction h with
  | nil =>
    intro m hf
    exact Sim.ok ⟨rfl, view_frame h0 hf, (Step.back h0 hf).lower (d := 0) (Nat.zero_le d), fun _ => ⟨hf, Nat.le_refl _⟩, fun h => absurd h (by omega), .inr rfl⟩
  | @cons p q ps qs hpq _ ih =>
    intro m hf
    obtain ⟨hp, hk⟩ := hpq
    have hc := usable_later h0 hf.1
    unfold childLoop Takenoco.childLoop
    have hv := view_frame h0 hf
    rw [← hv]
    rcases (hp c0 m hc hd).cases with ⟨⟨o, x⟩, m', ⟨o', x'⟩, h1, h2, h3, h4, h5, h6⟩ | ⟨x, h1, h2⟩ | ⟨h1, h2⟩
    · simp only [bind_ok_run h1, h2]
      simp only at h3 h4
      subst h3 h4
      simp only [← fixStatus_view, status_view]
      have h7 : Step m0 (low c0 d) m' (fixStatus o x) := ((Step.back h0 hf).low (Nat.le_refl _)).trans (fixStatus_step (e := x) h5)
      cases hst' : (fixStatus o x).status with
      | error => exact Sim.ok ⟨rfl, rfl, h7, hst'⟩
      | unmatched =>
        obtain ⟨u1, u2⟩ := fixStatus_unmatched hst'
        have := ih m' ((Step.back h0 hf).frame.trans (Step.back h0 hf).ext (h6 u1 u2))
        rw [← hv] at this
        exact this
      | matched =>
        obtain ⟨u1, u2⟩ := fixStatus_matched hst'
        subst u2
        have := grown hk hd h5 h2 u1
        refine Sim.ok ⟨rfl, rfl, h7, fun h => absurd h (by omega), fun _ => ?_, .inl hst'⟩
        have hf : (fixStatus o none).stack = o.stack := rfl
        rw [hf]; omega
    · simp only [bind_panic_run h1, h2]; rfl
    · simp only [bind_timeout_run h1, h2]; rfl

/-- Related lists of sub-parsers that may replace `d` ASTs, and leave `b` of them. -/
def DeepKids (d b : Nat) (ex : Bool) (ps : List HSem) (qs : List Sem) : Prop := ps.length = qs.length ∧
  ∀ c m, Usable m c → d ≤ c.stack.len → Sim (DeepR d b m c) (childLoop ex ps 0 c m) (Takenoco.childLoop ex qs 0 (c.view m))

theorem DeepSeq.kids {d b : Nat} {ps : List HSem} {qs : List Sem} (h : DeepSeq d b 0 ps qs) : DeepKids d b false ps qs :=
  ⟨h.length, fun c m hc hd => childSeq_sim hc hd h 0 m c (.refl hc) (Nat.le_refl _) (.inr rfl)⟩

theorem deepFirst_kids {d b : Nat} {ps : List HSem} {qs : List Sem} (h : Pairs (fun p q => RefinesAt d p q ∧ (b = 0 ∨ GrowsBy d b q)) ps qs) : DeepKids d b true ps qs :=
  ⟨h.length, fun c m hc hd => childFirst_sim hc hd h m (.refl _ _)⟩

theorem DeepKids.kids {b : Nat} {ex : Bool} {ps : List HSem} {qs : List Sem} (h : DeepKids 0 b ex ps qs) : Kids ex ps qs := by
  refine ⟨h.1, fun c m hc => (h.2 c m hc (Nat.zero_le _)).mono fun r m' r' hr => ?_⟩
  cases r <;> cases r' <;> first | exact hr.elim | skip
  · exact ⟨hr.1, hr.2.1, hr.2.2.1⟩
  · exact Step.back hc hr
  · exact ⟨hr.1, hr.2.1, hr.2.2.1⟩

/-! ### The loop -/

/-- Related ends of one iteration. -/
def DeepIterR (d b : Nat) (m : Mem) (c : HCtx) (r : IterEnd) (m' : Mem) (r' : Takenoco.IterEnd) : Prop :=
  match r, r' with
  | .next o, .next o' => o.view m' = o' ∧ Step m (low c d) m' o ∧ (d ≤ b → c.stack.len ≤ o.stack.len) ∧ o.status = .matched
  | .brk o, .brk o' => o = c ∧ o' = c.view m ∧ Frame m m' c.stack
  | .ret o e, .ret o' e' => e = e' ∧ o.view m' = o' ∧ Step m (low c d) m' o ∧ o.status = .error
  | _, _ => False

theorem deepIter_sim {d b : Nat} {ex : Bool} {ps : List HSem} {qs : List Sem} (h : DeepKids d b ex ps qs) {m : Mem} {c : HCtx} (hc : Usable m c)
    (hd : d ≤ c.stack.len) (hst : c.status = .matched) (B k : Nat) :
    Sim (DeepIterR d b m c) (iteration none ex ps B k c m) (Takenoco.iteration none ex qs B k (c.view m)) := by
  unfold iteration Takenoco.iteration
  rcases (h.2 c m hc hd).cases with ⟨r, m', r', h1, h2, h3⟩ | ⟨x, h1, h2⟩ | ⟨h1, h2⟩
  · simp only [bind_ok_run h1, h2]
    cases r with
    | unmatched =>
      cases r' with
      | unmatched => exact Sim.ok ⟨rfl, rfl, h3⟩
      | fell _ _ => exact h3.elim
      | ret _ _ => exact h3.elim
    | ret o e =>
      cases r' with
      | unmatched => exact h3.elim
      | fell _ _ => exact h3.elim
      | ret _ _ => exact Sim.ok h3
    | fell j o =>
      cases r' with
      | unmatched => exact h3.elim
      | ret _ _ => exact h3.elim
      | fell j' o' =>
        obtain ⟨rfl, rfl, h4, h5, h6, h7⟩ := h3
        simp only [h.1]
        by_cases hex : ex = true ∧ 0 < qs.length ∧ j = 0
        · rw [if_pos hex, if_pos hex]
          exact Sim.ok ⟨rfl, rfl, (h5 hex.2.2).1⟩
        · rw [if_neg hex, if_neg hex]
          have hos : o.status = .matched := by rcases h7 with h7 | h7 <;> simp [h7, hst]
          have g1 : callFn none j B { o with qty := k } m' = .ok (({ o with qty := k }, none), m') := rfl
          rw [bind_ok_run g1]
          simp only [Takenoco.callFn, status_view, hos]
          refine Sim.ok ⟨?_, ⟨h4.frame, h4.ext, h4.src⟩, fun hb => ?_, ?_⟩
          · simp [HCtx.view]
          · rcases Nat.eq_zero_or_pos j with hj | hj
            · exact (h5 hj).2
            · have := h6 hj
              simp only
              omega
          · simp [hos]
  · simp only [bind_panic_run h1, h2]; rfl
  · simp only [bind_timeout_run h1, h2]; rfl

/-- Related ends of the `PARENT` loop, when up to `d` ASTs of the context are replaced. -/
def DeepLoopR (d : Nat) (m0 : Mem) (c0 : HCtx) (r : LoopEnd) (m' : Mem) (r' : Takenoco.LoopEnd) : Prop :=
  match r, r' with
  | .done k o, .done k' o' => k = k' ∧ o.view m' = o' ∧ Step m0 (low c0 d) m' o ∧ (k = 0 → Frame m0 m' c0.stack) ∧ o.status = .matched
  | .ret o e, .ret o' e' => e = e' ∧ o.view m' = o' ∧ Step m0 (low c0 d) m' o ∧ o.status = .error
  | _, _ => False

theorem deepLoop_sim {d b : Nat} {ex unb : Bool} {ps : List HSem} {qs : List Sem} (h : DeepKids d b ex ps qs) {m0 : Mem} {c0 : HCtx} (h0 : Usable m0 c0)
    (hd : d ≤ c0.stack.len) (B : Nat) : ∀ (n k : Nat) (m : Mem) (c : HCtx), (n ≤ 1 ∨ d ≤ b) → (n = 0 ∨ c0.stack.len ≤ c.stack.len) → Step m0 (low c0 d) m c →
      (k = 0 → Frame m0 m c0.stack) → c.status = .matched →
      Sim (DeepLoopR d m0 c0) (parentLoop unb (iteration none ex ps B) n k c m) (Takenoco.parentLoop unb (Takenoco.iteration none ex qs B) n k (c.view m))
  | 0, k, m, c, _, _, hs, hf, hst => by
    unfold parentLoop Takenoco.parentLoop
    cases unb with
    | true => rfl
    | false => exact Sim.ok ⟨rfl, rfl, hs, hf, hst⟩
  | n + 1, k, m, c, hn, hl, hs, hf, hst => by
    have hl : c0.stack.len ≤ c.stack.len := by omega
    have h0' : Usable m0 (low c0 d) := ⟨h0.arr, Nat.le_trans (Nat.sub_le _ _) h0.cap, h0.src⟩
    have hc := hs.usable h0'
    have down : Step m0 (low c0 d) m (low c d) := by
      have := hs.low (x := 0) (y := d) (by simp only [low, upTo]; omega)
      exact this
    unfold parentLoop Takenoco.parentLoop
    rcases (deepIter_sim h hc (by omega) hst B k).cases with ⟨r, m', r', h1, h2, h3⟩ | ⟨x, h1, h2⟩ | ⟨h1, h2⟩
    · simp only [bind_ok_run h1, h2]
      cases r with
      | brk o =>
        cases r' with
        | next _ => exact h3.elim
        | ret _ _ => exact h3.elim
        | brk o' =>
          obtain ⟨rfl, rfl, hg⟩ := h3
          refine Sim.ok ⟨rfl, view_frame hc hg, hs.trans (Step.back hc hg), fun hk => ?_, hst⟩
          have hf := hf hk
          refine ⟨Nat.le_trans hf.1 hg.1, fun a i ha hi => ?_⟩
          rw [hg.2 a i (Nat.lt_of_lt_of_le ha hf.1) fun he => ?_, hf.2 a i ha hi]
          rcases hs.ext.place with ⟨p1, p2⟩ | p1
          · have := hi (he.trans p1)
            simp only [low, upTo] at p2
            omega
          · omega
      | ret o e =>
        cases r' with
        | next _ => exact h3.elim
        | brk _ => exact h3.elim
        | ret _ _ => exact Sim.ok ⟨h3.1, h3.2.1, down.trans h3.2.2.1, h3.2.2.2⟩
      | next o =>
        cases r' with
        | ret _ _ => exact h3.elim
        | brk _ => exact h3.elim
        | next o' =>
          obtain ⟨rfl, h4, h5, h6⟩ := h3
          refine deepLoop_sim h h0 hd B n (k + 1) m' o (by omega) ?_ (down.trans h4) (fun h => absurd h (by omega)) h6
          rcases hn with hn | hn
          · left; omega
          · have := h5 hn; right; omega
    · simp only [bind_panic_run h1, h2]; rfl
    · simp only [bind_timeout_run h1, h2]; rfl

/-- `BaseParser` without a callback and without transformers. -/
theorem deepBase (w : World) (fuel : Nat) (cls : String) (props : List PropItem) {d b : Nat} {ps : List HSem} {qs : List Sem}
    (h : DeepKids d b (readProps props).thereExists ps qs) (hneg : (readProps props).negative = false) (hrew : (readProps props).rewind = false)
    (hmin : (readProps props).qty.min ≤ 1) (hmax : (0 ≤ (readProps props).qty.max ∧ (readProps props).qty.max ≤ 1) ∨ d ≤ b) :
    RefinesAt d (base w fuel cls none props ps none) (baseParser fuel cls none props qs none) := by
  intro c m hc hd
  unfold base baseParser
  simp only
  have hc0 : Usable m { c with cls := cls, status := .matched } := ⟨hc.arr, hc.cap, hc.src⟩
  have hn : (if decide ((readProps props).qty.max < 0) = true then fuel else (readProps props).qty.max.toNat) ≤ 1 ∨ d ≤ b := by
    rcases hmax with hm | hm
    · left
      rw [if_neg (by simp; omega)]
      omega
    · exact .inr hm
  have h1 := deepLoop_sim (unb := decide ((readProps props).qty.max < 0)) h hc0 hd c.stack.len
    (if decide ((readProps props).qty.max < 0) = true then fuel else (readProps props).qty.max.toNat) 0 m { c with cls := cls, status := .matched }
    hn (.inr (Nat.le_refl _)) ((Step.refl hc0).lower (d := 0) (Nat.zero_le d)) (fun _ => .refl _ _) rfl
  simp only [show ((c.view m).stack.length) = c.stack.len by simp [HCtx.view]]
  rcases h1.cases with ⟨r, m', r', g1, g2, h3⟩ | ⟨x, g1, g2⟩ | ⟨g1, g2⟩
  · have g2 : Takenoco.parentLoop (decide ((readProps props).qty.max < 0)) (Takenoco.iteration none (readProps props).thereExists qs c.stack.len)
      (if decide ((readProps props).qty.max < 0) = true then fuel else (readProps props).qty.max.toNat) 0
      { HCtx.view m c with cls := cls, status := .matched } = _ := g2
    simp only [bind_ok_run g1, g2]
    cases r with
    | ret o e =>
      cases r' with
      | ret o' e' =>
        obtain ⟨h4, h5, h6, h7⟩ := h3
        exact Sim.ok ⟨h4, h5, ⟨h6.frame, h6.ext, h6.src⟩, fun hu => by simp only [h7] at hu; cases hu⟩
      | done _ _ => exact h3.elim
    | done k o =>
      cases r' with
      | ret _ _ => exact h3.elim
      | done k' o' =>
        obtain ⟨rfl, rfl, h4, h5, h6⟩ := h3
        have h4 : Step m (low c d) m' o := ⟨h4.frame, h4.ext, h4.src⟩
        unfold afterLoop Takenoco.afterLoop
        simp only [hneg, hrew, negateStatus, Takenoco.negateStatus, Bool.false_eq_true, ↓reduceIte]
        by_cases hk : 0 ≤ (readProps props).qty.min ∧ (k : Int) < (readProps props).qty.min
        · simp only [checkMin, Takenoco.checkMin, hk, and_self, ↓reduceIte]
          refine Sim.ok ⟨rfl, rfl, ⟨h4.frame, h4.ext, h4.src⟩, fun _ _ => h5 (by omega)⟩
        · simp only [checkMin, Takenoco.checkMin, hk, ↓reduceIte, status_view, h6]
          refine Sim.ok ⟨rfl, ?_, ⟨h4.frame, h4.ext, h4.src⟩, fun hu => ?_⟩
          · simp [HCtx.view]
          · simp only [h6] at hu; cases hu
  · have g2 : Takenoco.parentLoop (decide ((readProps props).qty.max < 0)) (Takenoco.iteration none (readProps props).thereExists qs c.stack.len)
      (if decide ((readProps props).qty.max < 0) = true then fuel else (readProps props).qty.max.toNat) 0
      { HCtx.view m c with cls := cls, status := .matched } = _ := g2
    simp only [bind_panic_run g1, g2]; rfl
  · have g2 : Takenoco.parentLoop (decide ((readProps props).qty.max < 0)) (Takenoco.iteration none (readProps props).thereExists qs c.stack.len)
      (if decide ((readProps props).qty.max < 0) = true then fuel else (readProps props).qty.max.toNat) 0
      { HCtx.view m c with cls := cls, status := .matched } = _ := g2
    simp only [bind_timeout_run g1, g2]; rfl

/-! ### Grammars -/

theorem lookBehindBase_kids (w : World) (neg : Bool) (a b : Int) {ps : List HSem} {qs : List Sem} (hp : Kids false ps qs) :
    Refines (lookBehindBase w neg a b ps) (Takenoco.lookBehindBase neg a b qs) := by
  intro c m hc
  exact lookBehindLoop_sim neg (base_kids w 0 _ .none [.rewind] hp .none) hc _ _ m (.refl _ _)

theorem deepSeq_map (w : World) {env : Env} {n : Nat} (ih : ∀ d g, MatchSafe env d g → RefinesAt d (run w env n g) (Takenoco.run env n g)) {d b : Nat} :
    ∀ {gs : List Gram} {a : Nat}, MatchSeq env d b a gs → DeepSeq d b a (gs.map (run w env n)) (gs.map (Takenoco.run env n))
  | [], a, h => by cases h with | nil h => exact .nil h
  | g :: gs, a, h => by
    cases h with
    | last hg he hk hb => exact .last he (ih _ _ hg) (hk.imp_right fun hk c o => hk n c o) hb
    | cons hg he hk hs => exact .cons he (ih _ _ hg) (hk.imp_right fun hk c o => hk n c o) (deepSeq_map w ih hs)

theorem run_deep (w : World) {env : Env} (he : ∀ x, MatchSafe env 0 (env x)) : ∀ n,
    (∀ d g, MatchSafe env d g → RefinesAt d (run w env n g) (Takenoco.run env n g)) ∧
    (∀ t, MatchSafeTr env t → RefinesT (runTr w env n t) (Takenoco.runTr env n t))
  | 0 => ⟨fun d g _ c m _ _ => by rw [run.eq_def, Takenoco.run.eq_def]; rfl, fun t _ c m s _ _ => by rw [runTr.eq_def, Takenoco.runTr.eq_def]; rfl⟩
  | n + 1 => by
    obtain ⟨ih, iht⟩ := run_deep w he n
    have hm : ∀ {gs : List Gram}, (∀ g ∈ gs, MatchSafe env 0 g) → Pairs Refines (gs.map (run w env n)) (gs.map (Takenoco.run env n)) :=
      fun {gs} h => pairs_map gs fun g hg => (ih 0 g (h g hg)).refines
    have hmt : ∀ {ts : List Tr}, (∀ t ∈ ts, MatchSafeTr env t) → Pairs RefinesT (ts.map (runTr w env n)) (ts.map (Takenoco.runTr env n)) :=
      fun {ts} h => pairs_map ts fun t ht => iht t (h t ht)
    have hq : ∀ {b : Nat} {gs : List Gram}, MatchSeq env 0 b 0 gs → Kids false (gs.map (run w env n)) (gs.map (Takenoco.run env n)) :=
      fun h => (deepSeq_map w ih h).kids.kids
    have h0 : ∀ {d : Nat} {p : HSem} {q : Sem}, Refines p q → RefinesAt d p q := fun h => (RefinesAt.of h).mono (Nat.zero_le _)
    constructor
    · intro d g hg
      rw [run.eq_def, Takenoco.run.eq_def]
      cases hg with
      | prim h => exact h0 (terminal_refines w h)
      | @«match» _ k cases hd h =>
        refine light_deep (RefinesAt.mono (matchFn_deep w k ?_) hd)
        exact pairs_map cases fun c hc => ⟨rfl, hmt (h c hc)⟩
      | flatGroup h => exact deepBase w _ _ [] (deepSeq_map w ih h).kids rfl rfl (by decide) (.inl (by decide))
      | first h =>
        exact deepBase w _ _ [.thereExists] (deepFirst_kids (b := 0) (pairs_map _ fun g hg => ⟨ih _ g (h g hg), .inl rfl⟩)) rfl rfl (by decide) (.inl (by decide))
      | @loop _ b t gs ht hb h => exact deepBase w _ _ [.times t] (deepSeq_map w ih h).kids rfl rfl ht hb
      | group h => exact h0 (base_kids w _ _ .none [] (hq h) (.some (.cons (transformer_refines w _) .nil)))
      | lookAhead h => exact h0 (base_kids w _ _ .none [.rewind] (hq h) .none)
      | lookAheadN h => exact h0 (base_kids w _ _ .none [.negative, .rewind] (hq h) .none)
      | lookBehind h => exact h0 (lookBehindBase_kids w _ _ _ (hq h))
      | lookBehindN h => exact h0 (lookBehindBase_kids w _ _ _ (hq h))
      | @«repeat» _ b t gs h => exact h0 (base_kids w _ _ .none [.times t] (hq h) .none)
      | @trans _ g trs h ht =>
        refine h0 (base_refines w _ _ .none _ (.cons (ih _ _ h).refines .nil) ?_)
        cases trs with
        | nil => exact .none
        | cons t ts => exact .some (hmt ht)
      | indirect => exact h0 (light_refines (ih _ _ (he _)).refines)
      | @base _ cls fn props gs tr hf h ht =>
        refine h0 (base_refines w _ _ ?_ _ (hm h) ?_)
        · cases fn with
          | none => exact .none
          | some f => exact .some (hf f rfl)
        · cases tr with
          | none => exact .none
          | some ts => exact .some (hmt (ht ts rfl))
    · intro t ht
      rw [runTr.eq_def, Takenoco.runTr.eq_def]
      cases ht with
      | fn => exact transformer_refines w _
      | @production precs check hp hc =>
        intro c m s hu hs
        exact productionLoop_sim w (pairs_map precs fun p hp' => ⟨hm (hp p hp'), rfl⟩) (ih _ _ hc).refines c.tag n m s hs

end Heap
end Takenoco
