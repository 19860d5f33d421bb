import Verif.Lemmas.Heap
/-
Look-behind, `ProductionRule` and whole grammars with slices.
-/
namespace Takenoco
open Spec
namespace Heap

theorem lookBehindLoop_sim (neg : Bool) {p : HSem} {q : Sem} (hp : Refines p q) {c : HCtx} {m0 : Mem} (hc : Usable m0 c) :
    ∀ (k : Nat) (i : Int) (m : Mem), Frame m0 m c.stack →
      Sim (fun r m' o => r.2 = o.2 ∧ r.1.view m' = o.1 ∧ Step m0 c m' r.1) (lookBehindLoop neg p c k i m) (Takenoco.lookBehindLoop neg q (c.view m0) k i)
  | 0, i, m, h => by
    refine Sim.ok ⟨rfl, ?_, ?_⟩
    · simp only [HCtx.view]; rw [src_frame hc h, h.read hc.arr fun _ => Nat.le_refl _]
    · have := Step.back hc h; exact ⟨this.frame, this.ext, this.src⟩
  | k + 1, i, m, h => by
    unfold lookBehindLoop Takenoco.lookBehindLoop
    have hpos : (c.view m0).pos = c.pos := rfl
    rw [hpos]
    by_cases hn : (c.pos : Int) - i < 0
    · rw [if_pos hn, if_pos hn]; exact lookBehindLoop_sim neg hp hc k (i + 1) m h
    · rw [if_neg hn, if_neg hn]
      have hu : Usable m { c with pos := ((c.pos : Int) - i).toNat } :=
        let hl := usable_later hc h.1; ⟨hl.arr, hl.cap, hl.src⟩
      have hv : HCtx.view m { c with pos := ((c.pos : Int) - i).toNat } = { HCtx.view m0 c with pos := ((c.pos : Int) - i).toNat } := by
        simp only [HCtx.view]; rw [src_frame hc h, h.read hc.arr fun _ => Nat.le_refl _]
      have hb := Step.back hc h
      rcases (hp _ m hu).cases with ⟨⟨o, e⟩, m', ⟨o', e'⟩, h1, h2, h3, h4, h5⟩ | ⟨x, h1, h2⟩ | ⟨h1, h2⟩
      · rw [hv] at h2
        simp only at h3 h4
        subst h3 h4
        have h5 : Step m c m' o := ⟨h5.frame, h5.ext, h5.src⟩
        have h6 := hb.trans h5
        simp only [bind_ok_run h1, h2]
        cases e with
        | some e => exact Sim.ok ⟨rfl, rfl, h6⟩
        | none =>
          simp only [status_view]
          by_cases hst : o.status = .matched
          · simp only [hst, ↓reduceIte]
            cases neg with
            | true => exact Sim.ok ⟨rfl, rfl, h6.frame, h6.ext, h6.src⟩
            | false =>
              refine Sim.ok ⟨rfl, view_frame hc h6.frame, Step.back hc h6.frame⟩
          · simp only [hst, ↓reduceIte]
            exact lookBehindLoop_sim neg hp hc k (i + 1) m' h6.frame
      · rw [hv] at h2; simp only [bind_panic_run h1, h2]; rfl
      · rw [hv] at h2; simp only [bind_timeout_run h1, h2]; rfl

theorem lookBehindBase_refines (w : World) (neg : Bool) (a b : Int) {ps : List HSem} {qs : List Sem} (hp : Pairs Refines ps qs) :
    Refines (lookBehindBase w neg a b ps) (Takenoco.lookBehindBase neg a b qs) := by
  intro c m hc
  exact lookBehindLoop_sim neg (base_refines w 0 _ .none _ hp .none) hc _ _ m (.refl _ _)

/-! ### `ProductionRule` -/

/-- The context of a round: its stack is an array of its own, and its source is the sequence of ASTs. -/
structure Round (m0 m : Mem) (asts : Slice) (tag : Value) (c : HCtx) : Prop where
  keeps : Keeps m0 m
  usable : Usable m c
  new : m0.next ≤ c.stack.arr
  view : c.view m = newObjCtx (astSliceSrc (m0.read asts)) tag

/-- What a search with slices and one with lists have in common. -/
def SearchR (m0 : Mem) (s : Search) (m' : Mem) (t : Takenoco.Search) : Prop :=
  Keeps m0 m' ∧ match s, t with
    | .noMatch, .noMatch => True
    | .rewritten z, .rewritten l => m'.read z = l ∧ z.arr < m'.next
    | .err e, .err e' => e = e'
    | _, _ => False

theorem newContext_round {m : Mem} {asts : Slice} (ha : asts.arr < m.next) (tag : Value) {m0 : Mem} (hk : Keeps m0 m) (ha0 : asts.arr < m0.next) :
    ∃ c m', newContext asts tag m = .ok (c, m') ∧ Round m0 m' asts tag c := by
  obtain ⟨s, m', h1, h2, h3, h4, h5, h6, h7⟩ := make_spec [] 1024 m (by simp)
  refine ⟨_, m', by unfold newContext; rw [bind_ok_run h1]; rfl, hk.trans h3, ⟨h5, h7, ?_⟩, Nat.le_trans hk.1 h4, ?_⟩
  · intro t ht
    injection ht with ht
    injection ht with ht
    subst ht
    exact ⟨Nat.lt_of_lt_of_le ha h3.1, by simp only; omega⟩
  · simp only [HCtx.view, newObjCtx, Option.map_some, Mem.src, h2]
    rw [(hk.trans h3).read ha0]

theorem Round.later {m0 m m' : Mem} {asts : Slice} {tag : Value} {c : HCtx} (h : Round m0 m asts tag c) (hf : Frame m m' c.stack) : Round m0 m' asts tag c :=
  ⟨hf.keeps h.keeps h.new, usable_later h.usable hf.1, h.new, (view_frame h.usable hf).trans h.view⟩

theorem load_run (s : Slice) (m : Mem) : load s m = .ok (m.read s, m) := rfl

/-- The new sequence of ASTs: production.go:52-58. -/
theorem rewritten_spec (w : World) {m : Mem} {asts s : Slice} {p q : Nat} (ha : asts.arr < m.next) (hs : s.arr < m.next) (hp : p ≤ asts.len) :
    ∃ z1 m1 z2 m2 z3 m3 z4 m4, make [] asts.len m = .ok (z1, m1) ∧ append w z1 (m1.read (upTo asts p)) m1 = .ok (z2, m2) ∧
      append w z2 (m2.read s) m2 = .ok (z3, m3) ∧ append w z3 (m3.read (from_ asts q)) m3 = .ok (z4, m4) ∧
      m4.read z4 = (m.read asts).take p ++ m.read s ++ (m.read asts).drop q ∧ z4.arr < m4.next ∧ Keeps m m4 := by
  obtain ⟨z1, m1, h1, h2, h3, h4, h5, h6, h7⟩ := make_spec [] asts.len m (by simp)
  obtain ⟨z2, m2, g1, g2, g3, g4, g5⟩ := append_spec w h5 h7 (m1.read (upTo asts p))
  obtain ⟨z3, m3, i1, i2, i3, i4, i5⟩ := append_spec w g4.arr g4.cap (m2.read s)
  obtain ⟨z4, m4, j1, j2, j3, j4, j5⟩ := append_spec w i4.arr i4.cap (m3.read (from_ asts q))
  have k2 : Keeps m m2 := g3.keeps h3 h4
  have a2 : m.next ≤ z2.arr := by
    rcases g4.place with ⟨h, -⟩ | h
    · omega
    · exact Nat.le_trans h3.1 h
  have k3 : Keeps m m3 := i3.keeps k2 a2
  have a3 : m.next ≤ z3.arr := by
    rcases i4.place with ⟨h, -⟩ | h
    · omega
    · exact Nat.le_trans k2.1 h
  refine ⟨z1, m1, z2, m2, z3, m3, z4, m4, h1, g1, i1, j1, ?_, j4.arr, j3.keeps k3 a3⟩
  rw [j2, i2, g2, h2, read_from, k3.read ha, k2.read hs, h3.read (s := upTo asts p) ha, read_upTo _ _ _ hp, List.nil_append]

theorem tryRules_sim (w : World) {m0 : Mem} {asts : Slice} (ha : asts.arr < m0.next) {tag : Value} {c : HCtx} {p : Nat} (hp : p ≤ asts.len)
    {ps : List HSem} {qs : List Sem} (hr : Pairs Refines ps qs) : ∀ m, Round m0 m asts tag c →
    Sim (fun s m' t => SearchR m0 s m' t ∧ Round m0 m' asts tag c) (tryRules w c asts p ps m)
      (Takenoco.tryRules (newObjCtx (astSliceSrc (m0.read asts)) tag) (m0.read asts) p qs) := by
  induction hr with
  | nil => intro m h; exact Sim.ok ⟨⟨h.keeps, trivial⟩, h⟩
  | @cons r q ps qs hrq _ ih =>
    intro m h
    unfold tryRules Takenoco.tryRules
    have hu : Usable m { c with pos := p } := ⟨h.usable.arr, h.usable.cap, h.usable.src⟩
    have hv : HCtx.view m { c with pos := p } = { newObjCtx (astSliceSrc (m0.read asts)) tag with pos := p } := by
      rw [← h.view]; rfl
    rcases (hrq _ m hu).cases with ⟨⟨o, e⟩, m', ⟨o', e'⟩, h1, h2, h3, h4, h5⟩ | ⟨x, h1, h2⟩ | ⟨h1, h2⟩
    · rw [hv] at h2
      simp only at h3 h4
      subst h3 h4
      have hR := h.later h5.frame
      simp only [bind_ok_run h1, h2]
      cases e with
      | some e => exact Sim.ok ⟨⟨hR.keeps, rfl⟩, hR⟩
      | none =>
        simp only [status_view]
        by_cases hst : o.status = .matched
        · simp only [ne_eq, hst, not_true_eq_false, ↓reduceIte]
          obtain ⟨z1, m1, z2, m2, z3, m3, z4, m4, i1, i2, i3, i4, i5, i6, i7⟩ :=
            rewritten_spec w (q := o.pos) (Nat.lt_of_lt_of_le ha hR.keeps.1) (h5.usable hu).arr hp
          rw [bind_ok_run i1, bind_ok_run (load_run _ _), bind_ok_run i2, bind_ok_run (load_run _ _), bind_ok_run i3]
          simp only [length_read, show (o.view m').pos = o.pos from rfl]
          by_cases hl : asts.len < o.pos
          · simp only [hl, ↓reduceIte]; rfl
          · simp only [hl, ↓reduceIte]
            rw [bind_ok_run (load_run _ _), bind_ok_run i4, pure_run]
            refine Sim.ok ⟨⟨hR.keeps.trans i7, ?_, i6⟩, hR.later (i7.frame _)⟩
            rw [i5, hR.keeps.read ha]; rfl
        · simp only [ne_eq, hst, not_false_eq_true, ↓reduceIte]
          exact ih m' hR
    · rw [hv] at h2; simp only [bind_panic_run h1, h2]; rfl
    · rw [hv] at h2; simp only [bind_timeout_run h1, h2]; rfl

theorem tryPositions_sim (w : World) {m0 : Mem} {asts : Slice} (ha : asts.arr < m0.next) {tag : Value} {c : HCtx}
    {ps : List HSem} {qs : List Sem} (hr : Pairs Refines ps qs) (rtol : Bool) : ∀ (k i : Nat) (m : Mem), k + i ≤ asts.len + 1 → Round m0 m asts tag c →
    Sim (SearchR m0) (tryPositions w c asts ps rtol k i m)
      (Takenoco.tryPositions (newObjCtx (astSliceSrc (m0.read asts)) tag) (m0.read asts) qs rtol k i)
  | 0, i, m, _, h => Sim.ok ⟨h.keeps, trivial⟩
  | k + 1, i, m, hi, h => by
    unfold tryPositions Takenoco.tryPositions
    rw [length_read]
    have hp : (if rtol = true then asts.len - i else i) ≤ asts.len := by split <;> omega
    rcases (tryRules_sim w ha hp hr m h).cases with ⟨s, m', t, h1, h2, h3, h4⟩ | ⟨x, h1, h2⟩ | ⟨h1, h2⟩
    · simp only [bind_ok_run h1, h2]
      cases s with
      | noMatch =>
        cases t with
        | noMatch => exact tryPositions_sim w ha hr rtol k (i + 1) m' (by omega) h4
        | rewritten _ => exact h3.2.elim
        | err _ => exact h3.2.elim
      | rewritten z =>
        cases t with
        | noMatch => exact h3.2.elim
        | rewritten _ => exact Sim.ok h3
        | err _ => exact h3.2.elim
      | err e =>
        cases t with
        | noMatch => exact h3.2.elim
        | rewritten _ => exact h3.2.elim
        | err _ => exact Sim.ok h3
    · simp only [bind_panic_run h1, h2]; rfl
    · simp only [bind_timeout_run h1, h2]; rfl

theorem tryPrecedences_sim (w : World) {m0 : Mem} {asts : Slice} (ha : asts.arr < m0.next) (tag : Value) {ps : List (List HSem × Bool)}
    {qs : List (List Sem × Bool)} (hr : Pairs (fun p q => Pairs Refines p.1 q.1 ∧ p.2 = q.2) ps qs) : ∀ m, Keeps m0 m →
    Sim (SearchR m0) (tryPrecedences w tag asts ps m) (Takenoco.tryPrecedences tag (m0.read asts) qs) := by
  induction hr with
  | nil => intro m h; exact Sim.ok ⟨h, trivial⟩
  | @cons p q ps qs hpq _ ih =>
    intro m h
    obtain ⟨rs, b⟩ := p
    obtain ⟨rs', b'⟩ := q
    obtain ⟨hrs, hb⟩ := hpq
    simp only at hrs hb
    subst hb
    unfold tryPrecedences Takenoco.tryPrecedences
    obtain ⟨c, m1, h1, h2⟩ := newContext_round (Nat.lt_of_lt_of_le ha h.1) tag h ha
    rw [bind_ok_run h1, length_read]
    rcases (tryPositions_sim w ha hrs b (asts.len + 1) 0 m1 (by omega) h2).cases with ⟨s, m', t, h1, h2, h3⟩ | ⟨x, h1, h2⟩ | ⟨h1, h2⟩
    · simp only [bind_ok_run h1, h2]
      cases s with
      | noMatch =>
        cases t with
        | noMatch => exact ih m' h3.1
        | rewritten _ => exact h3.2.elim
        | err _ => exact h3.2.elim
      | rewritten z =>
        cases t with
        | noMatch => exact h3.2.elim
        | rewritten _ => exact Sim.ok h3
        | err _ => exact h3.2.elim
      | err e =>
        cases t with
        | noMatch => exact h3.2.elim
        | rewritten _ => exact h3.2.elim
        | err _ => exact Sim.ok h3
    · simp only [bind_panic_run h1, h2]; rfl
    · simp only [bind_timeout_run h1, h2]; rfl

theorem checkHolds_sim {check : HSem} {check' : Sem} (hc : Refines check check') (tag : Value) {asts : Slice} {m : Mem} (ha : asts.arr < m.next) :
    Sim (fun b m' b' => b = b' ∧ Keeps m m') (checkHolds check tag asts m) (Takenoco.checkHolds check' tag (m.read asts)) := by
  unfold checkHolds Takenoco.checkHolds
  obtain ⟨c, m1, h1, h2⟩ := newContext_round ha tag (.refl m) ha
  rw [bind_ok_run h1]
  rcases (hc c m1 h2.usable).cases with ⟨⟨o, e⟩, m', ⟨o', e'⟩, h1, g2, h3, h4, h5⟩ | ⟨x, h1, g2⟩ | ⟨h1, g2⟩
  · rw [h2.view] at g2
    simp only at h3 h4
    subst h3 h4
    simp only [bind_ok_run h1, g2]
    exact Sim.ok ⟨rfl, (h2.later h5.frame).keeps⟩
  · rw [h2.view] at g2; simp only [bind_panic_run h1, g2]; rfl
  · rw [h2.view] at g2; simp only [bind_timeout_run h1, g2]; rfl

theorem productionLoop_sim (w : World) {ps : List (List HSem × Bool)}
    {qs : List (List Sem × Bool)} (hr : Pairs (fun p q => Pairs Refines p.1 q.1 ∧ p.2 = q.2) ps qs) {check : HSem} {check' : Sem} (hc : Refines check check')
    (tag : Value) : ∀ (n : Nat) (m : Mem) (asts : Slice), asts.arr < m.next →
    Sim (fun r m' o => r.2 = o.2 ∧ m'.read r.1 = o.1 ∧ Keeps m m' ∧ (r.2 = none → r.1.arr < m'.next)) (productionLoop w ps check tag n asts m)
      (Takenoco.productionLoop qs check' tag n (m.read asts))
  | 0, m, asts, _ => rfl
  | n + 1, m, asts, ha => by
    unfold productionLoop Takenoco.productionLoop
    rcases (tryPrecedences_sim w ha tag hr m (.refl m)).cases with ⟨s, m', t, h1, h2, h3⟩ | ⟨x, h1, h2⟩ | ⟨h1, h2⟩
    · simp only [bind_ok_run h1, h2]
      have ha' : asts.arr < m'.next := Nat.lt_of_lt_of_le ha h3.1.1
      cases s with
      | noMatch =>
        cases t with
        | noMatch =>
          have hck := checkHolds_sim hc tag ha'
          rw [h3.1.read ha] at hck
          rcases hck.cases with ⟨b, m2, b', g1, g2, g3, g4⟩ | ⟨x, g1, g2⟩ | ⟨g1, g2⟩
          · subst g3
            simp only [bind_ok_run g1, g2]
            cases b with
            | true => exact Sim.ok ⟨rfl, (h3.1.trans g4).read ha, h3.1.trans g4, fun _ => Nat.lt_of_lt_of_le ha' g4.1⟩
            | false => exact Sim.ok ⟨rfl, rfl, h3.1.trans g4, fun h => nomatch h⟩
          · simp only [bind_panic_run g1, g2]; rfl
          · simp only [bind_timeout_run g1, g2]; rfl
        | rewritten _ => exact h3.2.elim
        | err _ => exact h3.2.elim
      | rewritten z =>
        cases t with
        | noMatch => exact h3.2.elim
        | rewritten l =>
          obtain ⟨hk, rfl, hz⟩ := h3
          rcases (checkHolds_sim hc tag hz).cases with ⟨b, m2, b', g1, g2, g3, g4⟩ | ⟨x, g1, g2⟩ | ⟨g1, g2⟩
          · subst g3
            simp only [bind_ok_run g1, g2]
            cases b with
            | true => exact Sim.ok ⟨rfl, g4.read hz, hk.trans g4, fun _ => Nat.lt_of_lt_of_le hz g4.1⟩
            | false =>
              have := productionLoop_sim w hr hc tag n m2 z (Nat.lt_of_lt_of_le hz g4.1)
              rw [g4.read hz] at this
              exact this.mono fun r m3 o h => ⟨h.1, h.2.1, (hk.trans g4).trans h.2.2.1, h.2.2.2⟩
          · simp only [bind_panic_run g1, g2]; rfl
          · simp only [bind_timeout_run g1, g2]; rfl
        | err _ => exact h3.2.elim
      | err e =>
        cases t with
        | noMatch => exact h3.2.elim
        | rewritten _ => exact h3.2.elim
        | err _ =>
          obtain ⟨hk, rfl⟩ := h3
          exact Sim.ok ⟨rfl, rfl, hk, fun h => nomatch h⟩
    · simp only [bind_panic_run h1, h2]; rfl
    · simp only [bind_timeout_run h1, h2]; rfl

/-! ### Grammars -/

theorem run_refines (w : World) {env : Env} (he : ∀ x, MatchFree (env x)) : ∀ n,
    (∀ g, MatchFree g → Refines (run w env n g) (Takenoco.run env n g)) ∧ (∀ t, MatchFreeTr t → RefinesT (runTr w env n t) (Takenoco.runTr env n t))
  | 0 => ⟨fun g _ c m _ => by rw [run.eq_def, Takenoco.run.eq_def]; rfl, fun t _ c m s _ _ => by rw [runTr.eq_def, Takenoco.runTr.eq_def]; rfl⟩
  | n + 1 => by
    obtain ⟨ih, iht⟩ := run_refines w he n
    have hm : ∀ {gs : List Gram}, (∀ g ∈ gs, MatchFree g) → Pairs Refines (gs.map (run w env n)) (gs.map (Takenoco.run env n)) :=
      fun {gs} h => pairs_map gs fun g hg => ih g (h g hg)
    have hmt : ∀ {ts : List Tr}, (∀ t ∈ ts, MatchFreeTr t) → Pairs RefinesT (ts.map (runTr w env n)) (ts.map (Takenoco.runTr env n)) :=
      fun {ts} h => pairs_map ts fun t ht => iht t (h t ht)
    constructor
    · intro g hg
      rw [run.eq_def, Takenoco.run.eq_def]
      cases hg with
      | prim h => exact terminal_refines w h
      | flatGroup h => exact base_refines w _ _ .none _ (hm h) .none
      | group h => exact base_refines w _ _ .none _ (hm h) (.some (.cons (transformer_refines w _) .nil))
      | first h => exact base_refines w _ _ .none _ (hm h) .none
      | lookAhead h => exact base_refines w _ _ .none _ (hm h) .none
      | lookAheadN h => exact base_refines w _ _ .none _ (hm h) .none
      | lookBehind h => exact lookBehindBase_refines w _ _ _ (hm h)
      | lookBehindN h => exact lookBehindBase_refines w _ _ _ (hm h)
      | «repeat» h => exact base_refines w _ _ .none _ (hm h) .none
      | @trans g trs h ht =>
        refine base_refines w _ _ .none _ (.cons (ih _ h) .nil) ?_
        cases trs with
        | nil => exact .none
        | cons t ts => exact .some (hmt ht)
      | indirect => exact light_refines (ih _ (he _))
      | @base cls fn props gs tr hf h ht =>
        refine base_refines w _ _ ?_ _ (hm h) ?_
        · cases fn with
          | none => exact .none
          | some f => exact .some (hf f rfl)
        · cases tr with
          | none => exact .none
          | some ts => exact .some (hmt (ht ts rfl))
    · intro t ht
      rw [runTr.eq_def, Takenoco.runTr.eq_def]
      cases ht with
      | fn => exact transformer_refines w _
      | @production precs check hp hc =>
        intro c m s hu hs
        exact productionLoop_sim w (pairs_map precs fun p hp' => ⟨hm (hp p hp'), rfl⟩) (ih _ hc) c.tag n m s hs

end Heap
end Takenoco
