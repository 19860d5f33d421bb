import Verif.Lemmas.Depth
/-
Bounds for the nesting of parser calls, with recursion.
-/
namespace Takenoco
open Spec Trace

variable {S : Sources}

/-- The parser nests calls at most `B` deep when at most `m` of the source is left. -/
def DeepP (S : Sources) (m B : Nat) (e : Bool) (p : Trace.Parser) : Prop :=
  ∀ c, Inside S c → S.size c - c.pos ≤ m → Deep (p c) B (GoodRes S e c)

/-- The same for a sequence. -/
def DeepSeq (S : Sources) (m B : Nat) (e : Bool) (ps : List Trace.Parser) : Prop :=
  ∀ k c, Inside S c → S.size c - c.pos ≤ m → Deep (Trace.childLoop false ps k c) B (ChildGood S e c)

/-- The same for the alternatives of a choice. -/
def DeepAlts (S : Sources) (m B : Nat) (e : Bool) (ps : List Trace.Parser) : Prop :=
  ∀ k c, Inside S c → S.size c - c.pos ≤ m → Deep (Trace.childLoop true ps k c) B (AltGood S e c k)

/-- The same for an iteration. -/
def DeepIter (S : Sources) (m B : Nat) (e : Bool) (body : Nat → Ctx → M IterEnd) : Prop :=
  ∀ count c, Inside S c → S.size c - c.pos ≤ m → Deep (body count c) B (IterGood S e c)

theorem fwd_rem {e : Bool} {c o : Ctx} {m : Nat} (h : Fwd S e c o) (hm : S.size c - c.pos ≤ m) : S.size o - o.pos ≤ m := by
  rw [h.size]; have := h.1; omega

section
variable {m B : Nat} {e : Bool}

theorem deepSeq_nil : DeepSeq S m B false [] := fun _ _ hc _ => deep_pure ⟨hc.1, .refl hc.2.2⟩

theorem deepSeq_cons {e' e'' : Bool} {p : Trace.Parser} {ps : List Trace.Parser} (hp : DeepP S m B e p)
    (h : ∀ k c o, Inside S c → S.size c - c.pos ≤ m → Fwd S e c o → Inside S o → Deep (Trace.childLoop false ps k o) B (ChildGood S e' o))
    (he : (e || e') = e'') : DeepSeq S m B e'' (p :: ps) := by
  intro k c hc hm
  subst he
  rw [Trace.childLoop]
  refine (hp c hc hm).bind fun r hr => ?_
  obtain ⟨o, err⟩ := r
  simp only [GoodRes] at hr
  simp only
  split
  next hs => exact deep_pure hs
  next hs => exact deep_pure (P := ChildGood S (e || e') c) trivial
  next hs =>
    have ho := hr hs
    have hfix : fixStatus o err = o := by
      unfold fixStatus at hs ⊢; split <;> simp_all
    rw [hfix] at hs ⊢
    simp only [Bool.false_eq_true, if_false]
    refine (h (k + 1) c o hc hm ho (ho.inside hc hs)).mono (Nat.le_refl _) fun r hr => ?_
    cases r with
    | fell k o' => exact ⟨hr.1, ho.trans hr.2⟩
    | unmatched => trivial
    | ret o e => exact hr

theorem deepAlts_nil : DeepAlts S m B true [] := fun _ _ hc _ => deep_pure ⟨hc.1, .inl rfl⟩

theorem deepAlts_cons {e' : Bool} {p : Trace.Parser} {ps : List Trace.Parser} (hp : DeepP S m B e p) (ih : DeepAlts S m B e' ps) :
    DeepAlts S m B (e && e') (p :: ps) := by
  intro k c hc hm
  rw [Trace.childLoop]
  refine (hp c hc hm).bind fun r hr => ?_
  obtain ⟨o, err⟩ := r
  simp only [GoodRes] at hr
  simp only
  split
  next hs => exact deep_pure hs
  next hs =>
    simp only [if_true]
    refine (ih k c hc hm).mono (Nat.le_refl _) fun r hr => ?_
    cases r with
    | fell k o =>
      refine ⟨hr.1, hr.2.imp id fun h => ?_⟩
      cases e' with
      | true => exact h.weaken
      | false => simpa using h
    | unmatched => trivial
    | ret o e => exact hr
  next hs =>
    have ho := hr hs
    have hfix : fixStatus o err = o := by
      unfold fixStatus at hs ⊢; split <;> simp_all
    rw [hfix] at hs ⊢
    simp only [if_true]
    refine deep_pure ⟨hs, .inr ?_⟩
    cases e with
    | true => exact ho.weaken
    | false => simpa using ho

theorem deep_iteration {ps : List Trace.Parser} (h : DeepSeq S m B e ps) (bottom : Nat) : DeepIter S m B e (Trace.iteration none false ps bottom) := by
  intro count c hc hm
  unfold Trace.iteration
  refine (h 0 c hc hm).bind fun r hr => ?_
  cases r with
  | ret o e => exact deep_pure hr
  | unmatched => exact deep_pure (P := IterGood S e c) rfl
  | fell k o =>
    simp only [Bool.false_eq_true, false_and, if_false]
    refine Deep.bind (P := fun r => r = ({ o with qty := count }, none)) (deep_lift fun a ha => by cases ha; rfl) ?_
    rintro _ rfl
    simp only [hr.1]
    exact deep_pure ⟨rfl, hr.2⟩

theorem deep_choice {ps : List Trace.Parser} (h : DeepAlts S m B e ps) (hne : ps ≠ []) (bottom : Nat) :
    DeepIter S m B e (Trace.iteration none true ps bottom) := by
  intro count c hc hm
  unfold Trace.iteration
  refine (h 0 c hc hm).bind fun r hr => ?_
  cases r with
  | ret o e => exact deep_pure hr
  | unmatched => exact deep_pure (P := IterGood S e c) rfl
  | fell k o =>
    by_cases hk : k = 0
    · have : 0 < ps.length := List.length_pos_iff.2 hne
      simp only [hk, this, and_self, if_true]
      exact deep_pure (P := IterGood S e c) rfl
    · simp only [hk, and_false, if_false]
      refine Deep.bind (P := fun r => r = ({ o with qty := count }, none)) (deep_lift fun a ha => by cases ha; rfl) ?_
      rintro _ rfl
      simp only [hr.1]
      exact deep_pure ⟨rfl, hr.2.resolve_left hk⟩

theorem deep_loop {body : Nat → Ctx → M IterEnd} (h : DeepIter S m B e body) (u : Bool) :
    ∀ k count c, Inside S c → S.size c - c.pos ≤ m → Deep (Trace.parentLoop u body k count c) B (LoopGood S e count c) := by
  intro k
  induction k with
  | zero =>
    intro count c hc _
    unfold Trace.parentLoop
    split
    · exact deep_lift (by simp)
    · exact deep_pure ⟨hc.1, Nat.le_refl _, .refl hc.2.2, fun _ h => by omega⟩
  | succ k ih =>
    intro count c hc hm
    unfold Trace.parentLoop
    refine (h count c hc hm).bind fun r hr => ?_
    cases r with
    | ret o e => exact deep_pure hr
    | brk o =>
      cases (show o = c from hr)
      exact deep_pure ⟨hc.1, Nat.le_refl _, .refl hc.2.2, fun _ h => by omega⟩
    | next o =>
      exact (ih (count + 1) o (hr.2.inside hc hr.1) (fwd_rem hr.2 hm)).mono (Nat.le_refl _) fun r h => LoopGood.next hr.2 h

theorem deep_applyTransforms {tr : Option (List Trace.Transformer)} (htr : ∀ ts, tr = some ts → ∀ t ∈ ts, ∀ c l, Shallow B (t c l)) {ctx out c : Ctx}
    (h : Fwd S e c out) : Deep (Trace.applyTransforms tr ctx out) B (GoodRes S e c) := by
  cases tr with
  | none => exact deep_pure fun _ => h
  | some ts =>
    simp only [Trace.applyTransforms]
    split
    · exact deep_lift (by simp)
    · refine Deep.bind (shallow_applyTrs (htr ts rfl) ctx _) fun r _ => ?_
      obtain ⟨l, e⟩ := r
      cases e with
      | none => exact deep_pure fun _ => h
      | some e => exact deep_pure fun hs => by simp [fixStatus] at hs

theorem deep_afterLoop {f : Flags} {tr : Option (List Trace.Transformer)} (htr : ∀ ts, tr = some ts → ∀ t ∈ ts, ∀ c l, Shallow B (t c l))
    {ctx out c : Ctx} {count : Nat} (hr : f.rewind = true → Fwd S e c ctx)
    (h : f.rewind = false → f.negative = false ∧ (f.qty.min ≤ count → Fwd S e c out)) : Deep (Trace.afterLoop f none tr ctx count out) B (GoodRes S e c) := by
  unfold Trace.afterLoop
  simp only
  split
  next hs => exact deep_pure fun h => absurd (by simpa [fixStatus] using h) hs
  next hs =>
    refine Deep.bind (P := fun r => r = ({ negateStatus f.negative (checkMin f.qty.min count out) with qty := count }, none))
      (deep_lift fun a ha => by cases ha; rfl) ?_
    rintro _ rfl
    simp only
    split
    next hs' => exact deep_pure fun h => absurd (by simpa [fixStatus] using h) hs'
    next hs' =>
      split
      next hrw => exact deep_applyTransforms htr (hr hrw)
      next hrw =>
        obtain ⟨hn, hf⟩ := h (by simpa using hrw)
        refine deep_applyTransforms htr ?_
        by_cases hmin : f.qty.min ≤ count
        · have := hf hmin
          have hck : checkMin f.qty.min count out = out := by
            unfold checkMin; split <;> first | omega | rfl
          simp only [hn, negateStatus, hck, Bool.false_eq_true, if_false]
          exact this
        · have h0 : 0 ≤ f.qty.min ∧ (count : Int) < f.qty.min := by omega
          rw [hn] at hs
          simp [negateStatus, checkMin, h0] at hs

theorem deep_base {e' : Bool} {fuel : Nat} {cls : String} {props : List PropItem} {ps : List Trace.Parser}
    {tr : Option (List Trace.Transformer)} (htr : ∀ ts, tr = some ts → ∀ t ∈ ts, ∀ c l, Shallow B (t c l))
    (hit : ∀ bottom, DeepIter S m B e (Trace.iteration none (readProps props).thereExists ps bottom))
    (hr : (readProps props).rewind = true → e' = false)
    (hn : (readProps props).rewind = false → (readProps props).negative = false ∧ (e' = true → e = true ∧ 1 ≤ (readProps props).qty.min)) :
    DeepP S m B e' (Trace.base fuel cls none props ps tr) := by
  intro c hc hm
  have hsz : S.size { c with cls := cls, status := .matched } = S.size c := S.size_eq _ _ rfl rfl
  unfold Trace.base
  refine Deep.bind (deep_loop (hit _) _ _ 0 { c with cls := cls, status := .matched } ⟨rfl, S.fine_eq c _ rfl rfl hc.2.1, by
    rw [hsz]; exact hc.2.2⟩ (by rw [hsz]; exact hm)) fun r hr' => ?_
  cases r with
  | ret o err =>
    have : o.status = .error := hr'
    exact deep_pure fun h => by simp [fixStatus, this] at h
  | done k o =>
    obtain ⟨h1, -, h2, h3⟩ := hr'
    have hback : ∀ e o, Fwd S e { c with cls := cls, status := .matched } o → Fwd S e c o := fun e o h => ⟨h.1, by rw [← hsz]; exact h.2.1, h.2.2⟩
    refine deep_afterLoop htr (fun h => ?_) fun h => ⟨(hn h).1, fun hm => ?_⟩
    · rw [hr h]
      exact ⟨by simp, hc.2.2, rfl, rfl⟩
    · cases e' with
      | false => exact hback _ _ h2
      | true =>
        obtain ⟨he, hm'⟩ := (hn h).2 rfl
        exact hback _ _ (h3 he (by omega))

theorem deepP_wrap (i : Option Info) {p : Trace.Parser} (h : DeepP S m B e p) : DeepP S m (B + 1) e (wrap i p) :=
  fun c hc hm => deep_wrap i (h c hc hm)

theorem deep_light {cls : String} {p : Trace.Parser} (h : DeepP S m B e p) : DeepP S m B e (light cls p) := by
  intro c hc hm
  unfold light
  refine (h c hc hm).bind fun r hr => ?_
  obtain ⟨o, err⟩ := r
  refine deep_pure fun hs => ?_
  have hs' : (fixStatus o err).status = .matched := by
    revert hs
    simp only
    cases err with
    | none => cases ho : o.status <;> simp [fixStatus, ho]
    | some err => cases ho : o.status <;> simp [fixStatus, ho]
  have hfix : fixStatus o err = o := by unfold fixStatus at hs' ⊢; split <;> simp_all
  have := hr hs'
  simp only [hfix] at hs' ⊢
  simp only [hs', if_true]
  exact this

theorem deep_lookBehind {p : Trace.Parser} (h : ∀ c, Shallow B (p c)) (neg : Bool) (c : Ctx) (hc : Inside S c) :
    ∀ (k : Nat) (i : Int), Deep (Trace.lookBehindLoop neg p c k i) B (GoodRes S false c) := by
  intro k
  induction k with
  | zero => intro i; exact deep_pure fun _ => ⟨by simp, hc.2.2, rfl, rfl⟩
  | succ k ih =>
    intro i
    rw [Trace.lookBehindLoop]
    split
    · exact ih _
    · refine Deep.bind (h _) fun r _ => ?_
      obtain ⟨o, err⟩ := r
      cases err with
      | some err =>
        refine deep_pure fun h => ?_
        exfalso; revert h; cases ho : o.status <;> simp [fixStatus, ho]
      | none =>
        simp only
        split
        · split
          · exact deep_pure fun h => by simp [fixStatus] at h
          · exact deep_pure fun _ => ⟨by simp, hc.2.2, rfl, rfl⟩
        · exact ih _

theorem deep_match {k : Int} {cases : List ((List Ast → Bool) × List Trace.Transformer)} (h : ∀ x ∈ cases, ∀ t ∈ x.2, ∀ c l, Shallow B (t c l)) :
    DeepP S m B false (Trace.matchFn k cases) := by
  intro c hc hm
  induction cases with
  | nil => exact deep_pure fun h => by simp [fixStatus] at h
  | cons x cases ih =>
    obtain ⟨g, ts⟩ := x
    unfold Trace.matchFn
    split
    · simp only
      split
      · exact deep_lift (by simp)
      · refine Deep.bind (shallow_applyTrs (h (g, ts) (by simp)) _ _) fun r _ => ?_
        obtain ⟨l, err⟩ := r
        cases err with
        | none => exact deep_pure fun _ => ⟨by simp, hc.2.2, rfl, rfl⟩
        | some err => exact deep_pure fun h => by simp [fixStatus] at h
    · exact ih fun x hx => h x (by simp [hx])

end

/-- What is shown of a form. -/
def DeepForm (tenv : TEnv) (S : Sources) (n m B : Nat) (e : Bool) : TForm → Prop
  | .gram g => DeepP S m B e (TGram.run tenv n g)
  | .seq gs => DeepSeq S m B e (gs.map (TGram.run tenv n))
  | .alts gs => DeepAlts S m B e (gs.map (TGram.run tenv n))

theorem DeepForm.le {tenv : TEnv} {n m B B' : Nat} {e : Bool} {f : TForm} (h : DeepForm tenv S n m B e f) (hB : B ≤ B') : DeepForm tenv S n m B' e f := by
  cases f with
  | gram g => exact fun c hc hm => (h c hc hm).mono hB fun _ h => h
  | seq gs => exact fun k c hc hm => (h k c hc hm).mono hB fun _ h => h
  | alts gs => exact fun k c hc hm => (h k c hc hm).mono hB fun _ h => h

theorem DeepForm.forget {tenv : TEnv} {n m B : Nat} {f : TForm} (h : DeepForm tenv S n m B true f) : DeepForm tenv S n m B false f := by
  cases f with
  | gram g => exact fun c hc hm => (h c hc hm).mono (Nat.le_refl _) fun _ h hs => (h hs).weaken
  | seq gs =>
    refine fun k c hc hm => (h k c hc hm).mono (Nat.le_refl _) fun r hr => ?_
    cases r with
    | fell k o => exact ⟨hr.1, hr.2.weaken⟩
    | unmatched => trivial
    | ret o e => exact hr
  | alts gs =>
    refine fun k c hc hm => (h k c hc hm).mono (Nat.le_refl _) fun r hr => ?_
    cases r with
    | fell k o => exact ⟨hr.1, hr.2.imp id (·.weaken)⟩
    | unmatched => trivial
    | ret o e => exact hr

/-- The bound. -/
def depthBound (R H m h r : Nat) : Nat := h + (r + m * R) * (H + 1)

theorem depthBound_eat {R H m h r r' : Nat} (hr : r' ≤ R) : depthBound R H m h r' ≤ depthBound R H (m + 1) h r := by
  unfold depthBound
  refine Nat.add_le_add_left (Nat.mul_le_mul_right _ ?_) _
  rw [Nat.succ_mul]; omega

theorem depthBound_call {R H m r k : Nat} (hr : k < r) : depthBound R H m H k + 1 ≤ depthBound R H m 0 r := by
  unfold depthBound
  have : (k + m * R + 1) * (H + 1) ≤ (r + m * R) * (H + 1) := Nat.mul_le_mul_right _ (by omega)
  rw [Nat.succ_mul] at this
  omega

/-- The bounds of `Nests` hold, if they hold of the functions given to `Indirect` with less fuel. -/
theorem nests_step {tenv : TEnv} {rank : Nat → Nat} {eater : Nat → Bool} {R H N : Nat}
    (IH : ∀ n < N, ∀ name k m, DeepP S m (depthBound R H m H (rank name)) (eater name) (TGram.run tenv n (tenv name k))) {h r : Nat} {e : Bool} {f : TForm}
    (hf : Nests tenv S rank eater R h r e f) : ∀ n ≤ N, ∀ m, DeepForm tenv S n m (depthBound R H m h r) e f := by
  have hzero : ∀ (m : Nat) (e : Bool) (B : Nat) (g : TGram), DeepP S m B e (TGram.run tenv 0 g) := fun m e B g c _ _ => deep_lift (by simp)
  have hmapT : ∀ {k k' n : Nat} {ts : List TTr}, (∀ t ∈ ts, Tall tenv k (.tr t)) → k ≤ k' → ∀ p ∈ ts.map (TTr.run tenv n), ∀ c l, Shallow k' (p c l) := by
    intro k k' n gs h hk p hp c l
    obtain ⟨g, hg, rfl⟩ := List.mem_map.1 hp
    exact (tall_shallow (h g hg) n c l).mono hk fun _ h => h
  have hb : ∀ m h r, h ≤ depthBound R H m h r := fun m h r => Nat.le_add_right _ _
  have hs : ∀ m h r, depthBound R H m (h + 1) r = depthBound R H m h r + 1 := fun m h r => by unfold depthBound; omega
  induction hf with
  | le _ hh ih => exact fun n hn m => (ih n hn m).le (by unfold depthBound; omega)
  | forget _ ih => exact fun n hn m => (ih n hn m).forget
  | nil => exact fun n _ m => deepSeq_nil
  | none => exact fun n _ m => deepAlts_nil
  | keep _ _ ih ih' =>
    exact fun n hn m => deepSeq_cons (ih n hn m) (fun k c o _ hm ho hi => ih' n hn m k o hi (fwd_rem ho hm)) (by simp)
  | @eat h r r' e g gs _ hr _ ih ih' =>
    refine fun n hn m => deepSeq_cons (e' := e) (ih n hn m) (fun k c o _ hm ho hi => ?_) (by simp)
    have h1 := ho.1
    have h2 := ho.2.1
    simp only [Bool.toNat_true] at h1
    match m, hm with
    | 0, hm => omega
    | m + 1, hm =>
      exact (ih' n hn m k o hi (by rw [ho.size]; omega)).mono (depthBound_eat hr) fun _ h => h
  | alt _ _ ih ih' => exact fun n hn m => deepAlts_cons (ih n hn m) (ih' n hn m)
  | @prim r e i cls p hp =>
    intro n hn m
    cases n with
    | zero => exact hzero _ _ _ _
    | succ n =>
      rw [hs]
      refine deepP_wrap i fun c hc _ => deep_lift fun r hr hs => ?_
      obtain ⟨o, err⟩ := r
      cases err with
      | none => exact hp c o hc hr (by simpa [fixStatus] using hs)
      | some err => exfalso; revert hs; cases ho : o.status <;> simp [fixStatus, ho]
  | flatGroup _ ih =>
    intro n hn m
    cases n with
    | zero => exact hzero _ _ _ _
    | succ n => rw [hs]; exact deepP_wrap _ (deep_base (by simp) (deep_iteration (ih n (by omega) m)) (by intro h; cases h) fun _ => ⟨rfl, fun h => ⟨h, by decide⟩⟩)
  | debug _ ih =>
    intro n hn m
    cases n with
    | zero => exact hzero _ _ _ _
    | succ n => rw [hs]; exact deepP_wrap _ (deep_base (by simp) (deep_iteration (ih n (by omega) m)) (by intro h; cases h) fun _ => ⟨rfl, fun h => ⟨h, by decide⟩⟩)
  | group _ ih =>
    intro n hn m
    cases n with
    | zero => exact hzero _ _ _ _
    | succ n =>
      rw [hs]
      refine deepP_wrap _ (deep_base ?_ (deep_iteration (ih n (by omega) m)) (by intro h; cases h) fun _ => ⟨rfl, fun h => ⟨h, by decide⟩⟩)
      rintro _ ⟨⟩ t ht c l
      cases List.mem_singleton.1 ht
      exact shallow_lift _
  | first hne _ ih =>
    intro n hn m
    cases n with
    | zero => exact hzero _ _ _ _
    | succ n =>
      rw [hs]
      exact deepP_wrap _ (deep_base (by simp) (deep_choice (ih n (by omega) m) (by simpa using hne)) (by intro h; cases h) fun _ => ⟨rfl, fun h => ⟨h, by decide⟩⟩)
  | lookAhead _ ih | lookAheadN _ ih =>
    intro n hn m
    cases n with
    | zero => exact hzero _ _ _ _
    | succ n => rw [hs]; exact deepP_wrap _ (deep_base (by simp) (deep_iteration (ih n (by omega) m)) (fun _ => rfl) (by intro h; cases h))
  | @lookBehind h r i a b gs hg | @lookBehindN h r i a b gs hg =>
    intro n hn m
    cases n with
    | zero => exact hzero _ _ _ _
    | succ n =>
      refine fun c hc _ => (deep_lookBehind (B := h + 1) (fun c => deep_wrap _ (shallow_base ?_ (by simp) c)) _ c hc _ _).mono (hb m (h + 1) r) fun _ h => h
      intro p hp
      obtain ⟨g, hg', rfl⟩ := List.mem_map.1 hp
      exact tall_shallow (hg g hg') n
  | @«repeat» h r e e' i t gs _ he ih =>
    intro n hn m
    cases n with
    | zero => exact hzero _ _ _ _
    | succ n => rw [hs]; exact deepP_wrap _ (deep_base (by simp) (deep_iteration (ih n (by omega) m)) (by intro h; cases h) fun _ => ⟨rfl, he⟩)
  | @trans h r e i g ts _ ht ih =>
    intro n hn m
    cases n with
    | zero => exact hzero _ _ _ _
    | succ n =>
      rw [hs]
      refine deepP_wrap _ (deep_base (e := e) ?_ (deep_iteration ?_) (by intro h; cases h) fun _ => ⟨rfl, fun h => ⟨h, by decide⟩⟩)
      · intro us hu
        split at hu
        · cases hu
        · cases hu; exact hmapT ht (hb m h r)
      · exact deepSeq_cons (ih n (by omega) m) (fun k c o _ hm ho hi => deepSeq_nil (m := m) k o hi (fwd_rem ho hm)) (by simp)
  | @«match» h r i k cases hc =>
    intro n hn m
    cases n with
    | zero => exact hzero _ _ _ _
    | succ n =>
      rw [hs]
      refine deepP_wrap _ (deep_light (deep_match ?_))
      intro x hx
      obtain ⟨y, hy, rfl⟩ := List.mem_map.1 hx
      exact hmapT (hc y hy) (hb m h r)
  | @indirect r i name hr =>
    intro n hn m
    cases n with
    | zero => exact hzero _ _ _ _
    | succ n =>
      have : DeepP S m (depthBound R H m H (rank name) + 1) (eater name) (TGram.run tenv (n + 1) (.indirect i name)) := by
        refine deepP_wrap _ (deep_light ?_)
        intro c hc hm s
        exact IH n (by omega) name s.clock m c hc hm { s with clock := s.clock + 1 }
      exact fun c hc hm => (this c hc hm).mono (depthBound_call hr) fun _ h => h

/-- The bounds of `Nests` hold. -/
theorem nests_deep {tenv : TEnv} {rank : Nat → Nat} {eater : Nat → Bool} {R H : Nat} (henv : NestsEnv tenv S rank eater R H) {h r : Nat} {e : Bool}
    {f : TForm} (hf : Nests tenv S rank eater R h r e f) (n m : Nat) : DeepForm tenv S n m (depthBound R H m h r) e f := by
  have all : ∀ N n, n < N → ∀ name k m, DeepP S m (depthBound R H m H (rank name)) (eater name) (TGram.run tenv n (tenv name k)) := by
    intro N
    induction N with
    | zero => intro n hn; omega
    | succ N IH => exact fun n hn name k m => nests_step IH (henv name k).2 n (by omega) m
  exact nests_step (all n) hf n (Nat.le_refl _) m

end Takenoco
