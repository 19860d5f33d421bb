import Verif.Lemmas.Depth
import Verif.Lemmas.SumText
/-
Lower bounds for the nesting of parser calls, whatever the result is; and how deep the parsers of the formula and torpn examples go into opening brackets.
-/
namespace Takenoco
open Spec Trace Formula

theorem balanced_level {l : List Event} (h : Balanced l) : ∀ d, level d l = d := by
  induction h with
  | nil => exact fun _ => rfl
  | @frame inner rest i ctx out err _ _ h1 h2 =>
    intro d
    rw [List.cons_append]
    show level (d + 1) (inner ++ .after i out err :: rest) = d
    rw [level_append, h1]
    exact h2 d

/-- Calls are nested at least `B` deep. -/
def Descends {α : Type} (x : M α) (B : Nat) : Prop := ∀ s, ∃ l, (x s).2.events = s.events ++ l ∧ ∀ d, d + B ≤ nesting d l

section
variable {α β : Type} {Q : Info → Prop} {B B' : Nat}

theorem Agrees.descends {x : M α} {y : Out α} (h : Agrees Q x y) : Descends x 0 := fun s => by
  obtain ⟨_, l, h2, _⟩ := h s
  exact ⟨l, h2, fun d => le_nesting l d⟩

theorem descends_pure (a : α) : Descends (pure a) 0 := (agrees_pure (Q := fun _ => True) a).descends
theorem descends_lift (a : Out α) : Descends (lift a) 0 := (agrees_lift (Q := fun _ => True) a).descends

theorem Descends.mono {x : M α} (h : Descends x B) (hB : B' ≤ B) : Descends x B' := fun s => by
  obtain ⟨l, h1, h2⟩ := h s
  exact ⟨l, h1, fun d => by have := h2 d; omega⟩

theorem Descends.left {x : M α} {f : α → M β} (hx : Descends x B) (hf : ∀ a, Descends (f a) 0) : Descends (x >>= f) B := fun s => by
  obtain ⟨l, h1, h2⟩ := hx s
  show ∃ l, (M.bind x f s).2.events = _ ∧ _
  rcases hxs : x s with ⟨o, s'⟩
  rw [hxs] at h1
  simp only at h1
  cases o with
  | ok a =>
    obtain ⟨l', h3, -⟩ := hf a s'
    simp only [M.bind, hxs]
    refine ⟨l ++ l', by rw [h3, h1, List.append_assoc], fun d => ?_⟩
    rw [nesting_append]
    have := h2 d
    omega
  | panic p => simp only [M.bind, hxs]; exact ⟨l, h1, h2⟩
  | timeout => simp only [M.bind, hxs]; exact ⟨l, h1, h2⟩

theorem Descends.right {x : M α} {f : α → M β} {a : α} (ha : Agrees Q x (.ok a)) (hf : Descends (f a) B) : Descends (x >>= f) B := fun s => by
  obtain ⟨h0, l, h1, h2, -⟩ := ha s
  show ∃ l, (M.bind x f s).2.events = _ ∧ _
  rcases hxs : x s with ⟨o, s'⟩
  rw [hxs] at h0 h1
  simp only at h0 h1
  subst h0
  obtain ⟨l', h3, h4⟩ := hf s'
  simp only [M.bind, hxs]
  refine ⟨l ++ l', by rw [h3, h1, List.append_assoc], fun d => ?_⟩
  rw [nesting_append, balanced_level h2]
  have := h4 d
  omega

theorem descends_counted (i : Info) {p : Trace.Parser} {c : Ctx} (h : Descends (p c) B) : Descends (wrap (some i) p c) (B + 1) := fun s => by
  obtain ⟨l, h1, h2⟩ := h { s with events := s.events ++ [.before i c] }
  show ∃ l, (tracer i p c s).2.events = _ ∧ _
  unfold tracer
  rcases hp : p c { s with events := s.events ++ [.before i c] } with ⟨o, s'⟩
  rw [hp] at h1
  simp only at h1
  have hn : ∀ l' d, d + (B + 1) ≤ nesting d (Event.before i c :: (l ++ l')) := fun l' d => by
    show _ ≤ nesting (d + 1) (l ++ l')
    rw [nesting_append]
    have := h2 (d + 1)
    omega
  cases o with
  | ok r => exact ⟨.before i c :: (l ++ [.after i r.1 r.2]), by simp [h1], hn _⟩
  | panic r => exact ⟨.before i c :: (l ++ [.panic i c r]), by simp [h1], hn _⟩
  | timeout => exact ⟨.before i c :: (l ++ []), by simp [h1], hn _⟩

end

/-! ### The engine -/

section
variable {Q : Info → Prop} {B : Nat}

theorem childLoop_into {te : Bool} {p : Trace.Parser} {cs : List Trace.Parser} {ds : List Sem} (h : Each (AgreesP Q) cs ds) {c : Ctx} {k : Nat}
    (hB : Descends (p c) B) : Descends (Trace.childLoop te (p :: cs) k c) B := by
  rw [Trace.childLoop]
  refine hB.left fun a => ?_
  obtain ⟨o, e⟩ := a
  simp only
  split
  · exact descends_pure _
  · split
    · exact (agrees_childLoop te h _ _).descends
    · exact descends_pure _
  · split
    · exact descends_pure _
    · exact (agrees_childLoop te h _ _).descends

theorem childLoop_behind {p : Trace.Parser} {q : Sem} {cs : List Trace.Parser} (hp : AgreesP Q p q) {c o : Ctx} {k : Nat} (hq : q c = .ok (o, none))
    (ho : o.status = .matched) (hB : Descends (Trace.childLoop false cs (k + 1) o) B) : Descends (Trace.childLoop false (p :: cs) k c) B := by
  rw [Trace.childLoop]
  refine Descends.right (a := (o, none)) (hq ▸ hp c) ?_
  simp only [fixStatus, ho, Bool.false_eq_true, if_false]
  simpa [ho] using hB

theorem childLoop_other {p : Trace.Parser} {q : Sem} {cs : List Trace.Parser} (hp : AgreesP Q p q) {c o : Ctx} {k : Nat} (hq : q c = .ok (o, none))
    (ho : o.status = .unmatched) (hB : Descends (Trace.childLoop true cs k c) B) : Descends (Trace.childLoop true (p :: cs) k c) B := by
  rw [Trace.childLoop]
  refine Descends.right (a := (o, none)) (hq ▸ hp c) ?_
  have hf : fixStatus o none = o := by simp [fixStatus]
  simp only [hf, ho, if_true]
  exact hB

theorem base_descends {cls : String} {props : List PropItem} {te : Bool} (hp : props = if te then [.thereExists] else []) {cs : List Trace.Parser} {ds : List Sem} (h : Each (AgreesP Q) cs ds) {tr : Option (List Trace.Transformer)}
    {us : Option (List TSem)} (ht : AgreesO Q tr us) {c : Ctx} (hB : Descends (Trace.childLoop te cs 0 { { c with cls := cls } with status := .matched }) B) :
    Descends (base 0 cls none props cs tr c) B := by
  have hq : (readProps props).qty.max = 1 ∧ (readProps props).thereExists = te := by subst hp; cases te <;> exact ⟨rfl, rfl⟩
  unfold base
  refine Descends.left ?_ fun a => ?_
  · rw [hq.1, hq.2]
    show Descends (Trace.parentLoop _ _ 1 0 _) B
    rw [Trace.parentLoop]
    refine Descends.left ?_ fun a => ?_
    · unfold Trace.iteration
      refine Descends.left hB fun a => ?_
      cases a with
      | ret o e => exact descends_pure _
      | unmatched => exact descends_pure _
      | fell k o =>
        simp only
        split
        · exact descends_pure _
        · refine Descends.left (descends_lift _) fun a => ?_
          obtain ⟨o, e⟩ := a
          simp only
          split <;> exact descends_pure _
    · cases a with
      | ret o e => exact descends_pure _
      | brk o => exact descends_pure _
      | next o => exact (agrees_parentLoop _ (fun n c => agrees_iteration none _ h _ n c) _ _ _).descends
  · cases a with
    | ret o e => exact descends_pure _
    | done k o => exact (agrees_afterLoop _ _ ht _ _ _).descends

end

/-! ### Executions that end -/

theorem childLoop_ends_alt {p : Sem} {ps : List Sem} {k : Nat} {c : Ctx} (h : Takenoco.childLoop true (p :: ps) k c ≠ .timeout) :
    p c ≠ .timeout ∧ ∀ o, p c = .ok (o, none) → o.status = .unmatched → Takenoco.childLoop true ps k c ≠ .timeout := by
  rw [Takenoco.childLoop] at h
  refine ⟨fun he => h (by simp only [he]), fun o ho hs he => h ?_⟩
  simp [ho, fixStatus, hs, he]

theorem first_done {env : Env} {n : Nat} {gs : List Gram} {c : Ctx} (h : run env (n + 1) (.first gs) c ≠ .timeout) :
    Takenoco.childLoop true (gs.map (run env n)) 0 { { c with cls := ":base:First" } with status := .matched } ≠ .timeout := by
  intro he
  refine h ?_
  rw [run.eq_def]
  simp [first, baseParser, readProps, Flags.read, qtyOnce, Takenoco.parentLoop, Takenoco.iteration, he]

theorem indirect_done {env : Env} {n name : Nat} {c : Ctx} (h : run env (n + 1) (.indirect name) c ≠ .timeout) :
    run env n (env name) c ≠ .timeout := by
  intro he
  refine h ?_
  rw [run.eq_def]
  simp [indirect, lightParser, he]

theorem run_misses {env : Env} {n : Nat} {g : Gram} {c : Ctx} {pre s : Bytes} (hn : run env n g c ≠ .timeout)
    (h : Misses (den env g) pre s) (hc : At c pre s) : ∃ o, run env n g c = .ok (o, none) ∧ o.status = .unmatched := by
  have h1 := h c hc
  rw [den_of_run hn] at h1
  cases hd : run env n g c with
  | panic x => rw [hd] at h1; cases h1
  | timeout => exact absurd hd hn
  | ok oe =>
    rw [hd] at h1
    obtain ⟨o', e⟩ := oe
    cases e with
    | some e => cases h1
    | none =>
      simp only [Outcome.of] at h1
      split at h1
      · cases h1
      · exact ⟨o', rfl, by assumption⟩
      · cases h1

/-! ### Opening brackets -/

section
variable {tr : Tr} {i : Info}

/-- Opening brackets, and what follows them. -/
def opening (k : Nat) (rest : Bytes) : Bytes := List.replicate k 0x28 ++ rest

theorem opening_succ (k : Nat) (rest : Bytes) : opening (k + 1) rest = 0x28 :: opening k rest := rfl

theorem traced_agrees (n : Nat) (g : Gram) :
    AgreesP (fun _ => True) ((g.traced i).run (fun name _ => (envOf tr name).traced i) n) (run (envOf tr) n g) := by
  have := (agrees_run (Q := fun _ => True) (tenv := fun name _ => (envOf tr name).traced i) (fun _ _ => plain_traced _ _) (fun _ _ => wraps_true _) n).1 (g.traced i) (wraps_true _)
  rwa [plain_traced] at this

theorem traced_agreesT (n : Nat) (t : Tr) :
    AgreesT (fun _ => True) ((t.traced i).run (fun name _ => (envOf tr name).traced i) n) (runTr (envOf tr) n t) := by
  have := (agrees_run (Q := fun _ => True) (tenv := fun name _ => (envOf tr name).traced i) (fun _ _ => plain_traced _ _) (fun _ _ => wraps_true _) n).2 (t.traced i) (allTr_of (fun _ _ _ => trivial) _)
  rwa [plain_tracedTr] at this

theorem each_traced (n : Nat) : ∀ gs : List Gram,
    Each (AgreesP (fun _ => True)) ((tracedList i gs).map (TGram.run (fun name _ => (envOf tr name).traced i) n)) (gs.map (run (envOf tr) n))
  | [] => .nil
  | g :: gs => .cons (traced_agrees n g) (each_traced n gs)

/-- Calls of the traced grammar at a place are nested at least so deep. -/
def Sinks (tr : Tr) (i : Info) (g : Gram) (pre s : Bytes) (B : Nat) : Prop :=
  ∀ n c, At c pre s → run (envOf tr) n g c ≠ .timeout → Descends ((g.traced i).run (fun name _ => (envOf tr name).traced i) n c) B

theorem sinks_zero {g : Gram} {pre s : Bytes} : Sinks tr i g pre s 0 := fun n c _ _ => (traced_agrees n g c).descends

/-- A list of parsers in a `FlatGroup` at a place. -/
def SinksSeq (te : Bool) (tr : Tr) (i : Info) (gs : List Gram) (pre s : Bytes) (B : Nat) : Prop :=
  ∀ n k c, At c pre s → Takenoco.childLoop te (gs.map (run (envOf tr) n)) k c ≠ .timeout →
    Descends (Trace.childLoop te ((tracedList i gs).map (TGram.run (fun name _ => (envOf tr name).traced i) n)) k c) B

theorem sinksSeq_zero {te : Bool} {gs : List Gram} {pre s : Bytes} : SinksSeq te tr i gs pre s 0 := fun n k c _ _ =>
  (agrees_childLoop te (each_traced n gs) k c).descends

theorem sinks_flat {gs : List Gram} {pre s : Bytes} {B : Nat} (h : SinksSeq false tr i gs pre s B) : Sinks tr i (.flatGroup gs) pre s (B + 1) := fun n c hc hn => by
  cases n with
  | zero => exact absurd rfl hn
  | succ n =>
  have hE := flat_done hn
  rw [Gram.traced, TGram.run.eq_def]
  exact descends_counted i (base_descends (te := false) (tr := none) (us := none) rfl (each_traced n gs) trivial (h n 0 _ ⟨hc.str, hc.pos, rfl⟩ hE))

theorem sinks_first {gs : List Gram} {pre s : Bytes} {B : Nat} (h : SinksSeq true tr i gs pre s B) : Sinks tr i (.first gs) pre s (B + 1) := fun n c hc hn => by
  cases n with
  | zero => exact absurd rfl hn
  | succ n =>
  have hE := first_done hn
  rw [Gram.traced, TGram.run.eq_def]
  exact descends_counted i (base_descends (te := true) (tr := none) (us := none) rfl (each_traced n gs) trivial (h n 0 _ ⟨hc.str, hc.pos, rfl⟩ hE))

theorem sinks_trans {g : Gram} {t : Tr} {pre s : Bytes} {B : Nat} (h : Sinks tr i g pre s B) : Sinks tr i (.trans g [t]) pre s (B + 1) := fun n c hc hn => by
  cases n with
  | zero => exact absurd rfl hn
  | succ n =>
  have hE := (trans_done hn).1
  rw [Gram.traced, TGram.run.eq_def]
  simp only [tracedTrs, List.map_cons, List.map_nil, List.isEmpty_cons, Bool.false_eq_true, if_false]
  exact descends_counted i (base_descends (te := false) (us := some [runTr (envOf tr) n t]) rfl (.cons (traced_agrees n g) .nil) (show AgreesO _ (some _) _ from .cons (traced_agreesT n t) .nil)
    (childLoop_into (Q := fun _ => True) (ds := []) .nil (h n _ ⟨hc.str, hc.pos, rfl⟩ hE)))

theorem sinks_indirect {name : Nat} {pre s : Bytes} {B : Nat} (h : Sinks tr i (envOf tr name) pre s B) : Sinks tr i (.indirect name) pre s (B + 1) := fun n c hc hn => by
  cases n with
  | zero => exact absurd rfl hn
  | succ n =>
  have hE := indirect_done hn
  rw [Gram.traced, TGram.run.eq_def]
  refine descends_counted i ?_
  simp only [light]
  refine Descends.left (fun l => ?_) fun a => ?_
  · exact h n _ hc hE { l with clock := l.clock + 1 }
  · exact descends_pure _

theorem sinks_into {te : Bool} {g : Gram} {gs : List Gram} {pre s : Bytes} {B : Nat} (h : Sinks tr i g pre s B) : SinksSeq te tr i (g :: gs) pre s B := fun n k c hc hn => by
  refine childLoop_into (each_traced n gs) (h n c hc ?_)
  cases te
  · exact (childLoop_ends hn).1
  · exact (childLoop_ends_alt hn).1

theorem sinks_behind {g : Gram} {gs : List Gram} {pre w s : Bytes} {Q : List Ast → Prop} {B : Nat} (hg : Hits (den (envOf tr) g) pre w s Q)
    (h : SinksSeq false tr i gs (pre ++ w) s B) : SinksSeq false tr i (g :: gs) pre (w ++ s) B := fun n k c hc hn => by
  obtain ⟨e, hE⟩ := childLoop_ends hn
  obtain ⟨o, r, q⟩ := run_hits e hg hc
  exact childLoop_behind (traced_agrees n g) r q.at_.ok (h n _ _ q.at_ (hE o r q.at_.ok))

theorem sinks_other {g : Gram} {gs : List Gram} {pre s : Bytes} {B : Nat} (hg : Misses (den (envOf tr) g) pre s)
    (h : SinksSeq true tr i gs pre s B) : SinksSeq true tr i (g :: gs) pre s B := fun n k c hc hn => by
  obtain ⟨e, hE⟩ := childLoop_ends_alt hn
  obtain ⟨o, r, q⟩ := run_misses e hg hc
  exact childLoop_other (traced_agrees n g) r q (h n _ _ hc (hE o r q))

theorem grouped_sinks {k B : Nat} {rest : Bytes} (h : ∀ pre, Sinks tr i (expressionOf tr) pre (opening k rest) B) (hB : k = 0 → B = 0) (pre : Bytes) :
    Sinks tr i (groupedOf tr) pre (opening (k + 1) rest) (B + 3) := by
  refine sinks_flat (B := B + 2) (sinks_behind (w := [0x28]) (paren_hits _ _) (sinks_into (sinks_first (B := B + 1) (sinks_into (sinks_flat ?_)))))
  cases k with
  | zero => rw [hB rfl]; exact sinksSeq_zero
  | succ k => exact sinks_behind (w := []) (sp0_hits ⟨[], by simp, rfl⟩ (Opens.notWhite ⟨0x28, opening k rest, rfl, .inr (.inl rfl)⟩) _) (sinks_into (h _))

/-- Seven nested calls for every opening bracket, whatever follows them. -/
theorem expression_sinks (rest : Bytes) : ∀ (k : Nat) (pre : Bytes), Sinks tr i (expressionOf tr) pre (opening k rest) (7 * k)
  | 0, _ => sinks_zero
  | k + 1, pre => by
    have hg := grouped_sinks (tr := tr) (i := i) (expression_sinks rest k) (by omega) pre
    refine sinks_trans (B := 7 * k + 6) (sinks_flat (B := 7 * k + 5) ?_)
    refine sinks_behind (w := []) (Q := (· = [])) (star_hits (gs := [unaryOperator]) (.stop (.head (unary_misses (fun s' h => ?_) _)))) ?_
    · simp at h
    · refine sinks_into (sinks_first (B := 7 * k + 4) (sinks_other (simple_misses _ ⟨_, opening_succ k rest⟩) (sinks_into (sinks_indirect (B := 7 * k + 3) ?_))))
      rw [List.append_nil]
      exact hg

theorem program_sinks (rest : Bytes) (k : Nat) : Sinks tr i (programOf tr) [] (opening k rest) (7 * k + 1) := by
  refine sinks_flat (sinks_behind (w := []) (startP_hits _) ?_)
  cases k with
  | zero => exact sinksSeq_zero
  | succ k => exact sinks_behind (w := []) (sp0_hits ⟨[], by simp, rfl⟩ (Opens.notWhite ⟨0x28, opening k rest, rfl, .inr (.inl rfl)⟩) _) (sinks_into (expression_sinks rest (k + 1) _))

end

end Takenoco
