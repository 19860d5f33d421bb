import Verif.Lemmas.Tracer
/-
C43, C44, C66: tracing.
-/
namespace Takenoco
open Spec Trace

/-- **C43.** Whatever parsers of a grammar are wrapped for tracing (`tenv` is what the functions passed to `Indirect` return, which may
be wrapped in other places at each call), the run has the outcome of the grammar without tracing. -/
theorem C43_transparent (tenv : TEnv) (env : Env) (he : ∀ name k, (tenv name k).plain = env name) (n : Nat) (g : TGram) (ctx : Ctx) (s : Log) :
    (g.run tenv n ctx s).1 = run env n g.plain ctx :=
  ((agrees_run (Q := fun _ => True) he (fun _ _ => wraps_true _) n).1 g (wraps_true _) ctx s).1

/-- Building the grammar with the tracer in any state does not change it, except for what is wrapped. -/
theorem C43_build (g : TGram) (st : Trace.State) : (g.build st).1.plain = g.plain := (build_spec g st).1

/-- So the outcome of a parser does not depend on the state of the tracer in which it was built. -/
theorem C43_built (tenv : TEnv) (env : Env) (he : ∀ name k, (tenv name k).plain = env name) (n : Nat) (g : TGram) (st : Trace.State)
    (ctx : Ctx) (s : Log) : ((g.build st).1.run tenv n ctx s).1 = run env n g.plain ctx := by
  rw [C43_transparent tenv env he, C43_build]

/-- The calls of the callbacks in a run that returns are properly nested, each `Before` with its `After`. -/
theorem C43_balanced (tenv : TEnv) (n : Nat) (g : TGram) (ctx : Ctx) (s s' : Log) (r : PRes)
    (he : ∀ name k k', (tenv name k).plain = (tenv name k').plain) (h : g.run tenv n ctx s = (.ok r, s')) :
    ∃ l, s'.events = s.events ++ l ∧ Balanced l := by
  obtain ⟨h1, l, h2, h3, -⟩ := (agrees_run (Q := fun _ => True) (env := fun name => (tenv name 0).plain) (fun name k => he name k 0)
    (fun _ _ => wraps_true _) n).1 g (wraps_true _) ctx s
  rw [← h1, h] at h3
  rw [h] at h2
  exact ⟨l, h2, h3⟩

/-- In a run that panics, each parser that was entered and not left is left by a call of `Panic` with the context it was entered with
and the value of the panic, the innermost first. -/
theorem C43_panic (tenv : TEnv) (n : Nat) (g : TGram) (ctx : Ctx) (s s' : Log) (p : Panic)
    (he : ∀ name k k', (tenv name k).plain = (tenv name k').plain) (h : g.run tenv n ctx s = (.panic p, s')) :
    ∃ l, s'.events = s.events ++ l ∧ Crashed p l := by
  obtain ⟨h1, l, h2, h3, -⟩ := (agrees_run (Q := fun _ => True) (env := fun name => (tenv name 0).plain) (fun name k => he name k 0)
    (fun _ _ => wraps_true _) n).1 g (wraps_true _) ctx s
  rw [← h1, h] at h3
  rw [h] at h2
  exact ⟨l, h2, h3⟩

/-- Only wrapped parsers make calls. -/
theorem C43_events (Q : Info → Prop) (tenv : TEnv) (n : Nat) (g : TGram) (ctx : Ctx) (s : Log)
    (he : ∀ name k k', (tenv name k).plain = (tenv name k').plain) (hq : Wraps Q g) (hw : ∀ name k, Wraps Q (tenv name k)) :
    ∃ l, (g.run tenv n ctx s).2.events = s.events ++ l ∧ ∀ ev ∈ l, Q ev.info := by
  obtain ⟨-, l, h2, -, h3⟩ := (agrees_run (env := fun name => (tenv name 0).plain) (fun name k => he name k 0) hw n).1 g hq ctx s
  exact ⟨l, h2, h3⟩

/-- **C44.** When the expression that builds a grammar has been evaluated, the tracing switch, the scope and the tracer are what they were,
however many `DebugTrace`s it contains and however they are nested; only the number of parsers counted so far may be larger. -/
theorem C44_restores (g : TGram) (st : Trace.State) :
    (g.build st).2.enabled = st.enabled ∧ (g.build st).2.scope = st.scope ∧ (g.build st).2.pt = st.pt ∧ st.no ≤ (g.build st).2.no :=
  (build_spec g st).2

/-- While tracing is off, parsers are built that call no callback, and the state does not change; in particular this holds after
the evaluation of a `DebugTrace`, by `C44_restores`. -/
theorem C44_later (g : TGram) (hg : DebugFree g) (st : Trace.State) (h : st.enabled = false) :
    Untraced (g.build st).1 ∧ (g.build st).2 = st := by
  obtain ⟨h1, -, h3⟩ := build_marked g st ⟨h, rfl, rfl⟩ hg
  exact ⟨all_mono (fun g h => by simpa [Marked] using h) _ h1, h3 rfl⟩

/-- While tracing is on, everything made by `LightBaseParser` or `BaseParser` is wrapped with the current tracer and scope. -/
theorem C44_marks (g : TGram) (hg : DebugFree g) (st : Trace.State) (h : st.enabled = true) : TracedBy st.pt st.scope (g.build st).1 := by
  obtain ⟨h1, -, -⟩ := build_marked g st ⟨h, rfl, rfl⟩ hg
  exact all_mono (fun g h => by simpa [Marked] using h) _ h1

/-- The scope of the parsers built under `DebugTrace` is the outer one, a slash, and the name given to `DebugTrace`. -/
theorem C44_scope (i : Option Info) (scope : String) (pt : Nat) (gs : List TGram) (hg : ∀ g ∈ gs, DebugFree g) (st : Trace.State) :
    TracedBy pt (st.scope ++ "/" ++ scope) ((TGram.debug i scope pt gs).build st).1 := by
  obtain ⟨h1, h2, -⟩ := buildList_marked gs (debugOpen st scope pt).2 (e := true) (scope := st.scope ++ "/" ++ scope) (pt := pt)
    ⟨rfl, rfl, rfl⟩ (allList_of_mem hg)
  obtain ⟨m1, -, -⟩ := mark_marked (cls := ":Base:DebugTrace") h2
  exact ⟨m1, allList_mono (fun g h => by simpa [Marked] using h) _ h1⟩

/-- The wrapped parsers are numbered in the order in which they are made, the parts of a parser before it, from the number after
the last one given out; the last number given out is what the counter holds afterwards. -/
theorem C66_numbers (g : TGram) (st : Trace.State) :
    (g.build st).1.numbers = List.range' (st.no + 1) ((g.build st).2.no - st.no) := by
  obtain ⟨k, h1, h2⟩ := build_numbers g st
  rw [h1, h2, Nat.add_sub_cancel_left]

/-- So no two wrapped parsers have the same number, neither in one grammar nor in two built one after the other. -/
theorem C66_distinct (g g' : TGram) (st : Trace.State) :
    ((g.build st).1.numbers ++ (g'.build (g.build st).2).1.numbers).Nodup := by
  obtain ⟨k, h1, -⟩ := (build_numbers g st).trans (build_numbers g' (g.build st).2)
  rw [h1]
  exact List.nodup_range'

/-- A parser built with tracing off makes no calls. -/
theorem C44_silent (tenv : TEnv) (n : Nat) (g : TGram) (ctx : Ctx) (s : Log)
    (he : ∀ name k k', (tenv name k).plain = (tenv name k').plain) (hq : Untraced g) (hw : ∀ name k, Untraced (tenv name k)) :
    (g.run tenv n ctx s).2.events = s.events := by
  have hu : ∀ g, Untraced g → Wraps (fun _ => False) g := fun g h => all_mono (fun g h => by simp [h]) g h
  obtain ⟨l, h1, h2⟩ := C43_events (fun _ => False) tenv n g ctx s he (hu g hq) fun name k => hu _ (hw name k)
  cases l with
  | nil => simpa using h1
  | cons ev l => exact absurd (h2 ev (by simp)) id

/-- The restoring depends on the nesting of the two steps of `DebugTrace`. If its result is not called, or the results of two calls are
called in the order of the calls, tracing stays on: here from a state in which it is off. -/
theorem C44_interleaved_false : ∃ st a b p q, st.enabled = false ∧
    (let (_, st1) := debugOpen st a p; st1.enabled = true) ∧
    (let (s1, st1) := debugOpen st a p
     let (s2, st2) := debugOpen st1 b q
     (debugClose s2 (debugClose s1 st2)).enabled = true) ∧
    (let (s1, st1) := debugOpen st a p
     let (s2, st2) := debugOpen st1 b q
     (debugClose s1 (debugClose s2 st2)).enabled = false) :=
  ⟨⟨false, "", 0, 0⟩, "a", "b", 1, 2, rfl, rfl, rfl, rfl⟩

/-! ### Instances -/

/-- The state at the start of a program: tracer.go:29-38. -/
def tracerInit : Trace.State := { enabled := false, scope := "", no := 0, pt := 0 }

/-- `FlatGroup(DebugTrace("s", pt)(Any, First(Any)), Any)` with a parser for any one byte. -/
def tracedSample (any : Sem) : TGram :=
  .flatGroup none [.debug none "s" 7 [.prim none (some ":any") any, .first none [.prim none (some ":any") any]], .prim none (some ":any") any]

/-- A context at the start of a text. -/
def sampleTraceCtx : Ctx := { str := [97, 98], slice := .none, pos := 0, len := 0, qty := 0, stack := [], status := .matched, cls := "", tag := .nil }

/-- What is built: the parsers under `DebugTrace` are wrapped, those outside are not. -/
example (any : Sem) : (tracedSample any).build tracerInit =
    (.flatGroup none [.debug (some ⟨7, "/s", 4, ":Base:DebugTrace"⟩) "s" 7 [.prim (some ⟨7, "/s", 1, ":any"⟩) (some ":any") any,
        .first (some ⟨7, "/s", 3, ":base:First"⟩) [.prim (some ⟨7, "/s", 2, ":any"⟩) (some ":any") any]], .prim none (some ":any") any],
      { enabled := false, scope := "", no := 4, pt := 0 }) := rfl

/-- The numbers of the sample, and of the sample built a second time. -/
example (any : Sem) : ((tracedSample any).build tracerInit).1.numbers = [1, 2, 3, 4] ∧
    ((tracedSample any).build ((tracedSample any).build tracerInit).2).1.numbers = [5, 6, 7, 8] := ⟨rfl, rfl⟩

/-- The grammar below `DebugTrace` meets the hypothesis of `C44_scope`. -/
example (any : Sem) : ∀ g ∈ [TGram.prim none (some ":any") any, .first none [.prim none (some ":any") any]], DebugFree g := by
  simp [DebugFree, TGram.All, AllList, TGram.isDebug]

/-- A wrapped parser inside a wrapped parser: the four calls. -/
example : (TGram.run (fun _ _ => .prim none none fun ctx => .ok (ctx, none)) 5
      (.first (some ⟨7, "/s", 2, "f"⟩) [.prim (some ⟨7, "/s", 1, "p"⟩) (some "p") fun ctx => .ok ({ ctx with status := .matched }, none)])
      sampleTraceCtx ⟨0, []⟩).2.events.map Event.info = [⟨7, "/s", 2, "f"⟩, ⟨7, "/s", 1, "p"⟩, ⟨7, "/s", 1, "p"⟩, ⟨7, "/s", 2, "f"⟩] := by
  rfl

/-- A panic in the inner parser. -/
def crashingSample : TGram :=
  .first (some ⟨7, "/s", 2, "f"⟩) [.prim (some ⟨7, "/s", 1, "p"⟩) (some "p") fun _ => .panic .divZero]

/-- It is reported for both parsers. -/
example : ∃ s', crashingSample.run (fun _ _ => .prim none none fun ctx => .ok (ctx, none)) 5 sampleTraceCtx ⟨0, []⟩ = (.panic .divZero, s') ∧
    s'.events.map Event.info = [⟨7, "/s", 2, "f"⟩, ⟨7, "/s", 1, "p"⟩, ⟨7, "/s", 1, "p"⟩, ⟨7, "/s", 2, "f"⟩] ∧ Crashed .divZero s'.events := by
  refine ⟨_, Prod.ext rfl rfl, rfl, ?_⟩
  obtain ⟨l, h, h'⟩ := C43_panic (fun _ _ => .prim none none fun ctx => .ok (ctx, none)) 5 crashingSample sampleTraceCtx ⟨0, []⟩
    _ .divZero (fun _ _ _ => rfl) (Prod.ext rfl rfl)
  exact (congrArg (Crashed .divZero) h).mpr h'

#print axioms C43_transparent
#print axioms C43_build
#print axioms C43_built
#print axioms C43_balanced
#print axioms C43_panic
#print axioms C43_events
#print axioms C44_restores
#print axioms C44_later
#print axioms C44_marks
#print axioms C44_scope
#print axioms C66_numbers
#print axioms C66_distinct
#print axioms C44_silent
#print axioms C44_interleaved_false

end Takenoco
