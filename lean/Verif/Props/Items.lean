import Verif.Lemmas.ItemsTools
import Verif.Props.Denotation
/-
C93: grammars over a slice of values recognize what the corresponding parsing expressions recognize.
-/
namespace Takenoco
open Spec hiding Agrees Peg Ford Means Went
open Spec.Items

section
variable {src : SliceSrc} {A : Ast → Prop} {env : Env} {rules : Nat → Peg} {c : Ctx} {t : List Value} {g : Gram} {e : Peg}

/-- **C93.** A completed run of a grammar over a slice ends as the parsing expression does that it spells: it matches and leaves the same
rest of the slice, or it does not match. It neither fails nor panics. -/
theorem C93_engine_to_peg (hA : Items.Tokens src A) (henv : ∀ i, Means src A (.gram (env i)) (rules i)) (hg : Means src A (.gram g) e)
    (hc : c.status = .matched) (ht : Before src c t) (n : Nat) (h : run env n g c ≠ .timeout) :
    ∃ o, Ford rules e t o ∧ Agrees src A c t (Outcome.of (run env n g c)) o :=
  Items.parses_ford hA henv (C12_engine_to_spec env (fun i => Items.means_plain (henv i)) g (Items.means_plain hg) c hc n h) e t hg hc ht

/-- **C93.** If the parsing expression has a result on the slice, so does the grammar, from some fuel on. -/
theorem C93_peg_to_engine (hA : Items.Tokens src A) (henv : ∀ i, Means src A (.gram (env i)) (rules i)) (hg : Means src A (.gram g) e)
    (hc : c.status = .matched) (ht : Before src c t) (o : Option (List Value)) (h : Ford rules e t o) :
    ∃ N, ∀ n, N ≤ n → Agrees src A c t (Outcome.of (run env n g c)) o := by
  obtain ⟨m, hm⟩ := Items.fordN_of h
  obtain ⟨r, h1, h2⟩ := Items.ford_parses hA henv m hg c t o hm hc ht
  obtain ⟨N, hN⟩ := C12_spec_to_engine env g c r hc h1
  exact ⟨N, fun n hn => by rw [hN n hn]; exact h2⟩

/-- **C93.** The grammar matches and stops behind the values `u` exactly if the parsing expression consumes `u`. -/
theorem C93_matches (hA : Items.Tokens src A) (henv : ∀ i, Means src A (.gram (env i)) (rules i)) (hg : Means src A (.gram g) e)
    (hc : c.status = .matched) (ht : Before src c t) (u v : List Value) (hv : t = u ++ v) :
    Ford rules e t (some v) ↔ ∃ n c', Outcome.of (run env n g c) = .matched c' ∧ c'.pos = c.pos + u.length := by
  constructor
  · intro h
    obtain ⟨N, hN⟩ := C93_peg_to_engine hA henv hg hc ht _ h
    obtain ⟨c', h1, hw⟩ := (hN N (Nat.le_refl _)).some
    obtain ⟨u', hu, hr⟩ := hw.values
    rw [hv] at hu
    rw [← List.append_cancel_right hu] at hr
    exact ⟨N, c', h1, hr⟩
  · rintro ⟨n, c', h1, hr⟩
    obtain ⟨o, h2, h3⟩ := C93_engine_to_peg hA henv hg hc ht n (fun h0 => by rw [h0] at h1; cases h1)
    rw [h1] at h3
    obtain ⟨v', rfl, hw⟩ := h3.matched
    obtain ⟨u', hu, hr'⟩ := hw.values
    rw [hv] at hu
    rw [(List.append_inj hu (by omega)).2]
    exact h2

/-- **C93.** The grammar does not match exactly if the parsing expression fails. -/
theorem C93_unmatched (hA : Items.Tokens src A) (henv : ∀ i, Means src A (.gram (env i)) (rules i)) (hg : Means src A (.gram g) e)
    (hc : c.status = .matched) (ht : Before src c t) : Ford rules e t none ↔ ∃ n, Outcome.of (run env n g c) = .unmatched := by
  constructor
  · intro h
    obtain ⟨N, hN⟩ := C93_peg_to_engine hA henv hg hc ht _ h
    exact ⟨N, (hN N (Nat.le_refl _)).none⟩
  · rintro ⟨n, h1⟩
    obtain ⟨o, h2, h3⟩ := C93_engine_to_peg hA henv hg hc ht n (fun h0 => by rw [h0] at h1; cases h1)
    rw [h1] at h3
    rw [h3.unmatched] at h2
    exact h2

/-- **C93.** The grammar runs forever exactly if the parsing expression has no result. -/
theorem C93_diverges (hA : Items.Tokens src A) (henv : ∀ i, Means src A (.gram (env i)) (rules i)) (hg : Means src A (.gram g) e)
    (hc : c.status = .matched) (ht : Before src c t) : (¬ ∃ o, Ford rules e t o) ↔ ∀ n, run env n g c = .timeout := by
  constructor
  · intro h n
    by_cases h0 : run env n g c = .timeout
    · exact h0
    · obtain ⟨o, h2, _⟩ := C93_engine_to_peg hA henv hg hc ht n h0
      exact absurd ⟨o, h2⟩ h
  · rintro h ⟨o, ho⟩
    obtain ⟨N, hN⟩ := C93_peg_to_engine hA henv hg hc ht _ ho
    have := hN N (Nat.le_refl _)
    rw [h N] at this
    exact this.elim

end

/-- **C93**, an example: the grammar `E := First(FlatGroup(ObjClass(op), E, E), ObjClassN(op))` before `End` accepts the slices that are
expressions in Polish notation, and no others. It ends on all slices, without a panic if the values can be compared with `op`. -/
theorem C93_polish (src : SliceSrc) (op tag : Value) (h : Compares src op) :
    ∃ n, (Polish (fun w => src.itemEquals w op = .ok true) src.items ∧
        ∃ c', Outcome.of (run (Items.PolishGrammar.env op) n (.flatGroup [.indirect 0, .prim objEnd]) (newObjCtx src tag)) = .matched c' ∧
          c'.pos = src.items.length) ∨
      (¬ Polish (fun w => src.itemEquals w op = .ok true) src.items ∧
        Outcome.of (run (Items.PolishGrammar.env op) n (.flatGroup [.indirect 0, .prim objEnd]) (newObjCtx src tag)) = .unmatched) := by
  have hA : Items.Tokens src (fun _ => True) := ⟨fun _ _ _ _ _ _ => trivial, fun _ _ _ _ => trivial⟩
  have hg : Means src (fun _ => True) (.gram (.flatGroup [.indirect 0, .prim objEnd])) (.seq (.var 0) (.seq (.notP .any) .eps)) :=
    .flatGroup (.seqCons .indirect (.seqCons .end .seqNil))
  have hb : Before src (newObjCtx src tag) src.items := ⟨rfl, Nat.zero_le _, rfl⟩
  have hP : Spec.Items.OneOf src [op] = fun w => src.itemEquals w op = .ok true := by funext w; simp [Spec.Items.OneOf]
  have key := Items.PolishGrammar.decides (src := src) (op := op) src.items
  rw [hP] at key
  rcases key with ⟨u, v, hu, hp, f⟩ | ⟨hno, f⟩
  · cases v with
    | nil =>
      rw [List.append_nil] at hu
      obtain ⟨n, c', h1, h2⟩ := (C93_matches hA (Items.PolishGrammar.means h) hg rfl hb src.items [] (by simp)).1
        (.seq f (.seq (.notYes .itemEnd) .eps))
      exact ⟨n, .inl ⟨hu ▸ hp, c', h1, by rw [h2]; exact Nat.zero_add _⟩⟩
    | cons w v =>
      obtain ⟨n, h1⟩ := (C93_unmatched hA (Items.PolishGrammar.means h) hg rfl hb).1 (.seq f (.seqFail (.notNo (.item trivial))))
      refine ⟨n, .inr ⟨fun hp' => ?_, h1⟩⟩
      have := (Items.PolishGrammar.polish_unique hp hp' (v := w :: v) (v' := []) (by rw [List.append_nil]; exact hu.symm)).2
      cases this
  · obtain ⟨n, h1⟩ := (C93_unmatched hA (Items.PolishGrammar.means h) hg rfl hb).1 (.seqFail f)
    exact ⟨n, .inr ⟨fun hp' => hno src.items [] (by simp) hp', h1⟩⟩

/-- Numbers, compared as such. -/
private def nums (l : List Nat) : SliceSrc where
  items := l.map .opaque
  itemEquals a b := match a, b with
    | .opaque x, .opaque y => .ok (x == y)
    | _, _ => .panic .typeAssert
  accepts _ := true

/-- With 0 for the operator: 0 0 1 2 3 is an expression, 0 1 is none. -/
example : ∃ n c', Outcome.of (run (Items.PolishGrammar.env (.opaque 0)) n (.flatGroup [.indirect 0, .prim objEnd]) (newObjCtx (nums [0, 0, 1, 2, 3]) .nil)) =
    .matched c' := by
  obtain ⟨n, ⟨_, c', h, _⟩ | ⟨h, _⟩⟩ := C93_polish (nums [0, 0, 1, 2, 3]) (.opaque 0) .nil (by intro w hw; simp [nums] at hw; rcases hw with rfl | rfl | rfl | rfl <;> exact ⟨_, rfl⟩)
  · exact ⟨n, c', h⟩
  · refine absurd ?_ h
    refine .operator (l := [.opaque 0, .opaque 1, .opaque 2]) (r := [.opaque 3]) rfl (.operator (l := [.opaque 1]) (r := [.opaque 2]) rfl ?_ ?_) ?_ <;>
      exact .operand (by simp [nums])
example : ∃ n, Outcome.of (run (Items.PolishGrammar.env (.opaque 0)) n (.flatGroup [.indirect 0, .prim objEnd]) (newObjCtx (nums [0, 1]) .nil)) = .unmatched := by
  obtain ⟨n, ⟨h, _⟩ | ⟨_, h⟩⟩ := C93_polish (nums [0, 1]) (.opaque 0) .nil (by intro w hw; simp [nums] at hw; rcases hw with rfl | rfl <;> exact ⟨_, rfl⟩)
  · exfalso
    have : ∀ l, l = (nums [0, 1]).items → ¬ Polish (fun w => (nums [0, 1]).itemEquals w (.opaque 0) = .ok true) l := by
      intro l hl h
      cases h with
      | operand => simp [nums] at hl
      | @operator w a b _ h1 h2 =>
        cases h1 <;> cases h2 <;> simp [nums] at hl
    exact this _ rfl h
  · exact ⟨n, h⟩

/-- The hypotheses of the general theorems with a transformer, a repetition and a look-ahead: all values up to the first 9, not
followed by the end. -/
example : ∃ n c', Outcome.of (run (fun _ => .prim unmatchedP) n
    (.flatGroup [.trans (Gram.star [.prim (objClassN [.opaque 9])]) [.fn erase], .lookAhead [.prim objAny]]) (newObjCtx (nums [4, 5, 9]) .nil)) =
      .matched c' ∧ c'.pos = 0 + 2 := by
  refine (C93_matches (src := nums [4, 5, 9]) (A := fun _ => True) (rules := fun _ => .fail) (t := (nums [4, 5, 9]).items)
    (e := .seq (.star (.seq (.item fun w => ¬ Spec.Items.OneOf (nums [4, 5, 9]) [.opaque 9] w) .eps)) (.seq (.notP (.notP (.seq .any .eps))) .eps))
    ⟨fun _ _ _ _ _ _ => trivial, fun _ _ _ _ => trivial⟩ (fun _ => .unmatched) ?_ rfl ⟨rfl, Nat.zero_le _, rfl⟩ [.opaque 4, .opaque 5] [.opaque 9] rfl).1 ?_
  · refine .flatGroup (.seqCons (.trans (fs := [erase]) (Items.means_star (Items.means_seq (.objClassN ?_))) succeeds_erase) (Items.means_seq (.lookAhead (Items.means_seq .any))))
    intro s hs w hw
    simp only [List.mem_singleton] at hs
    subst hs
    simp [nums] at hw
    rcases hw with rfl | rfl | rfl <;> exact ⟨_, rfl⟩
  · refine .seq (.starMore (.seq (.item ?_) .eps) (.starMore (.seq (.item ?_) .eps) (.starEnd (.seqFail (.itemNot ?_))))) (.seq (.notYes (.notNo (.seq (.item trivial) .eps))) .eps) <;>
      simp [Spec.Items.OneOf, nums]

#print axioms C93_engine_to_peg
#print axioms C93_peg_to_engine
#print axioms C93_matches
#print axioms C93_unmatched
#print axioms C93_diverges
#print axioms C93_polish

end Takenoco
