import Verif.Spec.TraverseRun
import Verif.Lemmas.Traverse
/-
The traversal follows its specification.
-/
namespace Takenoco
open Spec
variable {σ T E : Type} {v : Visitor σ T E}

theorem failed_iff {r : Visited T E} : r.failed = true ↔ ¬ Spec.Visited.Fine r := by
  unfold Visited.failed Spec.Visited.Fine
  cases r.thrown <;> cases r.err <;> simp

theorem not_failed_iff {r : Visited T E} : r.failed = false ↔ Spec.Visited.Fine r := by
  rw [← Bool.not_eq_true, failed_iff, Classical.not_not]

theorem nextIndex_jump (len : Nat) (i : Int) (op : TraverseOpcode) (pc : Int) : nextIndex len i op pc = jump len i op pc := by
  cases op <;> simp only [nextIndex, jump] <;> omega

theorem wayBack_leaves {w : σ} {s : Ast} {o : Out (σ × Visited T E)} (h : wayBack v w s = o) (ho : o ≠ .timeout) : Leaves v w s o := by
  unfold wayBack at h
  cases hb : v.back w s with
  | timeout => rw [hb] at h; exact absurd h.symm ho
  | panic p => rw [hb] at h; cases h; exact .panics hb
  | ok r => obtain ⟨w', a, pc, op, th, e⟩ := r; rw [hb] at h; cases h; exact .returns hb

theorem leaves_wayBack {w : σ} {s : Ast} {o : Out (σ × Visited T E)} (h : Leaves v w s o) : wayBack v w s = o := by
  unfold wayBack
  cases h with
  | returns h => rw [h]; rfl
  | panics h => rw [h]; rfl

theorem childFailed_tells {w : σ} {s child : Ast} {r : Visited T E} {o : Out (σ × Visited T E)} (h : childFailed v w s child r = o) (ho : o ≠ .timeout) :
    Tells v w s child r.thrown r.err o := by
  unfold childFailed at h
  cases hb : v.childrenErr w s child r.thrown r.err with
  | timeout => rw [hb] at h; exact absurd h.symm ho
  | panic p => rw [hb] at h; cases h; exact .panics hb
  | ok w' => rw [hb] at h; cases h; exact .returns hb

theorem tells_childFailed {w : σ} {s child : Ast} {r : Visited T E} {o : Out (σ × Visited T E)} (h : Tells v w s child r.thrown r.err o) :
    childFailed v w s child r = o := by
  unfold childFailed
  cases h with
  | returns h => rw [h]; rfl
  | panics h => rw [h]; rfl

/-- The recursive call follows the specification. -/
def TravFollows (v : Visitor σ T E) (trav : σ → Ast → Out (σ × Visited T E)) : Prop := ∀ w a o, trav w a = o → o ≠ .timeout → Traversal v w a o

theorem listLoop_follows {trav : σ → Ast → Out (σ × Visited T E)} (ht : TravFollows v trav) (s : Ast) : ∀ xs w done o,
    listLoop v trav s w done xs = o → o ≠ .timeout → ListTraversal v s w done xs o
  | [], w, done, o, h, ho => .done (wayBack_leaves h ho)
  | x :: xs, w, done, o, h, ho => by
    unfold listLoop at h
    cases hx : trav w x with
    | timeout => rw [hx] at h; exact absurd h.symm ho
    | panic p => rw [hx] at h; cases h; exact .panics (ht _ _ _ hx (by simp))
    | ok r =>
      obtain ⟨w', r⟩ := r
      rw [hx] at h
      have hx := ht _ _ _ hx (by simp)
      simp only [Out.bind_ok] at h
      cases hf : r.failed with
      | true => rw [hf, if_pos rfl] at h; exact .fails hx (failed_iff.1 hf) (childFailed_tells h ho)
      | false =>
        rw [hf, if_neg (by simp)] at h
        exact .next hx (not_failed_iff.1 hf) (listLoop_follows ht s xs _ _ _ h ho)

theorem lastLoop_follows {trav : σ → Ast → Out (σ × Visited T E)} (ht : TravFollows v trav) (s : Ast) (l : List Ast) : ∀ k w buf i o,
    lastLoop v trav s l k w buf i = o → o ≠ .timeout → Program v s l w (if l = [] then [] else [buf]) i o
  | 0, _, _, _, o, h, ho => absurd h.symm ho
  | k + 1, w, buf, i, o, h, ho => by
    unfold lastLoop at h
    by_cases hi : i < l.length
    · rw [if_pos hi] at h
      by_cases h0 : i < 0
      · rw [if_pos h0] at h; subst h; exact .before h0 hi
      · rw [if_neg h0] at h
        obtain ⟨j, rfl⟩ := Int.eq_ofNat_of_zero_le (by omega : 0 ≤ i)
        simp only [Int.toNat_natCast] at h
        have hj : j < l.length := by omega
        have hl : l ≠ [] := by rintro rfl; simp at hj
        obtain ⟨x, hx⟩ : ∃ x, l[j]? = some x := ⟨_, List.getElem?_eq_getElem hj⟩
        rw [hx] at h
        simp only at h
        cases hr : trav w x with
        | timeout => rw [hr] at h; exact absurd h.symm ho
        | panic p => rw [hr] at h; cases h; exact .panics hx (ht _ _ _ hr (by simp))
        | ok r =>
          obtain ⟨w', r⟩ := r
          rw [hr] at h
          have hr := ht _ _ _ hr (by simp)
          simp only [Out.bind_ok] at h
          cases hf : r.failed with
          | true => rw [hf, if_pos rfl] at h; exact .fails hx hr (failed_iff.1 hf) (childFailed_tells h ho)
          | false =>
            rw [hf, if_neg (by simp), nextIndex_jump] at h
            have := lastLoop_follows ht s l k _ _ _ _ h ho
            refine .next hx hr (not_failed_iff.1 hf) ?_
            rw [if_neg hl] at this ⊢
            by_cases hn : r.op = .nop
            · rw [if_pos hn] at this ⊢; exact this
            · rw [if_neg hn] at this ⊢; exact this
    · rw [if_neg hi] at h
      exact .done (by omega) (wayBack_leaves h ho)

theorem traverse_follows (v : Visitor σ T E) : ∀ n, TravFollows v (traverse v n)
  | 0 => fun w a o h ho => absurd h.symm ho
  | n + 1 => fun w a o h ho => by
    have ih := traverse_follows v n
    unfold traverse at h
    cases ht : v.there w a with
    | timeout => rw [ht] at h; exact absurd h.symm ho
    | panic p => rw [ht] at h; cases h; exact .panics ht
    | ok r =>
      obtain ⟨w', s, mode, err⟩ := r
      rw [ht] at h
      simp only [Out.bind_ok] at h
      cases err with
      | some e => cases h; exact .refused ht
      | none =>
        simp only at h
        by_cases hm : mode = .lazy
        · rw [if_pos hm] at h; exact .leaf ht (.inl hm) (wayBack_leaves h ho)
        · rw [if_neg hm] at h
          split at h
          · rename_i hty
            split at h
            · rename_i x y hv
              refine .pair ht hm hty hv ?_
              cases hx : traverse v n w' x with
              | timeout => rw [hx] at h; exact absurd h.symm ho
              | panic p => rw [hx] at h; cases h; exact .first (ih _ _ _ hx (by simp))
              | ok r =>
                obtain ⟨w1, r⟩ := r
                rw [hx] at h
                have hx := ih _ _ _ hx (by simp)
                simp only [Out.bind_ok] at h
                cases hf : r.failed with
                | true => rw [hf, if_pos rfl] at h; exact .firstFails hx (failed_iff.1 hf) (childFailed_tells h ho)
                | false =>
                  rw [hf, if_neg (by simp)] at h
                  cases hy : traverse v n w1 y with
                  | timeout => rw [hy] at h; exact absurd h.symm ho
                  | panic p => rw [hy] at h; cases h; exact .second hx (not_failed_iff.1 hf) (ih _ _ _ hy (by simp))
                  | ok r' =>
                    obtain ⟨w2, r'⟩ := r'
                    rw [hy] at h
                    have hy := ih _ _ _ hy (by simp)
                    simp only [Out.bind_ok] at h
                    cases hf' : r'.failed with
                    | true => rw [hf', if_pos rfl] at h; exact .secondFails hx (not_failed_iff.1 hf) hy (failed_iff.1 hf') (childFailed_tells h ho)
                    | false =>
                      rw [hf', if_neg (by simp)] at h
                      exact .both hx (not_failed_iff.1 hf) hy (not_failed_iff.1 hf') (wayBack_leaves h ho)
            · rename_i hv; subst h; exact .nilValue ht hm (.inl hty) hv
            · rename_i h1 h2; subst h; exact .badPair ht hm hty h2 h1
          · rename_i hty
            split at h
            · rename_i l hv
              by_cases hl : mode = .last
              · rw [if_pos hl] at h; subst hl; exact .program ht hty hv (lastLoop_follows ih s l _ _ _ _ _ h ho)
              · rw [if_neg hl] at h
                have : mode = .none := by cases mode <;> simp_all
                subst this
                exact .list ht hty hv (listLoop_follows ih s l _ _ _ h ho)
            · rename_i hv; subst h; exact .nilValue ht hm (.inr hty) hv
            · rename_i h1 h2; subst h; exact .badList ht hm hty h2 h1
          · rename_i h1 h2; exact .leaf ht (.inr ⟨h1, h2⟩) (wayBack_leaves h ho)

/-! ### Completeness -/

mutual
theorem traversal_reached : ∀ {w : σ} {a : Ast} {o : Out (σ × Visited T E)}, Traversal v w a o → ∃ N, ∀ n, N ≤ n → traverse v n w a = o
  | _, _, _, .panics h => ⟨1, fun n hn => by obtain ⟨n, rfl⟩ : ∃ k, n = k + 1 := ⟨n - 1, by omega⟩; unfold traverse; rw [h]; rfl⟩
  | _, _, _, .refused h => ⟨1, fun n hn => by obtain ⟨n, rfl⟩ : ∃ k, n = k + 1 := ⟨n - 1, by omega⟩; unfold traverse; rw [h]; rfl⟩
  | _, _, _, .leaf (s := s) h hm hl => ⟨1, fun n hn => by
      obtain ⟨n, rfl⟩ : ∃ k, n = k + 1 := ⟨n - 1, by omega⟩
      unfold traverse
      rw [h]
      simp only [Out.bind_ok]
      rcases hm with hm | ⟨h1, h2⟩
      · rw [if_pos hm]; exact leaves_wayBack hl
      · split
        · exact leaves_wayBack hl
        · split
          · rename_i h; exact absurd h h1
          · rename_i h; exact absurd h h2
          · exact leaves_wayBack hl⟩
  | _, _, _, .pair h hm hty hv hp => by
      obtain ⟨N, hN⟩ := pair_reached hp
      refine ⟨N + 1, fun n hn => ?_⟩
      obtain ⟨n, rfl⟩ : ∃ k, n = k + 1 := ⟨n - 1, by omega⟩
      unfold traverse
      rw [h]
      simp only [Out.bind_ok, if_neg hm, hty, hv]
      have := hN n (by omega)
      simp only [hty] at this
      exact this
  | _, _, _, .list h hty hv hp => by
      obtain ⟨N, hN⟩ := list_reached hp
      refine ⟨N + 1, fun n hn => ?_⟩
      obtain ⟨n, rfl⟩ : ∃ k, n = k + 1 := ⟨n - 1, by omega⟩
      unfold traverse
      rw [h]
      simp only [Out.bind_ok, hty, hv]
      rw [if_neg (by simp), if_neg (by simp)]
      exact hN n (by omega)
  | _, _, _, .program h hty hv hp => by
      obtain ⟨N, hN⟩ := program_reached hp
      refine ⟨N + 1, fun n hn => ?_⟩
      obtain ⟨n, rfl⟩ : ∃ k, n = k + 1 := ⟨n - 1, by omega⟩
      unfold traverse
      rw [h]
      simp only [Out.bind_ok, hty, hv]
      rw [if_neg (by simp), if_pos trivial]
      exact hN n (by omega) n (by omega) _ rfl
  | _, _, _, .nilValue h hm hty hv => ⟨1, fun n hn => by
      obtain ⟨n, rfl⟩ : ∃ k, n = k + 1 := ⟨n - 1, by omega⟩
      unfold traverse
      rw [h]
      rcases hty with hty | hty <;> simp only [Out.bind_ok, if_neg hm, hty, hv]⟩
  | _, _, _, .badPair (s := s) h hm hty h1 h2 => ⟨1, fun n hn => by
      obtain ⟨n, rfl⟩ : ∃ k, n = k + 1 := ⟨n - 1, by omega⟩
      unfold traverse
      rw [h]
      simp only [Out.bind_ok, if_neg hm, hty]⟩
  | _, _, _, .badList (s := s) h hm hty h1 h2 => ⟨1, fun n hn => by
      obtain ⟨n, rfl⟩ : ∃ k, n = k + 1 := ⟨n - 1, by omega⟩
      unfold traverse
      rw [h]
      simp only [Out.bind_ok, if_neg hm, hty]⟩

theorem pair_reached : ∀ {s : Ast} {w : σ} {x y : Ast} {o : Out (σ × Visited T E)}, PairTraversal v s w x y o → ∃ N, ∀ n, N ≤ n →
    ((do
      let (w, r) ← traverse v n w x
      if r.failed then childFailed v w s r.ast r
      else
        let (w, r') ← traverse v n w y
        if r'.failed then childFailed v w s r'.ast r'
        else wayBack v w { s with val := .cons r.ast r'.ast }) : Out (σ × Visited T E)) = o
  | _, _, _, _, _, .first h => by
      obtain ⟨N, hN⟩ := traversal_reached h
      exact ⟨N, fun n hn => by rw [hN n hn]; rfl⟩
  | _, _, _, _, _, .firstFails h hf ht => by
      obtain ⟨N, hN⟩ := traversal_reached h
      exact ⟨N, fun n hn => by rw [hN n hn]; simp only [Out.bind_ok]; rw [if_pos (failed_iff.2 hf)]; exact tells_childFailed ht⟩
  | _, _, _, _, _, .second h hf h2 => by
      obtain ⟨N, hN⟩ := traversal_reached h
      obtain ⟨M, hM⟩ := traversal_reached h2
      refine ⟨max N M, fun n hn => ?_⟩
      rw [hN n (by omega)]
      simp only [Out.bind_ok]
      rw [not_failed_iff.2 hf, if_neg (by simp), hM n (by omega)]
      rfl
  | _, _, _, _, _, .secondFails h hf h2 hf2 ht => by
      obtain ⟨N, hN⟩ := traversal_reached h
      obtain ⟨M, hM⟩ := traversal_reached h2
      refine ⟨max N M, fun n hn => ?_⟩
      rw [hN n (by omega)]
      simp only [Out.bind_ok]
      rw [not_failed_iff.2 hf, if_neg (by simp), hM n (by omega)]
      simp only [Out.bind_ok]
      rw [if_pos (failed_iff.2 hf2)]
      exact tells_childFailed ht
  | _, _, _, _, _, .both h hf h2 hf2 ht => by
      obtain ⟨N, hN⟩ := traversal_reached h
      obtain ⟨M, hM⟩ := traversal_reached h2
      refine ⟨max N M, fun n hn => ?_⟩
      rw [hN n (by omega)]
      simp only [Out.bind_ok]
      rw [not_failed_iff.2 hf, if_neg (by simp), hM n (by omega)]
      simp only [Out.bind_ok]
      rw [not_failed_iff.2 hf2, if_neg (by simp)]
      exact leaves_wayBack ht

theorem list_reached : ∀ {s : Ast} {w : σ} {done xs : List Ast} {o : Out (σ × Visited T E)}, ListTraversal v s w done xs o → ∃ N, ∀ n, N ≤ n →
    listLoop v (traverse v n) s w done xs = o
  | _, _, _, _, _, .done h => ⟨0, fun n _ => by unfold listLoop; exact leaves_wayBack h⟩
  | _, _, _, _, _, .panics h => by
      obtain ⟨N, hN⟩ := traversal_reached h
      exact ⟨N, fun n hn => by unfold listLoop; rw [hN n hn]; rfl⟩
  | _, _, _, _, _, .fails h hf ht => by
      obtain ⟨N, hN⟩ := traversal_reached h
      exact ⟨N, fun n hn => by unfold listLoop; rw [hN n hn]; simp only [Out.bind_ok]; rw [if_pos (failed_iff.2 hf)]; exact tells_childFailed ht⟩
  | _, _, _, _, _, .next h hf h2 => by
      obtain ⟨N, hN⟩ := traversal_reached h
      obtain ⟨M, hM⟩ := list_reached h2
      refine ⟨max N M, fun n hn => ?_⟩
      unfold listLoop
      rw [hN n (by omega)]
      simp only [Out.bind_ok]
      rw [not_failed_iff.2 hf, if_neg (by simp)]
      exact hM n (by omega)

theorem program_reached : ∀ {s : Ast} {l : List Ast} {w : σ} {res : List Ast} {i : Int} {o : Out (σ × Visited T E)}, Program v s l w res i o →
    ∃ N, ∀ n, N ≤ n → ∀ k, N ≤ k → ∀ buf, res = (if l = [] then [] else [buf]) → lastLoop v (traverse v n) s l k w buf i = o
  | _, _, _, _, _, _, .done hi h => ⟨1, fun n _ k hk buf hb => by
      obtain ⟨k, rfl⟩ : ∃ j, k = j + 1 := ⟨k - 1, by omega⟩
      unfold lastLoop
      rw [if_neg (by omega), ← hb]
      exact leaves_wayBack h⟩
  | _, _, _, _, _, _, .before h0 hi => ⟨1, fun n _ k hk buf hb => by
      obtain ⟨k, rfl⟩ : ∃ j, k = j + 1 := ⟨k - 1, by omega⟩
      unfold lastLoop
      rw [if_pos hi, if_pos h0]⟩
  | _, l, _, _, _, _, .panics (i := i) hx h => by
      obtain ⟨N, hN⟩ := traversal_reached h
      refine ⟨N + 1, fun n hn k hk buf hb => ?_⟩
      obtain ⟨k, rfl⟩ : ∃ j, k = j + 1 := ⟨k - 1, by omega⟩
      have hi : i < l.length := (List.getElem?_eq_some_iff.1 hx).1
      unfold lastLoop
      rw [if_pos (by omega), if_neg (by omega), Int.toNat_natCast, hx]
      simp only
      rw [hN n (by omega)]
      rfl
  | _, l, _, _, _, _, .fails (i := i) hx h hf ht => by
      obtain ⟨N, hN⟩ := traversal_reached h
      refine ⟨N + 1, fun n hn k hk buf hb => ?_⟩
      obtain ⟨k, rfl⟩ : ∃ j, k = j + 1 := ⟨k - 1, by omega⟩
      have hi : i < l.length := (List.getElem?_eq_some_iff.1 hx).1
      unfold lastLoop
      rw [if_pos (by omega), if_neg (by omega), Int.toNat_natCast, hx]
      simp only
      rw [hN n (by omega)]
      simp only [Out.bind_ok]
      rw [if_pos (failed_iff.2 hf)]
      exact tells_childFailed ht
  | _, l, _, _, _, _, .next (i := i) (r := r) hx h hf h2 => by
      obtain ⟨N, hN⟩ := traversal_reached h
      obtain ⟨M, hM⟩ := program_reached h2
      refine ⟨max N M + 1, fun n hn k hk buf hb => ?_⟩
      obtain ⟨k, rfl⟩ : ∃ j, k = j + 1 := ⟨k - 1, by omega⟩
      have hi : i < l.length := (List.getElem?_eq_some_iff.1 hx).1
      have hl : l ≠ [] := by rintro rfl; simp at hi
      unfold lastLoop
      rw [if_pos (by omega), if_neg (by omega), Int.toNat_natCast, hx]
      simp only
      rw [hN n (by omega)]
      simp only [Out.bind_ok]
      rw [not_failed_iff.2 hf, if_neg (by simp), nextIndex_jump]
      refine hM n (by omega) k (by omega) _ ?_
      rw [if_neg hl]
      rw [if_neg hl] at hb
      by_cases hn : r.op = .nop
      · rw [if_pos hn, if_pos hn]
      · rw [if_neg hn, if_neg hn]; exact hb
end

theorem leaves_end {w : σ} {s : Ast} {o : Out (σ × Visited T E)} (h : Leaves v w s o) : o ≠ .timeout := by cases h <;> exact fun h => nomatch h
theorem tells_end {w : σ} {s c : Ast} {th : Option T} {e : Option E} {o : Out (σ × Visited T E)} (h : Tells v w s c th e o) : o ≠ .timeout := by
  cases h <;> exact fun h => nomatch h

theorem traversal_no_timeout {w : σ} {a : Ast} : ¬ Traversal v w a .timeout := by
  have : ∀ {o : Out (σ × Visited T E)}, Traversal v w a o → o ≠ .timeout := fun {o} h => by
    refine Traversal.rec (motive_1 := fun _ _ o _ => o ≠ .timeout) (motive_2 := fun _ _ _ _ o _ => o ≠ .timeout)
      (motive_3 := fun _ _ _ _ o _ => o ≠ .timeout) (motive_4 := fun _ _ _ _ _ o _ => o ≠ .timeout) ?_ ?_ ?_ ?_ ?_ ?_ ?_ ?_ ?_ ?_ ?_ ?_ ?_ ?_ ?_ ?_ ?_ ?_ ?_ ?_ ?_ ?_ ?_ h
    all_goals intros
    all_goals first
      | assumption
      | (intro h; cases h; done)
      | exact leaves_end (by assumption)
      | exact tells_end (by assumption)
  exact fun h => this h rfl

/-! ### Rewriting -/

mutual
theorem rebuilt_traversal {f : Ast → Ast} {mode : Ast → WayThereMode} (hv : ReplacesNodes v f mode) (hm : ∀ a, mode a ≠ .last) :
    ∀ {a b : Ast}, Rebuilt f (fun a => mode a = .lazy) a b → ∀ w, ∃ w' pc op, Traversal v w a (.ok (w', ⟨b, pc, op, none, none⟩))
  | _, _, .leaf (a := a) h => fun w => by
      obtain ⟨w1, h1⟩ := hv.there w a
      obtain ⟨w2, pc, op, h2⟩ := hv.back w1 a
      exact ⟨w2, pc, op, .leaf h1 h (.returns h2)⟩
  | _, _, .pair (a := a) (x' := x') (y' := y') hl hty hval hx hy => fun w => by
      obtain ⟨w1, h1⟩ := hv.there w a
      obtain ⟨w2, pc, op, h2⟩ := rebuilt_traversal hv hm hx w1
      obtain ⟨w3, pc', op', h3⟩ := rebuilt_traversal hv hm hy w2
      obtain ⟨w4, pc, op, h4⟩ := hv.back w3 { a with val := .cons x' y' }
      exact ⟨w4, pc, op, .pair h1 hl hty hval (.both h2 ⟨rfl, rfl⟩ h3 ⟨rfl, rfl⟩ (.returns h4))⟩
  | _, _, .list (a := a) hl hty hval h => fun w => by
      obtain ⟨w1, h1⟩ := hv.there w a
      obtain ⟨w2, pc, op, h2⟩ := rebuiltAll_traversal hv hm h a w1 []
      have : mode a = .none := by
        have := hm a
        cases h : mode a with
        | none => rfl
        | lazy => exact absurd h hl
        | last => exact absurd h this
      rw [this] at h1
      exact ⟨w2, pc, op, .list h1 hty hval h2⟩

theorem rebuiltAll_traversal {f : Ast → Ast} {mode : Ast → WayThereMode} (hv : ReplacesNodes v f mode) (hm : ∀ a, mode a ≠ .last) :
    ∀ {l m : List Ast}, RebuiltAll f (fun a => mode a = .lazy) l m → ∀ s w done, ∃ w' pc op,
      ListTraversal v s w done l (.ok (w', ⟨f { s with val := .list (done ++ m) }, pc, op, none, none⟩))
  | _, _, .nil => fun s w done => by
      obtain ⟨w2, pc, op, h2⟩ := hv.back w { s with val := .list done }
      rw [List.append_nil]
      exact ⟨w2, pc, op, .done (.returns h2)⟩
  | _, _, .cons (b := b) (m := m) h hs => fun s w done => by
      obtain ⟨w1, pc, op, h1⟩ := rebuilt_traversal hv hm h w
      obtain ⟨w2, pc, op, h2⟩ := rebuiltAll_traversal hv hm hs s w1 (done ++ [b])
      rw [List.append_assoc, List.singleton_append] at h2
      exact ⟨w2, pc, op, .next h1 ⟨rfl, rfl⟩ h2⟩
end

theorem rebuiltAll_exists {f : Ast → Ast} {lazy : Ast → Prop} : ∀ (l : List Ast), (∀ x ∈ l, ∃ b, Rebuilt f lazy x b) → ∃ m, RebuiltAll f lazy l m
  | [], _ => ⟨[], .nil⟩
  | x :: l, h => by
    obtain ⟨b, hb⟩ := h x (by simp)
    obtain ⟨m, hm⟩ := rebuiltAll_exists l fun y hy => h y (by simp [hy])
    exact ⟨b :: m, .cons hb hm⟩

theorem rebuilt_exists (f : Ast → Ast) (lazy : Ast → Prop) {a : Ast} (h : Tagged a) : ∃ b, Rebuilt f lazy a b := by
  induction h with
  | @leaf a h1 h2 => exact ⟨_, .leaf (.inr ⟨h1, h2⟩)⟩
  | @cons a x y h1 h2 _ _ ih1 ih2 =>
    by_cases hl : lazy a
    · exact ⟨_, .leaf (.inl hl)⟩
    · obtain ⟨b, hb⟩ := ih1
      obtain ⟨c, hc⟩ := ih2
      exact ⟨_, .pair hl h1 h2 hb hc⟩
  | @list a l h1 h2 _ ih =>
    by_cases hl : lazy a
    · exact ⟨_, .leaf (.inl hl)⟩
    · obtain ⟨m, hm⟩ := rebuiltAll_exists l ih
      exact ⟨_, .list hl h1 h2 hm⟩

end Takenoco
