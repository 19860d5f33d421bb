import Verif.Spec.Box
/-
Histories of calls on boxes.
-/
namespace Takenoco
open Boxes Spec

section
variable {K P B : Type} [DecidableEq K] [DecidableEq B] {boxes : B → BoxInfo K}

set_option linter.unusedSectionVars false

/-- Everything but the contents of the map is fixed. -/
def SameMap (c c' : Container K P) : Prop := c'.elem = c.elem ∧ c'.isNil = c.isNil ∧ c'.keyOk = c.keyOk

theorem fits_same {c c' : Container K P} (h : SameMap c c') (k : K) (v : Dyn P) : Fits c' k v ↔ Fits c k v := by
  cases v <;> simp [Fits, h.1, h.2.1, h.2.2]

/-- What the map holds after the write. -/
def storedAs : Dyn P → Option (Dyn P)
  | .nil => none
  | .val ty p => some (.val ty p)

/-- A write that fits. -/
theorem setMapIndex_fits {c : Container K P} {k : K} {v : Dyn P} (h : Fits c k v) :
    setMapIndex c k v = .ok { c with get := fun k' => if k' = k then (storedAs v) else c.get k' } := by
  cases v with
  | nil => simp only [Fits] at h; simp [setMapIndex, h, storedAs]
  | val ty p => obtain ⟨h1, h2, h3⟩ := h; simp [setMapIndex, h1, h2, h3, storedAs]

theorem setMapIndex_unfit {c : Container K P} {k : K} {v : Dyn P} (h : ¬ Fits c k v) : setMapIndex c k v = .panic reflectPanic := by
  cases v with
  | nil => simp only [Fits] at h; simp [setMapIndex, h]
  | val ty p =>
    unfold setMapIndex
    split
    · simp only
      split
      · split
        · rfl
        · exact absurd ⟨by assumption, by simp_all, by assumption⟩ h
      · rfl
    · rfl

/-- What one call of a history does. -/
theorem history_cons (w : World K P B) (o : Op K P B) (os : List (Op K P B)) :
    ∃ w', history boxes w (o :: os) = history boxes w' os ∧ SameMap w.cont w'.cont ∧
      (∀ k, ¬ WritesKey boxes w.cont k o → w'.cont.get k = w.cont.get k) ∧
      (∀ b, ¬ WritesBox boxes w.cont b o → w'.init b = w.init b) ∧ (∀ b, w.init b = true → w'.init b = true) ∧
      (∀ b v, o = .set b v → Fits w.cont (boxes b).key v →
        w'.cont.get (boxes b).key = (storedAs v) ∧ ((boxes b).guarded = true → w'.init b = true)) := by
  cases o with
  | get b g =>
    refine ⟨w, ?_, ⟨rfl, rfl, rfl⟩, fun _ _ => rfl, fun _ _ => rfl, fun _ h => h, fun b v h => by cases h⟩
    rw [history, call]
    split
    · rename_i h
      split at h
      · cases h
      · cases h1 : mapIndex w.cont (boxes b).key with
        | ok r =>
          rw [h1] at h
          cases h2 : (readAs g r : Out (Got K P)) with
          | ok x => simp [h2] at h; rw [← h.1]
          | panic p => simp [h2] at h
          | timeout => simp [h2] at h
        | panic p => simp [h1] at h
        | timeout => simp [h1] at h
    · rfl
  | sub b k =>
    refine ⟨w, ?_, ⟨rfl, rfl, rfl⟩, fun _ _ => rfl, fun _ _ => rfl, fun _ h => h, fun b v h => by cases h⟩
    rw [history, call]
    split
    · rename_i h
      split at h
      · cases h
      · cases h; rfl
    · rfl
  | index b k =>
    refine ⟨w, ?_, ⟨rfl, rfl, rfl⟩, fun _ _ => rfl, fun _ _ => rfl, fun _ h => h, fun b v h => by cases h⟩
    rw [history, call]
    split
    · rename_i h
      split at h
      · cases h
      · cases h; rfl
    · rfl
  | set b v =>
    by_cases hf : Fits w.cont (boxes b).key v
    · have hs := setMapIndex_fits hf
      by_cases hg : (boxes b).guarded = true
      · refine ⟨{ cont := { w.cont with get := fun k' => if k' = (boxes b).key then storedAs v else w.cont.get k' }, init := fun b' => if b' = b then true else w.init b' }, by rw [history, call, hs]; simp only [Out.bind_ok, if_pos hg]; rfl, ⟨rfl, rfl, rfl⟩, fun k hk => ?_, fun b' hb => ?_, fun b' hb => ?_, ?_⟩
        · simp only
          rw [if_neg]
          intro he; exact hk ⟨b, v, rfl, he.symm, he ▸ hf⟩
        · simp only
          rw [if_neg]
          intro he; exact hb ⟨v, by rw [he], he ▸ hf⟩
        · simp only
          split
          · rfl
          · exact hb
        · intro b' v' he _
          cases he
          exact ⟨by simp, fun _ => by simp⟩
      · refine ⟨{ w with cont := { w.cont with get := fun k' => if k' = (boxes b).key then storedAs v else w.cont.get k' } }, by rw [history, call, hs]; simp only [Out.bind_ok, if_neg hg]; rfl, ⟨rfl, rfl, rfl⟩, fun k hk => ?_, fun b' hb => rfl, fun b' hb => hb, ?_⟩
        · simp only
          rw [if_neg]
          intro he; exact hk ⟨b, v, rfl, he.symm, he ▸ hf⟩
        · intro b' v' he _
          cases he
          exact ⟨by simp, fun h => absurd h hg⟩
    · refine ⟨w, ?_, ⟨rfl, rfl, rfl⟩, fun _ _ => rfl, fun _ _ => rfl, fun _ h => h, fun b v h hf' => ?_⟩
      · rw [history, call, setMapIndex_unfit hf]; rfl
      · cases h; exact absurd hf' hf

theorem SameMap.trans {c c' c'' : Container K P} (h : SameMap c c') (h' : SameMap c' c'') : SameMap c c'' :=
  ⟨h'.1.trans h.1, h'.2.1.trans h.2.1, h'.2.2.trans h.2.2⟩

theorem writesKey_same {c c' : Container K P} (h : SameMap c c') (k : K) (o : Op K P B) : WritesKey boxes c' k o ↔ WritesKey boxes c k o := by
  simp only [WritesKey, fits_same h]

theorem writesBox_same {c c' : Container K P} (h : SameMap c c') (b : B) (o : Op K P B) : WritesBox boxes c' b o ↔ WritesBox boxes c b o := by
  simp only [WritesBox, fits_same h]

/-- What a history leaves alone. -/
theorem history_keeps (os : List (Op K P B)) : ∀ (w : World K P B),
    SameMap w.cont (history boxes w os).cont ∧
    (∀ k, (∀ o ∈ os, ¬ WritesKey boxes w.cont k o) → (history boxes w os).cont.get k = w.cont.get k) ∧
    (∀ b, (∀ o ∈ os, ¬ WritesBox boxes w.cont b o) → (history boxes w os).init b = w.init b) ∧
    (∀ b, w.init b = true → (history boxes w os).init b = true) := by
  induction os with
  | nil => intro w; exact ⟨⟨rfl, rfl, rfl⟩, fun _ _ => rfl, fun _ _ => rfl, fun _ h => h⟩
  | cons o os ih =>
    intro w
    obtain ⟨w', h1, h2, h3, h4, h5, _⟩ := history_cons (boxes := boxes) w o os
    obtain ⟨i1, i2, i3, i4⟩ := ih w'
    rw [h1]
    refine ⟨h2.trans i1, fun k hk => ?_, fun b hb => ?_, fun b hb => i4 b (h5 b hb)⟩
    · rw [i2 k (fun o' ho' => by rw [writesKey_same h2]; exact hk o' (by simp [ho'])), h3 k (hk o (by simp))]
    · rw [i3 b (fun o' ho' => by rw [writesBox_same h2]; exact hb o' (by simp [ho'])), h4 b (hb o (by simp))]

theorem history_append (os os' : List (Op K P B)) : ∀ (w : World K P B), history boxes w (os ++ os') = history boxes (history boxes w os) os' := by
  induction os with
  | nil => intro w; rfl
  | cons o os ih =>
    intro w
    rw [List.cons_append, history, history]
    split <;> exact ih _

theorem history_last {os : List (Op K P B)} {w : World K P B} {k : K} {v : Dyn P} (h : LastWrite boxes w.cont os k v) :
    (history boxes w os).cont.get k = (storedAs v) := by
  obtain ⟨pre, b, post, rfl, rfl, hf, hp⟩ := h
  rw [history_append]
  have hs := (history_keeps (boxes := boxes) pre w).1
  obtain ⟨w', h1, h2, _, _, _, h3⟩ := history_cons (boxes := boxes) (history boxes w pre) (.set b v) post
  rw [h1, (history_keeps post w').2.1 _ fun o ho => ?_]
  · exact (h3 b v rfl ((fits_same hs _ _).2 hf)).1
  · rw [writesKey_same h2, writesKey_same hs]; exact hp o ho

end
end Takenoco
