import Verif.Spec.ReflectBox
/-
Boxes over Go variables: reading, writing and typing.
-/
namespace Takenoco
open Refl Spec

/-! ### Parts of variables -/

theorem put_at {c c' v : Cell} {p : List Nat} (h : c.put p v = some c') (q : List Nat) : c'.at (p ++ q) = v.at q := by
  induction p generalizing c c' with
  | nil => simp only [Cell.put] at h; cases h; rfl
  | cons i p ih =>
    cases c <;> simp only [Cell.put, reduceCtorEq] at h
    rename_i l
    cases hi : l[i]? with
    | none => rw [hi] at h; cases h
    | some d =>
      rw [hi] at h
      simp only at h
      cases hd : d.put p v with
      | none => rw [hd] at h; cases h
      | some d' =>
        rw [hd] at h
        cases h
        have hl : i < l.length := by
          rw [List.getElem?_eq_some_iff] at hi; exact hi.1
        simp only [List.cons_append, Cell.at, List.getElem?_set_self hl]
        exact ih hd

theorem put_apart {c c' v : Cell} {p q : List Nat} (h : c.put p v = some c') (h1 : ¬ p <+: q) (h2 : ¬ q <+: p) : c'.at q = c.at q := by
  induction p generalizing c c' q with
  | nil => exact absurd List.nil_prefix h1
  | cons i p ih =>
    cases q with
    | nil => exact absurd List.nil_prefix h2
    | cons j q =>
      cases c <;> simp only [Cell.put, reduceCtorEq] at h
      rename_i l
      cases hi : l[i]? with
      | none => rw [hi] at h; cases h
      | some d =>
        rw [hi] at h
        simp only at h
        cases hd : d.put p v with
        | none => rw [hd] at h; cases h
        | some d' =>
          rw [hd] at h
          cases h
          have hl : i < l.length := by
            rw [List.getElem?_eq_some_iff] at hi; exact hi.1
          by_cases hij : i = j
          · subst hij
            simp only [Cell.at, List.getElem?_set_self hl, hi]
            exact ih hd (fun hp => h1 (by simpa using hp)) fun hp => h2 (by simpa using hp)
          · simp only [Cell.at, List.getElem?_set_ne hij]

theorem store_load {h h' : Heap} {p : Place} {v : Cell} (hs : store h p v = .ok h') (q : List Nat) :
    load h' { p with path := p.path ++ q } = match v.at q with | some c => .ok c | none => .panic .index := by
  unfold store at hs
  cases hc : (h.arrays p.arr)[p.idx]? with
  | none => rw [hc] at hs; cases hs
  | some c =>
    rw [hc] at hs
    simp only at hs
    cases hd : c.put p.path v with
    | none => rw [hd] at hs; cases hs
    | some c' =>
      rw [hd] at hs
      cases hs
      have hl : p.idx < (h.arrays p.arr).length := by
        rw [List.getElem?_eq_some_iff] at hc; exact hc.1
      simp only [load, if_true, List.getElem?_set_self hl, put_at hd]
      rfl

theorem store_apart {h h' : Heap} {p q : Place} {v : Cell} (hs : store h p v = .ok h') (ho : ¬ Overlap p q) : load h' q = load h q := by
  unfold store at hs
  cases hc : (h.arrays p.arr)[p.idx]? with
  | none => rw [hc] at hs; cases hs
  | some c =>
    rw [hc] at hs
    simp only at hs
    cases hd : c.put p.path v with
    | none => rw [hd] at hs; cases hs
    | some c' =>
      rw [hd] at hs
      cases hs
      have hl : p.idx < (h.arrays p.arr).length := by
        rw [List.getElem?_eq_some_iff] at hc; exact hc.1
      by_cases ha : q.arr = p.arr
      · by_cases hi : p.idx = q.idx
        · have : ¬ p.path <+: q.path ∧ ¬ q.path <+: p.path := ⟨fun hp => ho ⟨ha.symm, hi, .inl hp⟩, fun hp => ho ⟨ha.symm, hi, .inr hp⟩⟩
          simp only [load, ha, if_true, ← hi, List.getElem?_set_self hl, hc, put_apart hd this.1 this.2]
        · simp only [load, ha, if_true, List.getElem?_set_ne hi]
      · simp only [load, if_neg ha]

/-! ### What calls do -/

section
variable {narrow : UInt64 → UInt64}

theorem setter_call {h : Heap} {r : RV} {m : Method} (hm : IsSetter m) : call narrow h r m =
    match r with
    | .ref ty p =>
      match setValue narrow ty m with
      | some c => (store h p c).bind fun h' => .ok (h', .unit)
      | none => .panic reflectPanic
    | _ => .panic reflectPanic := by
  cases m <;> simp only [IsSetter] at hm <;> cases r <;> rfl

theorem bind_keep {α : Type} {o : Out α} {h h' : Heap} {f : α → Res} {x : Res} (e : (o.bind fun a => .ok (h, f a)) = .ok (h', x)) :
    h' = h ∧ ∃ a, o = .ok a ∧ x = f a := by
  cases o with
  | ok a => cases e; exact ⟨rfl, a, rfl, rfl⟩
  | panic => cases e
  | timeout => cases e

/-- The getters. -/
def IsGetter : Method → Prop
  | .getAny => True
  | .getInt => True
  | .getUint => True
  | .getFloat => True
  | .getBool => True
  | .getString => True
  | .getBytes => True
  | _ => False

theorem getter_call {h : Heap} {r : RV} {m : Method} (hm : IsGetter m) (hr : r ≠ .invalid ∨ m ≠ .getString) :
    call narrow h r m = ((contents h r).bind fun v => getValue m v).bind fun x => .ok (h, x) := by
  cases m <;> simp only [IsGetter] at hm <;> cases r <;>
    first
    | (simp only [call, bind, pure]; generalize contents h _ = o; cases o <;> rfl)
    | (exact absurd rfl (hr.resolve_right (by simp)))

theorem other_call {h h' : Heap} {r : RV} {m : Method} {x : Res} (hm : ¬ IsSetter m) (hc : call narrow h r m = .ok (h', x)) : h' = h := by
  by_cases hg : IsGetter m
  · by_cases hr : r ≠ .invalid ∨ m ≠ .getString
    · rw [getter_call hg hr] at hc
      exact (bind_keep hc).1
    · simp only [ne_eq, not_or, Classical.not_not] at hr
      obtain ⟨rfl, rfl⟩ := hr
      cases hc; rfl
  · cases m <;> simp only [IsSetter, IsGetter, not_true_eq_false] at hm hg
    · exact (bind_keep (f := .box) hc).1
    · exact (bind_keep (f := .box) hc).1
    · exact (bind_keep (f := .box) hc).1

theorem setter_ok {h h' : Heap} {r : RV} {m : Method} {x : Res} (hm : IsSetter m) (hc : call narrow h r m = .ok (h', x)) :
    ∃ ty p c, r = .ref ty p ∧ setValue narrow ty m = some c ∧ store h p c = .ok h' ∧ x = .unit := by
  rw [setter_call hm] at hc
  cases r with
  | invalid => cases hc
  | copy => cases hc
  | ref ty p =>
    simp only at hc
    cases hv : setValue narrow ty m with
    | none => rw [hv] at hc; cases hc
    | some c =>
      rw [hv] at hc
      simp only at hc
      cases hs : store h p c with
      | panic => rw [hs] at hc; cases hc
      | timeout => rw [hs] at hc; cases hc
      | ok h'' => rw [hs] at hc; cases hc; exact ⟨ty, p, c, rfl, hv, hs, rfl⟩

/-- What is not touched is not changed. -/
theorem history_apart (os : List (RV × Method)) {h : Heap} {q : Place} (hn : ∀ o ∈ os, ¬ Touches o q) : load (history narrow h os) q = load h q := by
  induction os generalizing h with
  | nil => rfl
  | cons o os ih =>
    obtain ⟨r, m⟩ := o
    have h' := fun (g : Heap) => ih (h := g) fun o ho => hn o (List.mem_cons_of_mem _ ho)
    rw [history]
    split
    · rename_i h'' x hc
      rw [h' h'']
      by_cases hm : IsSetter m
      · obtain ⟨ty, p, c, rfl, _, hs, _⟩ := setter_ok hm hc
        exact store_apart hs fun ho => hn _ List.mem_cons_self ⟨ty, p, rfl, hm, ho⟩
      · rw [other_call hm hc]
    · exact h' h

theorem refl_history_append (h : Heap) (os os' : List (RV × Method)) : history narrow h (os ++ os') = history narrow (history narrow h os) os' := by
  induction os generalizing h with
  | nil => rfl
  | cons o os ih =>
    obtain ⟨r, m⟩ := o
    simp only [List.cons_append, history]
    split <;> exact ih _

theorem readsBack_setter {ty : Ty} {m g : Method} {x : Res} (h : ReadsBack narrow ty m g x) : IsSetter m := by cases h <;> trivial

theorem readsBack_get {h : Heap} {ty : Ty} {p : Place} {m g : Method} {x : Res} {c : Cell} (hr : ReadsBack narrow ty m g x)
    (hv : setValue narrow ty m = some c) (hl : load h p = .ok c) : call narrow h (.ref ty p) g = .ok (h, x) := by
  have get : ∀ {g : Method}, IsGetter g → call narrow h (.ref ty p) g = (getValue g (ty, c)).bind fun x => .ok (h, x) := fun hg => by
    rw [getter_call hg (.inl (by simp))]
    simp [contents, hl, bind, Out.bind, pure]
  cases hr with
  | int => cases hv; rw [get]; rfl; trivial
  | uint => cases hv; rw [get]; rfl; trivial
  | float64 => cases hv; rw [get]; rfl; trivial
  | float32 => cases hv; rw [get]; rfl; trivial
  | bool => cases hv; rw [get]; rfl; trivial
  | string => cases hv; rw [get]; rfl; trivial
  | bytes => cases hv; rw [get]; rfl; trivial
  | any => cases hv; rw [get]; rfl; trivial
  | same hne =>
    simp only [setValue, if_neg hne, if_true] at hv
    cases hv
    rw [get]
    · cases ty <;> first | exact absurd rfl hne | rfl
    · trivial

/-! ### Typing -/

variable {D : Decls}

theorem partOf_append {a b c : Ty} {p q : List Nat} (h : PartOf a p b) (h' : PartOf b q c) : PartOf a (p ++ q) c := by
  induction h with
  | whole => exact h'
  | elem hi _ ih => exact .elem hi (ih h')

theorem typed_array {n : Nat} {e : Ty} {c : Cell} (h : Typed D (.array n e) c) : ∃ l, c = .array l ∧ l.length = n ∧ ∀ c ∈ l, Typed D e c := by
  cases h with
  | array h => exact ⟨_, rfl, rfl, h⟩

theorem typed_at {ty ty' : Ty} {c : Cell} {p : List Nat} (h : Typed D ty c) (hp : PartOf ty p ty') : ∃ c', c.at p = some c' ∧ Typed D ty' c' := by
  induction hp generalizing c with
  | whole => exact ⟨c, by cases c <;> rfl, h⟩
  | elem hi _ ih =>
    obtain ⟨l, rfl, rfl, hl⟩ := typed_array h
    simp only [Cell.at, List.getElem?_eq_getElem hi]
    exact ih (hl _ (List.getElem_mem hi))

theorem typed_put {ty ty' : Ty} {c v : Cell} {p : List Nat} (h : Typed D ty c) (hp : PartOf ty p ty') (hv : Typed D ty' v) :
    ∃ c', c.put p v = some c' ∧ Typed D ty c' := by
  induction hp generalizing c with
  | whole => exact ⟨v, by cases c <;> rfl, hv⟩
  | elem hi _ ih =>
    obtain ⟨l, rfl, rfl, hl⟩ := typed_array h
    obtain ⟨d, h1, h2⟩ := ih (hl _ (List.getElem_mem hi)) hv
    refine ⟨_, by simp only [Cell.put, List.getElem?_eq_getElem hi, h1, Option.map]; rfl, ?_⟩
    rw [← List.length_set]
    refine .array fun x hx => ?_
    rcases List.mem_or_eq_of_mem_set hx with hx | rfl
    · exact hl x hx
    · exact h2

theorem typed_load {h : Heap} (hh : TypedHeap D h) {ty : Ty} {p : Place} (hb : TypedBox D (.ref ty p)) : ∃ c, load h p = .ok c ∧ Typed D ty c := by
  cases hb with
  | ref h1 h2 =>
    rw [← hh.length] at h1
    obtain ⟨c, h3, h4⟩ := typed_at (hh.arrays _ _ (List.getElem_mem h1)) h2
    exact ⟨c, by simp only [load, List.getElem?_eq_getElem h1, h3], h4⟩

theorem typed_store {h : Heap} (hh : TypedHeap D h) {ty : Ty} {p : Place} (hb : TypedBox D (.ref ty p)) {v : Cell} (hv : Typed D ty v) :
    ∃ h', store h p v = .ok h' ∧ TypedHeap D h' := by
  cases hb with
  | ref h1 h2 =>
    rw [← hh.length] at h1
    obtain ⟨c, h3, h4⟩ := typed_put (hh.arrays _ _ (List.getElem_mem h1)) h2 hv
    refine ⟨{ h with arrays := fun a => if a = p.arr then (h.arrays a).set p.idx c else h.arrays a },
      by simp only [store, List.getElem?_eq_getElem h1, h3], ⟨fun a => ?_, fun a c hc => ?_, hh.maps⟩⟩
    · simp only
      split
      · rw [List.length_set]; exact hh.length a
      · exact hh.length a
    · simp only at hc
      split at hc
      · rename_i ha
        subst ha
        rcases List.mem_or_eq_of_mem_set hc with hc | rfl
        · exact hh.arrays _ _ hc
        · exact h4
      · exact hh.arrays _ _ hc

theorem typed_contents {h : Heap} (hh : TypedHeap D h) {r : RV} (hb : TypedBox D r) (hr : r ≠ .invalid) :
    ∃ ty c, boxType r = some ty ∧ contents h r = .ok (ty, c) ∧ Typed D ty c := by
  cases r with
  | invalid => exact absurd rfl hr
  | ref ty p =>
    obtain ⟨c, h1, h2⟩ := typed_load hh hb
    exact ⟨ty, c, rfl, by simp [contents, h1, bind, Out.bind, pure], h2⟩
  | copy ty c =>
    cases hb with
    | copy h1 => exact ⟨ty, c, rfl, rfl, h1⟩

theorem typed_dyn {ty : Ty} {c : Cell} (h : TypedDyn D (some (ty, c))) : ty ≠ .any ∧ Typed D ty c := by
  cases h with
  | any h1 h2 => exact ⟨h1, h2⟩

theorem typed_set {ty : Ty} {m : Method} {c : Cell} (ha : TypedArg D m) (hv : setValue narrow ty m = some c) : Typed D ty c := by
  cases m <;> simp only [setValue, reduceCtorEq] at hv
  · rename_i d
    cases d with
    | none => simp at hv
    | some d =>
      obtain ⟨ty', c'⟩ := d
      have := typed_dyn ha
      simp only at hv
      split at hv
      · rename_i h; cases hv; subst h; exact .any this.1 this.2
      · split at hv
        · rename_i h; cases hv; subst h; exact this.2
        · cases hv
  · split at hv
    · cases hv
      rename_i v _ bits
      have hp : 0 < 2 ^ bits := Nat.two_pow_pos bits
      have h1 := Int.bmod_lt (x := v.toInt) hp
      have h2 := Int.le_bmod (x := v.toInt) hp
      cases bits with
      | zero => refine .int ?_ ?_ <;> simp at * <;> omega
      | succ k =>
        have e : ((2 ^ k : Nat) : Int) = 2 ^ k := by simp
        rw [Nat.pow_succ] at h1 h2
        refine .int ?_ ?_ <;> simp only [Nat.add_sub_cancel, ← e, Nat.pow_succ] <;> generalize 2 ^ k = z at * <;> omega
    · cases hv
  · split at hv
    · cases hv
      exact .uint (Nat.mod_lt _ (Nat.two_pow_pos _))
    · cases hv
  all_goals
    split at hv
    · cases hv
      first | exact ha | constructor
    · cases hv

theorem typed_index {h : Heap} (hh : TypedHeap D h) {r r' : RV} {i : Int} (hb : TypedBox D r) (hc : indexValue h r i = .ok r') : TypedBox D r' := by
  have hr : r ≠ .invalid := fun e => by subst e; cases hc
  obtain ⟨ty, c, h1, h2, h3⟩ := typed_contents hh hb hr
  simp only [indexValue, h2, bind, Out.bind] at hc
  cases h3 with
  | slice h4 =>
    simp only at hc
    split at hc
    · cases hc; exact .ref (by simp only; omega) .whole
    · cases hc
  | @array e l h4 =>
    simp only at hc
    split at hc
    · cases hc
    · rename_i c' hi
      split at hi
      · cases hi
      · obtain ⟨hl, hi⟩ := List.getElem?_eq_some_iff.1 hi
        cases r with
        | invalid => exact absurd rfl hr
        | ref ty p =>
          cases hc
          cases h1
          cases hb with
          | ref g1 g2 => exact .ref g1 (partOf_append g2 (.elem hl .whole))
        | copy ty c =>
          cases hc
          exact .copy (h4 _ (hi ▸ List.getElem_mem hl))
  | str =>
    simp only at hc
    split at hc
    · cases hc
    · cases hc; exact .copy (.uint (UInt8.toNat_lt _))
  | _ => cases hc

theorem typed_mapIndex {h : Heap} (hh : TypedHeap D h) {r r' : RV} {k : Dyn} (hb : TypedBox D r) (hc : mapIndexValue h r k = .ok r') : TypedBox D r' := by
  have hr : r ≠ .invalid := fun e => by subst e; cases hc
  obtain ⟨ty, c, h1, h2, h3⟩ := typed_contents hh hb hr
  simp only [mapIndexValue, h2, bind, Out.bind] at hc
  split at hc
  · rename_i kt e m ty' c'
    split at hc
    · generalize (if kt = Ty.any then Cell.any (some (ty', c')) else c') = key at hc
      split at hc
      · split at hc
        · cases hc
          rename_i v hv
          cases h3 with
          | nilMap => cases hv
          | map => exact .copy (hh.maps _ _ _ hv)
        · cases hc; exact .invalid
      · cases hc
    · cases hc
  · cases hc

theorem typed_slice {e : Ty} {c : Cell} (h : Typed D (.slice e) c) : ∃ s, c = .slice s := by
  generalize ht : Ty.slice e = t at h
  cases h <;> first | exact ⟨_, rfl⟩ | cases ht

theorem getBytes_ok {ty : Ty} {c : Cell} {x : Res} (hc : getValue .getBytes (ty, c) = .ok x) :
    ty = .slice (.uint 8) ∧ ∃ s, c = .slice s ∧ x = .bytes s := by
  unfold getValue at hc
  split at hc <;> first | (rename_i h _; cases h; done) | (rename_i h; cases h; done) | (cases hc; done) | skip
  rename_i h
  cases h
  cases hc
  exact ⟨rfl, _, rfl, rfl⟩

theorem typed_get {m : Method} {ty : Ty} {c : Cell} {x : Res} (h : Typed D ty c) (hc : getValue m (ty, c) = .ok x) : TypedRes D x := by
  by_cases hm : m = .getBytes
  · subst hm
    obtain ⟨rfl, s, rfl, rfl⟩ := getBytes_ok hc
    exact h
  cases m <;> cases h <;> simp only [getValue, reduceCtorEq, not_true_eq_false] at hc hm <;>
    (cases hc; first | trivial | (constructor; done) | (exact .any (by simp) (by constructor <;> assumption)) | (exact .any (by assumption) (by assumption)))

/-- Calls keep the memory and the boxes as they are declared. -/
theorem typed_call {h h' : Heap} (hh : TypedHeap D h) {r : RV} (hb : TypedBox D r) {m : Method} (ha : TypedArg D m) {x : Res}
    (hc : call narrow h r m = .ok (h', x)) : TypedHeap D h' ∧ TypedRes D x := by
  by_cases hm : IsSetter m
  · obtain ⟨ty, p, c, rfl, hv, hs, rfl⟩ := setter_ok hm hc
    obtain ⟨h'', h1, h2⟩ := typed_store hh hb (typed_set ha hv)
    rw [hs] at h1
    cases h1
    exact ⟨h2, trivial⟩
  · refine ⟨other_call hm hc ▸ hh, ?_⟩
    by_cases hg : IsGetter m
    · by_cases hr : r = .invalid
      · subst hr
        by_cases hm : m = .getString
        · subst hm; cases hc; trivial
        · rw [getter_call hg (.inr hm)] at hc; cases hc
      · rw [getter_call hg (.inl hr)] at hc
        obtain ⟨_, a, h1, rfl⟩ := bind_keep hc
        obtain ⟨ty, c, _, h2, h3⟩ := typed_contents hh hb hr
        rw [h2] at h1
        exact typed_get h3 h1
    · cases m <;> simp only [IsSetter, IsGetter, not_true_eq_false] at hm hg
      · obtain ⟨_, a, h1, rfl⟩ := bind_keep (f := .box) hc
        exact typed_index hh hb h1
      · obtain ⟨_, a, h1, rfl⟩ := bind_keep (f := .box) hc
        exact typed_mapIndex hh hb h1
      · obtain ⟨_, a, h1, rfl⟩ := bind_keep (f := .box) hc
        exact typed_mapIndex hh hb h1

end
end Takenoco
