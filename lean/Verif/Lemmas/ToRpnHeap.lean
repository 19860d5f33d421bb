import Verif.Spec.ToRpnHeap
import Verif.Lemmas.ToRpnRules
import Verif.Lemmas.Heap
/-
The torpn production with lists in memory does what the one with lists as values does.
-/
namespace Takenoco
open Spec ToRpnHeap Heap

theorem arrays_append (l l' : List Item) : arrays (l ++ l') = arrays l ++ arrays l' := by
  induction l with
  | nil => rfl
  | cons x l ih => cases x <;> simp [arrays, ih]

theorem mem_arrays {l : List Item} {n : Nat} : n ∈ arrays l ↔ ∃ a s, .list a s ∈ l ∧ s.arr = n := by
  induction l with
  | nil => simp [arrays]
  | cons x l ih =>
    cases x with
    | plain b => simp [arrays, ih]
    | list b t =>
      simp only [arrays, List.mem_cons, ih, Item.list.injEq]
      constructor
      · rintro (h | ⟨a, s, h, h'⟩)
        · exact ⟨b, t, .inl ⟨rfl, rfl⟩, h.symm⟩
        · exact ⟨a, s, .inr h, h'⟩
      · rintro ⟨a, s, ⟨rfl, rfl⟩ | h, h'⟩
        · exact .inl h'.symm
        · exact .inr ⟨a, s, h, h'⟩

theorem Spec.Spares.refl (m : Mem) (A : List Nat) : Spares m m A := ⟨Nat.le_refl _, fun _ _ _ _ => rfl⟩

theorem Spec.Spares.mono {m m' : Mem} {A B : List Nat} (h : Spares m m' A) (hs : ∀ a ∈ A, a ∈ B) : Spares m m' B :=
  ⟨h.1, fun a i ha hb => h.2 a i ha fun hA => hb (hs a hA)⟩

theorem Spec.Spares.trans {m m' m'' : Mem} {A B : List Nat} (h : Spares m m' A) (h' : Spares m' m'' B) (hs : ∀ a ∈ B, a ∈ A ∨ m.next ≤ a) :
    Spares m m'' A := by
  refine ⟨Nat.le_trans h.1 h'.1, fun a i ha hA => (h'.2 a i (Nat.lt_of_lt_of_le ha h.1) fun hB => ?_).trans (h.2 a i ha hA)⟩
  rcases hs a hB with h1 | h1
  · exact hA h1
  · omega

theorem Spec.Spares.seen {m m' : Mem} {A : List Nat} (h : Spares m m' A) {x : Item} (hk : ∀ a s, x = .list a s → s.arr < m.next ∧ s.arr ∉ A) :
    Spec.seen m' x = Spec.seen m x := by
  cases x with
  | plain a => rfl
  | list a s =>
    obtain ⟨h1, h2⟩ := hk a s rfl
    simp only [Spec.seen]
    rw [read_congr fun i _ => h.2 _ _ h1 h2]

theorem Heap.Keeps.spares {m m' : Mem} (h : Keeps m m') (A : List Nat) : Spares m m' A := ⟨h.1, fun a i ha _ => h.2 a i ha⟩

/-- The transformer on items does what the one on values does. -/
def TrSim (f : TSem) (h : List Item → HM (List Item × Option Err)) (args : List Item) : Prop := ∀ m c, Owned m args →
  match f c (args.map (seen m)) with
  | .panic x => h args m = .panic x
  | .timeout => h args m = .timeout
  | .ok (b, e) => ∃ r m', h args m = .ok ((r, e), m') ∧ Spares m m' (arrays args) ∧
      (e = none → r.map (seen m') = b ∧ Owned m' r ∧ ∀ a ∈ arrays r, a ∈ arrays args ∨ m.next ≤ a)

theorem owned_plain (m : Mem) {a : Ast} (h : ∀ x, a.val ≠ .list x) : Owned m [.plain a] :=
  ⟨by simp, by simp [arrays], by simp, by simpa using h⟩

theorem owned_list {m : Mem} {a : Ast} {s : Slice} (h : s.arr < m.next) (hc : s.len ≤ s.cap) (ht : a.ty = .listOfAst) : Owned m [.list a s] :=
  ⟨by simp [h, hc], by simp [arrays], by simp [ht], by simp⟩

theorem unary_sim (w : World) (o : Ast) (x : Item) : TrSim ToRpn.unaryTr (unaryOp w) [.plain o, x] := by
  intro m c hm
  cases x with
  | plain a =>
    have hp := hm.plains a (by simp)
    simp only [List.map, seen, ToRpn.unaryTr, unaryOp, goGet, List.getElem?_cons_succ, List.getElem?_cons_zero, lift, bind, Out.bind, HM.bind, Item.head]
    cases a.ty <;> simp only
    case int =>
      cases hs : asStr o.val <;> simp only [HM.bind, lift, hs]
      cases Formula.asInt a.val <;> simp only
      exact ⟨_, m, rfl, .refl _ _, fun _ => ⟨rfl, owned_plain m (by simp), by simp [arrays]⟩⟩
    case listOfAst =>
      simp only [Item.asSlice]
      cases hv : a.val <;> simp only [ToRpn.asList] <;> try rfl
      exact absurd hv (hp _)
    all_goals exact ⟨_, m, rfl, .refl _ _, fun h => by cases h⟩
  | list a s =>
    obtain ⟨h1, h2⟩ := hm.known a s (by simp)
    have ht := hm.lists a s (by simp)
    simp only [List.map, seen, ToRpn.unaryTr, unaryOp, goGet, List.getElem?_cons_succ, List.getElem?_cons_zero, lift, bind, Out.bind, HM.bind, Item.head, ht,
      ToRpn.asList, Item.asSlice]
    obtain ⟨s', m', h3, h4, h5, h6, h7⟩ := append_spec w h1 h2 [o]
    rw [h3]
    refine ⟨_, m', rfl, ⟨h5.1, fun b i hb hA => h5.2 b i hb fun he => absurd he (by simpa [arrays] using hA)⟩, fun _ => ⟨?_, owned_list h6.arr h6.cap rfl, ?_⟩⟩
    · simp only [List.map, seen, h4]
    · intro b hb
      simp only [arrays, List.mem_singleton] at hb ⊢
      subst hb
      rcases h6.place with ⟨h, _⟩ | h
      · exact .inl h
      · exact .inr h

theorem appendOperand_spec (w : World) {m0 m : Mem} (hk : Keeps m0 m) {ret : Slice} (hr : m0.next ≤ ret.arr) (hr1 : ret.arr < m.next)
    (hr2 : ret.len ≤ ret.cap) {x : Item} (hx : Owned m0 [x]) :
    match ToRpn.operandItems (seen m0 x) with
    | .panic p => appendOperand w ret x m = .panic p
    | .timeout => appendOperand w ret x m = .timeout
    | .ok none => appendOperand w ret x m = .ok (none, m)
    | .ok (some l) => ∃ ret' m', appendOperand w ret x m = .ok (some ret', m') ∧ Keeps m0 m' ∧ m0.next ≤ ret'.arr ∧ ret'.arr < m'.next ∧
        ret'.len ≤ ret'.cap ∧ m'.read ret' = m.read ret ++ l := by
  have app : ∀ l, ∃ ret' m', append w ret l m = .ok (ret', m') ∧ Keeps m0 m' ∧ m0.next ≤ ret'.arr ∧ ret'.arr < m'.next ∧
        ret'.len ≤ ret'.cap ∧ m'.read ret' = m.read ret ++ l := by
    intro l
    obtain ⟨s', m', h3, h4, h5, h6, h7⟩ := append_spec w hr1 hr2 l
    refine ⟨s', m', h3, h5.keeps hk hr, ?_, h6.arr, h6.cap, h4⟩
    rcases h6.place with ⟨h, _⟩ | h
    · omega
    · have := hk.1; omega
  cases x with
  | plain a =>
    have hp := hx.plains a (by simp)
    simp only [seen, ToRpn.operandItems, appendOperand, Item.head, Item.asSlice]
    cases a.ty <;> simp only <;> try rfl
    case int =>
      obtain ⟨ret', m', h1, h2⟩ := app [a]
      refine ⟨ret', m', ?_, h2⟩
      simp only [bind, HM.bind, h1]; rfl
    case listOfAst =>
      cases hv : a.val <;> simp only [ToRpn.asList, bind, Out.bind] <;> try rfl
      exact absurd hv (hp _)
  | list a s =>
    obtain ⟨h1, h2⟩ := hx.known a s (by simp)
    have ht := hx.lists a s (by simp)
    simp only [seen, ToRpn.operandItems, appendOperand, Item.head, Item.asSlice, ht, ToRpn.asList, bind, Out.bind]
    obtain ⟨ret', m', h3, h4⟩ := app (m.read s)
    rw [hk.read h1] at h3 h4
    refine ⟨ret', m', ?_, h4⟩
    simp only [HM.bind, lift, load, hk.read h1, h3]; rfl

theorem asStr_head (m : Mem) (x : Item) : asStr x.head.val = asStr (seen m x).val := by cases x <;> rfl

theorem binary_sim (w : World) (x o y : Item) : TrSim ToRpn.binaryTr (binaryOp w) [x, o, y] := by
  intro m c hm
  have hx : Owned m [x] := ⟨fun a s h => hm.known a s (by simp_all), by cases x <;> simp [arrays], fun a s h => hm.lists a s (by simp_all),
    fun a h => hm.plains a (by simp_all)⟩
  have hy : Owned m [y] := ⟨fun a s h => hm.known a s (by simp_all), by cases y <;> simp [arrays], fun a s h => hm.lists a s (by simp_all),
    fun a h => hm.plains a (by simp_all)⟩
  obtain ⟨s0, m1, g1, g2, g3, g4, g5, g6, g7⟩ := make_spec [] 3 m (by simp)
  have hs := asStr_head m o
  simp only [List.map, ToRpn.binaryTr, binaryOp, goGet, List.getElem?_cons_succ, List.getElem?_cons_zero, lift, bind, Out.bind, HM.bind]
  rw [hs]
  cases ho : asStr (seen m o).val <;> simp only [g1]
  have h1 := appendOperand_spec w g3 g4 g5 g7 hx
  revert h1
  cases ToRpn.operandItems (seen m x) with
  | panic p => intro h1; simp only at h1; simp only [h1]
  | timeout => intro h1; simp only at h1; simp only [h1]
  | ok l =>
    cases l with
    | none =>
      intro h1; simp only at h1; simp only [h1]
      exact ⟨_, m1, rfl, g3.spares _, fun h => by cases h⟩
    | some l =>
      rintro ⟨s2, m2, h1, h2, h3, h4, h5, h6⟩
      simp only [h1]
      have k1 := appendOperand_spec w h2 h3 h4 h5 hy
      revert k1
      cases ToRpn.operandItems (seen m y) with
      | panic p => intro k1; simp only at k1; simp only [HM.bind, lift, k1]
      | timeout => intro k1; simp only at k1; simp only [HM.bind, lift, k1]
      | ok r =>
        cases r with
        | none =>
          intro k1; simp only at k1; simp only [HM.bind, lift, k1]
          exact ⟨_, m2, rfl, h2.spares _, fun h => by cases h⟩
        | some r =>
          rintro ⟨s3, m3, k1, k2, k3, k4, k5, k6⟩
          simp only [HM.bind, lift, k1]
          obtain ⟨s4, m4, j3, j4, j5, j6, j7⟩ := append_spec w k4 k5 [o.head]
          simp only [j3]
          refine ⟨_, m4, rfl, (j5.keeps k2 k3).spares _, fun _ => ⟨?_, owned_list j6.arr j6.cap rfl, ?_⟩⟩
          · have : o.head = seen m o := by
              cases o with
              | plain a => rfl
              | list a s => simp [seen, asStr] at ho
            simp only [List.map, seen, j4, k6, h6, g2, this, List.nil_append]
          · intro b hb
            simp only [arrays, List.mem_singleton] at hb
            subst hb
            right
            rcases j6.place with ⟨h, _⟩ | h
            · omega
            · have := k2.1; omega

/-! ### Matching -/

theorem matcher_head (m : Mem) (cls : String) (ops : List Bytes) (x : Item) :
    Formula.makeOpMatcher cls ops (.ast x.head) = Formula.makeOpMatcher cls ops (.ast (seen m x)) := by cases x <;> rfl

/-- A part of the list, at index `p`. -/
def PartAt (l : List Item) (p : Nat) (args : List Item) : Prop := l = l.take p ++ args ++ l.drop (p + args.length)

theorem partAt_of {l : List Item} {p : Nat} {args : List Item} (h : ∀ i, i < args.length → l[p + i]? = args[i]?) : PartAt l p args := by
  have : args = (l.drop p).take args.length := by
    apply List.ext_getElem?
    intro i
    by_cases hi : i < args.length
    · rw [List.getElem?_take_of_lt hi, List.getElem?_drop, h i hi]
    · rw [List.getElem?_eq_none (by omega), List.getElem?_eq_none (by simp; omega)]
  unfold PartAt
  conv => lhs; rw [← List.take_append_drop p l, ← List.take_append_drop args.length (l.drop p)]
  rw [← this, List.drop_drop, List.append_assoc]

/-- The rule on items does what the one on values does. -/
structure LevelSim (r : Sem) (f : TSem) (v : Level) : Prop where
  find : ∀ (m : Mem) (l : List Item) (p : Nat) (tag : Value) (c : Ctx),
    tryRules (newObjCtx (astSliceSrc (l.map (seen m))) tag) (l.map (seen m)) p [r] =
      match v.find l p with
      | .panic x => .panic x
      | .timeout => .timeout
      | .ok none => .ok .noMatch
      | .ok (some args) => afterMatch (l.map (seen m)) p args.length (f c (args.map (seen m)))
  make : ∀ l p args, v.find l p = .ok (some args) → PartAt l p args ∧ TrSim f v.make args

theorem unaryMatch_seen (m : Mem) (l : List Item) (p : Nat) : unaryMatch id (l.map (seen m)) p =
    match unaryMatch Item.head l p with
    | .panic x => .panic x
    | .timeout => .timeout
    | .ok none => .ok none
    | .ok (some args) => .ok (some (args.map (seen m))) := by
  unfold unaryMatch
  simp only [List.getElem?_map, id]
  cases l[p]? with
  | none => rfl
  | some o =>
    simp only [Option.map_some, matcher_head m]
    cases Formula.makeOpMatcher "UnaryOperator" [b! "-"] (.ast (seen m o)) with
    | panic x => rfl
    | timeout => rfl
    | ok b =>
      cases b with
      | false => rfl
      | true => cases l[p + 1]? <;> rfl

theorem binaryMatch_seen (m : Mem) (ops : List Bytes) (l : List Item) (p : Nat) : binaryMatch id ops (l.map (seen m)) p =
    match binaryMatch Item.head ops l p with
    | .panic x => .panic x
    | .timeout => .timeout
    | .ok none => .ok none
    | .ok (some args) => .ok (some (args.map (seen m))) := by
  unfold binaryMatch
  simp only [List.getElem?_map, id]
  cases l[p]? with
  | none => rfl
  | some a =>
    cases l[p + 1]? with
    | none => rfl
    | some o =>
      simp only [Option.map_some, matcher_head m]
      cases Formula.makeOpMatcher "BinaryOperator" ops (.ast (seen m o)) with
      | panic x => rfl
      | timeout => rfl
      | ok b =>
        cases b with
        | false => rfl
        | true => cases l[p + 2]? <;> rfl

theorem unaryMatch_some {l : List Item} {p : Nat} {args : List Item} (h : unaryMatch Item.head l p = .ok (some args)) :
    ∃ o x, args = [.plain o, x] ∧ PartAt l p args := by
  unfold unaryMatch at h
  cases h1 : l[p]? with
  | none => rw [h1] at h; cases h
  | some o =>
    rw [h1] at h
    simp only at h
    cases hm : Formula.makeOpMatcher "UnaryOperator" [b! "-"] (.ast o.head) with
    | panic x => rw [hm] at h; cases h
    | timeout => rw [hm] at h; cases h
    | ok b =>
      rw [hm] at h
      cases b with
      | false => cases h
      | true =>
        obtain ⟨_, v, hv, _⟩ := matcher_true hm
        cases h2 : l[p + 1]? with
        | none => rw [h2] at h; cases h
        | some a =>
          rw [h2] at h
          cases h
          cases o with
          | list b s => simp [Item.head] at hv
          | plain o =>
            refine ⟨o, a, rfl, partAt_of (fun i hi => ?_)⟩
            match i, hi with
            | 0, _ => exact h1
            | 1, _ => exact h2

theorem binaryMatch_some {ops : List Bytes} {l : List Item} {p : Nat} {args : List Item} (h : binaryMatch Item.head ops l p = .ok (some args)) :
    ∃ x o y, args = [x, o, y] ∧ PartAt l p args := by
  unfold binaryMatch at h
  cases h1 : l[p]? with
  | none => rw [h1] at h; cases h
  | some x =>
    cases h2 : l[p + 1]? with
    | none => rw [h1, h2] at h; cases h
    | some o =>
      rw [h1, h2] at h
      simp only at h
      cases hm : Formula.makeOpMatcher "BinaryOperator" ops (.ast o.head) with
      | panic x => rw [hm] at h; cases h
      | timeout => rw [hm] at h; cases h
      | ok b =>
        rw [hm] at h
        cases b with
        | false => cases h
        | true =>
          cases h3 : l[p + 2]? with
          | none => rw [h3] at h; cases h
          | some y =>
            rw [h3] at h
            cases h
            refine ⟨x, o, y, rfl, partAt_of (fun i hi => ?_)⟩
            match i, hi with
            | 0, _ => exact h1
            | 1, _ => exact h2
            | 2, _ => exact h3

theorem unary_level (w : World) (env : Env) : LevelSim (den env ToRpn.unaryRule) ToRpn.unaryTr ⟨unaryMatch Item.head, unaryOp w, true⟩ := by
  refine ⟨fun m l p tag c => ?_, fun l p args h => ?_⟩
  · refine (unaryRule_eq (f := ToRpn.unaryTr) (fun _ _ _ => rfl) c).trans ?_
    rw [unaryMatch_seen]
    simp only
    cases unaryMatch Item.head l p with
    | panic x => rfl
    | timeout => rfl
    | ok o =>
      cases o with
      | none => rfl
      | some args => simp only [List.length_map]
  · obtain ⟨o, x, rfl, hp⟩ := unaryMatch_some h
    exact ⟨hp, unary_sim w o x⟩

theorem binary_level (w : World) (env : Env) (ops : List Bytes) :
    LevelSim (den env (binaryRuleOf ops ToRpn.binaryTr)) ToRpn.binaryTr ⟨binaryMatch Item.head ops, binaryOp w, false⟩ := by
  refine ⟨fun m l p tag c => ?_, fun l p args h => ?_⟩
  · refine (binaryRule_eq (f := ToRpn.binaryTr) (fun _ _ _ => rfl) c).trans ?_
    rw [binaryMatch_seen]
    simp only
    cases binaryMatch Item.head ops l p with
    | panic x => rfl
    | timeout => rfl
    | ok o =>
      cases o with
      | none => rfl
      | some args => simp only [List.length_map]
  · obtain ⟨x, o, y, rfl, hp⟩ := binaryMatch_some h
    exact ⟨hp, binary_sim w x o y⟩

/-! ### Production -/

/-- What a round of the production does: the same as with values; the lists stay apart, and nothing else is written to. -/
def FoundSim (m : Mem) (l : List Item) (h : Out (ToRpnHeap.Found × Mem)) : Out Search → Prop
  | .panic x => h = .panic x
  | .timeout => h = .timeout
  | .ok .noMatch => h = .ok (.noMatch, m)
  | .ok (.err e) => ∃ m', h = .ok (.err e, m') ∧ Spares m m' (arrays l)
  | .ok (.rewritten b) => ∃ r m', h = .ok (.rewritten r, m') ∧ r.map (seen m') = b ∧ Owned m' r ∧ Spares m m' (arrays l) ∧
      ∀ a ∈ arrays r, a ∈ arrays l ∨ m.next ≤ a

theorem Spec.Owned.sub {m : Mem} {a b c : List Item} (h : Owned m (a ++ b ++ c)) : Owned m b := by
  refine ⟨fun x s hx => h.known x s (by simp [hx]), ?_, fun x s hx => h.lists x s (by simp [hx]), fun x hx => h.plains x (by simp [hx])⟩
  have := h.apart
  rw [arrays_append, arrays_append] at this
  exact (List.nodup_append.1 (List.nodup_append.1 this).1).2.1

/-- A part of the list is replaced. -/
theorem Spec.Owned.replace {m m' : Mem} {a b c r : List Item} (h : Owned m (a ++ b ++ c)) (hr : Owned m' r) (hl : Spares m m' (arrays b))
    (hn : ∀ x ∈ arrays r, x ∈ arrays b ∨ m.next ≤ x) :
    Owned m' (a ++ r ++ c) ∧ (∀ x, x ∈ a ∨ x ∈ c → seen m' x = seen m x) := by
  have hap := h.apart
  rw [arrays_append, arrays_append] at hap
  obtain ⟨hap1, hc, hapc⟩ := List.nodup_append.1 hap
  obtain ⟨ha, hb, hab⟩ := List.nodup_append.1 hap1
  have old : ∀ n, n ∈ arrays a ∨ n ∈ arrays c → n < m.next := by
    intro n hn
    rcases hn with hn | hn
    · obtain ⟨y, s, h1, rfl⟩ := mem_arrays.1 hn
      exact (h.known y s (by simp [h1])).1
    · obtain ⟨y, s, h1, rfl⟩ := mem_arrays.1 hn
      exact (h.known y s (by simp [h1])).1
  refine ⟨⟨fun x s hx => ?_, ?_, fun x s hx => ?_, fun x hx => ?_⟩, fun x hx => ?_⟩
  · rw [List.append_assoc, List.mem_append, List.mem_append] at hx
    rcases hx with hx | hx | hx
    · have := h.known x s (by simp [hx]); have := hl.1; omega
    · exact hr.known x s hx
    · have := h.known x s (by simp [hx]); have := hl.1; omega
  · rw [arrays_append, arrays_append]
    refine List.nodup_append.2 ⟨List.nodup_append.2 ⟨ha, hr.apart, ?_⟩, hc, ?_⟩
    · intro x hx y hy he
      subst he
      rcases hn x hy with h1 | h1
      · exact hab x hx x h1 rfl
      · have := old x (.inl hx); omega
    · intro x hx y hy he
      subst he
      rcases List.mem_append.1 hx with h1 | h1
      · exact hapc x (List.mem_append.2 (.inl h1)) x hy rfl
      · rcases hn x h1 with h2 | h2
        · exact hapc x (List.mem_append.2 (.inr h2)) x hy rfl
        · have := old x (.inr hy); omega
  · rw [List.append_assoc, List.mem_append, List.mem_append] at hx
    rcases hx with hx | hx | hx
    · exact h.lists x s (by simp [hx])
    · exact hr.lists x s hx
    · exact h.lists x s (by simp [hx])
  · rw [List.append_assoc, List.mem_append, List.mem_append] at hx
    rcases hx with hx | hx | hx
    · exact h.plains x (by simp [hx])
    · exact hr.plains x hx
    · exact h.plains x (by simp [hx])
  · refine hl.seen fun y s he => ?_
    subst he
    rcases hx with hx | hx
    · have hm := mem_arrays.2 ⟨y, s, hx, rfl⟩
      exact ⟨old _ (.inl hm), fun hb => hab _ hm _ hb rfl⟩
    · have hm := mem_arrays.2 ⟨y, s, hx, rfl⟩
      exact ⟨old _ (.inr hm), fun hb => hapc _ (List.mem_append.2 (.inr hb)) _ hm rfl⟩

theorem tryRule_sim {r : Sem} {f : TSem} {v : Level} (hv : LevelSim r f v) {m : Mem} {l : List Item} (hm : Owned m l) (p : Nat) (tag : Value) :
    FoundSim m l (tryRule v l p m) (tryRules (newObjCtx (astSliceSrc (l.map (seen m))) tag) (l.map (seen m)) p [r]) := by
  rw [hv.find m l p tag (newObjCtx (astSliceSrc (l.map (seen m))) tag)]
  unfold tryRule
  simp only [bind, HM.bind, lift]
  cases hf : v.find l p with
  | panic x => rfl
  | timeout => rfl
  | ok o =>
    cases o with
    | none => rfl
    | some args =>
      obtain ⟨hp, ht⟩ := hv.make l p args hf
      have ho : Owned m (l.take p ++ args ++ l.drop (p + args.length)) := hp ▸ hm
      have hsub : ∀ a ∈ arrays args, a ∈ arrays l := by
        intro a ha
        rw [hp, arrays_append, arrays_append]
        simp [ha]
      have := ht m (newObjCtx (astSliceSrc (l.map (seen m))) tag) ho.sub
      revert this
      simp only
      cases f (newObjCtx (astSliceSrc (l.map (seen m))) tag) (args.map (seen m)) with
      | panic x => intro h; simp only at h; simp only [HM.bind, h]; rfl
      | timeout => intro h; simp only at h; simp only [HM.bind, h]; rfl
      | ok be =>
        obtain ⟨b, e⟩ := be
        rintro ⟨r, m', h1, h2, h3⟩
        simp only [HM.bind, h1]
        cases e with
        | some e => exact ⟨m', rfl, h2.mono hsub⟩
        | none =>
          obtain ⟨h4, h5, h6⟩ := h3 rfl
          obtain ⟨h7, h8⟩ := ho.replace h5 h2 h6
          refine ⟨_, m', rfl, ?_, h7, h2.mono hsub, ?_⟩
          · simp only [List.map_append, h4, List.map_take, List.map_drop]
            rw [← List.map_take, ← List.map_drop, ← List.map_take, ← List.map_drop]
            rw [List.map_congr_left (fun x hx => h8 x (.inl hx)), List.map_congr_left (fun x hx => h8 x (.inr hx))]
          · intro a ha
            simp only [arrays_append, List.mem_append] at ha
            have hl : a ∈ arrays l ↔ a ∈ arrays (l.take p ++ args ++ l.drop (p + args.length)) := by rw [← hp]
            rw [hl, arrays_append, arrays_append]
            simp only [List.mem_append]
            rcases ha with (ha | ha) | ha
            · exact .inl (.inl (.inl ha))
            · rcases h6 a ha with h | h
              · exact .inl (.inl (.inr h))
              · exact .inr h
            · exact .inl (.inr ha)

theorem tryPlaces_sim {r : Sem} {f : TSem} {v : Level} (hv : LevelSim r f v) {m : Mem} {l : List Item} (hm : Owned m l) (tag : Value) (k i : Nat) :
    FoundSim m l (ToRpnHeap.tryPositions v l k i m)
      (Takenoco.tryPositions (newObjCtx (astSliceSrc (l.map (seen m))) tag) (l.map (seen m)) [r] v.rtol k i) := by
  induction k generalizing i with
  | zero => rfl
  | succ k ih =>
    unfold ToRpnHeap.tryPositions Takenoco.tryPositions
    have h := tryRule_sim hv hm (if v.rtol then l.length - i else i) tag
    simp only [bind, HM.bind, List.length_map]
    revert h
    cases tryRules (newObjCtx (astSliceSrc (l.map (seen m))) tag) (l.map (seen m)) (if v.rtol then l.length - i else i) [r] with
    | panic x => intro h; simp only [FoundSim] at h; simp only [h]; rfl
    | timeout => intro h; simp only [FoundSim] at h; simp only [h]; rfl
    | ok s =>
      cases s with
      | noMatch => intro h; simp only [FoundSim] at h; simp only [h]; exact ih (i + 1)
      | rewritten b =>
        rintro ⟨x, m', h1, h2⟩
        simp only [h1]
        exact ⟨x, m', rfl, h2⟩
      | err e =>
        rintro ⟨m', h1, h2⟩
        simp only [h1]
        exact ⟨m', rfl, h2⟩

theorem tryLevels_sim {m : Mem} {l : List Item} (hm : Owned m l) (tag : Value) (vs : List (Sem × Level))
    (hv : ∀ v ∈ vs, ∃ f, LevelSim v.1 f v.2) :
    FoundSim m l (tryLevels l (vs.map (·.2)) m) (tryPrecedences tag (l.map (seen m)) (vs.map fun v => ([v.1], v.2.rtol))) := by
  induction vs with
  | nil => rfl
  | cons v vs ih =>
    obtain ⟨f, hf⟩ := hv v (by simp)
    have h := tryPlaces_sim hf hm tag (l.length + 1) 0
    simp only [List.map_cons, tryLevels, tryPrecedences, bind, HM.bind, List.length_map]
    revert h
    cases Takenoco.tryPositions (newObjCtx (astSliceSrc (l.map (seen m))) tag) (l.map (seen m)) [v.1] v.2.rtol (l.length + 1) 0 with
    | panic x => intro h; simp only [FoundSim] at h; simp only [h]; rfl
    | timeout => intro h; simp only [FoundSim] at h; simp only [h]; rfl
    | ok s =>
      cases s with
      | noMatch => intro h; simp only [FoundSim] at h; simp only [h]; exact ih fun v hv' => hv v (by simp [hv'])
      | rewritten b =>
        rintro ⟨x, m', h1, h2⟩
        simp only [h1]
        exact ⟨x, m', rfl, h2⟩
      | err e =>
        rintro ⟨m', h1, h2⟩
        simp only [h1]
        exact ⟨m', rfl, h2⟩

theorem owned_nil (m : Mem) : Owned m [] := ⟨by simp, by simp [arrays], by simp, by simp⟩

theorem production_sim (w : World) (env : Env) (tag : Value) (n : Nat) {m : Mem} {l : List Item} (hm : Owned m l) :
    SameWork m (arrays l) (ToRpnHeap.productionLoop w n l m)
      (Takenoco.productionLoop (ToRpn.precedences.map fun p => (p.1.map (den env), p.2)) (den env Formula.checkG) tag n (l.map (seen m))) := by
  induction n generalizing m l with
  | zero => rfl
  | succ n ih =>
    unfold ToRpnHeap.productionLoop Takenoco.productionLoop
    have h := tryLevels_sim hm tag [(den env ToRpn.unaryRule, ⟨unaryMatch Item.head, unaryOp w, true⟩),
      (den env ToRpn.mulDivRule, ⟨binaryMatch Item.head [b! "*", b! "/"], binaryOp w, false⟩),
      (den env ToRpn.addSubRule, ⟨binaryMatch Item.head [b! "+", b! "-"], binaryOp w, false⟩)] (by
        intro v hv
        simp only [List.mem_cons, List.not_mem_nil, or_false] at hv
        rcases hv with rfl | rfl | rfl
        · exact ⟨_, unary_level w env⟩
        · exact ⟨_, binary_level w env _⟩
        · exact ⟨_, binary_level w env _⟩)
    simp only [ToRpn.precedences, levels, List.map_cons, List.map_nil, bind, HM.bind] at h ⊢
    revert h
    generalize tryPrecedences tag (l.map (seen m)) _ = s
    cases s with
    | panic x => intro h; simp only [FoundSim] at h; simp only [h]; rfl
    | timeout => intro h; simp only [FoundSim] at h; simp only [h]; rfl
    | ok s =>
      cases s with
      | noMatch =>
        intro h; simp only [FoundSim] at h; simp only [h, checkG_holds, List.length_map]
        by_cases hl : l.length = 1
        · simp only [hl, decide_true, if_true]
          exact ⟨l, m, rfl, rfl, hm, .refl _ _, fun a ha => .inl ha⟩
        · simp only [hl, decide_false, if_false]
          exact ⟨[], m, rfl, rfl, owned_nil m, .refl _ _, by simp [arrays]⟩
      | rewritten b =>
        rintro ⟨x, m', h1, rfl, h3, h4, h5⟩
        simp only [h1, checkG_holds, List.length_map]
        by_cases hl : x.length = 1
        · simp only [hl, decide_true, if_true]
          exact ⟨x, m', rfl, rfl, h3, h4, h5⟩
        · simp only [hl, decide_false, if_false]
          have := ih h3
          simp only [ToRpn.precedences, List.map_cons, List.map_nil] at this
          revert this
          generalize Takenoco.productionLoop _ _ tag n (x.map (seen m')) = y
          cases y with
          | panic z => intro h; simp only [SameWork] at h ⊢; exact h
          | timeout => intro h; simp only [SameWork] at h ⊢; exact h
          | ok be =>
            rintro ⟨r, m'', k1, k2, k3, k4, k5⟩
            refine ⟨r, m'', k1, k2, k3, h4.trans k4 h5, fun a ha => ?_⟩
            rcases k5 a ha with h | h
            · exact h5 a h
            · exact .inr (Nat.le_trans h4.1 h)
      | err e =>
        rintro ⟨m', h1, h2⟩
        simp only [h1]
        exact ⟨[], m', rfl, rfl, owned_nil m', h2, by simp [arrays]⟩

/-! ### Groups -/

theorem Spec.SameWork.fresh {m m1 : Mem} {l : List Item} {h : Out ((List Item × Option Err) × Mem)} {v : Out (List Ast × Option Err)}
    (hs : SameWork m1 (arrays l) h v) (hl : Spares m m1 []) (hn : ∀ a ∈ arrays l, m.next ≤ a) : SameWork m [] h v := by
  cases v with
  | panic x => exact hs
  | timeout => exact hs
  | ok be =>
    obtain ⟨r, m', h1, h2, h3, h4, h5⟩ := hs
    refine ⟨r, m', h1, h2, h3, hl.trans h4 fun a ha => .inr (hn a ha), fun a ha => .inr ?_⟩
    rcases h5 a ha with h | h
    · exact hn a h
    · exact Nat.le_trans hl.1 h

theorem Spec.Owned.append {m m' : Mem} {a b : List Item} (ha : Owned m a) (hb : Owned m' b) (hl : Spares m m' []) (hn : ∀ x ∈ arrays b, m.next ≤ x) :
    Owned m' (a ++ b) ∧ a.map (seen m') = a.map (seen m) := by
  have h := Spec.Owned.replace (a := a) (b := []) (c := []) (by simpa using ha) hb hl (fun x hx => .inr (hn x hx))
  refine ⟨by simpa using h.1, List.map_congr_left fun x hx => h.2 x (.inl hx)⟩

mutual
theorem work_sim (w : World) (env : Env) (tag : Value) (n : Nat) : ∀ (t : Tree), t.Plain → ∀ m : Mem,
    SameWork m [] (t.work w n m) (t.value env tag n)
  | .leaf a, hp, m => ⟨[.plain a], m, rfl, rfl, owned_plain m (by simpa [Tree.Plain] using hp), .refl _ _, by simp [arrays]⟩
  | .group ts, hp, m => by
    have h := works_sim w env tag n ts (by simpa [Tree.Plain] using hp) m
    simp only [Tree.work, Tree.value, bind, HM.bind, Out.bind]
    revert h
    cases Tree.values env tag n ts with
    | panic x => intro h; simp only [SameWork] at h; simp only [h]; rfl
    | timeout => intro h; simp only [SameWork] at h; simp only [h]; rfl
    | ok be =>
      obtain ⟨b, e⟩ := be
      rintro ⟨r, m', h1, rfl, h3, h4, h5⟩
      simp only [h1]
      cases e with
      | some e => exact ⟨[], m', rfl, rfl, owned_nil m', h4, by simp [arrays]⟩
      | none => exact (production_sim w env tag n h3).fresh h4 (fun a ha => by simpa using h5 a ha)

theorem works_sim (w : World) (env : Env) (tag : Value) (n : Nat) : ∀ (ts : List Tree), Tree.Plains ts → ∀ m : Mem,
    SameWork m [] (Tree.works w n ts m) (Tree.values env tag n ts)
  | [], _, m => ⟨[], m, rfl, rfl, owned_nil m, .refl _ _, by simp [arrays]⟩
  | t :: ts, hp, m => by
    have hp : t.Plain ∧ Tree.Plains ts := by simpa [Tree.Plains] using hp
    have h := work_sim w env tag n t hp.1 m
    simp only [Tree.works, Tree.values, bind, HM.bind, Out.bind]
    revert h
    cases t.value env tag n with
    | panic x => intro h; simp only [SameWork] at h; simp only [h]; rfl
    | timeout => intro h; simp only [SameWork] at h; simp only [h]; rfl
    | ok be =>
      obtain ⟨b, e⟩ := be
      rintro ⟨r, m', h1, rfl, h3, h4, h5⟩
      simp only [h1]
      cases e with
      | some e => exact ⟨[], m', rfl, rfl, owned_nil m', h4, by simp [arrays]⟩
      | none =>
        have h := works_sim w env tag n ts hp.2 m'
        simp only [HM.bind]
        revert h
        cases Tree.values env tag n ts with
        | panic x => intro h; simp only [SameWork] at h; simp only [h]; rfl
        | timeout => intro h; simp only [SameWork] at h; simp only [h]; rfl
        | ok be =>
          obtain ⟨b', e'⟩ := be
          rintro ⟨r', m'', k1, rfl, k3, k4, k5⟩
          simp only [k1]
          cases e' with
          | some e => exact ⟨[], m'', rfl, rfl, owned_nil m'', h4.trans k4 (by simp), by simp [arrays]⟩
          | none =>
            obtain ⟨j1, j2⟩ := h3.append k3 k4 (fun a ha => by simpa using k5 a ha)
            refine ⟨r ++ r', m'', rfl, by simp [j2], j1, h4.trans k4 (by simp), fun a ha => ?_⟩
            rw [arrays_append, List.mem_append] at ha
            rcases ha with ha | ha
            · exact h5 a ha
            · have := k5 a ha
              simp only [List.not_mem_nil, false_or] at this
              exact .inr (Nat.le_trans h4.1 this)
end

end Takenoco
