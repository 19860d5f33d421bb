import Verif.Spec.Clean
import Verif.Lemmas.Cover
import Verif.Lemmas.CsvParse
/-
Well-formed UTF-8 in tokens and at positions.
-/
namespace Takenoco
open Spec

theorem wf_nil : WellFormed [] := ⟨[], rfl⟩

theorem wf_char (ch : Char) : WellFormed (utf8 ch) := ⟨[ch], (utf8s_single ch).symm⟩

theorem wf_append {v w : Bytes} : WellFormed v → WellFormed w → WellFormed (v ++ w) := by
  rintro ⟨a, rfl⟩ ⟨b, rfl⟩
  exact ⟨a ++ b, (utf8s_append a b).symm⟩

theorem wf_tail {v w : Bytes} (hv : WellFormed v) (h : WellFormed (v ++ w)) : WellFormed w := by
  obtain ⟨t, rfl⟩ := hv
  obtain ⟨u, h⟩ := h
  induction t generalizing u with
  | nil => exact ⟨u, h⟩
  | cons ch t ih =>
    cases u with
    | nil =>
      have := congrArg List.length h
      have h2 := utf8_length_pos ch
      rw [utf8s_nil, utf8s_cons, List.length_append, List.length_append, List.length_nil] at this; omega
    | cons d u =>
      rw [utf8s_cons, utf8s_cons, List.append_assoc] at h
      have : ch = d := utf8_prefix (rest := utf8s u) (h ▸ List.prefix_append _ _)
      subst this
      exact ih u (List.append_cancel_left h)

theorem wf_init {v w : Bytes} (hw : WellFormed w) (h : WellFormed (v ++ w)) : WellFormed v := by
  obtain ⟨t, rfl⟩ := hw
  obtain ⟨u, h⟩ := h
  induction t using list_rev_ind generalizing u with
  | nil => rw [utf8s_nil, List.append_nil] at h; exact ⟨u, h⟩
  | snoc t ch ih =>
    rcases List.eq_nil_or_concat u with rfl | ⟨u, d, rfl⟩
    · have := congrArg List.length h
      have h2 := utf8_length_pos ch
      rw [utf8s_nil, utf8s_append, utf8s_single, List.length_append, List.length_append, List.length_nil] at this; omega
    · rw [List.concat_eq_append, utf8s_append, utf8s_append, utf8s_single, utf8s_single, ← List.append_assoc] at h
      exact ih u (utf8_last h).1

theorem wf_encode (r : Nat) : WellFormed (encodeRune r) := by
  by_cases h : isScalar r
  · obtain ⟨ch, rfl⟩ := exists_char h
    rw [encode_char]; exact wf_char ch
  · have : encodeRune r = utf8 '�' := by
      have h' := h
      simp only [isScalar] at h'
      unfold encodeRune
      rw [if_neg (by omega), if_neg (by omega), if_neg h]
      decide
    rw [this]; exact wf_char _

theorem wf_fold {orbit : Nat → Nat → Bool} (ho : ∀ r, orbit r 0xfffd = false ∧ orbit 0xfffd r = false) {w s : Bytes} (h : FoldEq orbit w s) :
    ∀ t, s = utf8s t → '�' ∉ t → WellFormed w := by
  induction h with
  | nil => intro _ _ _; exact wf_nil
  | @cons s u a b n m h1 h2 h3 _ ih =>
    intro t ht hb
    cases t with
    | nil =>
      rw [ht] at h2
      exact (nextChar_nil h2).elim
    | cons d t =>
      rw [utf8s_cons] at ht
      subst ht
      obtain ⟨rfl, rfl⟩ := nextChar_unique h2 (.char d _)
      have hrest := ih t (by rw [List.drop_left]) (fun h => hb (by simp [h]))
      have hb0 : b ≠ '�' := fun h => hb (by simp [h])
      cases h1 with
      | char _ rest => rw [List.drop_left] at hrest; exact wf_append (wf_char _) hrest
      | bad _ _ =>
        exfalso
        rcases h3 with h3 | ⟨h3, _⟩ | ⟨_, h3⟩
        · exact hb0 h3.symm
        · revert h3; decide
        · rcases Nat.le_total b.toNat 0xfffd with hle | hle
          · rw [show ('�' : Char).toNat = 0xfffd from rfl, Nat.min_eq_right hle, Nat.max_eq_left hle, (ho _).1] at h3; cases h3
          · rw [show ('�' : Char).toNat = 0xfffd from rfl, Nat.min_eq_left hle, Nat.max_eq_right hle, (ho _).2] at h3; cases h3

theorem Spec.CleanToken.token {p : Sem} (h : CleanToken p) : TokenParser p := by
  cases h with
  | seq _ => exact .seq _
  | seqI _ _ => exact .seqI _ _
  | charClass _ => exact .charClass _
  | _ => constructor

theorem cleanToken_wf {p : Sem} (hp : CleanToken p) {c o : Ctx} (h : Outcome.of (p c) = .matched o) {a : Ast} {v : Bytes} (ha : o.stack = c.stack ++ [a])
    (hv : a.val = .str v) : WellFormed v := by
  have raw : ∀ (cls : String) (w : Bytes) (n : Nat), WellFormed w → Outcome.of (.ok (tokenMatched cls w n c, none)) = .matched o → WellFormed v := by
    intro cls w n hw h
    cases h
    have := List.append_cancel_left (ha : c.stack ++ [_] = c.stack ++ [a])
    injection this with this
    subst this
    cases hv
    exact hw
  have chars : ∀ (cls : String) (q : Nat → Bool), Outcome.of (lightParser cls (charFn cls q) c) = .matched o → WellFormed v := by
    intro cls q h
    by_cases hc : c.str.length < c.pos
    · rw [charFn_panic _ _ _ _ hc] at h; cases h
    · rw [charFn_eq _ _ _ _ (by omega)] at h
      split at h
      · exact raw _ _ _ (wf_encode _) h
      · cases h
  cases hp with
  | seq hs =>
    rw [seqS_eq] at h
    split at h
    · exact raw _ _ _ hs h
    · cases h
  | seqI hb ho =>
    rw [seqIS_eq] at h
    split at h
    · rename_i hs
      refine raw _ _ _ (wf_fold ho ((equalFold_iff _ _ _ _ ?_).1 hs.2) _ rfl hb) h
      rw [List.length_take]; omega
    · cases h
  | charClass hcc =>
    rw [charClass_eq] at h
    split at h
    · rename_i s hs
      exact raw _ _ _ (hcc s (List.mem_of_find?_eq_some hs)) h
    · cases h
  | charClassN cc =>
    unfold charClassN at h
    by_cases ha : cc.any (fun s => hasPrefixAt s c) = true
    · simp only [lightParser, ha, if_true] at h; cases h
    · refine chars ":string:CharClassN" (fun _ => true) ?_
      simp only [lightParser, ha] at h ⊢
      exact h
  | _ => exact chars _ _ h

/-! ### Boundaries -/

/-- The piece of the source is well-formed if what follows the old position is, and the ASTs say what it is. -/
def ExactAt (s : Bytes) (i : Nat) (l : List Ast) (j : Nat) : Prop :=
  WellFormed (s.drop i) → ∃ t, TextOf l (utf8s t) ∧ s.drop i = utf8s t ++ s.drop j ∧ j = i + (utf8s t).length

theorem ExactAt.rest {s : Bytes} {i j : Nat} {l : List Ast} (h : ExactAt s i l j) (hs : WellFormed (s.drop i)) : WellFormed (s.drop j) := by
  obtain ⟨t, _, h2, _⟩ := h hs
  exact wf_tail ⟨t, rfl⟩ (h2 ▸ hs)

theorem exact_account (s : Bytes) : Account ExactParser TextTrans s (ExactAt s) where
  nil := fun i _ => ⟨[], .nil, by simp [utf8s_nil], rfl⟩
  app := fun {i j k l m} h1 h2 hs => by
    obtain ⟨t, a1, a2, a3⟩ := h1 hs
    obtain ⟨u, b1, b2, b3⟩ := h2 (h1.rest hs)
    refine ⟨t ++ u, by rw [utf8s_append]; exact textOf_append a1 b1, ?_, ?_⟩
    · rw [a2, b2, utf8s_append, List.append_assoc]
    · rw [b3, a3, utf8s_append, List.length_append]; omega
  group := fun {i j l} h hs => by
    obtain ⟨t, a1, a2⟩ := h hs
    refine ⟨t, ?_, a2⟩
    have := TextOf.group (a := { Ast.zero with cls := ":base:Group", ty := .listOfAst, val := .list l }) (w := []) rfl a1 .nil
    simpa using this
  prim := fun {p} hp {c o} hc h => by
    subst hc
    have stay : (o.str = c.str ∧ o.stack = c.stack ∧ o.pos = c.pos) → o.str = c.str ∧ ∃ new, o.stack = c.stack ++ new ∧ ExactAt c.str c.pos new o.pos := by
      rintro ⟨h1, h2, h3⟩
      refine ⟨h1, [], by simp [h2], ?_⟩
      rw [h3]
      exact fun _ => ⟨[], .nil, by simp [utf8s_nil], rfl⟩
    have other : PlaceParser p → (TokenParser p → CleanToken p) → o.str = c.str ∧ ∃ new, o.stack = c.stack ++ new ∧ ExactAt c.str c.pos new o.pos := by
      intro hp ht
      rcases still_of hp h with h1 | h1
      · have hcl := ht h1
        obtain ⟨h2, a, v, h3, h4, _, h5⟩ := token_piece h1 h
        obtain ⟨t, rfl⟩ := cleanToken_wf hcl h h3 h4
        refine ⟨h2, [a], h3, fun hs => ⟨t, textOf_one h4, ?_⟩⟩
        generalize hw : utf8s t = w at h5
        generalize hj : o.pos = j at h5
        cases h5 with
        | bytes hi hd =>
          rw [← List.drop_drop, hd, List.drop_left]
          exact ⟨rfl, rfl⟩
        | bad hi hb =>
          obtain ⟨u, hu⟩ := hs
          cases u with
          | nil =>
            have := congrArg List.length hu
            rw [utf8s_nil, List.length_drop, List.length_nil] at this; omega
          | cons ch u => exact absurd hu (by rw [utf8s_cons]; exact hb ch _)
      · exact stay h1
    cases hp with
    | token h1 => exact other (.token h1.token) fun _ => h1
    | error m => rw [errorP_eq] at h; cases h
    | unmatched => rw [unmatchedP_eq] at h; cases h
    | start => rw [startP_eq] at h; split at h <;> cases h; exact stay ⟨rfl, rfl, rfl⟩
    | «end» => rw [endS_eq] at h; split at h <;> cases h; exact stay ⟨rfl, rfl, rfl⟩
    | wordBoundary => exact stay (boundary_still h)
    | unicodeWordBoundary u => exact stay (boundary_still h)
    | zero ht =>
      rw [zeroP_eq] at h
      cases h
      exact ⟨rfl, _, rfl, fun _ => ⟨[], textOf_map (f := fun a => { a with pos := c.pos, len := c.len }) (fun _ => rfl) ht, by simp [utf8s_nil], rfl⟩⟩
  trans := fun hf _ _ _ _ _ h he hs => by
    obtain ⟨t, h1, h2⟩ := h hs
    exact ⟨t, textTrans_keeps hf h1 he, h2⟩

/-! ### Clean ASTs -/

/-- All strings inside of the ASTs are well-formed. -/
def AllClean (l : List Ast) : Prop := ∀ a ∈ l, Clean a.val

theorem allClean_one {a : Ast} (h : Clean a.val) : AllClean [a] := fun b hb => by rw [List.mem_singleton.1 hb]; exact h

theorem allClean_head {f : Ast → Ast} (hf : ∀ a, Clean a.val → Clean (f a).val) {c : Ctx} {l l' : List Ast} (h : AllClean l)
    (he : rewriteHead f c l = .ok (l', none)) : AllClean l' := by
  cases l with
  | nil => simp [rewriteHead] at he; subst he; exact h
  | cons a l =>
    simp [rewriteHead] at he; subst he
    intro b hb
    rcases List.mem_cons.1 hb with rfl | hb
    · exact hf a (h a (by simp))
    · exact h b (by simp [hb])

theorem concatLoop_clean {l : List Ast} (h : AllClean l) : ∀ {acc s : Bytes}, WellFormed acc → concatLoop acc l = .ok (s, none) → WellFormed s := by
  induction l with
  | nil => intro acc s ha he; simp [concatLoop] at he; subst he; exact ha
  | cons a l ih =>
    intro acc s ha he
    unfold concatLoop at he
    split at he
    · simp at he
    · have hc := h a (by simp)
      cases hv : a.val <;> simp only [hv, asStr] at he hc <;> try cases he
      cases hc with
      | str hw => exact ih (fun b hb => h b (by simp [hb])) (wf_append ha hw) he

theorem concat_clean {c : Ctx} {l l' : List Ast} (h : AllClean l) (he : concat c l = .ok (l', none)) : ∃ a s, l' = [a] ∧ a.val = .str s ∧ WellFormed s := by
  cases l with
  | nil => simp [concat] at he; subst he; exact ⟨_, [], rfl, rfl, wf_nil⟩
  | cons a l =>
    unfold concat at he
    cases hl : concatLoop [] (a :: l) with
    | ok x =>
      obtain ⟨s, e⟩ := x
      rw [hl] at he
      cases e with
      | none => simp at he; subst he; exact ⟨_, s, rfl, rfl, concatLoop_clean h wf_nil hl⟩
      | some e => simp at he
    | panic p => simp [hl] at he
    | timeout => simp [hl] at he

theorem afterConcat_clean {f : Bytes → Ast → Out (List Ast × Option Err)} (hf : ∀ s a l, WellFormed s → f s a = .ok (l, none) → AllClean l)
    {c : Ctx} {l l' : List Ast} (h : AllClean l) (he : afterConcat f c l = .ok (l', none)) : AllClean l' := by
  unfold afterConcat at he
  cases hc : concat c l with
  | ok x =>
    obtain ⟨m, e⟩ := x
    rw [hc] at he
    cases e with
    | none =>
      obtain ⟨a, s, rfl, h1, h2⟩ := concat_clean h hc
      simp only [h1, asStr] at he
      exact hf s a l' h2 he
    | some e => simp at he
  | panic p => simp [hc] at he
  | timeout => simp [hc] at he

theorem fromHead_clean {ty : AstType} {f : Value → Out Value} (hf : ∀ v w, f v = .ok w → Clean w) {c : Ctx} {l l' : List Ast}
    (he : fromHead ty f c l = .ok (l', none)) : AllClean l' := by
  unfold fromHead at he
  cases l with
  | nil => simp at he
  | cons a l =>
    simp only at he
    cases hv : f a.val with
    | ok v => rw [hv] at he; simp at he; subst he; exact allClean_one (hf _ _ hv)
    | panic p => simp [hv] at he
    | timeout => simp [hv] at he

theorem trimLeft_wf {s : Bytes} (h : WellFormed s) : WellFormed (trimLeft s) := by
  obtain ⟨⟨ws, _, h2⟩, _⟩ := trimLeft_spec s
  exact wf_tail ⟨ws, rfl⟩ (h2 ▸ h)

theorem trimRight_wf {s : Bytes} (h : WellFormed s) : WellFormed (trimRight s) := by
  obtain ⟨⟨ws, _, h2⟩, _⟩ := trimRight_spec s
  exact wf_init ⟨ws, rfl⟩ (h2 ▸ h)

theorem runeToString_wf (r : Int32) : WellFormed (runeToString r) := by
  unfold runeToString
  split <;> exact wf_encode _

theorem exchange_none {c : Ctx} {l l' : List Ast} (he : exchange c l = .ok (l', none)) : l' = l := by
  unfold exchange at he
  by_cases hl : 2 ≤ l.length
  · rw [if_pos hl] at he
    have h1 : goGet l (l.length - 1) = .ok l[l.length - 1] := by unfold goGet; rw [List.getElem?_eq_getElem (by omega)]
    have h2 : goSet (l.take (l.length - 2)) (l.length - 2) l[l.length - 1] = .panic .index := by
      unfold goSet; rw [if_neg (by rw [List.length_take]; omega)]
    simp only [h1, h2, bind, Out.bind] at he
    cases he
  · rw [if_neg hl] at he
    cases he; rfl

theorem cleanTrans_keeps {f : TSem} (hf : CleanTrans f) {c : Ctx} {l l' : List Ast} (h : AllClean l) (he : f c l = .ok (l', none)) : AllClean l' := by
  cases hf with
  | erase => simp [erase] at he; subst he; intro a ha; cases ha
  | transformError s => simp [transformError] at he
  | grouping => simp [groupingTransform] at he; subst he; exact allClean_one (.list h)
  | toSlice =>
    unfold toSlice at he
    cases hs : c.slice with
    | none => simp [hs] at he
    | some src =>
      cases l with
      | nil => simp [hs] at he; subst he; exact allClean_one (.slice (by simp))
      | cons a l =>
        simp only [hs] at he
        split at he
        · simp at he; subst he
          refine allClean_one (.slice ?_)
          intro v hv
          obtain ⟨b, hb, rfl⟩ := List.mem_map.1 (by simpa using hv : v ∈ (a :: l).map (·.val))
          exact h b hb
        · simp at he
  | setOpCode n => exact allClean_head (f := fun a => { a with opCode := n }) (fun _ h => h) h he
  | changeClassName s => exact allClean_head (f := fun a => { a with cls := s }) (fun _ h => h) h he
  | setOpCodeAndClassName n s => exact allClean_head (f := fun a => { a with opCode := n, cls := s }) (fun _ h => h) h he
  | @setValue ty v hv => exact allClean_head (f := fun a => { a with ty := ty, val := v }) (fun _ _ => hv) h he
  | pop => simp [pop] at he; subst he; exact fun a ha => h a ((List.dropLast_subset l) ha)
  | exchange => rw [exchange_none he]; exact h
  | roll n =>
    unfold roll at he
    repeat' split at he
    all_goals (cases he; exact h)
  | concat =>
    obtain ⟨a, s, rfl, h1, h2⟩ := concat_clean h he
    exact allClean_one (h1 ▸ .str h2)
  | trim => exact afterConcat_clean (fun s a l hs he => by simp at he; subst he; exact allClean_one (.str (trimLeft_wf (trimRight_wf hs)))) h he
  | trimStart => exact afterConcat_clean (fun s a l hs he => by simp at he; subst he; exact allClean_one (.str (trimLeft_wf hs))) h he
  | trimEnd => exact afterConcat_clean (fun s a l hs he => by simp at he; subst he; exact allClean_one (.str (trimRight_wf hs))) h he
  | parseIntRadix base =>
    refine afterConcat_clean (fun s a l hs he => ?_) h he
    split at he <;> simp at he
    subst he; exact allClean_one (.int _)
  | parseUintRadix base =>
    refine afterConcat_clean (fun s a l hs he => ?_) h he
    cases s with
    | nil => simp at he
    | cons b s =>
      simp only at he
      split at he <;> simp at he
      subst he; exact allClean_one (.uint _)
  | parseFloat pf =>
    refine afterConcat_clean (fun s a l hs he => ?_) h he
    split at he <;> simp at he
    subst he; exact allClean_one (.float _)
  | runeFromInt => exact fromHead_clean (fun v w hv => by cases v <;> simp at hv; subst hv; exact .rune _) he
  | intFromRune => exact fromHead_clean (fun v w hv => by cases v <;> simp at hv; subst hv; exact .int _) he
  | stringFromInt => exact fromHead_clean (fun v w hv => by cases v <;> simp at hv; subst hv; exact .str (runeToString_wf _)) he
  | stringFromRune => exact fromHead_clean (fun v w hv => by cases v <;> simp at hv; subst hv; exact .str (runeToString_wf _)) he
  | user hu => exact hu _ _ _ h he

theorem clean_account (s : Bytes) : Account CleanParser CleanTrans s (fun _ l _ => AllClean l) where
  nil := fun _ a ha => by cases ha
  app := fun h1 h2 a ha => by
    rcases List.mem_append.1 ha with ha | ha
    · exact h1 a ha
    · exact h2 a ha
  group := fun h => allClean_one (.list h)
  prim := fun {p} hp {c o} hc h => by
    subst hc
    have stay : (o.str = c.str ∧ o.stack = c.stack ∧ o.pos = c.pos) → o.str = c.str ∧ ∃ new, o.stack = c.stack ++ new ∧ AllClean new := by
      rintro ⟨h1, h2, h3⟩
      exact ⟨h1, [], by simp [h2], fun a ha => by cases ha⟩
    cases hp with
    | token h1 =>
      obtain ⟨h2, a, v, h3, h4, _⟩ := token_piece h1.token h
      exact ⟨h2, [a], h3, allClean_one (h4 ▸ .str (cleanToken_wf h1 h h3 h4))⟩
    | error m => rw [errorP_eq] at h; cases h
    | unmatched => rw [unmatchedP_eq] at h; cases h
    | start => rw [startP_eq] at h; split at h <;> cases h; exact stay ⟨rfl, rfl, rfl⟩
    | «end» => rw [endS_eq] at h; split at h <;> cases h; exact stay ⟨rfl, rfl, rfl⟩
    | wordBoundary => exact stay (boundary_still h)
    | unicodeWordBoundary u => exact stay (boundary_still h)
    | zero hz =>
      rw [zeroP_eq] at h
      cases h
      refine ⟨rfl, _, rfl, fun a ha => ?_⟩
      obtain ⟨b, hb, rfl⟩ := List.mem_map.1 ha
      exact hz b hb
  trans := fun hf _ _ _ _ _ h he => cleanTrans_keeps hf h he

/-! ### For the statements -/

theorem ends_at_end {env : Env} {g : Gram} {c o : Ctx} {r : Outcome} (h : Parses env (.gram (.flatGroup [g, .prim endS])) c r) (hr : r = .matched o) :
    o.pos = o.str.length := by
  generalize hj : Judg.gram (.flatGroup [g, .prim endS]) = j at h
  cases h with
  | @flatGroup gs c r' h =>
    cases hj
    cases h with
    | seqCons h1 h2 =>
      cases h2 with
      | seqCons h3 h4 =>
        cases h4
        simp only [Outcome.onMatch] at hr
        cases hr
        cases h3 with
        | prim h5 _ =>
          rw [endS_eq] at h5
          split at h5 <;> cases h5
          assumption
      | seqStop h3 hne =>
        cases r' <;> simp only [Outcome.onMatch] at hr <;> cases hr
        exact absurd rfl (hne _)
    | seqStop h1 hne =>
      cases r' <;> simp only [Outcome.onMatch] at hr <;> cases hr
      exact absurd rfl (hne _)
  | _ => cases hj

theorem not_wf_byte {b : UInt8} (h : ∀ ch, utf8 ch ≠ [b]) : ¬ WellFormed [b] := by
  rintro ⟨t, ht⟩
  cases t with
  | nil => cases ht
  | cons ch t =>
    have hp := utf8_length_pos ch
    rw [utf8s_cons] at ht
    have hl := congrArg List.length ht
    rw [List.length_append, List.length_singleton] at hl
    have h0 : utf8s t = [] := List.length_eq_zero_iff.1 (by omega)
    rw [h0, List.append_nil] at ht
    exact h ch ht.symm

theorem one_byte {ch : Char} {b : UInt8} (h : utf8 ch = [b]) : b < 0x80 := by
  have e := decode_utf8 ch []
  rw [h, List.append_nil] at e
  by_cases hb : b.toNat < 0x80
  · exact UInt8.lt_iff_toNat_lt.2 hb
  · exfalso
    have he : encodeRune ch.toNat = [b] := (encode_char ch).trans h
    unfold encodeRune at he
    split at he
    · rename_i hr
      injection he with he
      have := congrArg UInt8.toNat he
      simp at this
      omega
    · repeat' split at he
      all_goals simp at he

theorem not_wf_c3 : ¬ WellFormed [0xc3] := not_wf_byte fun _ h => absurd (one_byte h) (by decide)
theorem not_wf_a9 : ¬ WellFormed [0xa9] := not_wf_byte fun _ h => absurd (one_byte h) (by decide)

end Takenoco
