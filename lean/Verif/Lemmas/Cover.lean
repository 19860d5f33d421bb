import Verif.Spec.Cover
import Verif.Spec.Transform
import Verif.Lemmas.BigStep
import Verif.Lemmas.Total
import Verif.Lemmas.StrTransformers
import Verif.Props.StrTerminals2
/-
Relations between a piece of the source and the ASTs made of it, for whole grammars.
-/
namespace Takenoco
open Spec

/-- `K i l j` is a relation between pieces of the source `s` and the ASTs made of them that all parsers and transformers of a grammar
respect. -/
structure Account (P : Sem → Prop) (T : TSem → Prop) (s : Bytes) (K : Nat → List Ast → Nat → Prop) : Prop where
  nil : ∀ i, K i [] i
  app : ∀ {i j k l m}, K i l j → K j m k → K i (l ++ m) k
  group : ∀ {i j l}, K i l j → K i [{ Ast.zero with cls := ":base:Group", ty := .listOfAst, val := .list l }] j
  prim : ∀ {p}, P p → ∀ {c o}, c.str = s → Outcome.of (p c) = .matched o → o.str = s ∧ ∃ new, o.stack = c.stack ++ new ∧ K c.pos new o.pos
  trans : ∀ {f}, T f → ∀ {c i j l l'}, K i l j → f c l = .ok (l', none) → K i l' j

/-- New ASTs have been made of what lies between the positions. -/
def Covers (s : Bytes) (K : Nat → List Ast → Nat → Prop) (c o : Ctx) : Prop := o.str = s ∧ ∃ new, o.stack = c.stack ++ new ∧ K c.pos new o.pos

theorem Spec.Over.plain {P : Sem → Prop} {T : TSem → Prop} {g : Gram} (h : Over P T g) : Plain g := by
  induction h with
  | prim => exact .prim
  | flatGroup _ ih => exact .flatGroup ih
  | group _ ih => exact .group ih
  | first _ ih => exact .first ih
  | lookAhead h => exact .lookAhead h
  | lookAheadN h => exact .lookAheadN h
  | lookBehind h => exact .lookBehind h
  | lookBehindN h => exact .lookBehindN h
  | «repeat» _ ih => exact .repeat ih
  | trans _ _ ih => exact .trans ih
  | indirect => exact .indirect

section
variable {P : Sem → Prop} {T : TSem → Prop} {s : Bytes} {K : Nat → List Ast → Nat → Prop} {env : Env}

theorem Account.pipe (hK : Account P T s K) {fs : List TSem} (hfs : ∀ f ∈ fs, T f) {ctx : Ctx} {l l' : List Ast} {i j : Nat} (h : Pipe ctx fs l (.ok l')) (hl : K i l j) :
    K i l' j := by
  generalize hr : Except.ok l' = r at h
  induction h with
  | done => cases hr; exact hl
  | step h1 _ ih => exact ih (fun f hf => hfs f (by simp [hf])) (hK.trans (hfs _ (by simp)) hl h1) hr
  | fail => cases hr

/-- The judgement is made of such grammars. -/
def OverJ (P : Sem → Prop) (T : TSem → Prop) : Judg → Prop
  | .gram g => Over P T g
  | .seq gs => ∀ g ∈ gs, Over P T g
  | .choice gs => ∀ g ∈ gs, Over P T g
  | .reps _ gs _ => ∀ g ∈ gs, Over P T g

theorem Account.grows (hK : Account P T s K) (henv : ∀ i, Over P T (env i)) {j : Judg} {c : Ctx} {r : Outcome} (h : Parses env j c r) :
    OverJ P T j → c.str = s → ∀ o, r = .matched o → Covers s K c o := by
  have rfl' : ∀ {c : Ctx}, c.str = s → Covers s K c c := fun h => ⟨h, [], by simp, hK.nil _⟩
  have trans' : ∀ {a b c : Ctx}, Covers s K a b → Covers s K b c → Covers s K a c := by
    rintro a b c ⟨_, n, hn, k1⟩ ⟨h, m, hm, k2⟩
    exact ⟨h, n ++ m, by rw [hm, hn, List.append_assoc], hK.app k1 k2⟩
  have rep : ∀ {tm : Times} {k : Nat} {c o : Ctx}, c.str = s → repEnd tm k c = .matched o → Covers s K c o := by
    intro tm k c o hc h
    unfold repEnd at h
    split at h
    · cases h; exact rfl' hc
    · cases h
  induction h with
  | seqNil => rintro _ hc o ⟨⟩; exact rfl' hc
  | seqCons _ _ ih1 ih2 =>
    intro hj hc o ho
    have g1 := ih1 (hj _ (by simp)) hc _ rfl
    exact trans' g1 (ih2 (fun g hg => hj g (by simp [hg])) g1.1 o ho)
  | seqStop _ hne => intro _ _ o ho; exact absurd ho (hne o)
  | choiceNil => rintro _ _ o ⟨⟩
  | choiceNext _ _ _ ih2 => intro hj hc o ho; exact ih2 (fun g hg => hj g (by simp [hg])) hc o ho
  | choiceTake _ _ ih => intro hj hc o ho; exact ih (hj _ (by simp)) hc o ho
  | repsMax => intro _ hc o ho; exact rep hc ho
  | repsEnd => intro _ hc o ho; exact rep hc ho
  | repsFail _ _ _ hne => intro _ _ o ho; exact absurd ho (hne o)
  | repsNext _ _ _ ih1 ih2 =>
    intro hj hc o ho
    have g1 := ih1 hj hc _ rfl
    exact trans' g1 (ih2 hj g1.1 o ho)
  | prim h _ =>
    intro hj hc o ho
    cases hj with
    | prim hp => exact hK.prim hp hc (h.trans ho)
  | @flatGroup gs c r _ ih =>
    intro hj hc o ho
    cases hj with
    | flatGroup hg =>
      cases r <;> simp only [Outcome.onMatch] at ho <;> cases ho
      have e := ih hg hc _ rfl
      exact e
  | @group gs c r hp ih =>
    intro hj hc o ho
    cases hj with
    | group hg =>
      clear hp
      cases r <;> simp only [Outcome.onMatch] at ho <;> try cases ho
      rename_i c'
      obtain ⟨h1, new, h2, h3⟩ := ih hg hc _ rfl
      have h2 : c'.stack = c.stack ++ new := h2
      rw [if_neg (by rw [h2]; simp), h2, List.drop_left, List.take_left] at ho
      cases ho
      exact ⟨h1, _, rfl, hK.group h3⟩
  | @first gs c r _ _ ih =>
    intro hj hc o ho
    cases hj with
    | first hg =>
      cases r <;> simp only [Outcome.onMatch] at ho <;> cases ho
      have e := ih hg hc _ rfl
      exact e
  | firstNil => rintro _ hc o ⟨⟩; exact rfl' hc
  | @lookAhead gs c r _ _ =>
    intro _ hc o ho
    cases r <;> simp only [Outcome.onMatch] at ho <;> cases ho
    exact rfl' hc
  | lookAheadN_no => rintro _ _ o ⟨⟩
  | lookAheadN_yes => rintro _ hc o ⟨⟩; exact rfl' hc
  | lookAheadN_stop _ _ hne => intro _ _ o ho; exact absurd ho (hne o)
  | @lookBehind a b i gs c r =>
    intro _ hc o ho
    cases r <;> simp only [Outcome.onMatch] at ho <;> cases ho
    exact rfl' hc
  | lookBehind_none => rintro _ _ o ⟨⟩
  | @lookBehindN a b i gs c r => 
    intro _ hc o ho
    cases r <;> simp only [Outcome.onMatch] at ho <;> cases ho
  | lookBehindN_none => rintro _ hc o ⟨⟩; exact rfl' hc
  | «repeat» _ ih =>
    intro hj hc o ho
    cases hj with
    | «repeat» hg => exact ih hg hc o ho
  | trans_stop _ hne => intro _ _ o ho; exact absurd ho (hne o)
  | @trans_none g c c' _ ih =>
    intro hj hc o ho
    generalize hg : Gram.trans g [] = g' at hj
    cases hj with
    | trans m => injection hg with e1; subst e1; cases ho; have e := ih m hc _ rfl; exact e
    | _ => cases hg
  | @trans g fs c c' r _ _ hrw ih =>
    intro hj hc o ho
    have hj : Over P T (.trans g (fs.map .fn)) := hj
    generalize hg : Gram.trans g (fs.map .fn) = g' at hj
    cases hj with
    | @trans _ fs' m hT =>
      injection hg with e1 e2
      subst e1
      have : fs = fs' := (List.map_inj_right fun _ _ h => Tr.fn.inj h).1 e2
      subst this
      obtain ⟨h1, new, h2, h3⟩ := ih m hc _ rfl
      have h2 : c'.stack = c.stack ++ new := h2
      subst ho
      generalize hr : Outcome.matched o = r at hrw
      cases hrw with
      | ok _ hp =>
        cases hr
        simp only [h2, List.drop_left] at hp
        exact ⟨h1, _, by simp only [h2, List.take_left], hK.pipe hT hp h3⟩
      | err | panic | short => cases hr
    | _ => cases hg
  | @indirect i c r _ ih =>
    intro _ hc o ho
    cases r <;> simp only at ho <;> cases ho
    have e := ih (henv i) hc _ rfl
    exact e
  | match_none | match_range | «match» => intro hj; cases hj

end

/-! ### Terminals -/

theorem nextChar_piece {s : Bytes} {i n : Nat} {ch : Char} (h : NextChar (s.drop i) ch n) : Piece s i (utf8 ch) (i + n) := by
  have hi : i < s.length := by
    have := (nextChar_width h).2
    have h0 := nextChar_drop_lt h
    simp at h0 this
    omega
  generalize hs : s.drop i = t at h
  cases h with
  | char ch rest => exact .bytes (by omega) hs
  | bad _ hb => exact .bad hi (hs ▸ hb)

theorem token_piece {p : Sem} (hp : TokenParser p) {c o : Ctx} (h : Outcome.of (p c) = .matched o) :
    o.str = c.str ∧ ∃ a v, o.stack = c.stack ++ [a] ∧ a.val = .str v ∧ a.pos = c.pos ∧ Piece c.str c.pos v o.pos := by
  have raw : ∀ (cls : String) (v : Bytes), c.pos + v.length ≤ c.str.length → (c.str.drop c.pos).take v.length = v →
      Outcome.of (.ok (tokenMatched cls v v.length c, none)) = .matched o →
      o.str = c.str ∧ ∃ a v, o.stack = c.stack ++ [a] ∧ a.val = .str v ∧ a.pos = c.pos ∧ Piece c.str c.pos v o.pos := by
    intro cls v hl hv h
    cases h
    exact ⟨rfl, _, v, rfl, rfl, rfl, .bytes (rest := (c.str.drop c.pos).drop v.length) (by omega) (by conv => rhs; lhs; rw [← hv]
                                                                                                      exact (List.take_append_drop _ _).symm)⟩
  have chars : ∀ (cls : String) (q : Nat → Bool), Outcome.of (lightParser cls (charFn cls q) c) = .matched o →
      o.str = c.str ∧ ∃ a v, o.stack = c.stack ++ [a] ∧ a.val = .str v ∧ a.pos = c.pos ∧ Piece c.str c.pos v o.pos := by
    intro cls q h
    by_cases hc : c.str.length < c.pos
    · rw [charFn_panic _ _ _ _ hc] at h; cases h
    · rw [charFn_eq _ _ _ _ (by omega)] at h
      split at h
      · rename_i hq
        obtain ⟨ch, n, hn⟩ := nextChar_total (s := c.str.drop c.pos) (by intro h0; have := congrArg List.length h0; simp at this; omega)
        rw [(nextChar_decode hn).2] at h
        cases h
        refine ⟨rfl, _, _, rfl, rfl, rfl, ?_⟩
        rw [encode_char]
        exact nextChar_piece hn
      · cases h
  cases hp with
  | seq s =>
    rw [seqS_eq] at h
    split at h
    · rename_i hs
      simp [hasPrefixAt] at hs
      exact raw _ s hs.1 hs.2 h
    · cases h
  | seqI orbit s =>
    rw [seqIS_eq] at h
    split at h
    · rename_i hs
      have e : ((c.str.drop c.pos).take s.length).length = s.length := by
        rw [List.length_take, List.length_drop]; omega
      refine raw ":string:SeqI" ((c.str.drop c.pos).take s.length) (by rw [e]; exact hs.1) (by rw [e]) ?_
      rw [e]; exact h
    · cases h
  | charClass cc =>
    rw [charClass_eq] at h
    split at h
    · rename_i s hs
      have hs := List.find?_some hs
      simp [hasPrefixAt] at hs
      exact raw _ s hs.1 hs.2 h
    · cases h
  | charClassN cc =>
    unfold charClassN at h
    by_cases ha : cc.any (fun s => hasPrefixAt s c) = true
    · simp only [lightParser, ha, if_true] at h; cases h
    · refine chars ":string:CharClassN" (fun _ => true) ?_
      simp only [lightParser, ha] at h ⊢
      exact h
  | _ => exact chars _ _ h

/-- Word boundaries change nothing but the status. -/
theorem boundary_still {cls : String} {isW : Nat → Bool} {c o : Ctx} (h : Outcome.of (lightParser cls (wordBoundaryFn isW) c) = .matched o) :
    o.str = c.str ∧ o.stack = c.stack ∧ o.pos = c.pos := by
  by_cases hc : c.pos ≤ c.str.length
  · obtain ⟨b, hb⟩ := wordBoundary_form cls isW c hc
    rw [hb] at h
    cases b <;> cases h
    exact ⟨rfl, rfl, rfl⟩
  · simp [lightParser, wordBoundaryFn, show c.str.length < c.pos by omega, Outcome.of] at h

/-- The parsers that push nothing stay where they are. -/
theorem still_of {p : Sem} (hp : PlaceParser p) {c o : Ctx} (h : Outcome.of (p c) = .matched o) :
    TokenParser p ∨ (o.str = c.str ∧ o.stack = c.stack ∧ o.pos = c.pos) := by
  cases hp with
  | token h => exact .inl h
  | error => rw [errorP_eq] at h; cases h
  | unmatched => rw [unmatchedP_eq] at h; cases h
  | start => rw [startP_eq] at h; split at h <;> cases h; exact .inr ⟨rfl, rfl, rfl⟩
  | «end» => rw [endS_eq] at h; split at h <;> cases h; exact .inr ⟨rfl, rfl, rfl⟩
  | wordBoundary => exact .inr (boundary_still h)
  | unicodeWordBoundary u => exact .inr (boundary_still h)

/-! ### Texts -/

theorem textOf_append {l m : List Ast} {v w : Bytes} (h : TextOf l v) (h' : TextOf m w) : TextOf (l ++ m) (v ++ w) := by
  induction h with
  | nil => exact h'
  | token h1 _ ih => rw [List.append_assoc]; exact .token h1 ih
  | group h1 h2 _ _ ih => rw [List.append_assoc]; exact .group h1 h2 ih

theorem textOf_one {a : Ast} {v : Bytes} (h : a.val = .str v) : TextOf [a] v := by
  have := TextOf.token (w := []) h .nil
  simpa using this

theorem written_append {s : Bytes} {i j k : Nat} {v w : Bytes} (h : Written s i v j) (h' : Written s j w k) : Written s i (v ++ w) k := by
  induction h with
  | nil => exact h'
  | cons h1 _ ih => rw [List.append_assoc]; exact .cons h1 (ih h')

/-- Places do not matter for the text. -/
theorem textOf_map {f : Ast → Ast} (hf : ∀ a, (f a).val = a.val) {l : List Ast} {v : Bytes} (h : TextOf l v) : TextOf (l.map f) v := by
  induction h with
  | nil => exact .nil
  | token h1 _ ih => exact .token ((hf _).trans h1) ih
  | group h1 h2 _ _ ih => exact .group ((hf _).trans h1) h2 ih

theorem textOf_head {f : Ast → Ast} (hf : ∀ a, (f a).val = a.val) {c : Ctx} {l l' : List Ast} {v : Bytes} (h : TextOf l v)
    (he : rewriteHead f c l = .ok (l', none)) : TextOf l' v := by
  cases h with
  | nil => simp [rewriteHead] at he; subst he; exact .nil
  | token h1 h2 => simp [rewriteHead] at he; subst he; exact .token ((hf _).trans h1) h2
  | group h1 h2 h3 => simp [rewriteHead] at he; subst he; exact .group ((hf _).trans h1) h2 h3

theorem concatLoop_text {l : List Ast} {v : Bytes} (h : TextOf l v) : ∀ {acc s : Bytes}, concatLoop acc l = .ok (s, none) → s = acc ++ v := by
  induction h with
  | nil => intro acc s h; simp [concatLoop] at h; simp [h]
  | token h1 _ ih =>
    intro acc s h
    unfold concatLoop at h
    split at h
    · simp at h
    · rw [h1] at h
      rw [ih h, List.append_assoc]
  | group h1 _ _ _ =>
    intro acc s h
    unfold concatLoop at h
    split at h
    · simp at h
    · rw [h1] at h; cases h

theorem concat_text {c : Ctx} {l l' : List Ast} {v : Bytes} (h : TextOf l v) (he : concat c l = .ok (l', none)) : TextOf l' v := by
  cases l with
  | nil =>
    cases h
    simp [concat] at he; subst he
    exact textOf_one rfl
  | cons a l =>
    unfold concat at he
    cases hl : concatLoop [] (a :: l) with
    | ok x =>
      obtain ⟨s, e⟩ := x
      rw [hl] at he
      cases e with
      | none =>
        simp at he; subst he
        have := concatLoop_text h hl
        rw [List.nil_append] at this
        subst this
        exact textOf_one rfl
      | some e => simp at he
    | panic p => simp [hl] at he
    | timeout => simp [hl] at he

theorem textTrans_keeps {f : TSem} (hf : TextTrans f) {c : Ctx} {l l' : List Ast} {v : Bytes} (h : TextOf l v) (he : f c l = .ok (l', none)) : TextOf l' v := by
  cases hf with
  | concat => exact concat_text h he
  | grouping =>
    simp [groupingTransform] at he; subst he
    have := TextOf.group (a := { Ast.zero with cls := ":base:Group", ty := .listOfAst, val := .list l }) (w := []) rfl h .nil
    simpa using this
  | transformError s => simp [transformError] at he
  | setOpCode n => exact textOf_head (f := fun a => { a with opCode := n }) (fun _ => rfl) h he
  | changeClassName s => exact textOf_head (f := fun a => { a with cls := s }) (fun _ => rfl) h he
  | setOpCodeAndClassName n s => exact textOf_head (f := fun a => { a with opCode := n, cls := s }) (fun _ => rfl) h he
  | user _ hu => exact hu _ _ _ _ h he

theorem text_account (s : Bytes) : Account TextParser TextTrans s (fun i l j => ∃ v, TextOf l v ∧ Written s i v j) where
  nil := fun i => ⟨[], .nil, .nil⟩
  app := fun ⟨v, h1, h2⟩ ⟨w, h3, h4⟩ => ⟨v ++ w, textOf_append h1 h3, written_append h2 h4⟩
  group := fun {i j l} ⟨v, h1, h2⟩ => ⟨v, by
    have := TextOf.group (a := { Ast.zero with cls := ":base:Group", ty := .listOfAst, val := .list l }) (w := []) rfl h1 .nil
    simpa using this, h2⟩
  prim := fun {p} hp {c o} hc h => by
    subst hc
    have still : PlaceParser p → o.str = c.str ∧ ∃ new, o.stack = c.stack ++ new ∧ ∃ v, TextOf new v ∧ Written c.str c.pos v o.pos := by
      intro hp
      rcases still_of hp h with ht | ⟨h1, h2, h3⟩
      · obtain ⟨h1, a, v, h2, h3, _, h5⟩ := token_piece ht h
        refine ⟨h1, [a], h2, v, textOf_one h3, ?_⟩
        have := Written.cons (w := []) h5 .nil
        simpa using this
      · exact ⟨h1, [], by simp [h2], [], .nil, h3 ▸ .nil⟩
    cases hp with
    | token h => exact still (.token h)
    | error m => exact still (.error m)
    | unmatched => exact still .unmatched
    | start => exact still .start
    | «end» => exact still .end
    | wordBoundary => exact still .wordBoundary
    | unicodeWordBoundary u => exact still (.unicodeWordBoundary u)
    | zero asts ht =>
      rw [zeroP_eq] at h
      cases h
      exact ⟨rfl, _, rfl, [], textOf_map (f := fun a => { a with pos := c.pos, len := c.len }) (fun _ => rfl) ht, .nil⟩
  trans := fun hf _ _ _ _ _ ⟨v, h1, h2⟩ he => ⟨v, textTrans_keeps hf h1 he, h2⟩

/-! ### Places -/

theorem laid_append {s : Bytes} {i j k : Nat} {l m : List Ast} (h : Laid s i l j) (h' : Laid s j m k) : Laid s i (l ++ m) k := by
  induction h with
  | nil => exact h'
  | token h1 h2 h3 _ ih => exact .token h1 h2 h3 (ih h')
  | group h1 h2 _ _ ih => exact .group h1 h2 (ih h')

theorem laid_head {f : Ast → Ast} (hf : ∀ a, (f a).val = a.val) (hp : ∀ a, (f a).pos = a.pos) {s : Bytes} {i j : Nat} {c : Ctx} {l l' : List Ast} (h : Laid s i l j)
    (he : rewriteHead f c l = .ok (l', none)) : Laid s i l' j := by
  cases h with
  | nil => simp [rewriteHead] at he; subst he; exact .nil
  | token h1 h2 h3 h4 => simp [rewriteHead] at he; subst he; exact .token ((hf _).trans h1) ((hp _).trans h2) h3 h4
  | group h1 h2 h3 => simp [rewriteHead] at he; subst he; exact .group ((hf _).trans h1) h2 h3

theorem place_account (s : Bytes) : Account PlaceParser PlaceTrans s (Laid s) where
  nil := fun i => .nil
  app := laid_append
  group := fun h => .group rfl h .nil
  prim := fun {p} hp {c o} hc h => by
    subst hc
    rcases still_of hp h with ht | ⟨h1, h2, h3⟩
    · obtain ⟨h1, a, v, h2, h3, h4, h5⟩ := token_piece ht h
      exact ⟨h1, [a], h2, .token h3 h4 h5 .nil⟩
    · exact ⟨h1, [], by simp [h2], h3 ▸ .nil⟩
  trans := fun {f} hf {c i j l l'} h he => by
    cases hf with
    | grouping => simp [groupingTransform] at he; subst he; exact .group rfl h .nil
    | transformError s => simp [transformError] at he
    | setOpCode n => exact laid_head (f := fun a => { a with opCode := n }) (fun _ => rfl) (fun _ => rfl) h he
    | changeClassName s => exact laid_head (f := fun a => { a with cls := s }) (fun _ => rfl) (fun _ => rfl) h he
    | setOpCodeAndClassName n s => exact laid_head (f := fun a => { a with opCode := n, cls := s }) (fun _ => rfl) (fun _ => rfl) h he
    | user _ hu => exact hu _ _ _ _ _ _ h he

/-! ### What follows -/

/-- A text that stands for a piece of the source is that piece, unless it contains U+FFFD. -/
theorem written_exact {s : Bytes} {i j : Nat} {v : Bytes} (h : Written s i v j) : i ≤ j ∧ (i ≤ s.length → j ≤ s.length) ∧
    (v = (s.drop i).take (j - i) ∨ ∃ x y, v = x ++ utf8 '�' ++ y) := by
  induction h with
  | nil => exact ⟨Nat.le_refl _, id, .inl (by simp)⟩
  | @cons i j k v w h1 _ ih =>
    obtain ⟨h2, h3, h4⟩ := ih
    cases h1 with
    | @bytes _ rest hi hd =>
      have hl := congrArg List.length hd
      simp at hl
      refine ⟨by omega, fun _ => h3 (by omega), ?_⟩
      rcases h4 with h4 | ⟨x, y, h4⟩
      · left
        have e : k - i = v.length + (k - (i + v.length)) := by omega
        rw [e, List.take_add, h4, ← List.drop_drop, hd, List.take_left, List.drop_left]
      · exact .inr ⟨v ++ x, y, by rw [h4]; simp⟩
    | bad hi _ => exact ⟨by omega, fun _ => h3 (by omega), .inr ⟨[], w, by simp⟩⟩

theorem textOf_unique {l : List Ast} {v w : Bytes} (h : TextOf l v) (h' : TextOf l w) : v = w := by
  induction h generalizing w with
  | nil => cases h'; rfl
  | token h1 _ ih =>
    cases h' with
    | token h2 h3 => rw [h1] at h2; cases h2; rw [ih h3]
    | group h2 => rw [h1] at h2; cases h2
  | group h1 _ _ ih1 ih2 =>
    cases h' with
    | token h2 _ => rw [h1] at h2; cases h2
    | group h2 h3 h4 => rw [h1] at h2; cases h2; rw [ih1 h3, ih2 h4]

theorem piece_seq {s : Bytes} {i j : Nat} {v : Bytes} (hv : v ≠ utf8 '�') (h : Piece s i v j) : j = i + v.length := by
  cases h with
  | bytes => rfl
  | bad => exact absurd rfl hv

end Takenoco
