import Verif.Lemmas.Closure
/-
What a library terminal can return.
-/
namespace Takenoco
open Spec

/-- The shape of the result of a library terminal on a source of length `L`. -/
inductive TermRes (Bad : Panic → Prop) (A : Ast → Prop) (L : Nat) (c : Ctx) : Out PRes → Prop where
  | panic {x : Panic} : Bad x → TermRes Bad A L c (.panic x)
  | timeout : TermRes Bad A L c .timeout
  | unmatched {l : Nat} {s : String} : TermRes Bad A L c (.ok ({ c with len := l, status := .unmatched, cls := s }, none))
  | error {l : Nat} {s : String} {e : Err} :
      TermRes Bad A L c (.ok ({ c with len := l, status := .error, cls := s }, some e))
  | matched {k l : Nat} {s : String} {new : List Ast} : (c.pos ≤ L → c.pos + k ≤ L) → (∀ a ∈ new, A a) →
      TermRes Bad A L c (.ok ({ c with
        stack := c.stack ++ new, pos := c.pos + k, len := l, qty := 1, status := .matched, cls := s }, none))

theorem baseTerm_res {A : Ast → Prop} {p : Sem} (h : BaseTerm A p) (Bad : Panic → Prop) (L : Nat) (c : Ctx) :
    TermRes Bad A L c (p c) := by
  cases h with
  | error msg => rw [errorP_eq]; exact .error
  | unmatched => rw [unmatchedP_eq]; exact .unmatched
  | zero asts hA =>
    rw [zeroP_eq]
    refine .matched (k := 0) (fun h => h) ?_
    intro a ha
    obtain ⟨a', ha', rfl⟩ := List.mem_map.1 ha
    exact hA a' ha' _ _
  | start =>
    rw [startP_eq]
    split
    · have : TermRes Bad A L c (.ok ({ c with
        stack := c.stack ++ [], pos := c.pos + 0, len := 0, qty := 1, status := .matched, cls := ":base:Start" }, none)) :=
        .matched (fun h => h) (by simp)
      simpa using this
    · exact .unmatched

theorem charFn_res {A : Ast → Prop} (hA : ∀ cls v pos len, A ⟨0, cls, .string, .str v, pos, len⟩)
    (cls cls' : String) (p : Nat → Bool) (c : Ctx) :
    TermRes (fun _ => c.str.length < c.pos) A c.str.length c (lightParser cls (charFn cls' p) c) := by
  by_cases h : c.str.length < c.pos
  · rw [charFn_panic _ _ _ _ h]; exact .panic h
  · have h' : c.pos ≤ c.str.length := by omega
    rw [charFn_eq _ _ _ _ h']
    split
    · refine .matched (new := [_]) (fun _ => ?_) ?_
      · have := decodeRune_len_le (c.str.drop c.pos)
        simp at this; omega
      · intro a ha
        simp at ha; subst ha; exact hA _ _ _ _
    · exact .unmatched

theorem token_res {A : Ast → Prop} (hA : ∀ cls v pos len, A ⟨0, cls, .string, .str v, pos, len⟩)
    (Bad : Panic → Prop) (cls : String) (v : Bytes) (k : Nat) (c : Ctx) (h : c.pos + k ≤ c.str.length) :
    TermRes Bad A c.str.length c (.ok (tokenMatched cls v k c, none)) :=
  .matched (new := [_]) (fun _ => h) (by intro a ha; simp at ha; subst ha; exact hA _ _ _ _)

theorem hasPrefixAt_le {s : Bytes} {c : Ctx} (h : hasPrefixAt s c = true) : c.pos + s.length ≤ c.str.length := by
  unfold hasPrefixAt at h; simp at h; exact h.1

theorem wordBoundary_res {A : Ast → Prop} (cls : String) (isW : Nat → Bool) (c : Ctx) :
    TermRes (fun _ => c.str.length < c.pos) A c.str.length c (lightParser cls (wordBoundaryFn isW) c) := by
  by_cases h : c.str.length < c.pos
  · have : lightParser cls (wordBoundaryFn isW) c = .panic .index :=
      light_panic cls (by simp [wordBoundaryFn, h])
    rw [this]; exact .panic h
  · have h' : c.pos ≤ c.str.length := by omega
    obtain ⟨b, hb⟩ := wordBoundary_form cls isW c h'
    rw [hb]
    split
    · have : TermRes (fun _ => c.str.length < c.pos) A c.str.length c (.ok ({ c with
        stack := c.stack ++ [], pos := c.pos + 0, len := 0, qty := 1, status := .matched, cls := cls }, none)) :=
        .matched (fun h => h) (by simp)
      simpa using this
    · exact .unmatched

theorem strTerm_res {A : Ast → Prop} (hA : ∀ cls v pos len, A ⟨0, cls, .string, .str v, pos, len⟩)
    {p : Sem} (h : StrTerm A p) (c : Ctx) :
    TermRes (fun _ => c.str.length < c.pos) A c.str.length c (p c) := by
  cases h with
  | base h => exact baseTerm_res h _ _ c
  | any => exact charFn_res hA _ _ _ c
  | «end» =>
    rw [endS_eq]
    split
    · have : TermRes (fun _ => c.str.length < c.pos) A c.str.length c (.ok ({ c with
        stack := c.stack ++ [], pos := c.pos + 0, len := 0, qty := 1, status := .matched, cls := ":string:End" }, none)) :=
        .matched (fun h => h) (by simp)
      simpa using this
    · exact .unmatched
  | seq s =>
    rw [seqS_eq]
    split
    · exact token_res hA _ _ _ _ c (hasPrefixAt_le ‹_›)
    · exact .unmatched
  | seqI orbit s =>
    simp only [seqIS, lightParser]
    by_cases h1 : c.pos + s.length ≤ c.str.length
    · simp only [h1, if_true]
      split <;> rename_i hx
      · split at hx <;> simp at hx
      · split at hx <;> simp at hx
      · split at hx
        · simp at hx
          obtain ⟨rfl, rfl⟩ := hx
          simp [fixStatus, pushStr]
          exact token_res hA _ ":string:SeqI" _ _ c h1
        · simp at hx
          obtain ⟨rfl, rfl⟩ := hx
          simp [fixStatus, unm]
          exact .unmatched
    · simp [h1, fixStatus, unm]
      exact .unmatched
  | charRange cr => exact charFn_res hA _ _ _ c
  | charRangeN cr => exact charFn_res hA _ _ _ c
  | charClass cc =>
    rw [charClass_eq]
    split
    · rename_i s hs
      exact token_res hA _ _ _ _ c (hasPrefixAt_le (by simpa using List.find?_some hs))
    · exact .unmatched
  | charClassN cc =>
    by_cases h : c.str.length < c.pos
    · by_cases ha : cc.any (fun s => hasPrefixAt s c) = true
      · have : charClassN cc c = .ok (tokenUnmatched ":string:CharClassN" c, none) := by
          simp [charClassN, lightParser, ha, fixStatus, unm, tokenUnmatched]
        rw [this]; exact .unmatched
      · have : charClassN cc c = .panic .index := by
          simp [charClassN, lightParser, ha, charFn, h]
        rw [this]; exact .panic h
    · have h' : c.pos ≤ c.str.length := by omega
      rw [charClassN_eq _ _ h']
      split
      · refine token_res hA _ _ _ _ c ?_
        have := decodeRune_len_le (c.str.drop c.pos)
        simp at this; omega
      · exact .unmatched
  | charClassFn fn => exact charFn_res hA _ _ _ c
  | whitespace => exact charFn_res hA _ _ _ c
  | whitespaceNoLineBreak => exact charFn_res hA _ _ _ c
  | lineBreak => exact charFn_res hA _ _ _ c
  | alpha => exact charFn_res hA _ _ _ c
  | number => exact charFn_res hA _ _ _ c
  | alnum => exact charFn_res hA _ _ _ c
  | binNumber => exact charFn_res hA _ _ _ c
  | octNumber => exact charFn_res hA _ _ _ c
  | hexNumber => exact charFn_res hA _ _ _ c
  | wordBoundary => exact wordBoundary_res _ _ c
  | unicodeWordBoundary u => exact wordBoundary_res _ _ c

/-- The number of elements of the source slice (0 if there is none). -/
def sliceLen (c : Ctx) : Nat := match c.slice with
  | some s => s.items.length
  | none => 0

theorem pushObj_res {A : Ast → Prop} (hA : ∀ a, A a) (Bad : Panic → Prop) (cls : String) (ty : AstType) (v : Value)
    (k : Nat) (c : Ctx) (h : c.pos + k ≤ sliceLen c) :
    TermRes Bad A (sliceLen c) c
      (.ok ({ pushObj cls ty v k { c with status := .unmatched } with qty := 1, cls := cls }, none)) :=
  .matched (new := [_]) (fun _ => h) (fun a _ => hA a)

theorem objTerm_res {A : Ast → Prop} (hA : ∀ a, A a) {p : Sem} (h : ObjTerm A p) (c : Ctx) :
    TermRes (fun _ => True) A (sliceLen c) c (p c) := by
  cases h with
  | base h => exact baseTerm_res h _ _ c
  | any =>
    cases hs : c.slice with
    | none => simp [objAny, lightParser, withSlice, hs]; exact .panic trivial
    | some src =>
      cases hi : src.items[c.pos]? with
      | none => simp [objAny, lightParser, withSlice, hs, hi, fixStatus]; rw [← hs]; exact .unmatched
      | some w =>
        have := (List.getElem?_eq_some_iff.1 hi).1
        simp [objAny, lightParser, withSlice, hs, hi, fixStatus, pushObj]
        have h2 := pushObj_res hA (fun _ => True) ":object:Any" .any w 1 c (by simp [sliceLen, hs]; omega)
        simpa [pushObj, hs] using h2
  | «end» =>
    cases hs : c.slice with
    | none => simp [objEnd, lightParser, withSlice, hs]; exact .panic trivial
    | some src =>
      by_cases hp : c.pos = src.items.length
      · simp [objEnd, lightParser, withSlice, hs, hp, fixStatus]
        have : TermRes (fun _ => True) A (sliceLen c) c (.ok ({ c with
          stack := c.stack ++ [], pos := c.pos + 0, len := 0, qty := 1, status := .matched, cls := ":object:End" }, none)) :=
          .matched (fun h => h) (by simp)
        simpa [hs, hp] using this
      · simp [objEnd, lightParser, withSlice, hs, hp, fixStatus]; rw [← hs]; exact .unmatched
  | seq vs =>
    cases hs : c.slice with
    | none => simp [objSeq, lightParser, withSlice, hs]; exact .panic trivial
    | some src =>
      by_cases hp : c.pos + vs.length ≤ src.items.length
      · cases hl : objSeqLoop src.itemEquals ((src.items.drop c.pos).take vs.length) vs with
        | panic x => simp [objSeq, lightParser, withSlice, hs, hp, hl]; exact .panic trivial
        | timeout => simp [objSeq, lightParser, withSlice, hs, hp, hl]; exact .timeout
        | ok u =>
          simp [objSeq, lightParser, withSlice, hs, hp, hl, fixStatus, pushObj]
          have h2 := pushObj_res hA (fun _ => True) ":object:Seq" .listOfAny
            (.slice ((src.items.drop c.pos).take vs.length)) vs.length c (by simp [sliceLen, hs]; omega)
          simpa [pushObj, hs] using h2
      · simp [objSeq, lightParser, withSlice, hs, hp, fixStatus]; rw [← hs]; exact .unmatched
  | objClass vs =>
    cases hs : c.slice with
    | none => simp [objClass, lightParser, withSlice, hs]; exact .panic trivial
    | some src =>
      cases hi : src.items[c.pos]? with
      | none => simp [objClass, lightParser, withSlice, hs, hi, fixStatus]; rw [← hs]; exact .unmatched
      | some w =>
        have := (List.getElem?_eq_some_iff.1 hi).1
        cases hq : anyEquals src.itemEquals w vs with
        | panic x => simp [objClass, lightParser, withSlice, hs, hi, hq]; exact .panic trivial
        | timeout => simp [objClass, lightParser, withSlice, hs, hi, hq]; exact .timeout
        | ok b =>
          cases b with
          | false => simp [objClass, lightParser, withSlice, hs, hi, hq, fixStatus]; rw [← hs]; exact .unmatched
          | true =>
            simp [objClass, lightParser, withSlice, hs, hi, hq, fixStatus, pushObj]
            have h2 := pushObj_res hA (fun _ => True) ":object:ObjClass" .any w 1 c (by simp [sliceLen, hs]; omega)
            simpa [pushObj, hs] using h2
  | objClassN vs =>
    cases hs : c.slice with
    | none => simp [objClassN, lightParser, withSlice, hs]; exact .panic trivial
    | some src =>
      cases hi : src.items[c.pos]? with
      | none => simp [objClassN, lightParser, withSlice, hs, hi, fixStatus]; rw [← hs]; exact .unmatched
      | some w =>
        have := (List.getElem?_eq_some_iff.1 hi).1
        cases hq : anyEquals src.itemEquals w vs with
        | panic x => simp [objClassN, lightParser, withSlice, hs, hi, hq]; exact .panic trivial
        | timeout => simp [objClassN, lightParser, withSlice, hs, hi, hq]; exact .timeout
        | ok b =>
          cases b with
          | true => simp [objClassN, lightParser, withSlice, hs, hi, hq, fixStatus]; rw [← hs]; exact .unmatched
          | false =>
            simp [objClassN, lightParser, withSlice, hs, hi, hq, fixStatus, pushObj]
            have h2 := pushObj_res hA (fun _ => True) ":object:ObjClassN" .string w 1 c (by simp [sliceLen, hs]; omega)
            simpa [pushObj, hs] using h2
  | objClassFn fn =>
    cases hs : c.slice with
    | none => simp [objClassFn, lightParser, withSlice, hs]; exact .panic trivial
    | some src =>
      cases hi : src.items[c.pos]? with
      | none => simp [objClassFn, lightParser, withSlice, hs, hi, fixStatus]; rw [← hs]; exact .unmatched
      | some w =>
        have := (List.getElem?_eq_some_iff.1 hi).1
        cases hq : fn w with
        | panic x => simp [objClassFn, lightParser, withSlice, hs, hi, hq]; exact .panic trivial
        | timeout => simp [objClassFn, lightParser, withSlice, hs, hi, hq]; exact .timeout
        | ok b =>
          cases b with
          | false => simp [objClassFn, lightParser, withSlice, hs, hi, hq, fixStatus]; rw [← hs]; exact .unmatched
          | true =>
            simp [objClassFn, lightParser, withSlice, hs, hi, hq, fixStatus, pushObj]
            have h2 := pushObj_res hA (fun _ => True) ":object:ObjClassFn" .any w 1 c (by simp [sliceLen, hs]; omega)
            simpa [pushObj, hs] using h2

end Takenoco
