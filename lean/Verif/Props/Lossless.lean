import Verif.Lemmas.Runs
import Verif.Props.StrTerminals
/-
C20: reading a source character by character.
-/
namespace Takenoco
open Spec

/-- `FlatGroup(Trans(ZeroOrMoreTimes(Any()), Concat), End())` -/
def readAll : Gram := .flatGroup [.trans (Gram.star [.prim anyS]) [.fn concat], .prim endS]

/-- The whole source is consumed and one string AST holds what the bytes read as. -/
theorem C20_reads {env : Env} (c : Ctx) (hs : c.status = .matched) (hc : c.pos ≤ c.str.length) (t : List Char)
    (ht : Reads (c.str.drop c.pos) t) :
    ∃ o a, Outcome.of (den env readAll c) = .matched o ∧ o.pos = c.str.length ∧ o.stack = c.stack ++ [a] ∧ a.ty = .string ∧
      a.val = .str (utf8s t) := by
  have h1 := charRun_star (env := env) C18_any (reads_charRun ht) (c.str.take c.pos)
  have h2 : Hits (den env (.trans (Gram.star [.prim anyS]) [.fn concat])) (c.str.take c.pos) (c.str.drop c.pos) []
      (Text (utf8s t)) :=
    trans_hits (by simp) h1 fun c' l hl => by
      refine ⟨_, by simp only [List.map, denTr_fn, applyTrs, concat_texts hl]; rfl, .cons ?_ ?_ .nil⟩
      · cases l <;> rfl
      · cases l <;> simp [summary, utf8s, List.flatMap_def]
  have h3 : Hits (den env readAll) (c.str.take c.pos) (c.str.drop c.pos ++ []) [] (Both (Text (utf8s t)) (· = [])) :=
    flat_hits (gs := [.trans (Gram.star [.prim anyS]) [.fn concat], .prim endS]) (.cons h2 (.single (endS_hits _)))
  obtain ⟨o, e1, e2⟩ := h3 c (by simpa using At.of hc hs)
  obtain ⟨new, e3, x, y, rfl, e4, rfl⟩ := e2.stack
  cases e4 with
  | @cons a _ _ _ e5 e6 e7 =>
    cases e7
    exact ⟨o, a, e1, by rw [e2.at_.pos]; simp, e3, e5, e6⟩

/-- So every source is read to its end, whatever its bytes are. -/
theorem C20_total {env : Env} (c : Ctx) (hs : c.status = .matched) (hc : c.pos ≤ c.str.length) :
    ∃ o t, Reads (c.str.drop c.pos) t ∧ Outcome.of (den env readAll c) = .matched o ∧ o.pos = c.str.length := by
  obtain ⟨t, ht⟩ := reads_total (c.str.drop c.pos)
  obtain ⟨o, _, h1, h2, _⟩ := C20_reads (env := env) c hs hc t ht
  exact ⟨o, t, ht, h1, h2⟩

/-- A UTF-8 source is read without loss. -/
theorem C20_lossless {env : Env} (t : List Char) :
    ∃ o a, Outcome.of (den env readAll (newStrCtx (utf8s t))) = .matched o ∧ o.pos = (utf8s t).length ∧ o.stack = [a] ∧ a.ty = .string ∧
      a.val = .str (utf8s t) := by
  have := C20_reads (env := env) (newStrCtx (utf8s t)) rfl (Nat.zero_le _) t (reads_utf8s t)
  simpa [newStrCtx] using this

/-- A byte string reads as exactly one text. -/
theorem C20_reads_unique (s : Bytes) : ∃ t, Reads s t ∧ ∀ u, Reads s u → u = t := by
  obtain ⟨t, ht⟩ := reads_total s
  exact ⟨t, ht, fun u hu => reads_unique hu ht⟩

/-- A malformed byte is replaced: `a`, 0xff, `b`. -/
example : ∃ o a, Outcome.of (den noEnv readAll (newStrCtx [0x61, 0xff, 0x62])) = .matched o ∧ o.stack = [a] ∧
    a.val = .str [0x61, 0xef, 0xbf, 0xbd, 0x62] := by
  have hbad : NextChar [0xff, 0x62] '�' 1 := (C19_decode (by simp) '�' 1).1 (by decide)
  have h : Reads [0x61, 0xff, 0x62] ['a', '�', 'b'] :=
    .cons (n := 1) (.char 'a' [0xff, 0x62]) (.cons (n := 1) hbad (.cons (n := 1) (.char 'b' []) .nil))
  obtain ⟨o, a, h1, _, h2, _, h3⟩ := C20_reads (env := noEnv) (newStrCtx [0x61, 0xff, 0x62]) rfl (by decide) _ h
  exact ⟨o, a, h1, h2, by rw [h3]; rfl⟩

/-- Two characters of three and two bytes. -/
example : utf8s ['世', 'é'] = [0xe4, 0xb8, 0x96, 0xc3, 0xa9] := by decide

end Takenoco
