import Verif.Lemmas.Scanner
import Verif.Lemmas.Extra
/-
The date and time literals of package extra as scanners.
-/
namespace Takenoco
open Spec Extra

def inB (lo hi : UInt8) (b : UInt8) : Bool := lo ≤ b && b ≤ hi

theorem inB_iff {lo hi b : UInt8} : inB lo hi b = true ↔ within lo hi b := by simp [inB, within]

section
variable {env : Env}

theorem bytely_range (lo hi : UInt8) (hhi : hi.toNat < 0x5f) : Bytely (den env (range lo.toNat hi.toNat)) (inB lo hi) := by
  have h_ : inB lo hi 0x5f = false := by
    simp [inB]
    intro _
    rw [UInt8.lt_iff_toNat_lt]; simpa using hhi
  exact byteLike_bytely (byteLike_range _ (by omega) (fun b => by simp [inB, UInt8.le_iff_toNat_le]) h_) h_

theorem scans_range (lo hi : UInt8) (hhi : hi.toNat < 0x5f) : Scans (den env (range lo.toNat hi.toNat)) (Scan.byte (inB lo hi)) :=
  scans_byte (bytely_range lo hi hhi)

theorem bytely_number : Bytely (den env (.prim number)) isDec := byteLike_bytely byteLike_number rfl

/-- Seconds and fraction. -/
def Scan.frac : Scan := Scan.alt (Scan.seq (Scan.byte (· == 0x2e)) (Scan.map (fun s => (s ++ b! "000000000").take 9) (Scan.runMax 1 9 (inB 0x30 0x39)))) (Scan.const (b! ".000000000"))
def Scan.secs : Scan := Scan.alt (Scan.seq (Scan.byte (· == 0x3a)) (Scan.seq (Scan.byte (inB 0x30 0x36)) (Scan.seq (Scan.byte (inB 0x30 0x39)) Scan.frac))) (Scan.const (b! ":00.000000000"))

theorem concat_pad (c : Ctx) (l : List Ast) (v : Bytes) (h : Pieces v l) :
    ∃ l', applyTrs c ([Tr.fn concat, Tr.fn padFraction].map (denTr env)) l = .ok (l', none) ∧ Pieces ((v ++ b! "000000000").take 9) l' := by
  obtain ⟨vs, h1, h2⟩ := h
  simp only [List.map, denTr_fn, applyTrs, concat_texts h1, h2]
  refine ⟨[strAst ((v ++ b! "000000000").take 9)], ?_, [_], .cons rfl rfl .nil, by simp⟩
  cases l <;> rfl

theorem scans_frac : Scans (den env (.first [
        .flatGroup [
          seqG (b! "."),
          .trans (.repeat ⟨1, 9⟩ [range 0x30 0x39]) [.fn concat, .fn padFraction]],
        .prim (zeroP [strAst (b! ".000000000")])])) Scan.frac :=
  scans_first (by simp) (scansAlt_cons (scans_flat (scansSeq_cons (scans_seq1 0x2e) (scansSeq_single
    (scans_trans (by simp) (scans_runMax (bytely_range 0x30 0x39 (by decide)) 1 9 (by decide)) concat_pad)))) (scansAlt_single (scans_const _)))

theorem scans_secs : Scans (den env secondsStr) Scan.secs :=
  scans_first (by simp) (scansAlt_cons (scans_flat (scansSeq_cons (scans_seq1 0x3a) (scansSeq_cons (scans_range 0x30 0x36 (by decide))
    (scansSeq_cons (scans_range 0x30 0x39 (by decide)) (scansSeq_single scans_frac))))) (scansAlt_single (scans_const _)))

/-- Sequences of single bytes. -/
def Scan.bytes : List (UInt8 → Bool) → Scan → Scan
  | [], L => L
  | B :: Bs, L => Scan.seq (Scan.byte B) (Scan.bytes Bs L)

def Scan.clock : Scan := Scan.bytes [inB 0x30 0x32, inB 0x30 0x39, (· == 0x3a), inB 0x30 0x35, inB 0x30 0x39] Scan.secs
def Scan.zone : Scan := Scan.alt
  (Scan.seq (Scan.map (fun _ => []) (Scan.byte (· == 0x5a))) (Scan.const (b! "+00:00")))
  (Scan.seq (Scan.byte isSign) (Scan.seq (Scan.runMax 2 2 (inB 0x30 0x39))
    (Scan.seq (Scan.byte (· == 0x3a)) (Scan.seq (Scan.byte (inB 0x30 0x35)) (Scan.byte (inB 0x30 0x39))))))
def Scan.day (L : Scan) : Scan := Scan.seq (Scan.byte (· == 0x2d)).opt (Scan.seq (Scan.run 4 isDec)
  (Scan.bytes [(· == 0x2d), inB 0x30 0x31, inB 0x30 0x39, (· == 0x2d), inB 0x30 0x33] L))
def Scan.date : Scan := Scan.day (Scan.byte (inB 0x30 0x39))
def Scan.moment : Scan := Scan.day (Scan.bytes [inB 0x30 0x39, (· == 0x54), inB 0x30 0x32, inB 0x30 0x39, (· == 0x3a), inB 0x30 0x35, inB 0x30 0x39]
  (Scan.seq Scan.secs Scan.zone))

theorem scans_clock : Scans (den env (.flatGroup [
      range 0x30 0x32, range 0x30 0x39, seqG (b! ":"), range 0x30 0x35, range 0x30 0x39, secondsStr])) Scan.clock :=
  scans_flat (scansSeq_cons (scans_range 0x30 0x32 (by decide)) (scansSeq_cons (scans_range 0x30 0x39 (by decide))
    (scansSeq_cons (scans_seq1 0x3a) (scansSeq_cons (scans_range 0x30 0x35 (by decide)) (scansSeq_cons (scans_range 0x30 0x39 (by decide))
    (scansSeq_single scans_secs))))))

theorem scans_sign : Scans (den env plusMinus) (Scan.byte isSign) :=
  scans_byte ((byteLike_class [0x2b, 0x2d]).congr (fun b => by rw [Bool.eq_iff_iff]; simp [isSign]) fun _ _ => rfl)

theorem scans_zone : Scans (den env (.first [
        .flatGroup [Gram.erased (seqG (b! "Z")), .prim (zeroP [strAst (b! "+00:00")])],
        .flatGroup [
          plusMinus, .repeat ⟨2, 2⟩ [range 0x30 0x39], seqG (b! ":"), range 0x30 0x35, range 0x30 0x39]])) Scan.zone :=
  scans_first (by simp) (scansAlt_cons
    (scans_flat (scansSeq_cons (scans_erased (scans_seq1 0x5a)) (scansSeq_single (scans_const _))))
    (scansAlt_single (scans_flat (scansSeq_cons scans_sign (scansSeq_cons (scans_runMax (bytely_range 0x30 0x39 (by decide)) 2 2 (by decide))
      (scansSeq_cons (scans_seq1 0x3a) (scansSeq_cons (scans_range 0x30 0x35 (by decide)) (scansSeq_single (scans_range 0x30 0x39 (by decide))))))))))

theorem scansSeq_day {ps : List Sem} {L : Scan} (h : ScansSeq ps L) :
    ScansSeq (den env (Gram.opt [seqG (b! "-")]) :: den env (.repeat ⟨4, -1⟩ [.prim number]) ::
      den env (seqG (b! "-")) :: den env (range 0x30 0x31) :: den env (range 0x30 0x39) ::
      den env (seqG (b! "-")) :: den env (range 0x30 0x33) :: ps) (Scan.day L) :=
  scansSeq_cons (scans_opt (gs := [seqG (b! "-")]) (scansSeq_single (scans_seq1 0x2d)))
    (scansSeq_cons (scans_run bytely_number 4) (scansSeq_cons (scans_seq1 0x2d) (scansSeq_cons (scans_range 0x30 0x31 (by decide))
      (scansSeq_cons (scans_range 0x30 0x39 (by decide)) (scansSeq_cons (scans_seq1 0x2d) (scansSeq_cons (scans_range 0x30 0x33 (by decide)) h))))))

theorem scans_date : Scans (den env (.flatGroup [
      Gram.opt [seqG (b! "-")],
      .repeat ⟨4, -1⟩ [.prim number],
      seqG (b! "-"), range 0x30 0x31, range 0x30 0x39,
      seqG (b! "-"), range 0x30 0x33, range 0x30 0x39])) Scan.date :=
  scans_flat (scansSeq_day (scansSeq_single (scans_range 0x30 0x39 (by decide))))

theorem scans_moment : Scans (den env (.flatGroup [
      Gram.opt [seqG (b! "-")],
      .repeat ⟨4, -1⟩ [.prim number],
      seqG (b! "-"), range 0x30 0x31, range 0x30 0x39,
      seqG (b! "-"), range 0x30 0x33, range 0x30 0x39,
      seqG (b! "T"), range 0x30 0x32, range 0x30 0x39,
      seqG (b! ":"), range 0x30 0x35, range 0x30 0x39,
      secondsStr,
      .first [
        .flatGroup [Gram.erased (seqG (b! "Z")), .prim (zeroP [strAst (b! "+00:00")])],
        .flatGroup [
          plusMinus, .repeat ⟨2, 2⟩ [range 0x30 0x39], seqG (b! ":"), range 0x30 0x35, range 0x30 0x39]]])) Scan.moment :=
  scans_flat (scansSeq_day (scansSeq_cons (scans_range 0x30 0x39 (by decide)) (scansSeq_cons (scans_seq1 0x54)
    (scansSeq_cons (scans_range 0x30 0x32 (by decide)) (scansSeq_cons (scans_range 0x30 0x39 (by decide))
    (scansSeq_cons (scans_seq1 0x3a) (scansSeq_cons (scans_range 0x30 0x35 (by decide)) (scansSeq_cons (scans_range 0x30 0x39 (by decide))
    (scansSeq_cons scans_secs (scansSeq_single scans_zone))))))))))

theorem scans_consumes {g : Gram} {L : Scan} {name : String} (h : Scans (den env g) L) (c : Ctx) (hs : c.status = .matched) (hc : c.pos ≤ c.str.length) :
    (∀ n v, L (c.str.drop c.pos) = some (n, v) → n ≤ (c.str.drop c.pos).length ∧
      Consumes (den env (.trans g [.fn concat, .fn (changeClassName name)])) c ((c.str.drop c.pos).take n) name v) ∧
    (L (c.str.drop c.pos) = none → Outcome.of (den env (.trans g [.fn concat, .fn (changeClassName name)]) c) = .unmatched) := by
  have hat := At.of hc hs
  constructor
  · intro n v hn
    obtain ⟨h1, h2⟩ := (h (c.str.take c.pos) (c.str.drop c.pos)).1 n v hn
    refine ⟨h1, ?_⟩
    have h3 : Hits (den env (.trans g [.fn concat, .fn (changeClassName name)])) (c.str.take c.pos) ((c.str.drop c.pos).take n) ((c.str.drop c.pos).drop n)
        (fun l => ∃ a, l = [a] ∧ a.cls = name ∧ a.ty = .string ∧ a.val = .str v) :=
      trans_hits (by simp) h2 fun c' l hl => by
        obtain ⟨vs, hv, he⟩ := hl
        obtain ⟨l', e1, a, e2, e3, e4, e5, _⟩ := concat_named (env := env) (name := name) c' l hv
        exact ⟨l', e1, a, e2, e3, e4, by rw [e5, he]⟩
    obtain ⟨o, e1, e2⟩ := h3 c (by rw [List.take_append_drop]; exact hat)
    obtain ⟨new, e3, a, e4, e5⟩ := e2.stack
    refine ⟨o, a, e1, ?_, ?_, ?_, by rw [e3, e4], e5⟩
    · rw [e2.at_.str]; simp only [List.append_assoc, List.take_append_drop]
    · rw [e2.at_.drop, List.take_append_drop]
    · rw [e2.at_.pos, List.length_append, List.length_take, Nat.min_eq_left hc]
  · intro hn
    exact trans_misses ((h _ _).2 hn) c hat

end
end Takenoco
