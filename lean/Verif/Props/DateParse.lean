import Verif.Lemmas.TimeWhole
import Verif.Props.DateTime
import Verif.Lemmas.Algebra
/-
C58: `ParseDate`, `ParseDateTime` and `ParseTime` turn the literals of C48 into the instants they denote.
-/
namespace Takenoco
open Spec Extra Time

/-- The AST the three transformers produce. -/
def timeNode (cls : String) (u : Int) (n : Nat) : Ast := { opCode := 0, cls := cls, ty := .any, val := .time u n, pos := 0, len := 0 }

theorem lastString_append {pre : List Ast} {a : Ast} {w : Bytes} (h : a.val = .str w) : lastString (pre ++ [a]) = .ok w := by
  simp [lastString, h]

theorem timeAst_of {cls : String} {v : Bytes} {o : Option (Int × Nat)} {P : Int → Nat → Prop} (h : ∀ u n, o = some (u, n) ↔ P u n) :
    (∀ u n, P u n → timeAst cls v o = .ok ([timeNode cls u n], none)) ∧
    ((¬ ∃ u n, P u n) → timeAst cls v o = .ok ([], some (.timeParse v))) := by
  constructor
  · intro u n hp; rw [(h u n).2 hp]; rfl
  · intro hn
    cases o with
    | none => rfl
    | some p => exact absurd ⟨p.1, p.2, (h _ _).1 rfl⟩ hn

/-! ### The calendar of the specification -/

/-- Every day of the calendar starts at exactly one instant, nothing else does, and the next day starts 86400 seconds
later; the count starts at the first of January 1970. -/
theorem C58_calendar :
    (∀ d, (∃ u, Starts d u) ↔ d.Valid) ∧ (∀ d u u', Starts d u → Starts d u' → u = u') ∧
    (∀ d u, Starts d u → Starts d.next (u + 86400)) ∧ Starts ⟨1970, 1, 1⟩ 0 := by
  refine ⟨fun d => ?_, fun d u u' h h' => ?_, fun d u h => ?_, ?_⟩
  · exact ⟨fun ⟨u, h⟩ => ((starts_iff _ _).1 h).1, fun h => ⟨_, (starts_iff _ _).2 ⟨h, rfl⟩⟩⟩
  · rw [((starts_iff _ _).1 h).2, ((starts_iff _ _).1 h').2]
  · obtain ⟨n, k, h1, h2, rfl⟩ := h
    exact ⟨n + 1, k, h1.next, h2, by omega⟩
  · exact (starts_iff _ _).2 ⟨⟨by decide, by decide, by decide, by decide⟩, rfl⟩

/-! ### Dates -/

/-- `ParseDate` on any string: if it is `yyyy-mm-dd` and there is such a day, the result is the instant at which the day
starts; otherwise it is an error. -/
theorem C58_date (strict : Bool) (ctx : Ctx) (pre : List Ast) (a : Ast) (w : Bytes) (ha : a.val = .str w) :
    (∀ d u, DayText w d → Starts d u → parseDate strict ctx (pre ++ [a]) = .ok ([timeNode ":extra:Date" u 0], none)) ∧
    ((¬ ∃ d, DayText w d) → parseDate strict ctx (pre ++ [a]) = .ok ([], some (.timeParse w))) := by
  obtain ⟨h1, h2⟩ := timeAst_of (cls := ":extra:Date") (v := w) (parse_date strict w)
  have e : parseDate strict ctx (pre ++ [a]) = timeAst ":extra:Date" w (parse strict dateLayout w) := by
    unfold parseDate; rw [lastString_append ha]; rfl
  rw [e]
  exact ⟨fun d u hd hu => h1 u 0 ⟨d, hd, hu, rfl⟩, fun hn => h2 fun ⟨_, _, d, hd, _⟩ => hn ⟨d, hd⟩⟩

/-- Years before 0 or after 9999, which `DateStr` accepts, are errors. -/
theorem C58_date_year (strict : Bool) (ctx : Ctx) (pre : List Ast) (a : Ast) (w : Bytes) (ha : a.val = .str w) (_ : Day w) (hl : w.length ≠ 10) :
    parseDate strict ctx (pre ++ [a]) = .ok ([], some (.timeParse w)) :=
  (C58_date strict ctx pre a w ha).2 fun ⟨_, hd⟩ => hl (dayText_length hd)

/-! ### Times of day -/

theorem clock_digits {w v : Bytes} (h : Clock w v) : ∃ h m s f H M S N, v = h ++ 0x3a :: (m ++ 0x3a :: (s ++ 0x2e :: f)) ∧
    Digits 2 h H ∧ Digits 2 m M ∧ Digits 2 s S ∧ Digits 9 f N := by
  obtain ⟨a, b, c, d, e, f, ds, rfl, h1, h2⟩ := C48_clock_form w v h
  have hm : ∀ x y, (∀ b ∈ [x, y], isDec b = true) → ∃ n, Digits 2 [x, y] n := fun x y h => digits_exists rfl (by decide) h
  obtain ⟨H, hH⟩ := hm a b fun x hx => h2 x (by simp only [List.mem_cons, List.mem_append, List.not_mem_nil, or_false] at hx ⊢; rcases hx with h | h <;> simp [h])
  obtain ⟨M, hM⟩ := hm c d fun x hx => h2 x (by simp only [List.mem_cons, List.mem_append, List.not_mem_nil, or_false] at hx ⊢; rcases hx with h | h <;> simp [h])
  obtain ⟨S, hS⟩ := hm e f fun x hx => h2 x (by simp only [List.mem_cons, List.mem_append, List.not_mem_nil, or_false] at hx ⊢; rcases hx with h | h <;> simp [h])
  obtain ⟨N, hN⟩ := digits_exists h1 (by decide) fun x hx => h2 x (List.mem_append_right _ hx)
  exact ⟨_, _, _, _, H, M, S, N, rfl, hH, hM, hS, hN⟩

/-- `ParseTime` on the normal form of a time: the time of day of the first of January 1970, UTC; an error if the hour is not
less than 24 or the second not less than 60. -/
theorem C58_time (strict : Bool) (ctx : Ctx) (pre : List Ast) (a : Ast) (w v : Bytes) (hw : Clock w v) (ha : a.val = .str v) :
    (∀ sec n, ClockText v sec n → parseTime strict ctx (pre ++ [a]) = .ok ([timeNode ":extra:Time" sec n], none)) ∧
    ((¬ ∃ sec n, ClockText v sec n) →
      parseTime strict ctx (pre ++ [a]) = .ok ([], some (.timeParse (b! "1970-01-01T" ++ v ++ b! "+00:00")))) := by
  obtain ⟨h, m, s, f, H, M, S, N, rfl, h1, h2, h3, h4⟩ := clock_digits hw
  generalize hv : h ++ 0x3a :: (m ++ 0x3a :: (s ++ 0x2e :: f)) = v at *
  have e : parseTime strict ctx (pre ++ [a]) = timeAst ":extra:Time" (b! "1970-01-01T" ++ v ++ b! "+00:00")
      (parse strict dateTimeLayout (b! "1970-01-01T" ++ v ++ b! "+00:00")) := by
    unfold parseTime; rw [lastString_append ha]; rfl
  have e2 : b! "1970-01-01T" ++ v ++ b! "+00:00" = b! "1970-01-01" ++ 0x54 :: (v ++ b! "+00:00") := by simp
  have key : ∀ u n, parse strict dateTimeLayout (b! "1970-01-01T" ++ v ++ b! "+00:00") = some (u, n) ↔ ∃ sec : Nat, ClockText v sec n ∧ u = sec := by
    intro u n
    rw [e2, ← hv, parse_moment (D := b! "1970-01-01") rfl h1 h2 h3 h4 rfl rfl rfl rfl rfl rfl, hv]
    constructor
    · rintro ⟨D, t, z, day, st, sec, off, e, i1, i2, i3, i4, rfl⟩
      obtain ⟨rfl, e1⟩ := List.append_inj e (by rw [dayText_length i1]; rfl)
      obtain ⟨rfl, rfl⟩ := List.append_inj (List.cons.inj e1).2 (by
        rw [clockText_length i3, ← hv]; have := h1.1; have := h2.1; have := h3.1; have := h4.1; simp; omega)
      have hd : day = ⟨1970, 1, 1⟩ := by
        have d1 : Digits 4 (b! "1970") 1970 := digits_of rfl (by decide) rfl
        have d2 : Digits 2 (b! "01") 1 := digits_of rfl (by decide) rfl
        exact ((dayText_iff d1 d2 d2 day).1 i1).1
      subst hd
      obtain rfl := C58_calendar.2.1 _ _ _ i2 C58_calendar.2.2.2
      have hz : off = 0 := by
        obtain ⟨s, h, m, H, M, e, hh, hm, _, ho⟩ := i4
        obtain ⟨x, y, rfl, _, _, eh⟩ := (digits_two _ _).1 hh
        obtain ⟨x', y', rfl, _, _, em⟩ := (digits_two _ _).1 hm
        cases e
        have : H = 0 := by have e : Time.digitVal 48 = 0 := rfl; omega
        have : M = 0 := by have e : Time.digitVal 48 = 0 := rfl; omega
        subst_vars
        rcases ho with ⟨_, ho⟩ | ⟨_, ho⟩ <;> simp at ho <;> exact ho
      exact ⟨sec, i3, by omega⟩
    · rintro ⟨sec, i3, rfl⟩
      have d1 : Digits 4 (b! "1970") 1970 := digits_of rfl (by decide) rfl
      have d2 : Digits 2 (b! "01") 1 := digits_of rfl (by decide) rfl
      have d3 : Digits 2 (b! "00") 0 := digits_of rfl (by decide) rfl
      exact ⟨_, v, b! "+00:00", ⟨1970, 1, 1⟩, 0, sec, 0, rfl, ⟨_, _, _, rfl, d1, d2, d2, by decide, by decide, by decide, by decide⟩, C58_calendar.2.2.2, i3,
        ⟨0x2b, _, _, 0, 0, rfl, d3, d3, fun _ => by decide, .inl ⟨rfl, rfl⟩⟩, by omega⟩
  rw [e]
  obtain ⟨k1, k2⟩ := timeAst_of (cls := ":extra:Time") (v := b! "1970-01-01T" ++ v ++ b! "+00:00") key
  exact ⟨fun sec n hc => k1 _ _ ⟨sec, hc, rfl⟩, fun hn => k2 fun ⟨_, n, sec, hc, _⟩ => hn ⟨sec, n, hc⟩⟩

/-! ### Dates with time -/

theorem zone_digits {w v : Bytes} (h : Zone w v) : ∃ s a b c d, v = [s, a, b, 0x3a, c, d] ∧ isSign s = true ∧ digit a = true ∧ digit b = true ∧
    digit c = true ∧ digit d = true := by
  have hle : ∀ {hi b : UInt8}, within 0x30 hi b → hi ≤ 0x39 → digit b = true := fun h h2 => by
    simp [digit]; exact ⟨h.1, UInt8.le_trans h.2 h2⟩
  cases h with
  | utc => exact ⟨_, _, _, _, _, rfl, rfl, rfl, rfl, rfl, rfl⟩
  | offset h1 h2 h3 h4 h5 =>
    exact ⟨_, _, _, _, _, rfl, h1, hle h2 (by decide), hle h3 (by decide), hle h4 (by decide), hle h5 (by decide)⟩

/-- A date that starts with four digits and `-` has four digits in its year. -/
theorem day_length {w r y v : Bytes} {n : Nat} (h : Day w) (hy : Digits 4 y n) (e : w ++ r = y ++ 0x2d :: v) : w.length = 10 := by
  cases h with
  | @mk m y' a b c d h1 h2 h3 h4 h5 h6 h7 =>
    rcases h1 with rfl | rfl
    · match y', h2, h3, y, hy, e with
      | p :: q :: s :: t :: x, _, h3, [p', q', s', t'], _, e =>
        cases x with
        | nil => rfl
        | cons z x =>
          simp at e
          have := h3 z (by simp)
          rw [e.2.2.2.2.1] at this
          cases this
      | [], h, _, _, _, _ | [_], h, _, _, _, _ | [_, _], h, _, _, _, _ | [_, _, _], h, _, _, _, _ => simp at h
    · match y, hy, e with
      | p :: y, hy, e =>
        have := (digits_ne hy.2).2.1
        simp at e
        exact absurd e.1.symm this

theorem parse_moment_day {strict : Bool} {w v : Bytes} (hw : Moment w v) (u : Int) (n : Nat) :
    parse strict dateTimeLayout v = some (u, n) ↔ MomentText strict v u n := by
  cases hw with
  | @mk d t z t' z' hd ht hz =>
    obtain ⟨h, m, s, f, H, M, S, N, rfl, h1, h2, h3, h4⟩ := clock_digits ht
    obtain ⟨sg, a, b, c, e, rfl, g1, g2, g3, g4, g5⟩ := zone_digits hz
    by_cases hl : d.length = 10
    · have := parse_moment (strict := strict) hl h1 h2 h3 h4 rfl g1 g2 g3 g4 g5 u n
      simpa using this
    · constructor
      · intro hp
        obtain ⟨f, hf, _⟩ := (parse_iff _ _ _ _ _).1 hp
        obtain ⟨y, m, t, r, Y, M, T, e, hy, _⟩ := (read_date _ _ _ _).1 hf
        exact absurd (day_length hd hy (r := _) (v := _) (by rw [List.append_assoc, List.append_assoc] at e; exact e)) hl
      · rintro ⟨D, t1, z1, day, st, sec, off, e, i1, i2, i3, i4, rfl⟩
        obtain ⟨y, m, t, rfl, hy, _⟩ := i1
        exact absurd (day_length hd hy (r := _) (v := _) (by rw [List.append_assoc, List.append_assoc] at e; exact e)) hl

/-- `ParseDateTime` on the normal form of a date with time: if the text denotes an instant, the result is that instant;
otherwise it is an error. -/
theorem C58_dateTime (strict : Bool) (ctx : Ctx) (pre : List Ast) (a : Ast) (w v : Bytes) (hw : Moment w v) (ha : a.val = .str v) :
    (∀ u n, MomentText strict v u n → parseDateTime strict ctx (pre ++ [a]) = .ok ([timeNode ":extra:DateTime" u n], none)) ∧
    ((¬ ∃ u n, MomentText strict v u n) → parseDateTime strict ctx (pre ++ [a]) = .ok ([], some (.timeParse v))) := by
  have e : parseDateTime strict ctx (pre ++ [a]) = timeAst ":extra:DateTime" v (parse strict dateTimeLayout v) := by
    unfold parseDateTime; rw [lastString_append ha]; rfl
  rw [e]
  exact timeAst_of (parse_moment_day hw)

/-- Without ASTs the three transformers panic, and if the last AST does not hold a string also. -/
theorem C58_panics (strict : Bool) (ctx : Ctx) :
    (∀ t ∈ [parseDate strict, parseTime strict, parseDateTime strict], t ctx [] = .panic .index ∧
      ∀ pre a, (∀ s, a.val ≠ .str s) → t ctx (pre ++ [a]) = .panic .typeAssert) := by
  have h0 : lastString [] = .panic .index := rfl
  have h1 : ∀ pre a, (∀ s, a.val ≠ .str s) → lastString (pre ++ [a]) = .panic .typeAssert := by
    intro pre a h
    unfold lastString
    rw [List.getLast?_concat]
    dsimp only
    split
    · rename_i s hs; exact absurd hs (h s)
    · rfl
  intro t ht
  simp only [List.mem_cons, List.not_mem_nil, or_false] at ht
  rcases ht with rfl | rfl | rfl
  · exact ⟨by unfold parseDate; rw [h0]; rfl, fun pre a h => by unfold parseDate; rw [h1 pre a h]; rfl⟩
  · exact ⟨by unfold parseTime; rw [h0]; rfl, fun pre a h => by unfold parseTime; rw [h1 pre a h]; rfl⟩
  · exact ⟨by unfold parseDateTime; rw [h0]; rfl, fun pre a h => by unfold parseDateTime; rw [h1 pre a h]; rfl⟩

/-! ### Together with the parsers of C48 -/

section
variable {env : Env}

theorem trans_consumes {g : Gram} {t : TSem} {c : Ctx} {w v : Bytes} {cls : String} (h : Consumes (den env g) (enter ":base:Trans" c) w cls v) :
    (∀ b, (∀ ctx a, a.val = .str v → t ctx [a] = .ok ([b], none)) → Yields (den env (.trans g [.fn t])) c w b) ∧
    (∀ e, (∀ ctx a, a.val = .str v → t ctx [a] = .ok ([], some e)) → ∃ o, Outcome.of (den env (.trans g [.fn t]) c) = .failed o (some e)) := by
  obtain ⟨o, a, h1, h2, h3, h4, h5, _, _, h6⟩ := h
  have hs := Outcome.of_matched_status h1
  have e1 : den env (.trans g [.fn t]) c = _ := (congrFun (den_trans env g [.fn t]) c).trans (trans_matched_eq h1)
  have e2 : [Tr.fn t].map (denTr env) = [t] := by simp [denTr_fn]
  rw [e2] at e1
  have h5 : o.stack = c.stack ++ [a] := h5
  constructor
  · intro b ht
    refine ⟨{ o with qty := 1, stack := c.stack ++ [b] }, ?_, h2, h3, h4, rfl⟩
    rw [e1]
    simp [variadic, applyTransforms, applyTrs, h5, ht _ a h6, Outcome.of, hs, add_lt_false]
  · intro e ht
    refine ⟨{ o with qty := 1, status := .error }, ?_⟩
    rw [e1]
    simp [variadic, applyTransforms, applyTrs, h5, ht _ a h6, Outcome.of, add_lt_false]

/-- `Trans(DateTimeStr(), ParseDateTime)` at a date with time: the instant it denotes, or the error of `ParseDateTime`. -/
theorem C58_dateTime_parser (strict : Bool) (c : Ctx) (hc : c.pos ≤ c.str.length) (w v : Bytes) (hw : Moment w v) (hp : w <+: c.str.drop c.pos) :
    (∀ u n, MomentText strict v u n → Yields (den env (.trans dateTimeStr [.fn (parseDateTime strict)])) c w (timeNode ":extra:DateTime" u n)) ∧
    ((¬ ∃ u n, MomentText strict v u n) →
      ∃ o, Outcome.of (den env (.trans dateTimeStr [.fn (parseDateTime strict)]) c) = .failed o (some (.timeParse v))) := by
  have h := trans_consumes (t := parseDateTime strict) (c := c) ((C48_dateTime (env := env) (enter ":base:Trans" c) rfl hc w v).2 ⟨hw, hp⟩)
  exact ⟨fun u n hm => h.1 _ fun ctx a ha => (C58_dateTime strict ctx [] a w v hw ha).1 u n hm,
    fun hn => h.2 _ fun ctx a ha => (C58_dateTime strict ctx [] a w v hw ha).2 hn⟩

/-- `Trans(DateStr(), ParseDate)` at a date: the instant at which the day starts, or the error of `ParseDate`. -/
theorem C58_date_parser (strict : Bool) (c : Ctx) (hc : c.pos ≤ c.str.length) (w : Bytes) (hw : Day w) (hp : w <+: c.str.drop c.pos) :
    (∀ d u, DayText w d → Starts d u → Yields (den env (.trans dateStr [.fn (parseDate strict)])) c w (timeNode ":extra:Date" u 0)) ∧
    ((¬ ∃ d, DayText w d) → ∃ o, Outcome.of (den env (.trans dateStr [.fn (parseDate strict)]) c) = .failed o (some (.timeParse w))) := by
  have h := trans_consumes (t := parseDate strict) (c := c) ((C48_date (env := env) (enter ":base:Trans" c) rfl hc).1 w hw hp)
  exact ⟨fun d u hd hu => h.1 _ fun ctx a ha => (C58_date strict ctx [] a w ha).1 d u hd hu,
    fun hn => h.2 _ fun ctx a ha => (C58_date strict ctx [] a w ha).2 hn⟩

/-- `Trans(TimeStr(), ParseTime)` at a time of day that is not followed by a digit, a point or a colon. -/
theorem C58_time_parser (strict : Bool) (c : Ctx) (hc : c.pos ≤ c.str.length) (w v rest : Bytes) (hw : Clock w v)
    (he : c.str.drop c.pos = w ++ rest) (hr : ¬ StartsWith (fun b => isDec b || b == 0x2e || b == 0x3a) rest) :
    (∀ sec n, ClockText v sec n → Yields (den env (.trans timeStr [.fn (parseTime strict)])) c w (timeNode ":extra:Time" sec n)) ∧
    ((¬ ∃ sec n, ClockText v sec n) →
      ∃ o e, Outcome.of (den env (.trans timeStr [.fn (parseTime strict)]) c) = .failed o (some (.timeParse e))) := by
  have h := trans_consumes (t := parseTime strict) (c := c) (C48_time_complete (env := env) (enter ":base:Trans" c) rfl hc w v rest hw he hr)
  exact ⟨fun sec n hm => h.1 _ fun ctx a ha => (C58_time strict ctx [] a w v hw ha).1 sec n hm,
    fun hn => (h.2 _ fun ctx a ha => (C58_time strict ctx [] a w v hw ha).2 hn).imp fun _ h => ⟨_, h⟩⟩

end

/-! ### Cases -/

/-- `2020-02-29` is a day; `2021-02-29` is none. -/
example : DayText (b! "2020-02-29") ⟨2020, 2, 29⟩ ∧ ¬ ∃ d, DayText (b! "2021-02-29") d :=
  ⟨⟨b! "2020", b! "02", b! "29", rfl, digits_of rfl (by decide) rfl, digits_of rfl (by decide) rfl, digits_of rfl (by decide) rfl,
    by decide, by decide, by decide, by decide⟩,
   fun ⟨d, h⟩ => by
    obtain ⟨rfl, h⟩ := (dayText_iff (y := b! "2021") (m := b! "02") (t := b! "29") (digits_of (n := 2021) rfl (by decide) rfl)
      (digits_of (n := 2) rfl (by decide) rfl) (digits_of (n := 29) rfl (by decide) rfl) d).1 h
    exact absurd h.2.2.2 (by decide)⟩

/-- The day after the 28th of February is the 29th in 2000, the first of March in 1900. -/
example : Date.next ⟨2000, 2, 28⟩ = ⟨2000, 2, 29⟩ ∧ Date.next ⟨1900, 2, 28⟩ = ⟨1900, 3, 1⟩ := by decide

/-- `2006-01-02T15:04:05-07:00` is 1136239445 seconds after 1970. -/
example : MomentText true (b! "2006-01-02T15:04:05.000000000-07:00") 1136239445 0 :=
  (parse_moment_day (w := b! "2006-01-02T15:04:05-07:00") (strict := true)
    (.mk (d := b! "2006-01-02") (t := b! "15:04:05") (.mk (m := []) (y := b! "2006") (.inl rfl) (by decide) (by decide) (by decide) (by decide) (by decide) (by decide))
      (.mk (by decide) (by decide) (by decide) (by decide) (.seconds (by decide) (by decide) .absent))
      (.offset rfl (by decide) (by decide) (by decide) (by decide))) _ _).1 (by decide)

/-- `DateStr` accepts the day `10000-01-01`, `ParseDate` does not. -/
example : ∃ o, Outcome.of (den noEnv (.trans dateStr [.fn (parseDate true)]) (newStrCtx (b! "10000-01-01"))) = .failed o (some (.timeParse (b! "10000-01-01"))) :=
  (C58_date_parser true (newStrCtx (b! "10000-01-01")) (by decide) (b! "10000-01-01")
    (.mk (m := []) (y := b! "10000") (.inl rfl) (by decide) (by decide) (by decide) (by decide) (by decide) (by decide)) ⟨[], rfl⟩).2
    fun ⟨_, h⟩ => absurd (dayText_length h) (by decide)

/-- `TimeStr` accepts the leap second `23:59:60`, `ParseTime` does not. -/
example (ctx : Ctx) (a : Ast) (ha : a.val = .str (b! "23:59:60.000000000")) :
    parseTime true ctx ([] ++ [a]) = .ok ([], some (.timeParse (b! "1970-01-01T23:59:60.000000000+00:00"))) :=
  (C58_time true ctx [] a (b! "23:59:60") (b! "23:59:60.000000000")
    (.mk (by decide) (by decide) (by decide) (by decide) (.seconds (by decide) (by decide) .absent)) ha).2 fun ⟨sec, n, h⟩ => by
    have := (clockText_iff (h := b! "23") (m := b! "59") (s := b! "60") (f := b! "000000000") (digits_of (n := 23) rfl (by decide) rfl)
      (digits_of (n := 59) rfl (by decide) rfl) (digits_of (n := 60) rfl (by decide) rfl) (digits_of (n := 0) rfl (by decide) rfl) sec n).1 h
    omega

#print axioms C58_calendar
#print axioms C58_date
#print axioms C58_date_year
#print axioms C58_time
#print axioms C58_dateTime
#print axioms C58_panics
#print axioms C58_dateTime_parser
#print axioms C58_date_parser
#print axioms C58_time_parser

end Takenoco
