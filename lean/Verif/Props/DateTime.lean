import Verif.Lemmas.DateForms
/-
C48: date and time literals of package extra.
-/
namespace Takenoco
open Spec Extra

section
variable {env : Env}

/-- If the parser for a scanner matches, it consumes what the scanner accepts. -/
theorem scans_matched {g : Gram} {L : Scan} {R : Bytes → Bytes → Prop} {name : String} (h : Scans (den env g) L) (hR : Sound L R) {c o : Ctx}
    (hs : c.status = .matched) (hc : c.pos ≤ c.str.length)
    (hm : Outcome.of (den env (.trans g [.fn concat, .fn (changeClassName name)]) c) = .matched o) :
    ∃ w v, R w v ∧ Consumes (den env (.trans g [.fn concat, .fn (changeClassName name)])) c w name v := by
  have hk := scans_consumes (name := name) h c hs hc
  cases hL : L (c.str.drop c.pos) with
  | none => rw [hk.2 hL] at hm; cases hm
  | some r =>
    obtain ⟨w, rest, h1, h2, h3⟩ := hR _ _ _ hL
    have h4 := (hk.1 _ _ hL).2
    rw [← h2, h1, List.take_left] at h4
    exact ⟨w, r.2, h3, h4⟩

theorem takes_consumes {g : Gram} {L : Scan} {name : String} (h : Scans (den env g) L) {c : Ctx} {w rest v : Bytes}
    (hs : c.status = .matched) (hc : c.pos ≤ c.str.length) (he : c.str.drop c.pos = w ++ rest) (ht : Takes L w rest v) :
    Consumes (den env (.trans g [.fn concat, .fn (changeClassName name)])) c w name v := by
  have h4 := ((scans_consumes (name := name) h c hs hc).1 w.length v (by rw [he]; exact ht)).2
  rwa [he, List.take_left] at h4

/-- Whenever `TimeStr` matches, it consumes a time of day and yields its normal form. -/
theorem C48_time (c o : Ctx) (hs : c.status = .matched) (hc : c.pos ≤ c.str.length) (h : Outcome.of (den env timeStr c) = .matched o) :
    ∃ w v, Clock w v ∧ Consumes (den env timeStr) c w ":extra:TimeStr" v :=
  scans_matched scans_clock sound_clock hs hc h

/-- And it matches every time of day, if no further digit, point or colon follows. -/
theorem C48_time_complete (c : Ctx) (hs : c.status = .matched) (hc : c.pos ≤ c.str.length) (w v rest : Bytes) (hw : Clock w v)
    (he : c.str.drop c.pos = w ++ rest) (hr : ¬ StartsWith (fun b => isDec b || b == 0x2e || b == 0x3a) rest) :
    Consumes (den env timeStr) c w ":extra:TimeStr" v :=
  takes_consumes scans_clock hs hc he (takes_clock hw hr)

/-- The normal form of a time is `hh:mm:ss.fffffffff`. -/
theorem C48_clock_form (w v : Bytes) (h : Clock w v) :
    ∃ a b c d e f ds, v = [a, b, 0x3a, c, d, 0x3a, e, f, 0x2e] ++ ds ∧ ds.length = 9 ∧ (∀ x ∈ [a, b, c, d, e, f] ++ ds, isDec x = true) := by
  have hle : ∀ {hi b : UInt8}, within 0x30 hi b → hi ≤ 0x39 → isDec b = true := fun h h2 => by
    simp [isDec]; exact ⟨h.1, UInt8.le_trans h.2 h2⟩
  have hfrac : ∀ {w v}, Fraction w v → ∃ ds, v = 0x2e :: ds ∧ ds.length = 9 ∧ ∀ x ∈ ds, isDec x = true := by
    intro w v h
    cases h with
    | absent => exact ⟨_, rfl, rfl, by decide⟩
    | digits ds h1 h2 h3 =>
      refine ⟨_, rfl, by simp; omega, fun x hx => ?_⟩
      rcases List.mem_append.1 hx with hx | hx
      · exact h3 x hx
      · rw [(List.mem_replicate.1 hx).2]; decide
  cases h with
  | @mk a b c d _ _ h1 h2 h3 h4 h5 =>
    have i1 := hle h1 (by decide); have i2 := hle h2 (by decide); have i3 := hle h3 (by decide); have i4 := hle h4 (by decide)
    cases h5 with
    | absent =>
      exact ⟨a, b, c, d, 0x30, 0x30, b! "000000000", rfl, rfl, by simp [i1, i2, i3, i4]; decide⟩
    | @seconds e f _ _ h6 h7 h8 =>
      have i5 := hle h6 (by decide); have i6 := hle h7 (by decide)
      obtain ⟨ds, rfl, h9, h10⟩ := hfrac h8
      refine ⟨a, b, c, d, e, f, ds, rfl, h9, fun x hx => ?_⟩
      rcases List.mem_append.1 hx with hx | hx
      · simp at hx
        rcases hx with rfl | rfl | rfl | rfl | rfl | rfl <;> assumption
      · exact h10 x hx

/-- `DateTimeStr` consumes `w` and yields `v` iff `w` is a date with time and zone and `v` its normal form. -/
theorem C48_dateTime (c : Ctx) (hs : c.status = .matched) (hc : c.pos ≤ c.str.length) (w v : Bytes) :
    Consumes (den env dateTimeStr) c w ":extra:DateTimeStr" v ↔ Moment w v ∧ w <+: c.str.drop c.pos := by
  constructor
  · intro h
    obtain ⟨w', v', h1, h2⟩ := scans_matched (env := env) (name := ":extra:DateTimeStr") scans_moment sound_moment hs hc h.choose_spec.choose_spec.1
    obtain ⟨o, a, e1, e2, e3, e4, e5, e6, e7, e8⟩ := h
    obtain ⟨o', a', f1, f2, f3, f4, f5, f6, f7, f8⟩ := h2
    have f1' : Outcome.of (den env dateTimeStr c) = .matched o' := f1
    rw [e1] at f1'; cases f1'
    rw [e5] at f5
    have := List.append_cancel_left f5
    cases this
    rw [e8] at f8
    cases f8
    rw [e3] at f3
    have := List.append_cancel_right f3
    subst this
    exact ⟨h1, _, e3.symm⟩
  · rintro ⟨h1, rest, he⟩
    exact takes_consumes scans_moment hs hc he.symm (takes_moment h1)

/-- It matches nothing else. -/
theorem C48_dateTime_matched (c o : Ctx) (hs : c.status = .matched) (hc : c.pos ≤ c.str.length) (h : Outcome.of (den env dateTimeStr c) = .matched o) :
    ∃ w v, Moment w v ∧ Consumes (den env dateTimeStr) c w ":extra:DateTimeStr" v :=
  scans_matched scans_moment sound_moment hs hc h

/-- The normal form of a date with time ends in a numeric zone. -/
theorem C48_zone_form (w v : Bytes) (h : Moment w v) :
    ∃ d t t' z, Day d ∧ Clock t t' ∧ v = d ++ 0x54 :: t' ++ z ∧ ∃ s a b c e, z = [s, a, b, 0x3a, c, e] ∧ isSign s = true ∧
      (w.getLast? = some 0x5a → z = b! "+00:00") := by
  cases h with
  | @mk d t z t' z' h1 h2 h3 =>
    refine ⟨d, t, t', z', h1, h2, rfl, ?_⟩
    cases h3 with
    | utc => exact ⟨_, _, _, _, _, rfl, rfl, fun _ => rfl⟩
    | @offset s a b c e g1 g2 g3 g4 g5 =>
      refine ⟨s, a, b, c, e, rfl, g1, fun hl => ?_⟩
      rw [List.getLast?_append] at hl
      simp at hl
      subst hl
      exact absurd g5.2 (by decide)

/-- `DateStr` consumes exactly the dates, and yields them as they are. -/
theorem C48_date (c : Ctx) (hs : c.status = .matched) (hc : c.pos ≤ c.str.length) :
    (∀ w, Day w → w <+: c.str.drop c.pos → Consumes (den env dateStr) c w ":extra:DateStr" w) ∧
    (∀ o, Outcome.of (den env dateStr c) = .matched o → ∃ w, Day w ∧ Consumes (den env dateStr) c w ":extra:DateStr" w) := by
  constructor
  · rintro w h1 ⟨rest, he⟩
    exact takes_consumes scans_date hs hc he.symm (takes_date h1)
  · intro o h
    obtain ⟨w, v, ⟨h1, rfl⟩, h2⟩ := scans_matched (env := env) scans_date sound_date hs hc h
    exact ⟨_, h1, h2⟩

end

/-! ### Cases -/

/-- `23:59:60.5x` has the value `23:59:60.500000000`. -/
example : Consumes (den noEnv timeStr) (newStrCtx (b! "23:59:60.5x")) (b! "23:59:60.5") ":extra:TimeStr" (b! "23:59:60.500000000") :=
  C48_time_complete (env := noEnv) (newStrCtx (b! "23:59:60.5x")) rfl (by decide) _ _ (b! "x")
    (.mk (by decide) (by decide) (by decide) (by decide) (.seconds (by decide) (by decide) (.digits (b! "5") (by decide) (by decide) (by decide)))) rfl
    (fun ⟨_, _, h1, h2⟩ => by cases h1; cases h2)

/-- `2020-12-31T01:02Z` has the value `2020-12-31T01:02:00.000000000+00:00`. -/
example : Consumes (den noEnv dateTimeStr) (newStrCtx (b! "2020-12-31T01:02Z")) (b! "2020-12-31T01:02Z") ":extra:DateTimeStr"
    (b! "2020-12-31T01:02:00.000000000+00:00") :=
  (C48_dateTime (env := noEnv) (newStrCtx (b! "2020-12-31T01:02Z")) rfl (by decide) _ _).2
    ⟨.mk (d := b! "2020-12-31") (t := b! "01:02") (.mk (m := []) (y := b! "2020") (.inl rfl) (by decide) (by decide) (by decide) (by decide) (by decide) (by decide))
      (.mk (by decide) (by decide) (by decide) (by decide) .absent) .utc, _, rfl⟩

end Takenoco
