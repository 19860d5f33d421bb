import Verif.Lemmas.TimeParse
/-
`time.Parse` on whole texts in normal form.
-/
namespace Takenoco.Time
open Spec

theorem Dig.unique {a n k : Nat} {s : Bytes} (h : Dig 10 a s n) (h' : Dig 10 a s k) : n = k := by
  induction h with
  | nil => cases h'; rfl
  | @cons a v n b s h1 h2 ih =>
    cases h' with
    | @cons _ v' _ _ _ h3 h4 =>
      have : v' = v := by have := ((digitOf_iff _ _).1 h1).2; have := ((digitOf_iff _ _).1 h3).2; omega
      subst this
      exact ih h4

theorem digits_unique {k n m : Nat} {s : Bytes} (h : Digits k s n) (h' : Digits k s m) : n = m :=
  Dig.unique (numeral_iff.1 h.2).2 (numeral_iff.1 h'.2).2

theorem dig_exists (s : Bytes) (a : Nat) (h : ∀ b ∈ s, digit b = true) : ∃ n, Dig 10 a s n := by
  induction s generalizing a with
  | nil => exact ⟨a, .nil⟩
  | cons b s ih =>
    obtain ⟨v, _, h2, _⟩ := digitVal_nat (h b List.mem_cons_self)
    obtain ⟨n, hn⟩ := ih (a * 10 + v) fun b hb => h b (List.mem_cons_of_mem _ hb)
    exact ⟨n, .cons h2 hn⟩

theorem digits_exists {k : Nat} {s : Bytes} (hk : s.length = k) (h0 : 0 < k) (h : ∀ b ∈ s, isDec b = true) : ∃ n, Digits k s n := by
  obtain ⟨n, hn⟩ := dig_exists s 0 h
  exact ⟨n, hk, numeral_iff.2 ⟨by rintro rfl; simp at hk; omega, hn⟩⟩

/-- Digits of a concrete text. -/
theorem digits_of {k : Nat} {w : Bytes} {n : Nat} (hk : w.length = k) (h0 : w ≠ []) (h : leadingInt w 0 = some (n : Int)) : Digits k w n := by
  obtain ⟨m, h1, h2⟩ := (leadingInt_iff w 0 n).1 h
  have : m = n := by omega
  subst this
  exact ⟨hk, numeral_iff.2 ⟨h0, h1⟩⟩

/-- The part of the layout after the date, on a text in normal form. -/
theorem read_clock {strict : Bool} (F g : Fields) {h m s f z : Bytes} {H M S N : Nat} (h1 : Digits 2 h H) (h2 : Digits 2 m M) (h3 : Digits 2 s S)
    (h4 : Digits 9 f N) {sg a b c d : UInt8} (hz : z = [sg, a, b, 0x3a, c, d]) (hs : isSign sg = true) (da : digit a = true) (db : digit b = true)
    (dc : digit c = true) (dd : digit d = true) :
    readChunks strict [.lit (b! "T"), .hour, .lit (b! ":"), .minute, .lit (b! ":"), .second, .nanos, .zone] F
      (0x54 :: ((h ++ 0x3a :: (m ++ 0x3a :: (s ++ 0x2e :: f))) ++ z)) = some g ↔
    H < 24 ∧ M < 60 ∧ S < 60 ∧ ∃ off, ZoneText strict z off ∧ g = { F with hour := (H : Int), min := (M : Int), sec := (S : Int), nsec := (N : Int), zone := off } := by
  subst hz
  have e1 : (h ++ 0x3a :: (m ++ 0x3a :: (s ++ 0x2e :: f))) ++ [sg, a, b, 0x3a, c, d] = h ++ 0x3a :: (m ++ 0x3a :: (s ++ 0x2e :: (f ++ [sg, a, b, 0x3a, c, d]))) := by simp
  rw [e1]
  simp only [readChunks_cons, read_lit]
  constructor
  · rintro ⟨_, _, ⟨rfl, e⟩, _, v1, r1, _, _, ⟨rfl, rfl⟩, _, v2, r2, _, _, ⟨rfl, rfl⟩, _, v3, r3, _, v4, r4, _, v5, r5, r6⟩
    obtain rfl := (List.cons.inj e).2
    rw [(read_hms h1 rfl).1] at r1
    split at r1
    · cases r1
      rw [(read_hms h2 rfl).2.1] at r2
      split at r2
      · cases r2
        rw [(read_hms h3 rfl).2.2] at r3
        split at r3
        · cases r3
          rw [read_nanos h4] at r4
          cases r4
          unfold readChunk at r5
          rw [Option.map_eq_some_iff] at r5
          obtain ⟨⟨zo, r⟩, r5, e5⟩ := r5
          obtain ⟨rfl, hzt⟩ := (readZone_some hs da db dc dd _ _).1 r5
          cases e5
          refine ⟨by assumption, by assumption, by assumption, zo, hzt, ?_⟩
          exact ((Option.some.inj r6).symm : _)
        · cases r3
      · cases r2
    · cases r1
  · rintro ⟨g1, g2, g3, off, hzt, rfl⟩
    refine ⟨_, _, ⟨rfl, rfl⟩, _, _, (read_hms h1 rfl).1.trans (if_pos g1), _, _, ⟨rfl, rfl⟩, _, _, (read_hms h2 rfl).2.1.trans (if_pos g2), _, _, ⟨rfl, rfl⟩,
      _, _, (read_hms h3 rfl).2.2.trans (if_pos g3), _, _, read_nanos h4, _, [], ?_, rfl⟩
    unfold readChunk
    rw [Option.map_eq_some_iff]
    exact ⟨(off, []), (readZone_some hs da db dc dd _ _).2 ⟨rfl, hzt⟩, rfl⟩

/-- `DayText`, split up. -/
theorem dayText_iff {y m t : Bytes} {Y M T : Nat} (hy : Digits 4 y Y) (hm : Digits 2 m M) (ht : Digits 2 t T) (d : Date) :
    DayText (y ++ 0x2d :: (m ++ 0x2d :: t)) d ↔ d = ⟨Y, M, T⟩ ∧ d.Valid := by
  constructor
  · rintro ⟨y', m', t', e, hy', hm', ht', hv⟩
    obtain ⟨rfl, e1⟩ := List.append_inj e (hy.1.trans hy'.1.symm)
    obtain ⟨rfl, e2⟩ := List.append_inj (List.cons.inj e1).2 (hm.1.trans hm'.1.symm)
    obtain rfl := (List.cons.inj e2).2
    refine ⟨?_, hv⟩
    obtain ⟨y, m, t⟩ := d
    rw [digits_unique hy hy', digits_unique hm hm', digits_unique ht ht']
  · rintro ⟨rfl, hv⟩
    exact ⟨y, m, t, rfl, hy, hm, ht, hv⟩

theorem dayText_length {w : Bytes} {d : Date} (h : DayText w d) : w.length = 10 := by
  obtain ⟨y, m, t, rfl, hy, hm, ht, _⟩ := h
  have := hy.1; have := hm.1; have := ht.1
  simp; omega

theorem clockText_length {w : Bytes} {s n : Nat} (h : ClockText w s n) : w.length = 18 := by
  obtain ⟨h, m, s, f, _, _, _, rfl, h1, h2, h3, h4, _⟩ := h
  have := h1.1; have := h2.1; have := h3.1; have := h4.1
  simp; omega

theorem clockText_iff {h m s f : Bytes} {H M S N : Nat} (h1 : Digits 2 h H) (h2 : Digits 2 m M) (h3 : Digits 2 s S) (h4 : Digits 9 f N) (sec n : Nat) :
    ClockText (h ++ 0x3a :: (m ++ 0x3a :: (s ++ 0x2e :: f))) sec n ↔ n = N ∧ H < 24 ∧ M < 60 ∧ S < 60 ∧ sec = H * 3600 + M * 60 + S := by
  constructor
  · rintro ⟨h', m', s', f', _, _, _, e, i1, i2, i3, i4, hr⟩
    obtain ⟨rfl, e1⟩ := List.append_inj e (h1.1.trans i1.1.symm)
    obtain ⟨rfl, e2⟩ := List.append_inj (List.cons.inj e1).2 (h2.1.trans i2.1.symm)
    obtain ⟨rfl, e3⟩ := List.append_inj (List.cons.inj e2).2 (h3.1.trans i3.1.symm)
    obtain rfl := (List.cons.inj e3).2
    rw [digits_unique h1 i1, digits_unique h2 i2, digits_unique h3 i3]
    exact ⟨digits_unique i4 h4, hr⟩
  · rintro ⟨rfl, hr⟩
    exact ⟨h, m, s, f, H, M, S, rfl, h1, h2, h3, h4, hr⟩

/-- The checks of `parse` after the loop. -/
theorem parse_iff (strict : Bool) (l : List Chunk) (v : Bytes) (u : Int) (n : Nat) :
    parse strict l v = some (u, n) ↔ ∃ f, readChunks strict l {} v = some f ∧ 1 ≤ f.day ∧ f.day ≤ daysIn f.month f.year ∧
      u = dateUnix f - f.zone ∧ n = f.nsec.toNat := by
  unfold parse
  cases h : readChunks strict l {} v with
  | none => simp
  | some f =>
    simp only [Option.some.injEq]
    by_cases hc : f.day < 1 ∨ daysIn f.month f.year < f.day
    · rw [if_pos hc]
      refine ⟨fun h => (by cases h), ?_⟩
      rintro ⟨_, rfl, h1, h2, _⟩
      omega
    · rw [if_neg hc]
      simp only [Option.some.injEq, Prod.mk.injEq]
      constructor
      · rintro ⟨rfl, rfl⟩; exact ⟨f, rfl, by omega, by omega, rfl, rfl⟩
      · rintro ⟨_, rfl, _, _, h1, h2⟩; exact ⟨h1.symm, h2.symm⟩

/-- Dates, on any text. -/
theorem parse_date (strict : Bool) (v : Bytes) (u : Int) (n : Nat) :
    parse strict dateLayout v = some (u, n) ↔ ∃ d, DayText v d ∧ Starts d u ∧ n = 0 := by
  rw [parse_iff]
  have e : dateLayout = dateLayout ++ [] := by simp
  rw [e]
  simp only [read_date]
  constructor
  · rintro ⟨f, ⟨y, m, t, r, Y, M, T, rfl, hy, hm, ht, h1, h2, h⟩, h3, h4, rfl, rfl⟩
    unfold readChunks at h
    split at h
    · rename_i hr
      cases h
      have hr : r = [] := by simpa using hr
      subst hr
      simp only [List.append_nil]
      rw [daysIn_nat h1 h2] at h4
      have hv : Date.Valid ⟨Y, M, T⟩ := ⟨h1, h2, by simp only at h3 ⊢; omega, by simp only at h4 ⊢; omega⟩
      refine ⟨_, (dayText_iff hy hm ht _).2 ⟨rfl, hv⟩, (starts_iff _ _).2 ⟨hv, ?_⟩, rfl⟩
      rw [dateUnix_nat hv _ rfl rfl rfl]
      simp
    · cases h
  · rintro ⟨d, hd, hs, rfl⟩
    obtain ⟨y, m, t, rfl, hy, hm, ht, hv⟩ := hd
    obtain ⟨_, rfl⟩ := (starts_iff _ _).1 hs
    refine ⟨_, ⟨y, m, t, [], _, _, _, by simp, hy, hm, ht, hv.1, hv.2.1, rfl⟩, ?_, ?_, ?_, rfl⟩
    · have := hv.2.2.1; show (1 : Int) ≤ (d.day : Int); omega
    · have := hv.2.2.2; show (d.day : Int) ≤ daysIn _ _; rw [daysIn_nat hv.1 hv.2.1]; omega
    · rw [dateUnix_nat hv _ rfl rfl rfl]; simp

/-- Dates with time: the text is a date of ten bytes, a time and a zone in normal form. -/
theorem parse_moment {strict : Bool} {D h m s f z : Bytes} {H M S N : Nat} (hD : D.length = 10) (h1 : Digits 2 h H) (h2 : Digits 2 m M) (h3 : Digits 2 s S)
    (h4 : Digits 9 f N) {sg a b c d : UInt8} (hz : z = [sg, a, b, 0x3a, c, d]) (hs : isSign sg = true) (da : digit a = true) (db : digit b = true)
    (dc : digit c = true) (dd : digit d = true) (u : Int) (n : Nat) :
    parse strict dateTimeLayout (D ++ 0x54 :: ((h ++ 0x3a :: (m ++ 0x3a :: (s ++ 0x2e :: f))) ++ z)) = some (u, n) ↔
      MomentText strict (D ++ 0x54 :: ((h ++ 0x3a :: (m ++ 0x3a :: (s ++ 0x2e :: f))) ++ z)) u n := by
  rw [parse_iff]
  unfold dateTimeLayout
  simp only [read_date]
  constructor
  · rintro ⟨g, ⟨y, mo, t, r, Y, Mo, T, e, hy, hm, ht, i1, i2, hr⟩, i3, i4, rfl, rfl⟩
    obtain ⟨rfl, rfl⟩ := List.append_inj e (by have := hy.1; have := hm.1; have := ht.1; simp; omega)
    obtain ⟨g1, g2, g3, off, hzt, rfl⟩ := (read_clock _ _ h1 h2 h3 h4 hz hs da db dc dd).1 hr
    simp only at i3 i4
    rw [daysIn_nat i1 i2] at i4
    have hv : Date.Valid ⟨Y, Mo, T⟩ := ⟨i1, i2, by show 1 ≤ T; omega, by show T ≤ monthLength Y Mo; omega⟩
    refine ⟨_, _, z, ⟨Y, Mo, T⟩, _, _, off, rfl, (dayText_iff hy hm ht _).2 ⟨rfl, hv⟩, (starts_iff _ _).2 ⟨hv, rfl⟩,
      (clockText_iff h1 h2 h3 h4 _ _).2 ⟨by simp, g1, g2, g3, rfl⟩, hzt, ?_⟩
    rw [dateUnix_nat hv _ rfl rfl rfl]
    simp only
    omega
  · rintro ⟨D', t', z', day, st, sec, off, e, i1, i2, i3, i4, rfl⟩
    obtain ⟨rfl, e1⟩ := List.append_inj e (hD.trans (dayText_length i1).symm)
    obtain ⟨rfl, rfl⟩ := List.append_inj (List.cons.inj e1).2 (by
      rw [clockText_length i3]; have := h1.1; have := h2.1; have := h3.1; have := h4.1; simp; omega)
    obtain ⟨rfl, g1, g2, g3, rfl⟩ := (clockText_iff h1 h2 h3 h4 _ _).1 i3
    obtain ⟨hv, rfl⟩ := (starts_iff _ _).1 i2
    obtain ⟨y, mo, t, rfl, hy, hm, ht, _⟩ := i1
    refine ⟨_, ⟨y, mo, t, _, _, _, _, rfl, hy, hm, ht, hv.1, hv.2.1, (read_clock _ _ h1 h2 h3 h4 hz hs da db dc dd).2 ⟨g1, g2, g3, off, i4, rfl⟩⟩, ?_, ?_, ?_, ?_⟩
    · have := hv.2.2.1; show (1 : Int) ≤ (day.day : Int); omega
    · have := hv.2.2.2; show (day.day : Int) ≤ daysIn _ _; rw [daysIn_nat hv.1 hv.2.1]; omega
    · rw [dateUnix_nat hv _ rfl rfl rfl]; simp only; omega
    · simp

end Takenoco.Time
