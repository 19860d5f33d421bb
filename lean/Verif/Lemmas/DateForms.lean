import Verif.Lemmas.DateTime
/-
The scanners for date and time literals accept exactly the specified texts.
-/
namespace Takenoco
open Spec Extra

/-- What the scanner accepts is related by `R`. -/
def Sound (L : Scan) (R : Bytes → Bytes → Prop) : Prop :=
  ∀ s n v, L s = some (n, v) → ∃ w rest, s = w ++ rest ∧ w.length = n ∧ R w v

theorem sound_seq {L M : Scan} {R S T : Bytes → Bytes → Prop} (h1 : Sound L R) (h2 : Sound M S)
    (h : ∀ w v w' v', R w v → S w' v' → T (w ++ w') (v ++ v')) : Sound (Scan.seq L M) T := by
  intro s n v hn
  unfold Scan.seq at hn
  cases hL : L s with
  | none => rw [hL] at hn; cases hn
  | some r =>
    obtain ⟨k, u⟩ := r
    rw [hL] at hn; simp only at hn
    obtain ⟨w, rest, rfl, rfl, hr⟩ := h1 _ _ _ hL
    rw [List.drop_left] at hn
    cases hM : M rest with
    | none => rw [hM] at hn; cases hn
    | some r =>
      obtain ⟨m, x⟩ := r
      rw [hM] at hn
      obtain ⟨w', rest', rfl, rfl, hr'⟩ := h2 _ _ _ hM
      cases hn
      exact ⟨w ++ w', rest', by simp, by simp, h _ _ _ _ hr hr'⟩

theorem sound_alt {L M : Scan} {R : Bytes → Bytes → Prop} (h1 : Sound L R) (h2 : Sound M R) : Sound (Scan.alt L M) R := by
  intro s n v hn
  unfold Scan.alt at hn
  cases hL : L s with
  | none => rw [hL] at hn; exact h2 _ _ _ hn
  | some r => rw [hL] at hn; cases hn; exact h1 _ _ _ hL

theorem sound_const (v : Bytes) : Sound (Scan.const v) (fun w u => w = [] ∧ u = v) := fun s n u h => by
  cases h; exact ⟨[], s, rfl, rfl, rfl, rfl⟩

theorem sound_mono {L : Scan} {R S : Bytes → Bytes → Prop} (h : Sound L R) (hR : ∀ w v, R w v → S w v) : Sound L S := fun s n v hn => by
  obtain ⟨w, rest, h1, h2, h3⟩ := h s n v hn
  exact ⟨w, rest, h1, h2, hR _ _ h3⟩

theorem sound_byte (B : UInt8 → Bool) : Sound (Scan.byte B) (fun w u => ∃ b, B b = true ∧ w = [b] ∧ u = [b]) := fun s n u h => by
  cases s with
  | nil => cases h
  | cons b s =>
    unfold Scan.byte at h
    by_cases hb : B b = true
    · simp [hb] at h
      obtain ⟨rfl, rfl⟩ := h
      exact ⟨[b], s, rfl, rfl, b, hb, rfl, rfl⟩
    · simp [hb] at h

theorem sound_opt {L : Scan} {R : Bytes → Bytes → Prop} (h : Sound L R) : Sound L.opt (fun w u => (w = [] ∧ u = []) ∨ R w u) := fun s n u hn => by
  unfold Scan.opt at hn
  cases hL : L s with
  | none => rw [hL] at hn; cases hn; exact ⟨[], s, rfl, rfl, .inl ⟨rfl, rfl⟩⟩
  | some r =>
    rw [hL] at hn; cases hn
    obtain ⟨w, rest, h1, h2, h3⟩ := h _ _ _ hL
    exact ⟨w, rest, h1, h2, .inr h3⟩

theorem sound_map {L : Scan} {R : Bytes → Bytes → Prop} {f : Bytes → Bytes} (h : Sound L R) : Sound (Scan.map f L) (fun w u => ∃ v, R w v ∧ u = f v) := fun s n u hn => by
  unfold Scan.map at hn
  cases hL : L s with
  | none => rw [hL] at hn; cases hn
  | some r =>
    rw [hL] at hn; cases hn
    obtain ⟨w, rest, h1, h2, h3⟩ := h _ _ _ hL
    exact ⟨w, rest, h1, h2, _, h3, rfl⟩

theorem sound_run (min : Nat) (B : UInt8 → Bool) : Sound (Scan.run min B) (fun w u => u = w ∧ min ≤ w.length ∧ ∀ b ∈ w, B b = true) := fun s n u hn => by
  unfold Scan.run at hn
  by_cases hm : min ≤ (s.takeWhile B).length
  · rw [if_pos hm] at hn
    cases hn
    exact ⟨_, s.dropWhile B, List.takeWhile_append_dropWhile.symm, rfl, rfl, hm, fun b hb => mem_takeWhile hb⟩
  · rw [if_neg hm] at hn; cases hn

theorem sound_runMax (min max : Nat) (B : UInt8 → Bool) :
    Sound (Scan.runMax min max B) (fun w u => u = w ∧ min ≤ w.length ∧ w.length ≤ max ∧ ∀ b ∈ w, B b = true) := fun s n u hn => by
  obtain ⟨w, rest, h1, h2, h3, h4, h5⟩ := sound_run min B (s.take max) n u hn
  refine ⟨w, rest ++ s.drop max, ?_, h2, h3, h4, ?_, h5⟩
  · rw [← List.append_assoc, ← h1, List.take_append_drop]
  · have := congrArg List.length h1
    simp at this; omega

theorem isDec_iff {b : UInt8} : isDec b = inB 0x30 0x39 b := rfl

theorem take9 (ds : Bytes) (h : ds.length ≤ 9) : (ds ++ b! "000000000").take 9 = ds ++ List.replicate (9 - ds.length) 0x30 := by
  rw [List.take_append, List.take_of_length_le h]
  congr 1
  obtain ⟨k, hk⟩ : ∃ k, 9 - ds.length = k := ⟨_, rfl⟩
  have : k ≤ 9 := by omega
  rw [hk]
  show (List.replicate 9 (0x30 : UInt8)).take k = _
  rw [List.take_replicate, Nat.min_eq_left this]

theorem sound_frac : Sound Scan.frac Fraction :=
  sound_alt (sound_seq (sound_byte _) (sound_map (sound_runMax 1 9 _)) fun w v w' v' ⟨b, hb, h1, h2⟩ ⟨u, ⟨h3, h4, h5, h6⟩, h7⟩ => by
      have := eq_of_beq hb
      subst this h1 h2 h3 h7
      rw [take9 _ h5]
      exact .digits u h4 h5 h6)
    (sound_mono (sound_const _) fun w v ⟨h1, h2⟩ => by subst h1 h2; exact .absent)

theorem sound_bytes_cons {B : UInt8 → Bool} {Bs : List (UInt8 → Bool)} {L : Scan} {R : Bytes → Bytes → Prop} (h : Sound (Scan.bytes Bs L) R) :
    Sound (Scan.bytes (B :: Bs) L) (fun w v => ∃ b w' v', B b = true ∧ R w' v' ∧ w = b :: w' ∧ v = b :: v') :=
  sound_seq (sound_byte B) h fun w v w' v' ⟨b, hb, h1, h2⟩ h3 => ⟨b, w', v', hb, h3, by rw [h1]; rfl, by rw [h2]; rfl⟩

theorem sound_secs : Sound Scan.secs Seconds :=
  sound_alt (sound_mono (sound_bytes_cons (Bs := [inB 0x30 0x36, inB 0x30 0x39]) (sound_bytes_cons (sound_bytes_cons (Bs := []) sound_frac)))
      fun w v ⟨a, _, _, h1, ⟨b, _, _, h2, ⟨c, _, _, h3, h4, e1, e2⟩, e3, e4⟩, e5, e6⟩ => by
        have := eq_of_beq h1
        subst e5 e6 e3 e4 e1 e2 this
        exact .seconds (inB_iff.1 h2) (inB_iff.1 h3) h4)
    (sound_mono (sound_const _) fun w v ⟨h1, h2⟩ => by subst h1 h2; exact .absent)

theorem sound_clock : Sound Scan.clock Clock :=
  sound_mono (sound_bytes_cons (sound_bytes_cons (sound_bytes_cons (sound_bytes_cons (sound_bytes_cons (Bs := []) sound_secs)))))
    fun w v ⟨a, _, _, h1, ⟨b, _, _, h2, ⟨c, _, _, h3, ⟨d, _, _, h4, ⟨e, _, _, h5, h6, e1, e2⟩, e3, e4⟩, e5, e6⟩, e7, e8⟩, e9, e10⟩ => by
      have := eq_of_beq h3
      subst e9 e10 e7 e8 e5 e6 e3 e4 e1 e2 this
      exact .mk (inB_iff.1 h1) (inB_iff.1 h2) (inB_iff.1 h4) (inB_iff.1 h5) h6

theorem two_of {w : Bytes} {B : UInt8 → Bool} (h1 : 2 ≤ w.length) (h2 : w.length ≤ 2) (h : ∀ b ∈ w, B b = true) :
    ∃ a b, w = [a, b] ∧ B a = true ∧ B b = true := by
  match w, h1, h2, h with
  | [a, b], _, _, h => exact ⟨a, b, rfl, h a (by simp), h b (by simp)⟩

theorem sound_zone : Sound Scan.zone Zone :=
  sound_alt
    (sound_seq (sound_map (sound_byte _)) (sound_const _) fun w v w' v' ⟨u, ⟨b, hb, h1, _⟩, h3⟩ ⟨h4, h5⟩ => by
      have := eq_of_beq hb
      subst this h1 h3 h4 h5
      exact .utc)
    (sound_seq (sound_byte _) (sound_seq (sound_runMax 2 2 _) (sound_bytes_cons (sound_bytes_cons (Bs := []) (sound_byte _)))
        (T := fun w v => ∃ a b c d, w = [a, b, 0x3a, c, d] ∧ v = w ∧ within 0x30 0x39 a ∧ within 0x30 0x39 b ∧ within 0x30 0x35 c ∧ within 0x30 0x39 d)
        fun w v w' v' ⟨e1, e2, e3, e4⟩ ⟨a, _, _, h1, ⟨b, _, _, h2, ⟨c, h3, e5, e6⟩, e7, e8⟩, e9, e10⟩ => by
          obtain ⟨x, y, rfl, hx, hy⟩ := two_of e2 e3 e4
          have := eq_of_beq h1
          subst this e1 e9 e10 e7 e8 e5 e6
          exact ⟨x, y, b, c, rfl, rfl, inB_iff.1 hx, inB_iff.1 hy, inB_iff.1 h2, inB_iff.1 h3⟩)
      fun w v w' v' ⟨s, hs, h1, h2⟩ ⟨a, b, c, d, h3, h4, ha, hb, hc, hd⟩ => by
        subst h1 h2 h4 h3
        exact .offset hs ha hb hc hd)

/-- A date up to its last digit. -/
inductive Day' : Bytes → Prop where
  | mk {m y : Bytes} {a b c : UInt8} : m = [] ∨ m = b! "-" → 4 ≤ y.length → (∀ b ∈ y, isDec b = true) →
      within 0x30 0x31 a → within 0x30 0x39 b → within 0x30 0x33 c → Day' (m ++ y ++ [0x2d, a, b, 0x2d, c])

theorem Spec.Day.of' {p : Bytes} {d : UInt8} (h : Day' p) (hd : within 0x30 0x39 d) : Day (p ++ [d]) := by
  cases h with
  | @mk m y a b c h1 h2 h3 h4 h5 h6 =>
    have := Day.mk h1 h2 h3 h4 h5 h6 hd
    simpa using this

theorem sound_day {L : Scan} {R : Bytes → Bytes → Prop} (h : Sound L R) :
    Sound (Scan.day L) (fun w v => ∃ p w' v', Day' p ∧ R w' v' ∧ w = p ++ w' ∧ v = p ++ v') :=
  sound_seq (sound_opt (sound_byte _)) (sound_seq (sound_run 4 _) (sound_bytes_cons (sound_bytes_cons (sound_bytes_cons (sound_bytes_cons (sound_bytes_cons (Bs := []) h)))))
      (T := fun w v => ∃ y a b c w' v', w = y ++ [0x2d, a, b, 0x2d, c] ++ w' ∧ v = y ++ [0x2d, a, b, 0x2d, c] ++ v' ∧ R w' v' ∧ 4 ≤ y.length ∧ (∀ b ∈ y, isDec b = true) ∧
        within 0x30 0x31 a ∧ within 0x30 0x39 b ∧ within 0x30 0x33 c)
      fun w v w' v' ⟨e1, e2, e3⟩ ⟨a, _, _, h1, ⟨b, _, _, h2, ⟨c, _, _, h3, ⟨d, _, _, h4, ⟨e, _, _, h5, h6, f1, f2⟩, f3, f4⟩, f5, f6⟩, f7, f8⟩, f9, f10⟩ => by
        have t1 := eq_of_beq h1
        have t2 := eq_of_beq h4
        subst t1 t2 e1 f9 f10 f7 f8 f5 f6 f3 f4 f1 f2
        exact ⟨v, b, c, e, _, _, by simp, by simp, h6, e2, e3, inB_iff.1 h2, inB_iff.1 h3, inB_iff.1 h5⟩)
    fun w v w' v' h1 ⟨y, a, b, c, w'', v'', h2, h3, h4, h5, h6, h7, h8, h9⟩ => by
      subst h2 h3
      rcases h1 with ⟨rfl, rfl⟩ | ⟨x, hx, rfl, rfl⟩
      · exact ⟨_, _, _, .mk (m := []) (.inl rfl) h5 h6 h7 h8 h9, h4, by simp, by simp⟩
      · have := eq_of_beq hx
        subst this
        exact ⟨_, _, _, .mk (m := b! "-") (.inr rfl) h5 h6 h7 h8 h9, h4, by simp, by simp⟩

theorem sound_date : Sound Scan.date (fun w v => Day w ∧ v = w) :=
  sound_mono (sound_day (sound_byte _)) fun w v ⟨p, w', v', h1, ⟨d, hd, h2, h3⟩, h4, h5⟩ => by
    subst h4 h5 h2 h3
    exact ⟨.of' h1 (inB_iff.1 hd), rfl⟩

theorem sound_moment : Sound Scan.moment Moment :=
  sound_mono (sound_day (sound_bytes_cons (sound_bytes_cons (sound_bytes_cons (sound_bytes_cons (sound_bytes_cons (sound_bytes_cons (sound_bytes_cons (Bs := [])
      (sound_seq (T := fun w v => ∃ w1 v1 w2 v2, Seconds w1 v1 ∧ Zone w2 v2 ∧ w = w1 ++ w2 ∧ v = v1 ++ v2) sound_secs sound_zone
        fun w v w' v' h1 h2 => ⟨w, v, w', v', h1, h2, rfl, rfl⟩)))))))))
    fun w v ⟨p, _, _, h0, ⟨z, _, _, hz, ⟨y, _, _, hy, ⟨a, _, _, h1, ⟨b, _, _, h2, ⟨c, _, _, h3, ⟨d, _, _, h4, ⟨e, _, _, h5,
        ⟨w1, v1, w2, v2, h6, h7, e1, e2⟩, e3, e4⟩, e5, e6⟩, e7, e8⟩, e9, e10⟩, e11, e12⟩, e13, e14⟩, e15, e16⟩, e17, e18⟩ => by
      have t1 := eq_of_beq hy
      have t2 := eq_of_beq h3
      subst e17 e18 e15 e16 e13 e14 e11 e12 e9 e10 e7 e8 e5 e6 e3 e4 e1 e2 t1 t2
      have := Moment.mk (Day.of' h0 (inB_iff.1 hz)) (Clock.mk (inB_iff.1 h1) (inB_iff.1 h2) (inB_iff.1 h4) (inB_iff.1 h5) h6) h7
      simpa using this

/-! ### Completeness -/

/-- The scanner accepts `w` in front of `rest` and yields `v`. -/
def Takes (L : Scan) (w rest v : Bytes) : Prop := L (w ++ rest) = some (w.length, v)

theorem takes_seq {L M : Scan} {w1 w2 rest v1 v2 : Bytes} (h1 : Takes L w1 (w2 ++ rest) v1) (h2 : Takes M w2 rest v2) :
    Takes (Scan.seq L M) (w1 ++ w2) rest (v1 ++ v2) := by
  unfold Takes Scan.seq at *
  rw [List.append_assoc, h1]
  simp only
  rw [List.drop_left, h2]
  simp

theorem takes_byte {B : UInt8 → Bool} {b : UInt8} (rest : Bytes) (h : B b = true) : Takes (Scan.byte B) [b] rest [b] := by
  simp [Takes, Scan.byte, h]

theorem byte_none {B : UInt8 → Bool} {s : Bytes} (h : ¬ StartsWith B s) : Scan.byte B s = none := by
  cases s with
  | nil => rfl
  | cons b s =>
    unfold Scan.byte
    by_cases hb : B b = true
    · exact absurd ⟨b, s, rfl, hb⟩ h
    · simp [hb]

theorem takes_bytes {B : UInt8 → Bool} {Bs : List (UInt8 → Bool)} {L : Scan} {b : UInt8} {w rest v : Bytes} (hb : B b = true)
    (h : Takes (Scan.bytes Bs L) w rest v) : Takes (Scan.bytes (B :: Bs) L) (b :: w) rest (b :: v) := takes_seq (w1 := [b]) (takes_byte _ hb) h

theorem takes_alt_left {L M : Scan} {w rest v : Bytes} (h : Takes L w rest v) : Takes (Scan.alt L M) w rest v := by
  unfold Takes Scan.alt at *; rw [h]

theorem takes_alt_right {L M : Scan} {w rest v : Bytes} (h1 : L (w ++ rest) = none) (h : Takes M w rest v) : Takes (Scan.alt L M) w rest v := by
  unfold Takes Scan.alt at *; rw [h1]; exact h

theorem takes_const (rest v : Bytes) : Takes (Scan.const v) [] rest v := rfl

theorem takes_map {L : Scan} {f : Bytes → Bytes} {w rest v : Bytes} (h : Takes L w rest v) : Takes (Scan.map f L) w rest (f v) := by
  unfold Takes Scan.map at *; rw [h]; rfl

theorem takeWhile_all {B : UInt8 → Bool} {w rest : Bytes} (hw : ∀ b ∈ w, B b = true) (hr : ¬ StartsWith B rest) : (w ++ rest).takeWhile B = w := by
  induction w with
  | nil =>
    cases rest with
    | nil => rfl
    | cons b s =>
      show List.takeWhile B (b :: s) = []
      rw [List.takeWhile_cons_of_neg]
      intro hb; exact hr ⟨b, s, rfl, hb⟩
  | cons a w ih =>
    rw [List.cons_append, List.takeWhile_cons_of_pos (hw a (by simp)), ih fun b hb => hw b (List.mem_cons_of_mem _ hb)]

theorem takes_run {B : UInt8 → Bool} {min : Nat} {w rest : Bytes} (hm : min ≤ w.length) (hw : ∀ b ∈ w, B b = true) (hr : ¬ StartsWith B rest) :
    Takes (Scan.run min B) w rest w := by
  unfold Takes Scan.run
  rw [takeWhile_all hw hr, if_pos hm]

theorem takes_runMax {B : UInt8 → Bool} {min max : Nat} {w rest : Bytes} (hm : min ≤ w.length) (hx : w.length ≤ max) (hw : ∀ b ∈ w, B b = true)
    (hr : w.length < max → ¬ StartsWith B rest) : Takes (Scan.runMax min max B) w rest w := by
  unfold Takes Scan.runMax
  rw [List.take_append, List.take_of_length_le hx]
  refine takes_run hm hw ?_
  by_cases h : w.length < max
  · rintro ⟨b, s, hs, hb⟩
    refine hr h ⟨b, rest.tail, ?_, hb⟩
    cases rest with
    | nil => simp at hs
    | cons c rest =>
      obtain ⟨k, hk⟩ : ∃ k, max - w.length = k + 1 := ⟨max - w.length - 1, by omega⟩
      rw [hk, List.take_succ_cons] at hs
      cases hs; rfl
  · have : max - w.length = 0 := by omega
    rw [this]
    rintro ⟨b, s, hs, hb⟩
    simp at hs

/-- The text cannot be taken for more seconds or fraction. -/
def Ends (s : Bytes) : Prop := ¬ StartsWith (fun b => isDec b || b == 0x2e || b == 0x3a) s

theorem not_starts {B C : UInt8 → Bool} {s : Bytes} (h : ¬ StartsWith B s) (hBC : ∀ b, C b = true → B b = true) : ¬ StartsWith C s :=
  fun ⟨b, s', h1, h2⟩ => h ⟨b, s', h1, hBC b h2⟩

theorem takes_frac {w v rest : Bytes} (h : Fraction w v) (hr : Ends rest) : Takes Scan.frac w rest v := by
  cases h with
  | absent =>
    refine takes_alt_right ?_ (takes_const _ _)
    unfold Scan.seq
    rw [List.nil_append, byte_none (not_starts hr fun b h => by simp at h; simp [h])]
  | digits ds h1 h2 h3 =>
    refine takes_alt_left (takes_seq (w1 := [0x2e]) (v1 := [0x2e]) (takes_byte _ rfl) ?_)
    show Takes _ ds rest (ds ++ List.replicate (9 - ds.length) 0x30)
    rw [← take9 ds h2]
    exact takes_map (takes_runMax h1 h2 h3 fun _ => not_starts hr fun b h => by simp [isDec_iff, h])

theorem takes_secs {w v rest : Bytes} (h : Seconds w v) (hr : Ends rest) : Takes Scan.secs w rest v := by
  cases h with
  | absent =>
    refine takes_alt_right ?_ (takes_const _ _)
    unfold Scan.seq
    rw [List.nil_append, byte_none (not_starts hr fun b h => by simp at h; simp [h])]
  | seconds h1 h2 h3 =>
    exact takes_alt_left (takes_bytes (Bs := [inB 0x30 0x36, inB 0x30 0x39]) rfl (takes_bytes (inB_iff.2 h1)
      (takes_bytes (Bs := []) (inB_iff.2 h2) (takes_frac h3 hr))))

theorem takes_clock {w v rest : Bytes} (h : Clock w v) (hr : Ends rest) : Takes Scan.clock w rest v := by
  cases h with
  | mk h1 h2 h3 h4 h5 =>
    exact takes_bytes (inB_iff.2 h1) (takes_bytes (inB_iff.2 h2) (takes_bytes rfl (takes_bytes (inB_iff.2 h3)
      (takes_bytes (Bs := []) (inB_iff.2 h4) (takes_secs h5 hr)))))

theorem takes_zone {w v rest : Bytes} (h : Zone w v) : Takes Scan.zone w rest v := by
  cases h with
  | utc => exact takes_alt_left (takes_seq (w1 := [0x5a]) (w2 := []) (takes_map (takes_byte _ rfl)) (takes_const _ _))
  | @offset s a b c d h1 h2 h3 h4 h5 =>
    refine takes_alt_right ?_ (takes_seq (w1 := [s]) (v1 := [s]) (takes_byte _ h1) (takes_seq (w1 := [a, b]) (v1 := [a, b]) (takes_runMax (by simp) (by simp) (fun x hx => ?_)
      (fun h => by simp at h)) (takes_bytes (Bs := [inB 0x30 0x35]) rfl (takes_bytes (Bs := []) (inB_iff.2 h4) (takes_byte _ (inB_iff.2 h5))))))
    · have : (s == 0x5a) = false := by
        rw [beq_eq_false_iff_ne]
        intro he; subst he; cases h1
      simp [Scan.seq, Scan.map, Scan.byte, this]
    · simp at hx
      rcases hx with rfl | rfl
      · exact inB_iff.2 h2
      · exact inB_iff.2 h3

theorem zone_ends {w v : Bytes} (h : Zone w v) (rest : Bytes) : Ends (w ++ rest) := by
  rintro ⟨b, s, hs, hb⟩
  cases h with
  | utc => cases hs; cases hb
  | offset h1 =>
    cases hs
    simp [isSign] at h1
    rcases h1 with rfl | rfl <;> cases hb

theorem takes_day {L : Scan} {m y w rest v : Bytes} {a b c : UInt8} (h1 : m = [] ∨ m = b! "-") (h2 : 4 ≤ y.length) (h3 : ∀ b ∈ y, isDec b = true)
    (h4 : within 0x30 0x31 a) (h5 : within 0x30 0x39 b) (h6 : within 0x30 0x33 c) (h : Takes L w rest v) :
    Takes (Scan.day L) (m ++ (y ++ (0x2d :: a :: b :: 0x2d :: c :: w))) rest (m ++ (y ++ (0x2d :: a :: b :: 0x2d :: c :: v))) := by
  refine takes_seq ?_ (takes_seq (takes_run h2 h3 ?_) (takes_bytes rfl (takes_bytes (inB_iff.2 h4) (takes_bytes (inB_iff.2 h5) (takes_bytes rfl
    (takes_bytes (Bs := []) (inB_iff.2 h6) h))))))
  · rcases h1 with rfl | rfl
    · cases y with
      | nil => simp at h2
      | cons d y =>
        have hd : (d == 0x2d) = false := by
          rw [beq_eq_false_iff_ne]
          intro he; subst he
          have := h3 0x2d (by simp); cases this
        simp [Takes, Scan.opt, Scan.byte, hd]
    · rfl
  · rintro ⟨d, s, hs, hd⟩
    cases hs; cases hd

theorem takes_date {w rest : Bytes} (h : Day w) : Takes Scan.date w rest w := by
  cases h with
  | mk h1 h2 h3 h4 h5 h6 h7 =>
    have := takes_day h1 h2 h3 h4 h5 h6 (takes_byte rest (inB_iff.2 h7))
    simpa [Scan.date] using this

theorem takes_moment {w v rest : Bytes} (h : Moment w v) : Takes Scan.moment w rest v := by
  cases h with
  | @mk d t z t' z' hd ht hz =>
    cases hd with
    | @mk m y a b c d h1 h2 h3 h4 h5 h6 h7 =>
      cases ht with
      | @mk e f g h s s' g1 g2 g3 g4 g5 =>
        have : Takes Scan.moment _ rest _ := takes_day h1 h2 h3 h4 h5 h6 (takes_bytes (inB_iff.2 h7) (takes_bytes (B := (· == 0x54)) (b := 0x54) rfl (takes_bytes (inB_iff.2 g1) (takes_bytes (inB_iff.2 g2)
          (takes_bytes (B := (· == 0x3a)) (b := 0x3a) rfl (takes_bytes (inB_iff.2 g3) (takes_bytes (Bs := []) (inB_iff.2 g4)
            (takes_seq (takes_secs g5 (zone_ends hz rest)) (takes_zone hz)))))))))
        simpa using this

end Takenoco
