import Verif.Lemmas.CsvCost
/-
The number of parser calls of the parts of the CSV grammar.
-/
namespace Takenoco
open Spec Trace Csv Gram

variable {str : Bytes}

/-- The form has linear costs if it matches or fails with an error. -/
def HitLin (str : Bytes) (a b : Nat) (f : CForm) : Prop := ∀ x r k, x ≤ str.length → r ≠ .miss → Cost str f x r k → CostIn str.length a b x r k

theorem Lin.hit {a b : Nat} {f : CForm} (h : Lin str a b f) : HitLin str a b f := fun x r k hx _ hk => h x r k hx hk

theorem HitLin.lin {a b : Nat} {f : CForm} (h : HitLin str a b f) (hs : Sure str f) : Lin str a b f := by
  intro x r k hx hk
  by_cases hr : r = .miss
  · subst hr; exact absurd hk (hs _ _ hx)
  · exact h x r k hx hr hk

theorem costIn_mono {a a' b b' x k : Nat} {r : End} (h : CostIn str.length a b x r k) (hx : x ≤ str.length) (hr : ∀ y, r = .hit y → x ≤ y)
    (ha : a ≤ a') (hb : b ≤ b') : CostIn str.length a' b' x r k := by
  obtain ⟨c, rfl⟩ : ∃ c, b' = b + c := ⟨b' - b, by omega⟩
  cases r with
  | hit y => have := Nat.mul_le_mul_left c (hr y rfl); simp only [CostIn, Nat.add_mul] at *; omega
  | miss => simp only [CostIn] at *; omega
  | abort => have := Nat.mul_le_mul_left c hx; simp only [CostIn, Nat.add_mul] at *; omega

theorem Lin.mono {a b : Nat} (a' b' : Nat) {f : CForm} (h : Lin str a b f) (ha : a ≤ a') (hb : b ≤ b') : Lin str a' b' f := fun x r k hx hk =>
  costIn_mono (h x r k hx hk) hx (fun y hy => (cost_hit_le hk y hx hy).1) ha hb

theorem HitLin.mono {a b : Nat} (a' b' : Nat) {f : CForm} (h : HitLin str a b f) (ha : a ≤ a') (hb : b ≤ b') : HitLin str a' b' f := fun x r k hx hr hk =>
  costIn_mono (h x r k hx hr hk) hx (fun y hy => (cost_hit_le hk y hx hy).1) ha hb

theorem hitLin_cons {a a' b : Nat} {g : Gram} {gs : List Gram} (h : HitLin str a b (.gram g)) (h' : HitLin str a' b (.seq gs)) :
    HitLin str (a + a') b (.seq (g :: gs)) := by
  intro x r k hx hr hk
  cases hk with
  | cons h1 h2 =>
    have h3 := h _ _ _ hx (by simp) h1
    have h4 := h' _ _ _ (cost_hit_le h1 _ hx rfl).2 hr h2
    cases r with
    | miss => exact absurd rfl hr
    | _ => simp only [CostIn] at *; omega
  | stop h1 h2 =>
    have h3 := h _ _ _ hx hr h1
    cases r <;> simp only [CostIn] at * <;> omega

theorem hitLin_nil (b : Nat) : HitLin str 0 b (.seq []) := by
  intro x r k hx hr hk
  cases hk with
  | nil => simp [CostIn]

theorem lin_flatGroup {a b : Nat} {gs : List Gram} (h : Lin str a b (.seq gs)) : Lin str (a + 1) b (.gram (.flatGroup gs)) := by
  intro x r k hx hk
  cases hk with
  | timeout => have := Nat.mul_le_mul_left b hx; simp only [CostIn]; omega
  | flatGroup hk => have := h _ _ _ hx hk; cases r <;> simp only [CostIn] at * <;> omega

theorem hitLin_flatGroup {a b : Nat} {gs : List Gram} (h : HitLin str a b (.seq gs)) : HitLin str (a + 1) b (.gram (.flatGroup gs)) := by
  intro x r k hx hr hk
  cases hk with
  | timeout => have := Nat.mul_le_mul_left b hx; simp only [CostIn]; omega
  | flatGroup hk => have := h _ _ _ hx hr hk; cases r <;> simp only [CostIn] at * <;> omega

theorem lin_first {a a' b : Nat} {g g' : Gram} (h : Lin str a b (.gram g)) (h' : Lin str a' b (.gram g')) : Lin str (a + a' + 1) b (.gram (.first [g, g'])) := by
  intro x r k hx hk
  cases hk with
  | timeout => have := Nat.mul_le_mul_left b hx; simp only [CostIn]; omega
  | first _ hk =>
    cases hk with
    | take hk _ => have := h _ _ _ hx hk; cases r <;> simp only [CostIn] at * <;> omega
    | skip h1 hk =>
      have h2 := h _ _ _ hx h1
      cases hk with
      | take hk _ => have := h' _ _ _ hx hk; cases r <;> simp only [CostIn] at * <;> omega
      | skip h3 hk =>
        have h4 := h' _ _ _ hx h3
        cases hk with
        | none => simp only [CostIn] at *; omega

/-! ### The white space -/

/-- A run of white space. -/
abbrev WsRun (str : Bytes) (x y : Nat) : Prop := ∃ m k, Cost str (.loop m [.prim whitespaceNoLineBreak]) x (.hit y) k

/-- There is no white space. -/
abbrev NoWs (str : Bytes) (x : Nat) : Prop := ∃ k, Cost str (.seq [.prim whitespaceNoLineBreak]) x .miss k

theorem ws_hit {x y k : Nat} (hx : x ≤ str.length) (h : Cost str (.gram (.prim whitespaceNoLineBreak)) x (.hit y) k) :
    x < str.length ∧ isWhitespaceNoLineBreak (decodeRune (str.drop x)).1 = true ∧ y = x + (decodeRune (str.drop x)).2 := by
  have := prim_end h (charFn_termEnds _ _ _ hx) (by simp)
  split at this
  next hh => cases this; exact ⟨hh.1, hh.2, rfl⟩
  next => cases this

theorem drop_pos {x : Nat} (h : x < str.length) : 0 < (decodeRune (str.drop x)).2 :=
  decodeRune_len_pos (by intro hh; have := congrArg List.length hh; simp at this; omega)

theorem ws_eats : Eats str (.seq [.prim whitespaceNoLineBreak]) := eats_one fun x y k hx h => by
  obtain ⟨h1, -, rfl⟩ := ws_hit hx h
  have := drop_pos h1
  omega

theorem ws_lin : Lin str 1 0 (.seq [.prim whitespaceNoLineBreak]) := lin_one (lin_prim _)

theorem sp_lin : Lin str 3 1 (.gram sp) := lin_trans (ts := [erase]) (lin_repeat ws_lin ws_eats (by decide))

theorem sp_sure : Sure str (.gram sp) := sure_trans (ts := [erase]) (sure_star ws_lin ws_eats)

theorem sp_hit {x y k : Nat} (hx : x ≤ str.length) (h : Cost str (.gram sp) x (.hit y) k) : WsRun str x y ∧ NoWs str y := by
  obtain ⟨k', -, h⟩ := trans_hit (ts := [erase]) h
  obtain ⟨m, k'', -, h, -⟩ := repeat_hit h
  exact ⟨⟨_, _, h⟩, (lin_loop ws_lin ws_eats hx h).2.2 y rfl⟩

theorem wsRun_unique {x y y' : Nat} (h : WsRun str x y) (h' : WsRun str x y') : y = y' := by
  obtain ⟨m, k, h⟩ := h
  obtain ⟨m', k', h'⟩ := h'
  have := (cost_det h h' (.loop _ _ _) (by simp) (by simp)).1
  cases this
  rfl

theorem wsRun_noWs {x : Nat} (h : NoWs str x) : WsRun str x x := let ⟨_, h⟩ := h; ⟨0, _, .last h⟩

/-! ### Quoted cells -/

theorem lin_seqS (w : Bytes) : Lin str 2 0 (.gram (erased (.prim (seqS w)))) := lin_trans (ts := [erase]) (lin_prim _)

theorem seqS_hit {w : Bytes} {x y k : Nat} (hx : x ≤ str.length) (h : Cost str (.gram (erased (.prim (seqS w)))) x (.hit y) k) :
    w <+: str.drop x ∧ y = x + w.length := by
  obtain ⟨k', -, h⟩ := trans_hit (ts := [erase]) h
  have := prim_end h (seqS_termEnds w hx) (by simp)
  split at this
  next hh => cases this; exact ⟨hh, rfl⟩
  next => cases this

theorem trans_miss {g : Gram} {ts : List TSem} {x k : Nat} (hk : Cost str (.gram (.trans g (ts.map .fn))) x .miss k) : ∃ k', k = 1 + k' ∧ Cost str (.gram g) x .miss k' := by
  generalize hg : Gram.trans g (ts.map .fn) = g' at hk
  cases hk with
  | trans hk => obtain ⟨rfl, -⟩ := Gram.trans.inj hg; exact ⟨_, rfl, hk⟩
  | _ => cases hg

theorem seqS_miss {w : Bytes} {x k : Nat} (hx : x ≤ str.length) (h : Cost str (.gram (erased (.prim (seqS w)))) x .miss k) : ¬ w <+: str.drop x := by
  obtain ⟨k', -, h⟩ := trans_miss (ts := [erase]) h
  have := prim_end h (seqS_termEnds w hx) (by simp)
  split at this
  next h => cases this
  next h => exact h

theorem quotedChar_lin : Lin str 4 0 (.gram quotedChar) := lin_first (lin_seqS _) (lin_prim _)

theorem quotedChar_eats : Eats str (.gram quotedChar) := by
  intro x y k hx hk
  cases hk with
  | first _ hk =>
    cases hk with
    | take h _ =>
      obtain ⟨-, rfl⟩ := seqS_hit hx h
      simp
    | skip _ hk =>
      cases hk with
      | take h _ =>
        have := prim_end h (charClassN_termEnds _ hx) (by simp)
        split at this
        next hh => cases this; have := drop_pos hh.1; omega
        next => cases this
      | skip _ hk => cases hk

/-- Where the characters of a quoted cell end there is a quotation mark or nothing. -/
theorem quotedChar_miss {x k : Nat} (hx : x ≤ str.length) (hk : Cost str (.gram quotedChar) x .miss k) : x = str.length ∨ b! "\"" <+: str.drop x := by
  cases hk with
  | first _ hk =>
    cases hk with
    | take _ h => exact absurd rfl h
    | skip _ hk =>
      cases hk with
      | take _ h => exact absurd rfl h
      | skip h hk =>
        have := prim_end h (charClassN_termEnds _ hx) (by simp)
        split at this
        next h => cases this
        next h =>
          by_cases hxl : x = str.length
          · exact .inl hxl
          · right
            exact Decidable.of_not_not fun hp => h ⟨by omega, by simpa using hp⟩

theorem chars_lin : Lin str 5 4 (.gram (star [quotedChar])) := lin_repeat (lin_one quotedChar_lin) (eats_one quotedChar_eats) (by decide)

theorem chars_sure : Sure str (.gram (star [quotedChar])) := sure_star (lin_one quotedChar_lin) (eats_one quotedChar_eats)

theorem chars_hit {x y k : Nat} (hx : x ≤ str.length) (h : Cost str (.gram (star [quotedChar])) x (.hit y) k) : y = str.length ∨ b! "\"" <+: str.drop y := by
  have hy := (cost_hit_le h _ hx rfl).2
  obtain ⟨m, k'', -, h, -⟩ := repeat_hit h
  obtain ⟨k, hk⟩ := (lin_loop (lin_one quotedChar_lin) (eats_one quotedChar_eats) hx h).2.2 y rfl
  exact quotedChar_miss hy (seq_one hk)

/-- The end of a quoted cell. -/
abbrev closeQuote : Gram := .first [erased (.prim (seqS (b! "\""))), .flatGroup [.prim endS, .prim (errorP "Unexpected EOF")]]

theorem eof_lin : Lin str 3 0 (.gram (.flatGroup [.prim endS, .prim (errorP "Unexpected EOF")])) := by
  refine lin_flatGroup fun x r k hx hk => ?_
  cases hk with
  | cons h1 h2 =>
    have h3 := lin_prim _ _ _ _ hx h1
    have h4 := lin_prim _ _ _ _ (cost_hit_le h1 _ hx rfl).2 (seq_one h2)
    cases r <;> simp only [CostIn] at * <;> omega
  | stop h1 h2 => have h3 := lin_prim _ _ _ _ hx h1; cases r <;> simp only [CostIn] at * <;> omega

theorem closeQuote_lin : Lin str 6 0 (.gram closeQuote) := lin_first (lin_seqS _) eof_lin

theorem closeQuote_sure {x k : Nat} (hx : x ≤ str.length) (h : x = str.length ∨ b! "\"" <+: str.drop x) : ¬ Cost str (.gram closeQuote) x .miss k := by
  intro hk
  cases hk with
  | first _ hk =>
    cases hk with
    | take _ h => exact h rfl
    | skip h1 hk =>
      have h1 := seqS_miss hx h1
      cases hk with
      | take _ h => exact h rfl
      | skip h2 hk =>
        cases h2 with
        | flatGroup h2 =>
          cases h2 with
          | cons _ h2 => have := prim_end (seq_one h2) (errorP_termEnds _) (by simp); cases this
          | stop h2 _ =>
            have := prim_end h2 (endS_termEnds hx) (by simp)
            split at this
            next h => cases this
            next h' => exact h.elim h' h1

theorem chunk_hitLin : HitLin str 20 4 (.gram quotedChunk) := by
  refine hitLin_flatGroup (a := 19) ?_
  exact hitLin_cons (a := 3) (a' := 16) (sp_lin.mono 3 4 (by omega) (by omega)).hit
    (hitLin_cons (a := 2) (a' := 14) ((lin_seqS _).mono 2 4 (by omega) (by omega)).hit
      (hitLin_cons (a := 5) (a' := 9) chars_lin.hit
        (hitLin_cons (a := 6) (a' := 3) (closeQuote_lin.mono 6 4 (by omega) (by omega)).hit
          (hitLin_cons (a := 3) (a' := 0) (sp_lin.mono 3 4 (by omega) (by omega)).hit (hitLin_nil 4)))))

/-- A chunk fails to match before its first quotation mark only. -/
theorem chunk_miss {x k : Nat} (hx : x ≤ str.length) (hk : Cost str (.gram quotedChunk) x .miss k) : ∃ y, WsRun str x y ∧ k + x ≤ 6 + y := by
  cases hk with
  | flatGroup hk =>
    cases hk with
    | stop h _ => exact absurd h (sp_sure _ _ hx)
    | @cons _ _ _ y _ k1 k2 h hk =>
      have hy := (cost_hit_le h _ hx rfl).2
      have hw := sp_lin _ _ _ hx h
      refine ⟨y, (sp_hit hx h).1, ?_⟩
      cases hk with
      | stop h _ => have := lin_seqS _ _ _ _ hy h; simp only [CostIn] at *; omega
      | cons h hk =>
        exfalso
        have hy := (cost_hit_le h _ hy rfl).2
        cases hk with
        | stop h _ => exact chars_sure _ _ hy h
        | cons h hk =>
          have h1 := chars_hit hy h
          have hy := (cost_hit_le h _ hy rfl).2
          cases hk with
          | stop h _ => exact closeQuote_sure hy h1 h
          | cons h hk =>
            have hy := (cost_hit_le h _ hy rfl).2
            exact sp_sure _ _ hy (seq_one hk)

theorem chunk_hit {x y k : Nat} (hx : x ≤ str.length) (hk : Cost str (.gram quotedChunk) x (.hit y) k) : x < y ∧ NoWs str y := by
  cases hk with
  | flatGroup hk =>
    cases hk with
    | stop h h' => exact absurd rfl (h' _)
    | cons h hk =>
      have h1 := cost_hit_le h _ hx rfl
      cases hk with
      | stop h h' => exact absurd rfl (h' _)
      | cons h hk =>
        obtain ⟨-, h2⟩ := seqS_hit h1.2 h
        have h2' := (cost_hit_le h _ h1.2 rfl).2
        simp at h2
        cases hk with
        | stop h h' => exact absurd rfl (h' _)
        | cons h hk =>
          have h3 := cost_hit_le h _ h2' rfl
          cases hk with
          | stop h h' => exact absurd rfl (h' _)
          | cons h hk =>
            have h4 := cost_hit_le h _ h3.2 rfl
            have h5 := cost_hit_le (seq_one hk) _ h4.2 rfl
            exact ⟨by omega, (sp_hit h4.2 (seq_one hk)).2⟩

/-- The chunks of a quoted cell. -/
theorem chunks_cost {m x k : Nat} {r : End} (hx : x ≤ str.length) (hk : Cost str (.loop m [quotedChunk]) x r k) :
    (m = 0 ∧ r = .hit x ∧ ∃ y, WsRun str x y ∧ k + x ≤ 6 + y) ∨ (0 < m ∧ ∃ y, r = .hit y ∧ k + 24 * x ≤ 6 + 24 * y) ∨ (r = .abort ∧ k + 24 * x ≤ 20 + 24 * str.length) := by
  generalize hf : CForm.loop m [quotedChunk] = f at hk
  induction hk generalizing m with
  | forever => exact .inr (.inr ⟨rfl, by omega⟩)
  | last hk => cases hf; exact .inl ⟨rfl, rfl, chunk_miss hx (seq_one hk)⟩
  | ends hk =>
    cases hf
    have := chunk_hitLin _ _ _ hx (by simp) (seq_one hk)
    simp only [CostIn] at this
    exact .inr (.inr ⟨rfl, by omega⟩)
  | @next gs x y m r k k' hk _ _ ih =>
    cases hf
    have h0 := cost_hit_le hk _ hx rfl
    have hk := seq_one hk
    have h1 := chunk_hitLin _ _ _ hx (by simp) hk
    obtain ⟨h2, h3⟩ := chunk_hit hx hk
    simp only [CostIn] at h1
    rcases ih h0.2 rfl with ⟨rfl, rfl, z, h4, h5⟩ | ⟨h4, z, rfl, h5⟩ | ⟨rfl, h5⟩
    · cases wsRun_unique h4 (wsRun_noWs h3)
      exact .inr (.inl ⟨by omega, _, rfl, by omega⟩)
    · exact .inr (.inl ⟨by omega, _, rfl, by omega⟩)
    · exact .inr (.inr ⟨rfl, by omega⟩)
  | _ => cases hf

theorem quotedCell_hitLin : HitLin str 22 24 (.gram quotedCell) := by
  have h : HitLin str 21 24 (.gram (plus [quotedChunk])) := by
    intro x r k hx hr hk
    cases hk with
    | timeout => simp only [CostIn]; omega
    | done _ hk hm =>
      rcases chunks_cost hx hk with ⟨rfl, rfl, -⟩ | ⟨-, y, rfl, h⟩ | ⟨rfl, h⟩
      · rcases hm with hm | hm
        · cases hm
        · exact absurd hm (by decide)
      · simp only [CostIn]; omega
      · simp only [CostIn]; omega
    | few _ _ _ => exact absurd rfl hr
  intro x r k hx hr hk
  have hg : Gram.trans (plus [quotedChunk]) ([concat].map Tr.fn) = quotedCell := rfl
  generalize quotedCell = g' at hk hg
  cases hk with
  | timeout => simp only [CostIn]; omega
  | trans hk => obtain ⟨rfl, -⟩ := Gram.trans.inj hg; have := h _ _ _ hx hr hk; cases r <;> simp only [CostIn] at * <;> omega
  | transFails hk =>
    obtain ⟨rfl, -⟩ := Gram.trans.inj hg
    have h1 := h _ _ _ hx (by simp) hk
    have h2 := (cost_hit_le hk _ hx rfl).2
    simp only [CostIn] at *; omega
  | _ => cases hg

theorem quotedCell_miss {x k : Nat} (hx : x ≤ str.length) (hk : Cost str (.gram quotedCell) x .miss k) : ∃ y, WsRun str x y ∧ k + x ≤ 8 + y := by
  obtain ⟨k', rfl, hk'⟩ := trans_miss (g := plus [quotedChunk]) (ts := [concat]) hk
  clear hk
  cases hk' with
  | done _ hk hm => rcases chunks_cost hx hk with ⟨-, h, -⟩ | ⟨-, y, h, -⟩ | ⟨h, -⟩ <;> cases h
  | @few _ _ _ _ m _ _ hk hm =>
    have hm : m = 0 := by
      have : (m : Int) < 1 := hm
      omega
    subst hm
    rcases chunks_cost hx hk with ⟨-, -, y, h1, h2⟩ | ⟨h, -⟩ | ⟨h, -⟩
    · exact ⟨y, h1, by omega⟩
    · omega
    · cases h

/-! ### Cells -/

/-- The characters of a cell that is not quoted. -/
abbrev cellChar : Gram := .prim (charClassN cellBreakCharacters)

theorem cellChar_hit {x y k : Nat} (hx : x ≤ str.length) (h : Cost str (.gram cellChar) x (.hit y) k) : x < str.length ∧ y = x + (decodeRune (str.drop x)).2 := by
  have := prim_end h (charClassN_termEnds _ hx) (by simp)
  split at this
  next hh => cases this; exact ⟨hh.1, rfl⟩
  next => cases this

theorem cellChar_eats : Eats str (.seq [cellChar]) := eats_one fun x y k hx h => by
  obtain ⟨h1, rfl⟩ := cellChar_hit hx h
  have := drop_pos h1
  omega

theorem cell_lin : Lin str 3 1 (.gram cell) := lin_trans (ts := [trim]) (lin_repeat (lin_one (lin_prim _)) cellChar_eats (by decide))

theorem cell_sure : Sure str (.gram cell) := sure_trans (ts := [trim]) (sure_star (lin_one (lin_prim _)) cellChar_eats)

theorem cellBreak_not_ws {s : Bytes} {w : Bytes} (hw : w ∈ cellBreakCharacters) (hp : w <+: s) : isWhitespaceNoLineBreak (decodeRune s).1 = false := by
  obtain ⟨t, rfl⟩ := hp
  simp [cellBreakCharacters, lineBreakCharacters] at hw
  rcases hw with rfl | rfl | rfl | rfl | rfl | rfl <;> simp [decodeRune, isWhitespaceNoLineBreak, leadInfo]

/-- A cell goes on at least until the white space ends. -/
theorem cellChars_run {m x k : Nat} {y : Nat} (hx : x ≤ str.length) (hk : Cost str (.loop m [cellChar]) x (.hit y) k) {z : Nat} (hz : WsRun str x z) : z ≤ y := by
  obtain ⟨m', k', hz⟩ := hz
  generalize hf : CForm.loop m' [Gram.prim whitespaceNoLineBreak] = f at hz
  generalize hr : End.hit z = r at hz
  induction hz generalizing m m' k with
  | last _ => cases hr; exact (cost_hit_le hk _ hx rfl).1
  | @next gs x x' m'' r k1 k2 h1 h2 _ ih =>
    cases hf
    obtain ⟨h3, h4, rfl⟩ := ws_hit hx (seq_one h1)
    have hx' := (cost_hit_le h1 _ hx rfl).2
    cases hk with
    | last hk =>
      have := prim_end (seq_one hk) (charClassN_termEnds _ hx) (by simp)
      split at this
      next h => cases this
      next h =>
        exfalso
        refine h ⟨h3, fun w hw hp => ?_⟩
        rw [cellBreak_not_ws hw hp] at h4
        cases h4
    | next hk1 hk2 =>
      obtain ⟨-, rfl⟩ := cellChar_hit hx (seq_one hk1)
      exact ih hx' hk2 _ rfl hr
  | forever => cases hr
  | ends _ => cases hr
  | _ => cases hf

theorem cell_run {x y z k : Nat} (hx : x ≤ str.length) (hk : Cost str (.gram cell) x (.hit y) k) (hz : WsRun str x z) : z ≤ y := by
  obtain ⟨k', -, h⟩ := trans_hit (ts := [trim]) hk
  obtain ⟨m, k'', -, h, -⟩ := repeat_hit h
  exact cellChars_run hx h hz

/-- One cell. -/
abbrev oneCell : Gram := .first [quotedCell, cell]

theorem oneCell_sure : Sure str (.gram oneCell) := by
  intro x k hx hk
  cases hk with
  | first _ hk =>
    cases hk with
    | take _ h => exact h rfl
    | skip _ hk =>
      cases hk with
      | take _ h => exact h rfl
      | skip h _ => exact cell_sure _ _ hx h

theorem oneCell_lin : Lin str 23 24 (.gram oneCell) := by
  refine HitLin.lin (fun x r k hx hr hk => ?_) oneCell_sure
  cases hk with
  | timeout => simp only [CostIn]; omega
  | first _ hk =>
    cases hk with
    | take h _ => have := quotedCell_hitLin _ _ _ hx hr h; cases r <;> simp only [CostIn] at * <;> omega
    | skip h hk =>
      obtain ⟨y, h1, h2⟩ := quotedCell_miss hx h
      obtain ⟨m, k3, h1'⟩ := id h1
      have h1'' := cost_hit_le h1' _ hx rfl
      cases hk with
      | take h _ =>
        have h3 := cell_lin _ _ _ hx h
        cases r with
        | hit z =>
          have := cell_run hx h h1
          simp only [CostIn] at *; omega
        | miss => exact absurd rfl hr
        | abort => simp only [CostIn] at *; omega
      | skip h _ => exact absurd h (cell_sure _ _ hx)

/-! ### Lists with separators -/

theorem sepLoop {a b s : Nat} {I S : Gram} (hI : Lin str a b (.gram I)) (hIs : Sure str (.gram I)) (hS : Lin str s b (.gram S)) (hSe : Eats str (.gram S))
    {m x k : Nat} {r : End} (hx : x ≤ str.length) (hk : Cost str (.loop m [I, S]) x r k) :
    (∃ y z k', r = .hit y ∧ Cost str (.gram I) y (.hit z) k' ∧ k + (a + s + b) * x + b * y ≤ a + s + (a + s + b) * y + b * z) ∨
      (r = .abort ∧ k + (a + s + b) * x ≤ a + s + (a + s + b) * str.length) := by
  generalize hf : CForm.loop m [I, S] = f at hk
  induction hk generalizing m with
  | forever => have := Nat.mul_le_mul_left (a + s + b) hx; exact .inr ⟨rfl, by omega⟩
  | @last _ x k hk =>
    cases hf
    cases hk with
    | stop h _ => exact absurd h (hIs _ _ hx)
    | @cons _ _ _ z _ _ _ h hk =>
      left
      refine ⟨x, z, _, rfl, h, ?_⟩
      have h1 := hI _ _ _ hx h
      have h2 := hS _ _ _ (cost_hit_le h _ hx rfl).2 (seq_one hk)
      simp only [CostIn] at h1 h2
      omega
  | ends hk =>
    cases hf
    right
    refine ⟨rfl, ?_⟩
    have hx' := Nat.mul_le_mul_left (a + s) hx
    cases hk with
    | stop h _ =>
      have h1 := hI _ _ _ hx h
      simp only [CostIn, Nat.add_mul] at *
      omega
    | cons h hk =>
      have h1 := hI _ _ _ hx h
      have h2 := hS _ _ _ (cost_hit_le h _ hx rfl).2 (seq_one hk)
      simp only [CostIn, Nat.add_mul] at *
      omega
  | @next gs x y m r k k' hk _ _ ih =>
    cases hf
    have h0 := cost_hit_le hk _ hx rfl
    cases hk with
    | stop h h' => exact absurd rfl (h' _)
    | @cons _ _ _ u _ _ _ h hk =>
      have hu := cost_hit_le h _ hx rfl
      have h1 := hI _ _ _ hx h
      have h2 := hS _ _ _ hu.2 (seq_one hk)
      have h3 := hSe _ _ _ hu.2 (seq_one hk)
      have h4 := Nat.mul_le_mul_left (a + s) (show x + 1 ≤ y by omega)
      have h5 := ih h0.2 rfl
      rcases h5 with ⟨z, z', k'', rfl, h6, h7⟩ | ⟨rfl, h7⟩
      · left
        refine ⟨z, z', k'', rfl, h6, ?_⟩
        simp only [CostIn, Nat.add_mul, Nat.mul_add, Nat.mul_one] at *
        omega
      · right
        refine ⟨rfl, ?_⟩
        simp only [CostIn, Nat.add_mul, Nat.mul_add, Nat.mul_one] at *
        omega
  | _ => cases hf

/-- A list: the last item is tried twice, once for the item with its separator and once alone. -/
theorem sepBy {a b s c : Nat} {I S : Gram} (hI : Lin str a b (.gram I)) (hIs : Sure str (.gram I)) (hS : Lin str s b (.gram S)) (hSe : Eats str (.gram S))
    (hc : a + s + b ≤ c) (hc' : 2 * b ≤ c) (gs : List Gram) {x k : Nat} {r : End} (hx : x ≤ str.length) (hk : Cost str (.seq (star [I, S] :: I :: gs)) x r k) :
    (∃ y k1 k2, k = k1 + k2 ∧ x ≤ y ∧ y ≤ str.length ∧ k1 + c * x ≤ (1 + 2 * a + s) + c * y ∧ Cost str (.seq gs) y r k2) ∨
      (r = .abort ∧ k + c * x ≤ (1 + 2 * a + s) + c * str.length) := by
  obtain ⟨d, rfl⟩ : ∃ d, c = a + s + b + d := ⟨c - (a + s + b), by omega⟩
  cases hk with
  | stop h h' =>
    right
    cases h with
    | timeout =>
      have := Nat.mul_le_mul_left (a + s + b + d) hx
      exact ⟨rfl, by omega⟩
    | done _ h _ =>
      rcases sepLoop hI hIs hS hSe hx h with ⟨y, z, k', rfl, -⟩ | ⟨rfl, h1⟩
      · exact absurd rfl (h' _)
      · have := Nat.mul_le_mul_left d hx
        refine ⟨rfl, ?_⟩
        rw [Nat.add_mul _ d, Nat.add_mul _ d]
        omega
    | few _ _ hm => have : ((_ : Nat) : Int) < 0 := hm; omega
  | @cons _ _ _ y _ _ _ h hk =>
    have hy := cost_hit_le h _ hx rfl
    obtain ⟨m, k', rfl, h, -⟩ := repeat_hit h
    rcases sepLoop hI hIs hS hSe hx h with ⟨y, z, k'', ⟨⟩, hz, h1⟩ | ⟨⟨⟩, h1⟩
    have hyz := cost_hit_le hz _ hy.2 rfl
    obtain ⟨e, he⟩ : ∃ e, a + s + b + d = 2 * b + e := ⟨a + s + b + d - 2 * b, by omega⟩
    have h2 : (a + s + b + d) * y + 2 * b * z ≤ (a + s + b + d) * z + 2 * b * y := by
      have := Nat.mul_le_mul_left e hyz.1
      rw [he, Nat.add_mul _ e, Nat.add_mul _ e]
      omega
    have h3 : (a + s + b) * y + (a + s + b + d) * x ≤ (a + s + b + d) * y + (a + s + b) * x := by
      have := Nat.mul_le_mul_left d hy.1
      rw [Nat.add_mul _ d, Nat.add_mul _ d]
      omega
    have h4 := Nat.mul_le_mul_left (a + s + b + d) hyz.2
    have h5 : b * z ≤ b * str.length := Nat.mul_le_mul_left b hyz.2
    have h6 : (a + s + b + d) * z + 2 * b * str.length ≤ (a + s + b + d) * str.length + 2 * b * z := by
      have := Nat.mul_le_mul_left e hyz.2
      rw [he, Nat.add_mul _ e, Nat.add_mul _ e]
      omega
    rw [Nat.mul_assoc, Nat.mul_assoc] at h2 h6
    cases hk with
    | stop h h' =>
      right
      cases r with
      | hit y => exact absurd rfl (h' _)
      | miss => exact absurd h (hIs _ _ hy.2)
      | abort =>
        have h7 := hI _ _ _ hy.2 h
        simp only [CostIn] at h7
        exact ⟨rfl, by omega⟩
    | cons h hk =>
      left
      have := (cost_det h hz (.refl _) (by simp) (by simp)).1
      cases this
      have h7 := hI _ _ _ hy.2 h
      simp only [CostIn] at h7
      exact ⟨_, _, _, (Nat.add_assoc _ _ _).symm, by omega, hyz.2, by omega, hk⟩

theorem comma_eats : Eats str (.gram (erased (.prim (seqS (b! ","))))) := by
  intro x y k hx hk
  obtain ⟨-, rfl⟩ := seqS_hit hx hk
  simp

theorem cells_cost {x k : Nat} {r : End} (hx : x ≤ str.length)
    (hk : Cost str (.seq [star [oneCell, erased (.prim (seqS (b! ",")))], oneCell]) x r k) : r ≠ .miss ∧ CostIn str.length 49 49 x r k := by
  rcases sepBy oneCell_lin oneCell_sure ((lin_seqS _).mono 2 24 (by omega) (by omega)) comma_eats (c := 49) (by omega) (by omega) [] hx hk with
    ⟨y, k1, k2, rfl, h1, h2, h3, h4⟩ | ⟨rfl, h⟩
  · cases h4 with
    | nil => exact ⟨by simp, by simp only [CostIn]; omega⟩
  · exact ⟨by simp, by simp only [CostIn]; omega⟩

theorem line_sure : Sure str (.gram line) := sure_trans (ts := [lineTransform]) fun x k hx hk => by
  cases hk with
  | flatGroup hk => exact (cells_cost hx hk).1 rfl

theorem line_lin : Lin str 51 49 (.gram line) := lin_trans (ts := [lineTransform]) (lin_flatGroup fun _ _ _ hx hk => (cells_cost hx hk).2)

theorem lineBreak_eats : Eats str (.seq [.prim lineBreak]) := eats_one fun x y k hx h => by
  have := prim_end h (charFn_termEnds _ _ _ hx) (by simp)
  split at this
  next hh => cases this; have := drop_pos hh.1; omega
  next => cases this

theorem breaks_lin : Lin str 3 1 (.gram (erased (plus [.prim lineBreak]))) :=
  lin_trans (ts := [erase]) (lin_repeat (lin_one (lin_prim _)) lineBreak_eats (by decide))

theorem breaks_eats : Eats str (.gram (erased (plus [.prim lineBreak]))) := eats_trans (ts := [erase]) (eats_plus lineBreak_eats)

/-- The whole document. -/
theorem document_cost {x k : Nat} {r : End} (hx : x ≤ str.length) (hk : Cost str (.gram document) x r k) : k ≤ 109 + 103 * str.length := by
  have h : ∀ {r k}, Cost str (.gram (.flatGroup [star [line, erased (plus [.prim lineBreak])], line, .prim endS])) x r k → k ≤ 108 + 103 * str.length := by
    intro r k hk
    cases hk with
    | timeout => omega
    | flatGroup hk =>
      rcases sepBy line_lin line_sure (breaks_lin.mono 3 49 (by omega) (by omega)) breaks_eats (c := 103) (by omega) (by omega) _ hx hk with
        ⟨y, k1, k2, rfl, h1, h2, h3, h4⟩ | ⟨rfl, h⟩
      · have h5 := lin_prim _ _ _ _ h2 (seq_one h4)
        cases r <;> simp only [CostIn] at h5 <;> omega
      · omega
  have hg : Gram.trans (.flatGroup [star [line, erased (plus [.prim lineBreak])], line, .prim endS]) ([documentTransform].map Tr.fn) = document := rfl
  generalize document = g' at hk hg
  cases hk with
  | timeout => omega
  | trans hk => obtain ⟨rfl, -⟩ := Gram.trans.inj hg; have := h hk; omega
  | transFails hk => obtain ⟨rfl, -⟩ := Gram.trans.inj hg; have := h hk; omega
  | _ => cases hg

theorem document_costed : Costed str document := by
  have hS : ∀ w, Costed str (erased (.prim (seqS w))) := fun w => .trans (ts := [erase]) (.prim fun x hx => ⟨_, seqS_termEnds w hx⟩)
  have hcc : ∀ cc, Costed str (.prim (charClassN cc)) := fun cc => .prim fun x hx => ⟨_, charClassN_termEnds cc hx⟩
  have hend : Costed str (.prim endS) := .prim fun x hx => ⟨_, endS_termEnds hx⟩
  have hsp : Costed str sp := by
    refine .trans (ts := [erase]) (.repeat (by decide) ?_)
    simp only [List.forall_mem_cons]
    exact ⟨.prim fun x hx => ⟨_, charFn_termEnds _ _ _ hx⟩, by simp⟩
  have hqc : Costed str quotedChar := by
    refine .first (by simp) ?_
    simp only [List.forall_mem_cons]
    exact ⟨hS _, hcc _, by simp⟩
  have hcl : Costed str closeQuote := by
    refine .first (by simp) ?_
    simp only [List.forall_mem_cons]
    refine ⟨hS _, .flatGroup ?_, by simp⟩
    simp only [List.forall_mem_cons]
    exact ⟨hend, .prim fun x hx => ⟨_, errorP_termEnds _⟩, by simp⟩
  have hch : Costed str quotedChunk := by
    refine .flatGroup ?_
    simp only [List.forall_mem_cons]
    refine ⟨hsp, hS _, .repeat (by decide) ?_, hcl, hsp, by simp⟩
    simp only [List.forall_mem_cons]
    exact ⟨hqc, by simp⟩
  have hq : Costed str quotedCell := by
    refine .trans (ts := [concat]) (.repeat (by decide) ?_)
    simp only [List.forall_mem_cons]
    exact ⟨hch, by simp⟩
  have hc : Costed str cell := by
    refine .trans (ts := [trim]) (.repeat (by decide) ?_)
    simp only [List.forall_mem_cons]
    exact ⟨hcc _, by simp⟩
  have ho : Costed str oneCell := by
    refine .first (by simp) ?_
    simp only [List.forall_mem_cons]
    exact ⟨hq, hc, by simp⟩
  have hl : Costed str line := by
    refine .trans (ts := [lineTransform]) (.flatGroup ?_)
    simp only [List.forall_mem_cons]
    refine ⟨.repeat (by decide) ?_, ho, by simp⟩
    simp only [List.forall_mem_cons]
    exact ⟨ho, hS _, by simp⟩
  refine .trans (ts := [documentTransform]) (.flatGroup ?_)
  simp only [List.forall_mem_cons]
  refine ⟨.repeat (by decide) ?_, hl, hend, by simp⟩
  simp only [List.forall_mem_cons]
  refine ⟨hl, .trans (ts := [erase]) (.repeat (by decide) ?_), by simp⟩
  simp only [List.forall_mem_cons]
  exact ⟨.prim fun x hx => ⟨_, charFn_termEnds _ _ _ hx⟩, by simp⟩

end Takenoco
