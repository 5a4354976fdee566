import Verif.Model.Rounded
import Verif.Props.Returns

/-!
# C113: what the closed-form operators guarantee in rounded arithmetic
-/

namespace Verif

variable {ι : Type} [Fintype ι]

namespace Rounding

variable {rnd : ℝ → ℝ} {u : ℝ}

theorem nonneg_u (h : Rounding rnd u) : 0 ≤ u := by
  have := h.err 1
  rw [h.one] at this
  simpa using this

theorem zero (h : Rounding rnd u) : rnd 0 = 0 := by
  have := h.err 0
  simpa using this

theorem lower (h : Rounding rnd u) {x : ℝ} (hx : 0 ≤ x) : (1 - u) * x ≤ rnd x := by
  have := h.err x
  rw [abs_of_nonneg hx] at this
  have := (abs_le.mp this).1
  linarith

theorem upper (h : Rounding rnd u) {x : ℝ} (hx : 0 ≤ x) : rnd x ≤ (1 + u) * x := by
  have := h.err x
  rw [abs_of_nonneg hx] at this
  have := (abs_le.mp this).2
  linarith

theorem nonneg (h : Rounding rnd u) {x : ℝ} (hx : 0 ≤ x) : 0 ≤ rnd x := by
  have := h.mono hx
  rwa [h.zero] at this

theorem nonpos (h : Rounding rnd u) {x : ℝ} (hx : x ≤ 0) : rnd x ≤ 0 := by
  have := h.mono hx
  rwa [h.zero] at this

theorem pos (h : Rounding rnd u) {x : ℝ} (hx : 0 < x) : 0 < rnd x :=
  lt_of_lt_of_le (mul_pos (by linarith [h.lt]) hx) (h.lower hx.le)

theorem pos_iff (h : Rounding rnd u) {x : ℝ} : 0 < rnd x ↔ 0 < x :=
  ⟨fun hx => by by_contra hc; exact absurd (h.nonpos (not_lt.mp hc)) (not_le.mpr hx), h.pos⟩

theorem abs_rnd (h : Rounding rnd u) (x : ℝ) : |rnd x| = rnd |x| := by
  rcases le_total 0 x with hx | hx
  · rw [abs_of_nonneg hx, abs_of_nonneg (h.nonneg hx)]
  · rw [abs_of_nonpos hx, abs_of_nonpos (h.nonpos hx), h.odd]

theorem float_abs (h : Rounding rnd u) {x : ℝ} (hx : IsFloat rnd x) : IsFloat rnd |x| := by
  have := h.abs_rnd x
  rw [hx] at this
  exact this.symm

theorem float_neg (h : Rounding rnd u) {x : ℝ} (hx : IsFloat rnd x) : IsFloat rnd (-x) := by
  unfold IsFloat
  rw [h.odd, hx]

end Rounding

/-- What is asked of the function that makes the mantissa an integer. -/
structure IntRound (ρ : ℝ → ℤ) (h : ℝ) : Prop where
  mono : Monotone ρ
  int : ∀ n : ℤ, ρ n = n
  err : ∀ x, |ρ x - x| ≤ h
  le : h ≤ 1

theorem intRound_floor : IntRound Int.floor 1 :=
  ⟨Int.floor_mono, fun n => Int.floor_intCast n, fun x => by
    rw [abs_sub_comm, abs_of_nonneg (by linarith [Int.floor_le x])]; linarith [Int.lt_floor_add_one x], le_rfl⟩

theorem intRound_round : IntRound (round : ℝ → ℤ) (1 / 2) := by
  refine ⟨fun x y hxy => ?_, fun n => round_intCast n, fun x => ?_, by norm_num⟩
  · rw [round_eq, round_eq]; exact Int.floor_le_floor (by linarith)
  · rw [abs_sub_comm]; exact abs_sub_round x

section format

variable {ρ : ℝ → ℤ} {h : ℝ}

/-- A rounded positive number lies between the powers of two around it, close to the number. -/
theorem fmtPos_bounds (hρ : IntRound ρ h) (p : ℕ) {x : ℝ} (hx : 0 < x) :
    (2 : ℝ) ^ Int.log 2 x ≤ fmtPos ρ p x ∧ fmtPos ρ p x ≤ (2 : ℝ) ^ (Int.log 2 x + 1) ∧
      |fmtPos ρ p x - x| ≤ h * (2 : ℝ) ^ (Int.log 2 x - p) := by
  have h2 : (0 : ℝ) < 2 := two_pos
  have hlo : (2 : ℝ) ^ Int.log 2 x ≤ x := by exact_mod_cast Int.zpow_log_le_self (b := 2) (by norm_num) hx
  have hup : x ≤ (2 : ℝ) ^ (Int.log 2 x + 1) := by
    exact_mod_cast (Int.lt_zpow_succ_log_self (b := 2) (by norm_num) x).le
  set e := Int.log 2 x with he
  have hP : (0 : ℝ) < (2 : ℝ) ^ (e - p) := zpow_pos h2 _
  have hQ : (0 : ℝ) < (2 : ℝ) ^ ((p : ℤ) - e) := zpow_pos h2 _
  have hinv : (2 : ℝ) ^ (e - p) * (2 : ℝ) ^ ((p : ℤ) - e) = 1 := by
    rw [← zpow_add₀ h2.ne']; simp
  have hxe : (2 : ℝ) ^ (e - p) * (x * (2 : ℝ) ^ ((p : ℤ) - e)) = x := by
    calc _ = x * ((2 : ℝ) ^ (e - p) * (2 : ℝ) ^ ((p : ℤ) - e)) := by ring
      _ = x := by rw [hinv, mul_one]
  have hc : ∀ k : ℕ, (((2 ^ k : ℤ)) : ℝ) = (2 : ℝ) ^ (k : ℤ) := fun k => by push_cast; simp
  unfold fmtPos
  rw [← he]
  refine ⟨?_, ?_, ?_⟩
  · have hm : (((2 ^ p : ℤ)) : ℝ) ≤ x * (2 : ℝ) ^ ((p : ℤ) - e) := by
      have : (2 : ℝ) ^ (p : ℤ) = (2 : ℝ) ^ e * (2 : ℝ) ^ ((p : ℤ) - e) := by
        rw [← zpow_add₀ h2.ne']; congr 1; ring
      rw [hc, this]
      exact mul_le_mul_of_nonneg_right hlo hQ.le
    have hfl := hρ.mono hm
    rw [hρ.int] at hfl
    have hfl' : (((2 ^ p : ℤ)) : ℝ) ≤ ρ (x * (2 : ℝ) ^ ((p : ℤ) - e)) := by exact_mod_cast hfl
    rw [hc] at hfl'
    calc (2 : ℝ) ^ e = (2 : ℝ) ^ (e - p) * (2 : ℝ) ^ (p : ℤ) := by rw [← zpow_add₀ h2.ne']; congr 1; ring
      _ ≤ _ := mul_le_mul_of_nonneg_left hfl' hP.le
  · have hm : x * (2 : ℝ) ^ ((p : ℤ) - e) ≤ (((2 ^ (p + 1) : ℤ)) : ℝ) := by
      have : (2 : ℝ) ^ ((p + 1 : ℕ) : ℤ) = (2 : ℝ) ^ (e + 1) * (2 : ℝ) ^ ((p : ℤ) - e) := by
        rw [← zpow_add₀ h2.ne']; congr 1; push_cast; ring
      rw [hc, this]
      exact mul_le_mul_of_nonneg_right hup hQ.le
    have hfl := hρ.mono hm
    rw [hρ.int] at hfl
    have hfl' : (ρ (x * (2 : ℝ) ^ ((p : ℤ) - e)) : ℝ) ≤ (((2 ^ (p + 1) : ℤ)) : ℝ) := by exact_mod_cast hfl
    rw [hc] at hfl'
    calc _ ≤ (2 : ℝ) ^ (e - p) * (2 : ℝ) ^ ((p + 1 : ℕ) : ℤ) := mul_le_mul_of_nonneg_left hfl' hP.le
      _ = _ := by rw [← zpow_add₀ h2.ne']; congr 1; push_cast; ring
  · have := mul_le_mul_of_nonneg_left (hρ.err (x * (2 : ℝ) ^ ((p : ℤ) - e))) hP.le
    rw [← abs_of_pos hP, ← abs_mul, mul_sub, abs_of_pos hP, hxe] at this
    linarith

theorem fmtPos_pos (hρ : IntRound ρ h) (p : ℕ) {x : ℝ} (hx : 0 < x) : 0 < fmtPos ρ p x :=
  lt_of_lt_of_le (zpow_pos two_pos _) (fmtPos_bounds hρ p hx).1

theorem fmtPos_mono (hρ : IntRound ρ h) (p : ℕ) {x y : ℝ} (hx : 0 < x) (hxy : x ≤ y) : fmtPos ρ p x ≤ fmtPos ρ p y := by
  have hy := lt_of_lt_of_le hx hxy
  rcases (Int.log_mono_right (b := 2) hx hxy).eq_or_lt with he | he
  · unfold fmtPos
    rw [he]
    refine mul_le_mul_of_nonneg_left ?_ (zpow_pos two_pos _).le
    exact_mod_cast hρ.mono (mul_le_mul_of_nonneg_right hxy (zpow_pos two_pos _).le)
  · calc fmtPos ρ p x ≤ (2 : ℝ) ^ (Int.log 2 x + 1) := (fmtPos_bounds hρ p hx).2.1
      _ ≤ (2 : ℝ) ^ Int.log 2 y := zpow_le_zpow_right₀ (by norm_num) he
      _ ≤ fmtPos ρ p y := (fmtPos_bounds hρ p hy).1

/-- A number that is an integer multiple of the last place of its own exponent is left alone. -/
theorem fmtPos_fixed (hρ : IntRound ρ h) (p : ℕ) {y : ℝ} (k : ℤ) (hk : y * (2 : ℝ) ^ ((p : ℤ) - Int.log 2 y) = k) :
    fmtPos ρ p y = y := by
  unfold fmtPos
  rw [hk, hρ.int, ← hk]
  calc _ = y * ((2 : ℝ) ^ (Int.log 2 y - p) * (2 : ℝ) ^ ((p : ℤ) - Int.log 2 y)) := by ring
    _ = y := by rw [← zpow_add₀ two_ne_zero]; simp

theorem fmtPos_zpow (hρ : IntRound ρ h) (p : ℕ) (e : ℤ) : fmtPos ρ p ((2 : ℝ) ^ e) = (2 : ℝ) ^ e := by
  have hl : Int.log 2 ((2 : ℝ) ^ e) = e := by
    have := Int.log_zpow (R := ℝ) (b := 2) (by norm_num) e
    exact_mod_cast this
  refine fmtPos_fixed hρ p (2 ^ p) ?_
  rw [hl, ← zpow_add₀ two_ne_zero]
  push_cast
  simp

theorem fmtPos_idem (hρ : IntRound ρ h) (p : ℕ) {x : ℝ} (hx : 0 < x) : fmtPos ρ p (fmtPos ρ p x) = fmtPos ρ p x := by
  obtain ⟨hlo, hup, _⟩ := fmtPos_bounds hρ p hx
  have hp := fmtPos_pos hρ p hx
  rcases hup.eq_or_lt with he | hlt
  · rw [he, fmtPos_zpow hρ]
  · have hlog : Int.log 2 (fmtPos ρ p x) = Int.log 2 x := by
      refine le_antisymm ?_ ?_
      · have := (Int.lt_zpow_iff_log_lt (b := 2) (by norm_num) hp).mp (by exact_mod_cast hlt)
        omega
      · exact (Int.zpow_le_iff_le_log (b := 2) (by norm_num) hp).mp (by exact_mod_cast hlo)
    refine fmtPos_fixed hρ p (ρ (x * (2 : ℝ) ^ ((p : ℤ) - Int.log 2 x))) ?_
    rw [hlog]
    unfold fmtPos
    calc _ = ((2 : ℝ) ^ (Int.log 2 x - p) * (2 : ℝ) ^ ((p : ℤ) - Int.log 2 x)) * ρ (x * (2 : ℝ) ^ ((p : ℤ) - Int.log 2 x)) := by
            ring
      _ = _ := by rw [← zpow_add₀ two_ne_zero]; simp

theorem fmtBits_pos (p : ℕ) {x : ℝ} (hx : 0 < x) : fmtBits ρ p x = fmtPos ρ p x := by simp [fmtBits, hx]

theorem fmtBits_zero (p : ℕ) : fmtBits ρ p 0 = 0 := by simp [fmtBits]

theorem fmtBits_odd (p : ℕ) (x : ℝ) : fmtBits ρ p (-x) = -fmtBits ρ p x := by
  rcases lt_trichotomy x 0 with hx | hx | hx
  · simp [fmtBits, hx, not_lt.mpr hx.le]
  · simp [hx, fmtBits]
  · simp [fmtBits, hx, not_lt.mpr hx.le]

theorem fmtBits_nonneg (hρ : IntRound ρ h) (p : ℕ) {x : ℝ} (hx : 0 ≤ x) : 0 ≤ fmtBits ρ p x := by
  rcases hx.eq_or_lt with rfl | hx
  · rw [fmtBits_zero]
  · rw [fmtBits_pos p hx]; exact (fmtPos_pos hρ p hx).le

theorem fmtBits_rounding (hρ : IntRound ρ h) (p : ℕ) (hp : 1 ≤ p) : Rounding (fmtBits ρ p) (h * ((2 : ℝ) ^ p)⁻¹) := by
  have hh : 0 ≤ h := (abs_nonneg _).trans (hρ.err 0)
  have hone : fmtBits ρ p 1 = 1 := by
    rw [fmtBits_pos p one_pos]
    simpa using fmtPos_zpow hρ p 0
  have hmono0 : ∀ x y : ℝ, 0 ≤ x → x ≤ y → fmtBits ρ p x ≤ fmtBits ρ p y := by
    intro x y hx hxy
    rcases hx.eq_or_lt with rfl | hx
    · rw [fmtBits_zero]; exact fmtBits_nonneg hρ p hxy
    · rw [fmtBits_pos p hx, fmtBits_pos p (lt_of_lt_of_le hx hxy)]; exact fmtPos_mono hρ p hx hxy
  have herr0 : ∀ x : ℝ, 0 ≤ x → |fmtBits ρ p x - x| ≤ h * ((2 : ℝ) ^ p)⁻¹ * |x| := by
    intro x hx
    rcases hx.eq_or_lt with rfl | hx
    · simp [fmtBits_zero]
    · rw [fmtBits_pos p hx, abs_of_pos hx]
      refine (fmtPos_bounds hρ p hx).2.2.trans ?_
      rw [mul_assoc]
      refine mul_le_mul_of_nonneg_left ?_ hh
      rw [zpow_sub₀ two_ne_zero, zpow_natCast, div_eq_inv_mul]
      refine mul_le_mul_of_nonneg_left ?_ (by positivity)
      exact_mod_cast Int.zpow_log_le_self (b := 2) (by norm_num) hx
  refine ⟨?_, fmtBits_odd p, ?_, ?_, hone, ?_⟩
  · intro x y hxy
    rcases le_total 0 x with hx | hx
    · exact hmono0 x y hx hxy
    · rcases le_total 0 y with hy | hy
      · have h1 := fmtBits_nonneg hρ p (neg_nonneg.mpr hx)
        rw [fmtBits_odd] at h1
        linarith [fmtBits_nonneg hρ p hy]
      · have := hmono0 (-y) (-x) (by linarith) (by linarith)
        rw [fmtBits_odd, fmtBits_odd] at this
        linarith
  · have h0 : ∀ x : ℝ, 0 ≤ x → fmtBits ρ p (fmtBits ρ p x) = fmtBits ρ p x := by
      intro x hx
      rcases hx.eq_or_lt with rfl | hx
      · rw [fmtBits_zero, fmtBits_zero]
      · rw [fmtBits_pos p hx, fmtBits_pos p (fmtPos_pos hρ p hx), fmtPos_idem hρ p hx]
    intro x
    rcases le_total 0 x with hx | hx
    · exact h0 x hx
    · have := h0 (-x) (by linarith)
      rw [fmtBits_odd, fmtBits_odd] at this
      linarith
  · intro x
    rcases le_total 0 x with hx | hx
    · exact herr0 x hx
    · have := herr0 (-x) (by linarith)
      rw [fmtBits_odd, abs_neg] at this
      rw [← abs_neg]
      convert this using 2
      ring
  · have h1 : (1 : ℝ) < 2 ^ p := one_lt_pow₀ (by norm_num) (by omega)
    have h2 : ((2 : ℝ) ^ p)⁻¹ < 1 := inv_lt_one_of_one_lt₀ h1
    calc h * ((2 : ℝ) ^ p)⁻¹ ≤ 1 * ((2 : ℝ) ^ p)⁻¹ := mul_le_mul_of_nonneg_right hρ.le (by positivity)
      _ < 1 := by rwa [one_mul]

end format

/-- Truncation to `p + 1` binary digits, `p` at least 1, is a rounding. -/
theorem truncBits_rounding (p : ℕ) (hp : 1 ≤ p) : Rounding (truncBits p) (((2 : ℝ) ^ p)⁻¹) := by
  have := fmtBits_rounding intRound_floor p hp
  rwa [one_mul] at this

/-- Rounding to the nearest of `p + 1` binary digits, `p` at least 1, is a rounding. -/
theorem nearBits_rounding (p : ℕ) (hp : 1 ≤ p) : Rounding (nearBits p) (1 / 2 * ((2 : ℝ) ^ p)⁻¹) :=
  fmtBits_rounding intRound_round p hp

theorem nearBits_zpow (p : ℕ) (e : ℤ) : nearBits p ((2 : ℝ) ^ e) = (2 : ℝ) ^ e := by
  unfold nearBits
  rw [fmtBits_pos p (zpow_pos two_pos _), fmtPos_zpow intRound_round]

/-- A small number next to 1 is lost in a sum ... -/
theorem nearBits_absorb (p : ℕ) {q : ℝ} (hq0 : 0 ≤ q) (hq : q * (2 : ℝ) ^ p < 1 / 2) : nearBits p (1 + q) = 1 := by
  have h1p : (1 : ℝ) ≤ 2 ^ p := one_le_pow₀ (by norm_num)
  have hq1 : q < 1 := by nlinarith
  have hpos : (0 : ℝ) < 1 + q := by linarith
  unfold nearBits
  rw [fmtBits_pos p hpos]
  have hlog : Int.log 2 (1 + q) = 0 := by
    refine le_antisymm ?_ ?_
    · have : (1 + q) < ((2 : ℕ) : ℝ) ^ (1 : ℤ) := by simp; linarith
      have := (Int.lt_zpow_iff_log_lt (b := 2) (by norm_num) hpos).mp this
      omega
    · refine (Int.zpow_le_iff_le_log (b := 2) (by norm_num) hpos).mp ?_
      simpa using hq0
  unfold fmtPos
  rw [hlog]
  have hfl : round ((1 + q) * (2 : ℝ) ^ ((p : ℤ) - 0)) = 2 ^ p := by
    rw [round_eq, Int.floor_eq_iff, sub_zero, zpow_natCast]
    push_cast
    constructor <;> nlinarith
  rw [hfl]
  simp

/-- ... and in a difference. -/
theorem nearBits_absorb_sub (p : ℕ) {q : ℝ} (hq0 : 0 < q) (hq : q * (2 : ℝ) ^ (p + 1) ≤ 1 / 2) : nearBits p (1 - q) = 1 := by
  have h1p : (1 : ℝ) ≤ 2 ^ (p + 1) := one_le_pow₀ (by norm_num)
  have hq1 : q ≤ 1 / 2 := by nlinarith
  have hpos : (0 : ℝ) < 1 - q := by linarith
  unfold nearBits
  rw [fmtBits_pos p hpos]
  have hlog : Int.log 2 (1 - q) = -1 := by
    refine le_antisymm ?_ ?_
    · have : (1 - q) < ((2 : ℕ) : ℝ) ^ (0 : ℤ) := by simp; linarith
      have := (Int.lt_zpow_iff_log_lt (b := 2) (by norm_num) hpos).mp this
      omega
    · refine (Int.zpow_le_iff_le_log (b := 2) (by norm_num) hpos).mp ?_
      norm_num
      linarith
  unfold fmtPos
  rw [hlog]
  have e : (2 : ℝ) ^ ((p : ℤ) - -1) = 2 ^ (p + 1) := by
    rw [sub_neg_eq_add]; exact_mod_cast zpow_natCast (2 : ℝ) (p + 1)
  have hfl : round ((1 - q) * (2 : ℝ) ^ ((p : ℤ) - -1)) = 2 ^ (p + 1) := by
    rw [round_eq, Int.floor_eq_iff, e]
    push_cast
    constructor <;> nlinarith
  rw [hfl]
  push_cast
  rw [← zpow_natCast, ← zpow_add₀ two_ne_zero]
  have : (-1 - (p : ℤ) + ((p + 1 : ℕ) : ℤ)) = 0 := by push_cast; ring
  rw [this, zpow_zero]

/-! ## One entry -/

section entry

variable {rnd : ℝ → ℝ} {u : ℝ} (hr : Rounding rnd u)
include hr

theorem softR_eq_zero_iff {x t : ℝ} (ht : 0 ≤ t) : softR rnd x t = 0 ↔ |x| ≤ t := by
  unfold softR
  constructor
  · intro h
    rcases mul_eq_zero.mp h with h | h
    · have : rnd (|x| - t) ≤ 0 := by
        by_contra hc
        rw [max_eq_left (not_le.mp hc).le] at h
        exact absurd h (not_le.mp hc).ne'
      by_contra hc
      exact absurd (hr.pos (sub_pos.mpr (not_le.mp hc))) (not_lt.mpr this)
    · have : x = 0 := by
        unfold npsign at h
        split_ifs at h with h1 h2
        · norm_num at h
        · norm_num at h
        · linarith
      simpa [this] using ht
  · intro h
    rw [max_eq_right (hr.nonpos (by linarith)), zero_mul]

omit hr in
theorem npsign_cases (x : ℝ) : (0 < x ∧ npsign x = 1) ∨ (x < 0 ∧ npsign x = -1) ∨ (x = 0 ∧ npsign x = 0) := by
  unfold npsign
  rcases lt_trichotomy x 0 with h | h | h
  · exact .inr (.inl ⟨h, by simp [h, not_lt.mpr h.le]⟩)
  · exact .inr (.inr ⟨h, by simp [h]⟩)
  · exact .inl ⟨h, by simp [h]⟩

omit hr in
theorem softR_sign (x t : ℝ) : 0 ≤ softR rnd x t * x := by
  unfold softR
  have hm : 0 ≤ max (rnd (|x| - t)) 0 := le_max_right _ _
  rcases npsign_cases x with ⟨h, e⟩ | ⟨h, e⟩ | ⟨h, e⟩ <;> rw [e]
  · rw [mul_one]; exact mul_nonneg hm h.le
  · nlinarith
  · simp

omit hr in
theorem softR_abs_le (x t : ℝ) : |softR rnd x t| ≤ max (rnd (|x| - t)) 0 := by
  unfold softR
  have hm : 0 ≤ max (rnd (|x| - t)) 0 := le_max_right _ _
  rcases npsign_cases x with ⟨h, e⟩ | ⟨h, e⟩ | ⟨h, e⟩ <;> rw [e] <;> simp [abs_of_nonneg hm]

theorem softR_shrinks {x t : ℝ} (ht : 0 ≤ t) (hx : IsFloat rnd x) : |softR rnd x t| ≤ |x| := by
  refine (softR_abs_le x t).trans (max_le ?_ (abs_nonneg x))
  have := hr.mono (show |x| - t ≤ |x| by linarith)
  rwa [hr.float_abs hx] at this

theorem softR_float (x t : ℝ) : IsFloat rnd (softR rnd x t) := by
  have hm : IsFloat rnd (max (rnd (|x| - t)) 0) := by
    rcases le_total (rnd (|x| - t)) 0 with h | h
    · rw [max_eq_right h]; exact hr.zero
    · rw [max_eq_left h]; exact hr.idem _
  unfold softR
  rcases npsign_cases x with ⟨h, e⟩ | ⟨h, e⟩ | ⟨h, e⟩ <;> rw [e]
  · rwa [mul_one]
  · rw [mul_neg_one]; exact hr.float_neg hm
  · rw [mul_zero]; exact hr.zero

omit hr in
theorem softR_odd (x t : ℝ) : softR rnd (-x) t = -softR rnd x t := by
  unfold softR
  rw [abs_neg]
  have : npsign (-x) = -npsign x := by
    rcases npsign_cases x with ⟨h, e⟩ | ⟨h, e⟩ | ⟨h, e⟩ <;> rw [e]
    · simp [npsign, h, h.le]
    · simp [npsign, h]
    · simp [npsign, h]
  rw [this, mul_neg]

omit hr in
theorem softR_nonneg_of_nonneg {x t : ℝ} (hx : 0 ≤ x) : 0 ≤ softR rnd x t := by
  unfold softR
  refine mul_nonneg (le_max_right _ _) ?_
  rcases npsign_cases x with ⟨h, e⟩ | ⟨h, e⟩ | ⟨h, e⟩ <;> rw [e]
  · norm_num
  · linarith

theorem softR_mono {x y t : ℝ} (hxy : x ≤ y) : softR rnd x t ≤ softR rnd y t := by
  have hpos : ∀ a b : ℝ, 0 ≤ a → a ≤ b → softR rnd a t ≤ softR rnd b t := by
    intro a b ha hab
    rcases ha.eq_or_lt with rfl | ha
    · rw [show softR rnd 0 t = 0 by simp [softR, npsign]]
      exact softR_nonneg_of_nonneg hab
    · have hb := lt_of_lt_of_le ha hab
      unfold softR
      rw [show npsign a = 1 by simp [npsign, ha], show npsign b = 1 by simp [npsign, hb], mul_one, mul_one,
        abs_of_pos ha, abs_of_pos hb]
      exact max_le_max (hr.mono (by linarith)) le_rfl
  rcases le_total 0 x with hx | hx
  · exact hpos x y hx hxy
  · rcases le_total 0 y with hy | hy
    · have h1 := softR_nonneg_of_nonneg (rnd := rnd) (t := t) (neg_nonneg.mpr hx)
      rw [softR_odd] at h1
      linarith [softR_nonneg_of_nonneg (rnd := rnd) (t := t) hy]
    · have := hpos (-y) (-x) (by linarith) (by linarith)
      rw [softR_odd, softR_odd] at this
      linarith

omit hr in
theorem softR_id (x t : ℝ) : softR (fun v => v) x t = softScalar x t := rfl

/-- Rounding the subtraction costs the fraction `u` of the result. -/
theorem softR_err (x t : ℝ) : |softR rnd x t - softScalar x t| ≤ u * |softScalar x t| := by
  have hu := hr.nonneg_u
  unfold softR softScalar
  rw [← sub_mul, abs_mul, abs_mul, ← mul_assoc]
  refine mul_le_mul_of_nonneg_right ?_ (abs_nonneg _)
  rcases le_total (|x| - t) 0 with h | h
  · rw [max_eq_right h, max_eq_right (hr.nonpos h)]; simp
  · rw [max_eq_left h, max_eq_left (hr.nonneg h)]
    exact hr.err _

omit hr in
theorem softScalar_thresh (x s t : ℝ) : |softScalar x s - softScalar x t| ≤ |s - t| := by
  unfold softScalar
  rw [← sub_mul, abs_mul]
  have h1 : |npsign x| ≤ 1 := by
    rcases npsign_cases x with ⟨h, e⟩ | ⟨h, e⟩ | ⟨h, e⟩ <;> rw [e] <;> norm_num
  have h2 : |max (|x| - s) 0 - max (|x| - t) 0| ≤ |s - t| := by
    refine (abs_max_sub_max_le_abs _ _ _).trans ?_
    rw [show |x| - s - (|x| - t) = -(s - t) by ring, abs_neg]
  calc _ ≤ |s - t| * 1 := mul_le_mul h2 h1 (abs_nonneg _) (abs_nonneg _)
    _ = _ := mul_one _

omit hr in
theorem softScalar_abs_le {x t : ℝ} (ht : 0 ≤ t) : |softScalar x t| ≤ |x| := by
  have h := softR_abs_le (rnd := fun v => v) x t
  rw [softR_id] at h
  exact h.trans (max_le (by linarith) (abs_nonneg x))

omit hr in
theorem softScalar_lip (x y t : ℝ) (ht : 0 ≤ t) : |softScalar x t - softScalar y t| ≤ |x - y| := by
  have hmono : ∀ a b : ℝ, a ≤ b → 0 ≤ softScalar b t - softScalar a t ∧ softScalar b t - softScalar a t ≤ b - a := by
    intro a b hab
    have key : ∀ v : ℝ, softScalar v t = max (v - t) 0 + min (v + t) 0 := by
      intro v
      unfold softScalar
      rcases npsign_cases v with ⟨h, e⟩ | ⟨h, e⟩ | ⟨h, e⟩ <;> rw [e]
      · rw [abs_of_pos h, min_eq_right (by linarith)]; ring
      · rw [abs_of_neg h, max_eq_right (show v - t ≤ 0 by linarith), ← neg_neg (min (v + t) 0), ← max_neg_neg]
        rw [neg_zero, show -(v + t) = -v - t by ring]; ring
      · rw [h, max_eq_right (show (0:ℝ) - t ≤ 0 by linarith), min_eq_right (show (0:ℝ) ≤ 0 + t by linarith)]; ring
    rw [key, key]
    have e : ∀ v, max (v - t) 0 + min (v + t) 0 = v - max (-t) (min v t) := by
      intro v
      rcases le_total v t with h1 | h1 <;> rcases le_total (-t) v with h2 | h2
      · rw [min_eq_left h1, max_eq_right h2, max_eq_right (by linarith), min_eq_right (by linarith)]; ring
      · rw [min_eq_left h1, max_eq_left h2, max_eq_right (by linarith), min_eq_left (by linarith)]; ring
      · rw [min_eq_right h1, max_eq_right (show -t ≤ t by linarith), max_eq_left (show (0:ℝ) ≤ v - t by linarith),
          min_eq_right (show (0:ℝ) ≤ v + t by linarith)]; ring
      · have : v = t := by linarith
        have h0 : t = 0 := by linarith
        subst h0; subst this; simp
    rw [e, e]
    have m1 : max (-t) (min a t) ≤ max (-t) (min b t) := max_le_max le_rfl (min_le_min hab le_rfl)
    have m2 : max (-t) (min b t) ≤ max (-t) (min a t) + (b - a) := by
      refine max_le (by linarith [le_max_left (-t) (min a t)]) ?_
      refine le_trans ?_ (add_le_add_left (le_max_right (-t) (min a t)) (b - a))
      rcases le_total a t with h1 | h1
      · rw [min_eq_left h1]; linarith [min_le_left b t]
      · rw [min_eq_right h1]; linarith [min_le_right b t]
    constructor <;> linarith
  rcases le_total x y with h | h
  · obtain ⟨h1, h2⟩ := hmono x y h
    rw [abs_sub_comm, abs_sub_comm x, abs_of_nonneg h1, abs_of_nonneg (by linarith)]
    exact h2
  · obtain ⟨h1, h2⟩ := hmono y x h
    rw [abs_of_nonneg h1, abs_of_nonneg (by linarith)]
    exact h2

end entry

/-! ## C113 -/

section ops

variable {rnd : ℝ → ℝ} {u : ℝ}

theorem L1R_prox_none (val : Vec ι → Py CallVal) (σ : ℝ) (x : Vec ι) {τ : ℝ} (hτ : 0 < τ) :
    (L1R rnd val σ none).prox x τ = .ok (vmk fun i => softR rnd (x i) (rnd (τ * σ))) := by
  simp [ProxOp.prox, L1R, checkTau, not_le.mpr hτ]

theorem L1R_prox_some (val : Vec ι → Py CallVal) (σ : ℝ) (g x : Vec ι) {τ : ℝ} (hτ : 0 < τ) :
    (L1R rnd val σ (some g)).prox x τ =
      .ok (vmk fun i => rnd (softR rnd (rnd (x i - g i)) (rnd (τ * σ)) + g i)) := by
  simp [ProxOp.prox, L1R, checkTau, not_le.mpr hτ]

theorem L1_prox_val (σ : ℝ) (g : Option (Vec ι)) (x : Vec ι) {τ : ℝ} (hτ : 0 < τ) :
    (L1 σ g).prox x τ = .ok (vmk fun i => softScalar (x i - (g.getD 0) i) (τ * σ) + (g.getD 0) i) := by
  rcases g with _ | g
  · simp [ProxOp.prox, L1, checkTau, not_le.mpr hτ, softthreshold]
  · simp only [ProxOp.prox, L1, checkTau, not_le.mpr hτ, softthreshold, if_false, Option.getD_some]
    congr 1

/-- **C113** `L1.prox` in rounded arithmetic, entry by entry: the entry is exactly zero if and only if its magnitude is
at most the computed threshold; the sign never flips; a number of the format never grows; the result is a number of the
format; and it differs from the exact result by at most `u (|x| + tau sigma)`. -/
theorem C113_l1 (hr : Rounding rnd u) (val : Vec ι → Py CallVal) {σ τ : ℝ} (hσ : 0 ≤ σ) (hτ : 0 < τ) (x : Vec ι) :
    ∃ y s, (L1R rnd val σ none).prox x τ = .ok y ∧ (L1 σ none).prox x τ = .ok s ∧
      ∀ i, (y i = 0 ↔ |x i| ≤ rnd (τ * σ)) ∧ 0 ≤ y i * x i ∧ (IsFloat rnd (x i) → |y i| ≤ |x i|) ∧
        IsFloat rnd (y i) ∧ |y i - s i| ≤ u * (|x i| + τ * σ) := by
  have hT : 0 ≤ τ * σ := mul_nonneg hτ.le hσ
  have ht : 0 ≤ rnd (τ * σ) := hr.nonneg hT
  refine ⟨_, _, L1R_prox_none val σ x hτ, L1_prox_val σ none x hτ, fun i => ?_⟩
  refine ⟨softR_eq_zero_iff hr ht, softR_sign _ _, fun hx => softR_shrinks hr ht hx, softR_float hr _ _, ?_⟩
  have h1 := softR_err hr (x i) (rnd (τ * σ))
  have h2 := softScalar_thresh (x i) (rnd (τ * σ)) (τ * σ)
  have h3 := hr.err (τ * σ)
  rw [abs_of_nonneg hT] at h3
  have h4 := mul_le_mul_of_nonneg_left (softScalar_abs_le (x := x i) ht) hr.nonneg_u
  have h5 := abs_sub_le (softR rnd (x i) (rnd (τ * σ))) (softScalar (x i) (rnd (τ * σ))) (softScalar (x i) (τ * σ))
  simp only [Option.getD_none, PiLp.zero_apply, sub_zero, add_zero]
  linarith

/-- **C113** `L1.prox` in rounded arithmetic keeps the order of entries and commutes with the change of sign. -/
theorem C113_l1_order (hr : Rounding rnd u) (val : Vec ι → Py CallVal) (σ : ℝ) {τ : ℝ} (hτ : 0 < τ) (x y : Vec ι) :
    ∃ px py pn, (L1R rnd val σ none).prox x τ = .ok px ∧ (L1R rnd val σ none).prox y τ = .ok py ∧
      (L1R rnd val σ none).prox (-x) τ = .ok pn ∧ pn = -px ∧ ∀ i, x i ≤ y i → px i ≤ py i := by
  refine ⟨_, _, _, L1R_prox_none val σ x hτ, L1R_prox_none val σ y hτ, L1R_prox_none val σ (-x) hτ, ?_, ?_⟩
  · ext i
    simp [softR_odd]
  · intro i h
    exact softR_mono hr h

/-- **C113** In rounded arithmetic two results of `L1.prox` are no further apart than the two inputs, up to the
fraction `u` of the two results in exact arithmetic at the computed threshold. -/
theorem C113_l1_distance (hr : Rounding rnd u) (val : Vec ι → Py CallVal) {σ τ : ℝ} (hσ : 0 ≤ σ) (hτ : 0 < τ) (x y : Vec ι) :
    ∃ px py, (L1R rnd val σ none).prox x τ = .ok px ∧ (L1R rnd val σ none).prox y τ = .ok py ∧
      ∀ i, |px i - py i| ≤ |x i - y i| + u * (|x i| + |y i|) := by
  have ht : 0 ≤ rnd (τ * σ) := hr.nonneg (mul_nonneg hτ.le hσ)
  refine ⟨_, _, L1R_prox_none val σ x hτ, L1R_prox_none val σ y hτ, fun i => ?_⟩
  have h1 := softR_err hr (x i) (rnd (τ * σ))
  have h2 := softR_err hr (y i) (rnd (τ * σ))
  have h3 := softScalar_lip (x i) (y i) _ ht
  have h4 := mul_le_mul_of_nonneg_left (softScalar_abs_le (x := x i) ht) hr.nonneg_u
  have h5 := mul_le_mul_of_nonneg_left (softScalar_abs_le (x := y i) ht) hr.nonneg_u
  have h6 := abs_sub_le (softR rnd (x i) (rnd (τ * σ))) (softScalar (x i) (rnd (τ * σ))) (softR rnd (y i) (rnd (τ * σ)))
  have h7 := abs_sub_le (softScalar (x i) (rnd (τ * σ))) (softScalar (y i) (rnd (τ * σ))) (softR rnd (y i) (rnd (τ * σ)))
  rw [abs_sub_comm (softScalar (y i) _) (softR rnd (y i) _)] at h7
  simp only
  linarith

/-- **C113** With an offset `g`: `g` itself is returned exactly, and the result differs from the exact one by at most
`u ((3 + 2u) |x - g| + tau sigma + |g|)`. -/
theorem C113_l1_offset (hr : Rounding rnd u) (val : Vec ι → Py CallVal) {σ τ : ℝ} (hσ : 0 ≤ σ) (hτ : 0 < τ) (g x : Vec ι)
    (hg : ∀ i, IsFloat rnd (g i)) :
    ∃ y s, (L1R rnd val σ (some g)).prox x τ = .ok y ∧ (L1 σ (some g)).prox x τ = .ok s ∧
      ∀ i, IsFloat rnd (y i) ∧ (x i = g i → y i = g i) ∧
        |y i - s i| ≤ u * ((3 + 2 * u) * |x i - g i| + τ * σ + |g i|) := by
  have hT : 0 ≤ τ * σ := mul_nonneg hτ.le hσ
  have ht : 0 ≤ rnd (τ * σ) := hr.nonneg hT
  have hu := hr.nonneg_u
  refine ⟨_, _, L1R_prox_some val σ g x hτ, L1_prox_val σ (some g) x hτ, fun i => ⟨hr.idem _, ?_, ?_⟩⟩
  · intro h
    simp only [h, sub_self, hr.zero]
    rw [show softR rnd 0 (rnd (τ * σ)) = 0 by simp [softR, npsign], zero_add]
    exact hg i
  · simp only [Option.getD_some]
    set d := x i - g i with hd
    set t := rnd (τ * σ) with hte
    have hd' := hr.err d
    have e1 := softR_err hr (rnd d) t
    have e2 := softScalar_thresh (rnd d) t (τ * σ)
    have e3 := hr.err (τ * σ)
    rw [abs_of_nonneg hT, ← hte] at e3
    have e4 := softScalar_lip (rnd d) d _ hT
    have e5 := softScalar_abs_le (x := rnd d) ht
    have e6 := softR_shrinks hr ht (hr.idem d)
    have e7 := hr.err (softR rnd (rnd d) t + g i)
    have e8 := abs_add_le (softR rnd (rnd d) t) (g i)
    have e9 : |rnd d| ≤ (1 + u) * |d| := by
      have := abs_sub_abs_le_abs_sub (rnd d) d
      linarith
    have f1 := abs_sub_le (rnd (softR rnd (rnd d) t + g i)) (softR rnd (rnd d) t + g i) (softScalar d (τ * σ) + g i)
    have f2 := abs_sub_le (softR rnd (rnd d) t) (softScalar (rnd d) t) (softScalar d (τ * σ))
    have f3 := abs_sub_le (softScalar (rnd d) t) (softScalar (rnd d) (τ * σ)) (softScalar d (τ * σ))
    rw [show softR rnd (rnd d) t + g i - (softScalar d (τ * σ) + g i) = softR rnd (rnd d) t - softScalar d (τ * σ) by ring] at f1
    have k1 : u * |softScalar (rnd d) t| ≤ u * ((1 + u) * |d|) := mul_le_mul_of_nonneg_left (e5.trans e9) hu
    have k2 : u * |softR rnd (rnd d) t + g i| ≤ u * ((1 + u) * |d| + |g i|) :=
      mul_le_mul_of_nonneg_left (e8.trans (by linarith)) hu
    nlinarith

/-- **C113** `L1.proxdual` without an offset does not round: its entries are in `[-sigma, sigma]` exactly and are
numbers of the format, and for `tau = 1` prox and proxdual add up to the input up to the fraction `u` of what exceeds
the threshold. -/
theorem C113_l1_dual (hr : Rounding rnd u) (val : Vec ι → Py CallVal) {σ τ : ℝ} (hσ : 0 ≤ σ) (hσf : IsFloat rnd σ) (hτ : 0 < τ)
    (x : Vec ι) :
    ∃ d p, (L1R rnd val σ none).proxdual x τ = .ok d ∧ (L1 σ none).proxdual x τ = .ok d ∧
      (L1R rnd val σ none).prox x 1 = .ok p ∧
      ∀ i, -σ ≤ d i ∧ d i ≤ σ ∧ (IsFloat rnd (x i) → IsFloat rnd (d i)) ∧
        |p i + d i - x i| ≤ u * max (|x i| - σ) 0 := by
  have hd : ∀ v : ℝ, boxClip (some (-σ)) (some σ) v = min (max v (-σ)) σ := fun v => rfl
  refine ⟨boxProj (fun _ => some (-σ)) (fun _ => some σ) x, _, ?_, ?_, L1R_prox_none val σ x one_pos, fun i => ?_⟩
  · simp [ProxOp.proxdual, L1R, checkTau, not_le.mpr hτ]
  · simp [ProxOp.proxdual, L1, checkTau, not_le.mpr hτ]
  · simp only [boxProj, hd]
    refine ⟨le_min (le_max_right _ _) (by linarith), min_le_right _ _, fun hx => ?_, ?_⟩
    · rcases min_choice (max (x i) (-σ)) σ with h | h <;> rw [h]
      · rcases max_choice (x i) (-σ) with h | h <;> rw [h]
        · exact hx
        · exact hr.float_neg hσf
      · exact hσf
    · rw [one_mul, show rnd σ = σ from hσf]
      unfold softR
      rcases le_total |x i| σ with h | h
      · obtain ⟨h1, h2⟩ := abs_le.mp h
        rw [max_eq_right (hr.nonpos (by linarith)), max_eq_left h1, min_eq_left h2, max_eq_right (by linarith)]
        simp
      · have e := hr.err (|x i| - σ)
        rw [abs_of_nonneg (show 0 ≤ |x i| - σ by linarith)] at e
        rw [max_eq_left (hr.nonneg (by linarith)), max_eq_left (show 0 ≤ |x i| - σ by linarith)]
        rcases npsign_cases (x i) with ⟨hx, es⟩ | ⟨hx, es⟩ | ⟨hx, es⟩ <;> rw [es]
        · rw [abs_of_pos hx] at e h ⊢
          rw [max_eq_left (by linarith), min_eq_right h, mul_one]
          rwa [show rnd (x i - σ) + σ - x i = rnd (x i - σ) - (x i - σ) by ring]
        · rw [abs_of_neg hx] at e h ⊢
          rw [max_eq_right (by linarith), min_eq_left (by linarith), mul_neg_one, ← abs_neg]
          rwa [show -(-rnd (-x i - σ) + -σ - x i) = rnd (-x i - σ) - (-x i - σ) by ring]
        · have hs : σ = 0 := by rw [hx] at h; simp at h; linarith
          simp [hx, hs]

/-- **C113** `Box` does not round: the result is the exact projection, in the box and made of numbers of the format. -/
theorem C113_box (hr : Rounding rnd u) (lower upper : ι → ℝ) (hle : ∀ i, lower i ≤ upper i) (hl : ∀ i, IsFloat rnd (lower i))
    (hup : ∀ i, IsFloat rnd (upper i)) (x : Vec ι) (hx : ∀ i, IsFloat rnd (x i)) {τ : ℝ} (hτ : 0 < τ) :
    ∃ y, (Box (fun i => some (lower i)) fun i => some (upper i)).prox x τ = .ok y ∧
      ∀ i, IsFloat rnd (y i) ∧ lower i ≤ y i ∧ y i ≤ upper i ∧ (lower i ≤ x i → x i ≤ upper i → y i = x i) := by
  have _ := hr
  refine ⟨boxProj (fun i => some (lower i)) (fun i => some (upper i)) x, ?_, fun i => ?_⟩
  · simp [ProxOp.prox, Box, checkTau, not_le.mpr hτ]
  · have hd : boxClip (some (lower i)) (some (upper i)) (x i) = min (max (x i) (lower i)) (upper i) := rfl
    simp only [boxProj, hd]
    refine ⟨?_, le_min (le_max_right _ _) (hle i), min_le_right _ _, fun h1 h2 => by rw [max_eq_left h1, min_eq_left h2]⟩
    rcases min_choice (max (x i) (lower i)) (upper i) with h | h <;> rw [h]
    · rcases max_choice (x i) (lower i) with h | h <;> rw [h]
      · exact hx i
      · exact hl i
    · exact hup i

/-- **C113** `L0.prox` in rounded arithmetic sets to zero exactly the entries whose magnitude is at most the computed
threshold, and returns the others as they are. -/
theorem C113_l0 (val : Vec ι → Py CallVal) (σ : ℝ) {τ : ℝ} (hτ : 0 < τ) (x : Vec ι) :
    ∃ y, (L0R rnd val σ).prox x τ = .ok y ∧
      ∀ i, (|x i| ≤ rnd (τ * σ) → y i = 0) ∧ (rnd (τ * σ) < |x i| → y i = x i) := by
  refine ⟨vmk fun i => if |x i| ≤ rnd (τ * σ) then 0 else x i, ?_, fun i => ⟨fun h => ?_, fun h => ?_⟩⟩
  · simp [ProxOp.prox, L0R, checkTau, not_le.mpr hτ]
  · simp [h]
  · simp [not_le.mpr h]

/-- A quotient by the rounded `1 + tau sigma`: the relative error of the three rounded operations. -/
theorem divR_err (hr : Rounding rnd u) {T : ℝ} (hT : 0 ≤ T) (v : ℝ) :
    |rnd (v / rnd (1 + rnd T)) - v / (1 + T)| ≤ ((1 + u) / (1 - u) ^ 2 - 1) * |v / (1 + T)| := by
  have hu := hr.nonneg_u
  have hl := hr.lt
  have h0 : ∀ v : ℝ, 0 ≤ v →
      |rnd (v / rnd (1 + rnd T)) - v / (1 + T)| ≤ ((1 + u) / (1 - u) ^ 2 - 1) * |v / (1 + T)| := by
    intro v hv
    have ht := hr.nonneg hT
    set d := rnd (1 + rnd T) with hd
    have hD : 0 < 1 + T := by linarith
    have hdl : (1 - u) ^ 2 * (1 + T) ≤ d := by
      have a := hr.lower (show 0 ≤ 1 + rnd T by linarith)
      have b := hr.lower hT
      have : (1 - u) * (1 + T) ≤ 1 + rnd T := by nlinarith
      calc (1 - u) ^ 2 * (1 + T) = (1 - u) * ((1 - u) * (1 + T)) := by ring
        _ ≤ (1 - u) * (1 + rnd T) := mul_le_mul_of_nonneg_left this (by linarith)
        _ ≤ d := a
    have hdu : d ≤ (1 + u) ^ 2 * (1 + T) := by
      have a := hr.upper (show 0 ≤ 1 + rnd T by linarith)
      have b := hr.upper hT
      have : 1 + rnd T ≤ (1 + u) * (1 + T) := by nlinarith
      calc d ≤ (1 + u) * (1 + rnd T) := a
        _ ≤ (1 + u) * ((1 + u) * (1 + T)) := mul_le_mul_of_nonneg_left this (by linarith)
        _ = _ := by ring
    have hdp : 0 < d := lt_of_lt_of_le (mul_pos (pow_pos (by linarith) 2) hD) hdl
    have hq : 0 ≤ v / d := div_nonneg hv hdp.le
    have qu : v / d ≤ v / (1 + T) / (1 - u) ^ 2 := by
      rw [div_div]
      exact div_le_div_of_nonneg_left hv (mul_pos hD (pow_pos (by linarith) 2)) (by linarith)
    have ql : v / (1 + T) / (1 + u) ^ 2 ≤ v / d := by
      rw [div_div]
      exact div_le_div_of_nonneg_left hv hdp (by linarith)
    have r1 := hr.upper hq
    have r2 := hr.lower hq
    set e := v / (1 + T) with he
    have he0 : 0 ≤ e := div_nonneg hv hD.le
    rw [abs_of_nonneg he0, abs_le]
    have up : rnd (v / d) ≤ (1 + u) / (1 - u) ^ 2 * e := by
      calc _ ≤ (1 + u) * (v / d) := r1
        _ ≤ (1 + u) * (e / (1 - u) ^ 2) := mul_le_mul_of_nonneg_left qu (by linarith)
        _ = _ := by ring
    have lo : (1 - u) / (1 + u) ^ 2 * e ≤ rnd (v / d) := by
      calc _ = (1 - u) * (e / (1 + u) ^ 2) := by ring
        _ ≤ (1 - u) * (v / d) := mul_le_mul_of_nonneg_left ql (by linarith)
        _ ≤ _ := r2
    have c1 : 1 + 3 * u ≤ (1 + u) / (1 - u) ^ 2 := by
      rw [le_div_iff₀ (pow_pos (by linarith) 2)]
      nlinarith [mul_nonneg hu hu, mul_nonneg (mul_nonneg hu hu) hu, mul_nonneg (mul_nonneg hu hu) (show 0 ≤ 1 - u by linarith)]
    have c2 : 1 - 3 * u ≤ (1 - u) / (1 + u) ^ 2 := by
      rw [le_div_iff₀ (pow_pos (by linarith) 2)]
      nlinarith [mul_nonneg hu hu, mul_nonneg (mul_nonneg hu hu) hu]
    have d1 := mul_le_mul_of_nonneg_right c1 he0
    have d2 := mul_le_mul_of_nonneg_right c2 he0
    constructor <;> nlinarith
  rcases le_total 0 v with hv | hv
  · exact h0 v hv
  · have := h0 (-v) (by linarith)
    rw [neg_div, neg_div, hr.odd, abs_neg] at this
    rw [← abs_neg]
    convert this using 2
    ring

theorem divR_props (hr : Rounding rnd u) {T : ℝ} (hT : 0 ≤ T) (v : ℝ) :
    0 ≤ rnd (v / rnd (1 + rnd T)) * v ∧ (IsFloat rnd v → |rnd (v / rnd (1 + rnd T))| ≤ |v|) ∧
      IsFloat rnd (rnd (v / rnd (1 + rnd T))) := by
  have h1 : 1 ≤ rnd (1 + rnd T) := by
    have := hr.mono (show (1 : ℝ) ≤ 1 + rnd T by linarith [hr.nonneg hT])
    rwa [hr.one] at this
  refine ⟨?_, fun hv => ?_, hr.idem _⟩
  · rcases le_total 0 v with hv | hv
    · exact mul_nonneg (hr.nonneg (div_nonneg hv (by linarith))) hv
    · exact mul_nonneg_of_nonpos_of_nonpos (hr.nonpos (div_nonpos_of_nonpos_of_nonneg hv (by linarith))) hv
  · rw [hr.abs_rnd, abs_div, abs_of_pos (show 0 < rnd (1 + rnd T) by linarith)]
    have := hr.mono (div_le_self (abs_nonneg v) h1)
    rwa [hr.float_abs hv] at this

/-- **C113** `L2.prox` without operator and data in rounded arithmetic: the sign never flips, a number of the format
never grows, the order is kept, and the relative error is at most `(1 + u) / (1 - u)^2 - 1` (about `3 u`). -/
theorem C113_l2 (hr : Rounding rnd u) (val : Vec ι → Py CallVal) {σ τ : ℝ} (hσ : 0 ≤ σ) (hτ : 0 < τ) (x : Vec ι) :
    ∃ y, (L2R rnd val σ none).prox x τ = .ok y ∧
      ∀ i, 0 ≤ y i * x i ∧ (IsFloat rnd (x i) → |y i| ≤ |x i|) ∧ IsFloat rnd (y i) ∧ (∀ j, x i ≤ x j → y i ≤ y j) ∧
        |y i - x i / (1 + τ * σ)| ≤ ((1 + u) / (1 - u) ^ 2 - 1) * |x i / (1 + τ * σ)| := by
  have hT : 0 ≤ τ * σ := mul_nonneg hτ.le hσ
  refine ⟨vmk fun i => rnd (x i / rnd (1 + rnd (τ * σ))), ?_, fun i => ?_⟩
  · simp [ProxOp.prox, L2R, checkTau, not_le.mpr hτ]
  · obtain ⟨h1, h2, h3⟩ := divR_props hr hT (x i)
    refine ⟨h1, h2, h3, fun j hj => hr.mono ?_, divR_err hr hT _⟩
    exact div_le_div_of_nonneg_right hj (hr.nonneg (by linarith [hr.nonneg hT]))

/-- **C113** `Huber.prox` in rounded arithmetic: the sign never flips and a number of the format never grows. -/
theorem C113_huber (hr : Rounding rnd u) (val : Vec ι → Py CallVal) {α τ : ℝ} (hα : 0 < α) (hτ : 0 < τ) (x : Vec ι) :
    ∃ y, (HuberR rnd val α).prox x τ = .ok y ∧
      ∀ i, 0 ≤ y i * x i ∧ (IsFloat rnd (x i) → |y i| ≤ |x i|) ∧ IsFloat rnd (y i) := by
  have hT : 0 ≤ τ * rnd (1 / α) := mul_nonneg hτ.le (hr.nonneg (by positivity))
  refine ⟨vmk fun i => if |x i| > α then softR rnd (x i) (rnd (τ * 1)) else rnd (x i / rnd (1 + rnd (τ * rnd (1 / α)))),
    ?_, fun i => ?_⟩
  · simp [ProxOp.prox, HuberR, checkTau, not_le.mpr hτ]
  · simp only
    split_ifs
    · exact ⟨softR_sign _ _, fun h => softR_shrinks hr (hr.nonneg (by linarith)) h, softR_float hr _ _⟩
    · exact divR_props hr hT (x i)

/-- **C113** `Euclidean.prox` in rounded arithmetic: everything becomes zero when the computed norm is at most the
computed threshold, the sign of no entry flips, and no number of the format grows. -/
theorem C113_euclidean (hr : Rounding rnd u) (nrm : Vec ι → ℝ) (val : Vec ι → Py CallVal) {σ τ : ℝ} (hσ : 0 < σ) (hτ : 0 < τ)
    (x : Vec ι) :
    ∃ y, (EuclideanR rnd nrm val σ).prox x τ = .ok y ∧ (nrm x ≤ rnd (τ * σ) → y = 0) ∧
      ∀ i, 0 ≤ y i * x i ∧ (IsFloat rnd (x i) → |y i| ≤ |x i|) ∧ IsFloat rnd (y i) := by
  have ht : 0 < rnd (τ * σ) := hr.pos (mul_pos hτ hσ)
  set t := rnd (τ * σ) with hte
  have hm : 0 < max (nrm x) t := lt_of_lt_of_le ht (le_max_right _ _)
  have hq1 : t / max (nrm x) t ≤ 1 := (div_le_one hm).mpr (le_max_right _ _)
  have hq0 : 0 ≤ t / max (nrm x) t := div_nonneg ht.le hm.le
  have hr1 : rnd (t / max (nrm x) t) ≤ 1 := by have := hr.mono hq1; rwa [hr.one] at this
  have hr0 : 0 ≤ rnd (t / max (nrm x) t) := hr.nonneg hq0
  have hf0 : 0 ≤ rnd (1 - rnd (t / max (nrm x) t)) := hr.nonneg (by linarith)
  have hf1 : rnd (1 - rnd (t / max (nrm x) t)) ≤ 1 := by
    have := hr.mono (show 1 - rnd (t / max (nrm x) t) ≤ 1 by linarith); rwa [hr.one] at this
  refine ⟨vmk fun i => rnd (rnd (1 - rnd (t / max (nrm x) t)) * x i), ?_, fun h => ?_, fun i => ⟨?_, fun hx => ?_, hr.idem _⟩⟩
  · simp [ProxOp.prox, EuclideanR, checkTau, not_le.mpr hτ, ← hte, hm.ne']
  · ext i
    simp [max_eq_right h, div_self ht.ne', hr.one, hr.zero]
  · rcases le_total 0 (x i) with hx | hx
    · exact mul_nonneg (hr.nonneg (mul_nonneg hf0 hx)) hx
    · exact mul_nonneg_of_nonpos_of_nonpos (hr.nonpos (mul_nonpos_of_nonneg_of_nonpos hf0 hx)) hx
  · simp only
    rw [hr.abs_rnd, abs_mul, abs_of_nonneg hf0]
    have := hr.mono (show rnd (1 - rnd (t / max (nrm x) t)) * |x i| ≤ |x i| by nlinarith [abs_nonneg (x i)])
    rwa [hr.float_abs hx] at this

/-- Two quotients `t / max(n, t)` whose parts differ by at most the fraction `δ`. -/
theorem ratio_close {t T n N δ : ℝ} (hT : 0 < T) (hδ : 0 ≤ δ) (hδ1 : δ < 1) (ht : |t - T| ≤ δ * T)
    (hN : |N - n| ≤ δ * n) : |t / max N t - T / max n T| ≤ 2 * δ / (1 - δ) := by
  obtain ⟨t1, t2⟩ := abs_le.mp ht
  obtain ⟨n1, n2⟩ := abs_le.mp hN
  have htp : 0 < t := by nlinarith
  set M := max n T with hM
  have hMp : 0 < M := lt_of_lt_of_le hT (le_max_right _ _)
  have hTM : T ≤ M := le_max_right _ _
  have mu : max N t ≤ (1 + δ) * M := by
    refine max_le ?_ ?_
    · nlinarith [le_max_left n T]
    · nlinarith
  have ml : (1 - δ) * M ≤ max N t := by
    rcases max_choice n T with h | h
    · rw [hM, h]; exact le_trans (by linarith) (le_max_left _ _)
    · rw [hM, h]; exact le_trans (by linarith) (le_max_right _ _)
  have mp : 0 < max N t := lt_of_lt_of_le htp (le_max_right _ _)
  have hd : 0 < 1 - δ := by linarith
  set e := T / M with he
  have he0 : 0 ≤ e := div_nonneg hT.le hMp.le
  have he1 : e ≤ 1 := (div_le_one hMp).mpr hTM
  have up : t / max N t ≤ (1 + δ) / (1 - δ) * e := by
    rw [he, div_mul_div_comm]
    exact div_le_div₀ (by positivity) (by linarith) (by positivity) ml
  have lo : (1 - δ) / (1 + δ) * e ≤ t / max N t := by
    rw [he, div_mul_div_comm]
    exact div_le_div₀ htp.le (by linarith) mp mu
  have k : (1 + δ) / (1 - δ) = 1 + 2 * δ / (1 - δ) := by field_simp; ring
  have k' : 1 - 2 * δ / (1 - δ) ≤ (1 - δ) / (1 + δ) := by
    rw [show (1 - δ) / (1 + δ) = 1 - 2 * δ / (1 + δ) by field_simp; ring]
    have : 2 * δ / (1 + δ) ≤ 2 * δ / (1 - δ) := div_le_div_of_nonneg_left (by linarith) hd (by linarith)
    linarith
  have kp : 0 ≤ 2 * δ / (1 - δ) := by positivity
  rw [abs_le]
  constructor
  · have := mul_le_mul_of_nonneg_right k' he0
    nlinarith
  · rw [k] at up
    nlinarith

/-- **C113** `Euclidean.prox` in rounded arithmetic, with a norm computed to relative accuracy `δ`, differs from the
exact result by at most the fraction `3 u + 2 δ / (1 - δ)` of every entry of the input. -/
theorem C113_euclidean_error (hr : Rounding rnd u) (nrm : Vec ι → ℝ) (val : Vec ι → Py CallVal) {σ τ δ : ℝ} (hσ : 0 < σ)
    (hτ : 0 < τ) (huδ : u ≤ δ) (hδ : δ < 1) (x : Vec ι) (hn : |nrm x - ‖x‖| ≤ δ * ‖x‖) :
    ∃ y s, (EuclideanR rnd nrm val σ).prox x τ = .ok y ∧ (Euclidean σ).prox x τ = .ok s ∧
      ∀ i, |y i - s i| ≤ (3 * u + 2 * δ / (1 - δ)) * |x i| := by
  have hu := hr.nonneg_u
  have hT : 0 < τ * σ := mul_pos hτ hσ
  have ht : 0 < rnd (τ * σ) := hr.pos hT
  have hte := hr.err (τ * σ)
  rw [abs_of_pos hT] at hte
  set t := rnd (τ * σ) with htd
  have hm : 0 < max (nrm x) t := lt_of_lt_of_le ht (le_max_right _ _)
  have hm' : 0 < max ‖x‖ (τ * σ) := lt_of_lt_of_le hT (le_max_right _ _)
  have hc := ratio_close (N := nrm x) hT (hu.trans huδ) hδ (hte.trans (by nlinarith)) hn
  have hq1 : t / max (nrm x) t ≤ 1 := (div_le_one hm).mpr (le_max_right _ _)
  have hq0 : 0 ≤ t / max (nrm x) t := div_nonneg ht.le hm.le
  have hr1 : rnd (t / max (nrm x) t) ≤ 1 := by have := hr.mono hq1; rwa [hr.one] at this
  have hr0 : 0 ≤ rnd (t / max (nrm x) t) := hr.nonneg hq0
  have e1 := hr.err (t / max (nrm x) t)
  rw [abs_of_nonneg hq0] at e1
  have e2 := hr.err (1 - rnd (t / max (nrm x) t))
  rw [abs_of_nonneg (show 0 ≤ 1 - rnd (t / max (nrm x) t) by linarith)] at e2
  have hf1 : rnd (1 - rnd (t / max (nrm x) t)) ≤ 1 := by
    have := hr.mono (show 1 - rnd (t / max (nrm x) t) ≤ 1 by linarith); rwa [hr.one] at this
  have hf0 : 0 ≤ rnd (1 - rnd (t / max (nrm x) t)) := hr.nonneg (by linarith)
  refine ⟨vmk fun i => rnd (rnd (1 - rnd (t / max (nrm x) t)) * x i), (1 - τ * σ / max ‖x‖ (τ * σ)) • x, ?_, ?_, fun i => ?_⟩
  · simp [ProxOp.prox, EuclideanR, checkTau, not_le.mpr hτ, ← htd, hm.ne']
  · simp only [ProxOp.prox, Euclidean, checkTau, not_le.mpr hτ, if_false, hm'.ne']
  · simp only [PiLp.smul_apply, smul_eq_mul]
    set q := t / max (nrm x) t
    set Q := τ * σ / max ‖x‖ (τ * σ)
    set f := rnd (1 - rnd q)
    have e3 := hr.err (f * x i)
    rw [abs_mul, abs_of_nonneg hf0] at e3
    have g1 := abs_sub_le (rnd (f * x i)) (f * x i) ((1 - Q) * x i)
    have g2 : |f * x i - (1 - Q) * x i| = |f - (1 - Q)| * |x i| := by rw [← sub_mul, abs_mul]
    have g3 : |f - (1 - Q)| ≤ u + u + 2 * δ / (1 - δ) := by
      have a := abs_sub_le f (1 - rnd q) (1 - Q)
      have b : |1 - rnd q - (1 - Q)| = |rnd q - Q| := by rw [← abs_neg]; congr 1; ring
      have c := abs_sub_le (rnd q) q Q
      have d1 : u * (1 - rnd q) ≤ u := by nlinarith
      have d2 : u * q ≤ u := by nlinarith
      linarith
    have g4 := mul_le_mul_of_nonneg_right g3 (abs_nonneg (x i))
    have g5 : u * (f * |x i|) ≤ u * |x i| := mul_le_mul_of_nonneg_left (by nlinarith [abs_nonneg (x i)]) hu
    nlinarith

theorem EuclideanBallR_prox (nrm : Vec ι → ℝ) (c : Vec ι) {r τ : ℝ} (hrad : 0 < r) (hτ : 0 < τ) (x : Vec ι) :
    (EuclideanBallR rnd nrm c r).prox x τ = .ok (vmk fun i => rnd (c i +
      rnd (rnd (r / max (nrm (vmk fun i => rnd (x i - c i))) r) * rnd (x i - c i)))) := by
  have hm : 0 < max (nrm (vmk fun i => rnd (x i - c i))) r := lt_of_lt_of_le hrad (le_max_right _ _)
  simp only [ProxOp.prox, EuclideanBallR, checkTau, not_le.mpr hτ, if_false, hm.ne']

/-- Rounding every entry changes a vector by at most the fraction `u` of its norm. -/
theorem norm_rnd_sub (hr : Rounding rnd u) (v : Vec ι) : ‖(vmk fun i => rnd (v i)) - v‖ ≤ u * ‖v‖ := by
  have hu := hr.nonneg_u
  rw [EuclideanSpace.norm_eq, EuclideanSpace.norm_eq, ← Real.sqrt_sq hu, ← Real.sqrt_mul (sq_nonneg u), Finset.mul_sum]
  refine Real.sqrt_le_sqrt (Finset.sum_le_sum fun i _ => ?_)
  rw [← mul_pow]
  refine pow_le_pow_left₀ (norm_nonneg _) ?_ 2
  simpa [Real.norm_eq_abs] using hr.err (v i)

theorem norm_rnd_le (hr : Rounding rnd u) (v : Vec ι) : ‖(vmk fun i => rnd (v i) : Vec ι)‖ ≤ (1 + u) * ‖v‖ := by
  have h1 := norm_rnd_sub hr v
  have h2 := norm_sub_norm_le (vmk fun i => rnd (v i) : Vec ι) v
  linarith

/-- **C113** `EuclideanBall.prox` in rounded arithmetic with a norm computed to relative accuracy `δ`: the result is in
the ball up to the rounding: with `k = (1 + u)^2 / (1 - δ)` it is at most `k r + u (‖c‖ + k r)` away from the centre. -/
theorem C113_euclidean_ball_partial (hr : Rounding rnd u) (nrm : Vec ι → ℝ) (c : Vec ι) {r τ δ : ℝ} (hrad : 0 < r) (hτ : 0 < τ)
    (hδ : δ < 1) (hn : ∀ v, |nrm v - ‖v‖| ≤ δ * ‖v‖) (x : Vec ι) :
    ∃ y, (EuclideanBallR rnd nrm c r).prox x τ = .ok y ∧ (∀ i, IsFloat rnd (y i)) ∧
      ‖y - c‖ ≤ (1 + u) ^ 2 / (1 - δ) * r + u * (‖c‖ + (1 + u) ^ 2 / (1 - δ) * r) := by
  have hu := hr.nonneg_u
  refine ⟨_, EuclideanBallR_prox nrm c hrad hτ x, fun i => hr.idem _, ?_⟩
  set d : Vec ι := vmk fun i => rnd (x i - c i) with hd
  have hm : 0 < max (nrm d) r := lt_of_lt_of_le hrad (le_max_right _ _)
  set s := rnd (r / max (nrm d) r) with hs
  have hs0 : 0 ≤ s := hr.nonneg (div_nonneg hrad.le hm.le)
  set w : Vec ι := vmk fun i => rnd (s * d i) with hw
  have hδp : 0 < 1 - δ := by linarith
  have hsd : s * ‖d‖ ≤ (1 + u) / (1 - δ) * r := by
    have h1 := hr.upper (show 0 ≤ r / max (nrm d) r from div_nonneg hrad.le hm.le)
    have h2 : (1 - δ) * ‖d‖ ≤ max (nrm d) r := by
      have := (abs_le.mp (hn d)).1
      exact le_trans (by linarith) (le_max_left _ _)
    have h3 : r / max (nrm d) r * ‖d‖ ≤ r / (1 - δ) := by
      rw [div_mul_eq_mul_div, div_le_div_iff₀ hm hδp]
      nlinarith
    calc s * ‖d‖ ≤ (1 + u) * (r / max (nrm d) r) * ‖d‖ := mul_le_mul_of_nonneg_right h1 (norm_nonneg _)
      _ = (1 + u) * (r / max (nrm d) r * ‖d‖) := by ring
      _ ≤ (1 + u) * (r / (1 - δ)) := mul_le_mul_of_nonneg_left h3 (by linarith)
      _ = _ := by ring
  have hwn : ‖w‖ ≤ (1 + u) ^ 2 / (1 - δ) * r := by
    have h := norm_rnd_le hr (s • d)
    rw [norm_smul, Real.norm_eq_abs, abs_of_nonneg hs0] at h
    calc ‖w‖ ≤ (1 + u) * (s * ‖d‖) := h
      _ ≤ (1 + u) * ((1 + u) / (1 - δ) * r) := mul_le_mul_of_nonneg_left hsd (by linarith)
      _ = _ := by ring
  have hy := norm_rnd_sub hr (c + w)
  have hy' : ‖(vmk fun i => rnd (c i + w i) : Vec ι) - c‖ ≤ ‖(vmk fun i => rnd (c i + w i) : Vec ι) - (c + w)‖ + ‖w‖ := by
    have := norm_add_le ((vmk fun i => rnd (c i + w i) : Vec ι) - (c + w)) w
    rwa [show (vmk fun i => rnd (c i + w i) : Vec ι) - (c + w) + w = (vmk fun i => rnd (c i + w i) : Vec ι) - c by abel] at this
  have hcw := norm_add_le c w
  have : u * ‖c + w‖ ≤ u * (‖c‖ + (1 + u) ^ 2 / (1 - δ) * r) := mul_le_mul_of_nonneg_left (hcw.trans (by linarith)) hu
  calc ‖(vmk fun i => rnd (c i + w i) : Vec ι) - c‖
      ≤ ‖(vmk fun i => rnd (c i + w i) : Vec ι) - (c + w)‖ + ‖w‖ := hy'
    _ ≤ u * ‖c + w‖ + ‖w‖ := by
        have : ‖(vmk fun i => rnd (c i + w i) : Vec ι) - (c + w)‖ ≤ u * ‖c + w‖ := hy
        linarith
    _ ≤ _ := by linarith

/-- **C113** A ball centred at the origin returns a point whose computed norm is at most the radius as it is. -/
theorem C113_euclidean_ball_origin (hr : Rounding rnd u) (nrm : Vec ι → ℝ) {r τ : ℝ} (hrad : 0 < r) (hτ : 0 < τ) (x : Vec ι)
    (hx : ∀ i, IsFloat rnd (x i)) (hin : (EuclideanBallR rnd nrm 0 r).call x = .ok (.bool true)) :
    (EuclideanBallR rnd nrm 0 r).prox x τ = .ok x := by
  have hxx : (vmk fun i => rnd (x i - (0 : Vec ι) i) : Vec ι) = x := by
    ext i
    have := hx i
    unfold IsFloat at this
    simpa using this
  rw [EuclideanBallR_prox nrm 0 hrad hτ x, hxx]
  have hle : nrm x ≤ r := by
    have hin' : (EuclideanBallR rnd nrm 0 r).call x = .ok (.bool (decide (nrm x ≤ r))) := by
      conv_rhs => rw [← hxx]
      rfl
    rw [hin'] at hin
    simpa using hin
  congr 1
  ext i
  simp only [PiLp.zero_apply, sub_zero, zero_add, max_eq_right hle, div_self hrad.ne', hr.one, one_mul]
  rw [show rnd (x i) = x i from hx i, show rnd (x i) = x i from hx i, show rnd (x i) = x i from hx i]

/-- **C113** Refuted for other centres: a point of the ball need not be returned.  Whenever `x - c` rounds to `-c`
although `x` is not zero (which happens in every format of fixed precision), the point is accepted by the ball's own
test and the projection returns zero instead. -/
theorem C113_euclidean_ball_refuted (hr : Rounding rnd u) (nrm : Vec ι → ℝ) (c x : Vec ι) {r τ : ℝ} (hrad : 0 < r) (hτ : 0 < τ)
    (hc : ∀ i, IsFloat rnd (c i)) (habs : ∀ i, rnd (x i - c i) = -c i) (hnc : nrm (-c) ≤ r) (hx : x ≠ 0) :
    (EuclideanBallR rnd nrm c r).call x = .ok (.bool true) ∧
      ∃ y, (EuclideanBallR rnd nrm c r).prox x τ = .ok y ∧ y ≠ x := by
  have hd : (vmk fun i => rnd (x i - c i) : Vec ι) = -c := by
    ext i
    simpa using habs i
  refine ⟨?_, _, EuclideanBallR_prox nrm c hrad hτ x, ?_⟩
  · have : (EuclideanBallR rnd nrm c r).call x = .ok (.bool (decide (nrm (vmk fun i => rnd (x i - c i)) ≤ r))) := rfl
    rw [this, hd]
    simp [hnc]
  · rw [hd, max_eq_right hnc, div_self hrad.ne', hr.one]
    intro h
    apply hx
    rw [← h]
    ext i
    have h1 : rnd (-c i) = -c i := hr.float_neg (hc i)
    simp [habs i, h1, hr.zero]

end ops

/-! ### The hypotheses are met -/

section examples

/-- IEEE double precision without exponent limits is a rounding, and not every number belongs to it. -/
example : Rounding (nearBits 52) (1 / 2 * ((2 : ℝ) ^ 52)⁻¹) ∧ IsFloat (nearBits 52) 1 ∧ ∃ v, ¬ IsFloat (nearBits 52) v := by
  have h := nearBits_rounding 52 (by norm_num)
  refine ⟨h, h.one, 1 + ((2 : ℝ) ^ 60)⁻¹, ?_⟩
  unfold IsFloat
  rw [nearBits_absorb 52 (by positivity) (by norm_num)]
  norm_num

/-- `C113_l1` for `sigma = 2`, `tau = 1` in double precision, at a point with an entry below, one at and one above the
threshold. -/
example : ∃ y, (L1R (nearBits 52) (fun _ => .ok (.num 0)) 2 none).prox (vmk ![1, -2, 8]) 1 = .ok y ∧ y 0 = 0 ∧ y 1 = 0 ∧ y 2 ≠ 0 := by
  have h := nearBits_rounding 52 (by norm_num)
  obtain ⟨y, s, hy, _, hp⟩ := C113_l1 h (fun _ => .ok (.num 0)) (σ := 2) (τ := 1) (by norm_num) one_pos (vmk ![1, -2, 8] : Vec (Fin 3))
  have h2 : nearBits 52 (1 * 2) = 2 := by
    have := nearBits_zpow 52 1
    simpa using this
  refine ⟨y, hy, (hp 0).1.mpr ?_, (hp 1).1.mpr ?_, fun hc => ?_⟩
  · rw [h2]; simp
  · rw [h2]; simp
  · have := (hp 2).1.mp hc
    rw [h2, show (vmk ![1, -2, 8] : Vec (Fin 3)) 2 = 8 from rfl] at this
    norm_num at this

/-- The refuted ball, centre -1, radius 1, at a positive point too small to be seen from there. -/
example : ∃ x c : Vec (Fin 1), (∀ i, IsFloat (nearBits 52) (c i)) ∧ (∀ i, nearBits 52 (x i - c i) = -c i) ∧ ‖-c‖ ≤ 1 ∧ x ≠ 0 ∧
    ∃ y, (EuclideanBallR (nearBits 52) (fun v => ‖v‖) c 1).prox x 1 = .ok y ∧ y ≠ x := by
  have h := nearBits_rounding 52 (by norm_num)
  have hc : ∀ i : Fin 1, IsFloat (nearBits 52) ((vmk fun _ => (-1 : ℝ) : Vec (Fin 1)) i) := fun i => h.float_neg h.one
  have ha : ∀ i : Fin 1, nearBits 52 ((vmk fun _ => ((2 : ℝ) ^ 60)⁻¹ : Vec (Fin 1)) i - (vmk fun _ => (-1 : ℝ) : Vec (Fin 1)) i) =
      -(vmk fun _ => (-1 : ℝ) : Vec (Fin 1)) i := by
    intro i
    have := nearBits_absorb 52 (q := ((2 : ℝ) ^ 60)⁻¹) (by positivity) (by norm_num)
    simp only [sub_neg_eq_add, neg_neg]
    rw [add_comm]
    exact this
  have hn : ‖-(vmk fun _ => (-1 : ℝ) : Vec (Fin 1))‖ ≤ 1 := by
    rw [norm_neg, EuclideanSpace.norm_eq]
    simp
  have hx : (vmk fun _ => ((2 : ℝ) ^ 60)⁻¹ : Vec (Fin 1)) ≠ 0 := by
    intro hc
    have := congrArg (fun v : Vec (Fin 1) => v 0) hc
    simp at this
  exact ⟨_, _, hc, ha, hn, hx, (C113_euclidean_ball_refuted h _ _ _ one_pos one_pos hc ha hn hx).2⟩

end examples

end Verif
