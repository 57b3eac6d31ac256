import Verif.Model.Timestamp
import Mathlib.Data.Int.Log
import Mathlib.Tactic.Linarith
import Mathlib.Tactic.NormNum
import Mathlib.Tactic.FieldSimp
import Mathlib.Tactic.Ring

/-! A 53-bit binary floating-point rounding (toward zero, unbounded exponent) satisfies `FP`. -/

namespace Ikf

/-- 53-bit truncation of a positive rational. -/
def trunc53pos (x : ℚ) : ℚ := ⌊x * 2 ^ (52 - Int.log 2 x)⌋ * 2 ^ (Int.log 2 x - 52)

theorem two_zpow_pos (z : ℤ) : (0:ℚ) < 2 ^ z := zpow_pos (by norm_num) z

theorem trunc53pos_le (x : ℚ) : trunc53pos x ≤ x := by
  unfold trunc53pos
  have h := Int.floor_le (x * 2 ^ (52 - Int.log 2 x))
  calc (⌊x * 2 ^ (52 - Int.log 2 x)⌋ : ℚ) * 2 ^ (Int.log 2 x - 52)
      ≤ (x * 2 ^ (52 - Int.log 2 x)) * 2 ^ (Int.log 2 x - 52) :=
        mul_le_mul_of_nonneg_right h (two_zpow_pos _).le
    _ = x := by
        rw [mul_assoc, ← zpow_add₀ (by norm_num)]; simp

theorem trunc53pos_gt (x : ℚ) : x - 2 ^ (Int.log 2 x - 52) < trunc53pos x := by
  unfold trunc53pos
  have h := Int.lt_floor_add_one (x * 2 ^ (52 - Int.log 2 x))
  have := mul_lt_mul_of_pos_right h (two_zpow_pos (Int.log 2 x - 52))
  rw [mul_assoc, ← zpow_add₀ (by norm_num)] at this
  simp only [sub_add_sub_cancel, sub_self, zpow_zero, mul_one, add_mul, one_mul] at this
  linarith

theorem pow_log_le (x : ℚ) (hx : 0 < x) : (2:ℚ) ^ Int.log 2 x ≤ x := by
  have := Int.zpow_log_le_self (b := 2) (r := x) (by norm_num) hx; exact_mod_cast this

theorem lt_pow_log (x : ℚ) : x < (2:ℚ) ^ (Int.log 2 x + 1) := by
  have := Int.lt_zpow_succ_log_self (b := 2) (by norm_num) x; exact_mod_cast this

theorem pow_log_le_trunc (x : ℚ) (hx : 0 < x) : (2:ℚ) ^ Int.log 2 x ≤ trunc53pos x := by
  unfold trunc53pos
  have h : ((2:ℤ)^52) ≤ ⌊x * 2 ^ (52 - Int.log 2 x)⌋ := by
    rw [Int.le_floor]
    have h1 := pow_log_le x hx
    have h2 : (2:ℚ) ^ Int.log 2 x * 2 ^ (52 - Int.log 2 x) = ((2^52 : ℤ) : ℚ) := by
      rw [← zpow_add₀ (by norm_num)]; simp; norm_cast
    rw [← h2]
    exact mul_le_mul_of_nonneg_right h1 (two_zpow_pos _).le
  have h3 : (2:ℚ) ^ Int.log 2 x = ((2^52 : ℤ) : ℚ) * 2 ^ (Int.log 2 x - 52) := by
    have : ((2^52 : ℤ) : ℚ) = 2 ^ (52:ℤ) := by norm_cast
    rw [this, ← zpow_add₀ (by norm_num)]; congr 1; omega
  rw [h3]
  exact mul_le_mul_of_nonneg_right (by exact_mod_cast h) (two_zpow_pos _).le

theorem trunc53pos_pos (x : ℚ) (hx : 0 < x) : 0 < trunc53pos x :=
  lt_of_lt_of_le (two_zpow_pos _) (pow_log_le_trunc x hx)

theorem trunc53pos_mono (x y : ℚ) (hx : 0 < x) (h : x ≤ y) : trunc53pos x ≤ trunc53pos y := by
  have hl : Int.log 2 x ≤ Int.log 2 y := Int.log_mono_right hx h
  rcases lt_or_eq_of_le hl with hlt | heq
  · have h1 : (2:ℚ) ^ (Int.log 2 x + 1) ≤ 2 ^ Int.log 2 y :=
      zpow_le_zpow_right₀ (by norm_num) (by omega)
    have := trunc53pos_le x
    have := lt_pow_log x
    have := pow_log_le_trunc y (lt_of_lt_of_le hx h)
    linarith
  · unfold trunc53pos
    rw [heq]
    apply mul_le_mul_of_nonneg_right _ (two_zpow_pos _).le
    exact_mod_cast Int.floor_le_floor (mul_le_mul_of_nonneg_right h (two_zpow_pos _).le)

theorem log_trunc53pos (x : ℚ) (hx : 0 < x) : Int.log 2 (trunc53pos x) = Int.log 2 x := by
  have h1 := trunc53pos_le x
  have h2 := pow_log_le_trunc x hx
  have h3 := lt_pow_log x
  have hp := trunc53pos_pos x hx
  apply le_antisymm
  · exact Int.log_mono_right hp h1
  · have : Int.log 2 ((2:ℚ) ^ Int.log 2 x) ≤ Int.log 2 (trunc53pos x) :=
      Int.log_mono_right (two_zpow_pos _) h2
    have e : Int.log 2 ((2:ℚ) ^ Int.log 2 x) = Int.log 2 x := by
      have := Int.log_zpow (R := ℚ) (b := 2) (by norm_num) (Int.log 2 x); exact_mod_cast this
    rwa [e] at this

/-- An integer multiple of the unit in the last place is exact. -/
theorem trunc53pos_of_multiple (x : ℚ) (n : ℤ) (h : x = n * 2 ^ (Int.log 2 x - 52)) :
    trunc53pos x = x := by
  unfold trunc53pos
  have : x * 2 ^ (52 - Int.log 2 x) = n := by
    conv_lhs => rw [h]
    rw [mul_assoc, ← h, ← zpow_add₀ (by norm_num)]; simp
  rw [this, Int.floor_intCast, ← h]

theorem trunc53pos_idem (x : ℚ) (hx : 0 < x) : trunc53pos (trunc53pos x) = trunc53pos x := by
  apply trunc53pos_of_multiple _ ⌊x * 2 ^ (52 - Int.log 2 x)⌋
  rw [log_trunc53pos x hx]; rfl

theorem trunc53pos_int (n : ℤ) (h0 : 0 < n) (h1 : n ≤ 9007199254740992) :
    trunc53pos n = n := by
  rcases lt_or_eq_of_le h1 with hlt | rfl
  · have hx : (0:ℚ) < n := by exact_mod_cast h0
    have hlog : Int.log 2 (n:ℚ) ≤ 52 := by
      by_contra hc
      have := pow_log_le (n:ℚ) hx
      have h2 : (2:ℚ) ^ (53:ℤ) ≤ 2 ^ Int.log 2 (n:ℚ) := zpow_le_zpow_right₀ (by norm_num) (by omega)
      have h3 : (n:ℚ) < 2 ^ (53:ℤ) := by norm_num; exact_mod_cast hlt
      linarith
    obtain ⟨k, hk⟩ := Int.le.dest hlog
    apply trunc53pos_of_multiple _ (n * 2 ^ k)
    have : Int.log 2 (n:ℚ) - 52 = -(k:ℤ) := by omega
    rw [this]; push_cast
    rw [mul_assoc, zpow_neg, zpow_natCast, mul_inv_cancel₀ (by positivity), mul_one]
  · have hl : Int.log 2 ((9007199254740992:ℤ):ℚ) = 53 := by
      have := Int.log_zpow (R := ℚ) (b := 2) (by norm_num) 53
      norm_num at this ⊢; exact_mod_cast this
    apply trunc53pos_of_multiple _ 4503599627370496
    rw [hl]; norm_num

/-- 53-bit truncation toward zero. -/
def trunc53 (x : ℚ) : ℚ :=
  if 0 < x then trunc53pos x else if x < 0 then -trunc53pos (-x) else 0

theorem trunc53_pos (x : ℚ) (h : 0 < x) : trunc53 x = trunc53pos x := by simp [trunc53, h]
theorem trunc53_neg (x : ℚ) (h : x < 0) : trunc53 x = -trunc53pos (-x) := by
  simp [trunc53, h, not_lt.mpr h.le]
theorem trunc53_zero : trunc53 0 = 0 := by simp [trunc53]

theorem trunc53pos_err (x : ℚ) (hx : 0 < x) : |trunc53pos x - x| ≤ x / 4503599627370496 := by
  have h1 := trunc53pos_le x
  have h2 := trunc53pos_gt x
  have h3 := pow_log_le x hx
  rw [abs_of_nonpos (by linarith)]
  have : (2:ℚ) ^ (Int.log 2 x - 52) = 2 ^ Int.log 2 x / 4503599627370496 := by
    rw [zpow_sub₀ (by norm_num)]; norm_num
  have h4 : (2:ℚ) ^ (Int.log 2 x - 52) ≤ x / 4503599627370496 := by rw [this]; linarith
  linarith

/-- Binary floating point with 53 significant bits is an instance of `FP`. -/
def FP.trunc53 : FP where
  rnd := Ikf.trunc53
  mono := by
    intro x y h
    rcases lt_trichotomy x 0 with hx | rfl | hx
    · rw [trunc53_neg x hx]
      have hxp := trunc53pos_pos (-x) (by linarith)
      rcases lt_trichotomy y 0 with hy | rfl | hy
      · rw [trunc53_neg y hy]
        have := trunc53pos_mono (-y) (-x) (by linarith) (by linarith)
        linarith
      · rw [trunc53_zero]; linarith
      · rw [trunc53_pos y hy]; have := trunc53pos_pos y hy; linarith
    · rcases lt_or_eq_of_le h with hy | rfl
      · rw [trunc53_zero, trunc53_pos y hy]; exact (trunc53pos_pos y hy).le
      · exact le_rfl
    · rw [trunc53_pos x hx, trunc53_pos y (by linarith)]; exact trunc53pos_mono x y hx h
  exactInt := by
    intro n h0 h1
    rcases lt_trichotomy n 0 with hn | rfl | hn
    · rw [trunc53_neg _ (by exact_mod_cast hn)]
      have := trunc53pos_int (-n) (by omega) (by omega)
      push_cast at this; rw [this]; simp
    · simp [trunc53_zero]
    · rw [trunc53_pos _ (by exact_mod_cast hn)]; exact trunc53pos_int n hn h1
  idem := by
    intro x
    rcases lt_trichotomy x 0 with hx | rfl | hx
    · have hp := trunc53pos_pos (-x) (by linarith)
      rw [trunc53_neg x hx, trunc53_neg _ (by linarith), neg_neg, trunc53pos_idem _ (by linarith)]
    · simp [trunc53_zero]
    · rw [trunc53_pos x hx, trunc53_pos _ (trunc53pos_pos x hx), trunc53pos_idem _ hx]
  relErr := by
    intro x _
    rcases lt_trichotomy x 0 with hx | rfl | hx
    · rw [trunc53_neg x hx, abs_of_neg hx]
      have := trunc53pos_err (-x) (by linarith)
      rw [← abs_neg]
      have e : -(-trunc53pos (-x) - x) = trunc53pos (-x) - -x := by ring
      rw [e]; exact this
    · simp [trunc53_zero]
    · rw [trunc53_pos x hx, abs_of_pos hx]; exact trunc53pos_err x hx

end Ikf
