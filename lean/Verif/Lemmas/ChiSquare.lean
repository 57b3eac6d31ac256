import Mathlib.Probability.Distributions.Gamma
import Mathlib.Analysis.SpecialFunctions.Gaussian.GaussianIntegral
import Mathlib.Analysis.Real.Pi.Bounds
import Mathlib.Data.Nat.Factorial.DoubleFactorial

/-!
# Rational bounds for the chi-square distribution

The chi-square distribution with `k` degrees of freedom is the gamma distribution with shape `k/2` and rate `1/2`. Its
distribution function at `x = 2 y` is `y^a e^{-y} / Γ(a+1)` times the series with terms `∏ y/(a+i)`, `a = k/2`.
-/

namespace Ikf
namespace Chi2
open MeasureTheory ProbabilityTheory Real Set

/-- The chi-square distribution with `k` degrees of freedom. -/
noncomputable def chi2 (k : ℕ) : Measure ℝ := gammaMeasure ((k : ℝ) / 2) (1 / 2)

/-- The density for `t > 0`. -/
noncomputable def dens (a t : ℝ) : ℝ := (1 / 2) ^ a / Gamma a * t ^ (a - 1) * exp (-(1 / 2 * t))

noncomputable def I (a x : ℝ) : ℝ := ∫ t in (0 : ℝ)..x, dens a t

theorem dens_integrable {a : ℝ} (ha : 0 < a) (x : ℝ) : IntervalIntegrable (dens a) volume 0 x := by
  unfold dens
  refine IntervalIntegrable.mul_continuousOn ?_ (by fun_prop)
  exact (intervalIntegral.intervalIntegrable_rpow' (by linarith)).const_mul _

theorem cdf_eq {a x : ℝ} (ha : 0 < a) (hx : 0 ≤ x) : cdf (gammaMeasure a (1 / 2)) x = I a x := by
  rw [cdf_gammaMeasure_eq_integral ha (by norm_num)]
  unfold I
  rw [intervalIntegral.integral_of_le hx, ← integral_Icc_eq_integral_Ioc]
  rw [setIntegral_eq_of_subset_of_forall_sdiff_eq_zero (s := Icc 0 x) measurableSet_Iic (fun t ht => ht.2) ?_]
  · refine setIntegral_congr_fun measurableSet_Icc (fun t ht => ?_)
    simp only [gammaPDFReal, dens]
    rw [if_pos ht.1]
  · rintro t ⟨h1, h2⟩
    unfold gammaPDFReal
    rw [if_neg]
    intro h0
    exact h2 ⟨h0, h1⟩

/-- The first term of the series. -/
noncomputable def T (a y : ℝ) : ℝ := y ^ a * exp (-y) / Gamma (a + 1)

theorem T_pos {a y : ℝ} (ha : 0 < a) (hy : 0 < y) : 0 < T a y := by
  unfold T
  have := Gamma_pos_of_pos (by linarith : 0 < a + 1)
  positivity

theorem T_succ {a y : ℝ} (ha : 0 < a) (hy : 0 < y) : T (a + 1) y = T a y * (y / (a + 1)) := by
  unfold T
  rw [Gamma_add_one (by linarith : a + 1 ≠ 0), rpow_add_one hy.ne']
  have := (Gamma_pos_of_pos (by linarith : 0 < a + 1)).ne'
  have : a + 1 ≠ 0 := by linarith
  field_simp

/-- Partial integration. -/
theorem I_succ {a x : ℝ} (ha : 0 < a) (hx : 0 ≤ x) : I a x = T a (x / 2) + I (a + 1) x := by
  have hG := (Gamma_pos_of_pos ha).ne'
  have key : (∫ t in (0 : ℝ)..x, (dens a t - dens (a + 1) t)) = T a (x / 2) - T a (0 / 2) := by
    refine intervalIntegral.integral_eq_sub_of_hasDerivAt_of_le (f := fun t => T a (t / 2)) hx ?_ ?_ ?_
    · unfold T
      refine ContinuousOn.div_const (ContinuousOn.mul (ContinuousOn.rpow_const (by fun_prop) (fun t _ => Or.inr ha.le)) (by fun_prop)) _
    · intro t ht
      have h2 : 0 < t / 2 := by linarith [ht.1]
      have h1 : HasDerivAt (fun t : ℝ => t / 2) (1 / 2) t := (hasDerivAt_id t).div_const 2
      have h3 := (h1.rpow_const (p := a) (Or.inl h2.ne')).mul (h1.neg.exp)
      have h4 := h3.div_const (Gamma (a + 1))
      refine HasDerivAt.congr_deriv h4 ?_
      have e0 : (-fun t : ℝ => t / 2) t = -(t / 2) := rfl
      rw [e0]
      unfold dens
      rw [Gamma_add_one ha.ne']
      have e1 : (t / 2) ^ (a - 1) = t ^ (a - 1) * (1 / 2) ^ (a - 1) := by
        rw [← mul_rpow (by linarith [ht.1]) (by norm_num)]; congr 1; ring
      have e2 : (t / 2) ^ a = t ^ a * (1 / 2) ^ a := by
        rw [← mul_rpow (by linarith [ht.1]) (by norm_num)]; congr 1; ring
      have e3 : ((1:ℝ) / 2) ^ a = (1 / 2) ^ (a - 1) * (1 / 2) := by
        rw [← rpow_add_one (by norm_num)]; congr 1; ring
      have e4 : ((1:ℝ) / 2) ^ (a + 1) = (1 / 2) ^ (a - 1) * (1 / 2) * (1 / 2) := by
        rw [rpow_add_one (by norm_num), e3]
      have e5 : -(1 / 2 * t) = -(t / 2) := by ring
      rw [e1, e2, e4, e3, e5, show a + 1 - 1 = a by ring]
      field_simp
      ring
    · exact (dens_integrable ha x).sub (dens_integrable (by linarith) x)
  rw [intervalIntegral.integral_sub (dens_integrable ha x) (dens_integrable (by linarith) x)] at key
  have h0 : T a (0 / 2) = 0 := by unfold T; rw [zero_div, zero_rpow ha.ne', zero_mul, zero_div]
  rw [h0] at key
  unfold I
  linarith

theorem I_nonneg {a x : ℝ} (ha : 0 < a) (hx : 0 ≤ x) : 0 ≤ I a x := by
  unfold I
  refine intervalIntegral.integral_nonneg hx (fun t ht => ?_)
  unfold dens
  have := Gamma_pos_of_pos ha
  have := ht.1
  positivity

theorem I_succ_le {a x : ℝ} (ha : 0 < a) (hx : 0 ≤ x) : I (a + 1) x ≤ x / 2 / a * I a x := by
  unfold I
  rw [← intervalIntegral.integral_const_mul]
  refine intervalIntegral.integral_mono_on hx (dens_integrable (by linarith) x) ((dens_integrable ha x).const_mul _) (fun t ht => ?_)
  unfold dens
  have hG := Gamma_pos_of_pos ha
  rw [Gamma_add_one ha.ne', rpow_add_one (by norm_num), show a + 1 - 1 = a by ring]
  have h0 := ht.1
  rcases h0.eq_or_lt with h0 | h0
  · rw [← h0, zero_rpow ha.ne']
    simp only [mul_zero, zero_mul]
    positivity
  · have e1 : t ^ a = t ^ (a - 1) * t := by rw [← rpow_add_one h0.ne']; congr 1; ring
    rw [e1]
    have hle : t ≤ x := ht.2
    have : (1 / 2) ^ a * (1 / 2) / (a * Gamma a) * (t ^ (a - 1) * t) * exp (-(1 / 2 * t)) =
        (t / 2 / a) * ((1 / 2) ^ a / Gamma a * t ^ (a - 1) * exp (-(1 / 2 * t))) := by
      field_simp
    rw [this]
    gcongr

/-- Deep in the series the rest is at most twice its first term. -/
theorem I_le_two {a x : ℝ} (ha : 0 < a) (hx : 0 ≤ x) (h : x ≤ a) : I a x ≤ 2 * T a (x / 2) := by
  have h1 := I_succ ha hx
  have h2 := I_succ_le ha hx
  have h3 := I_nonneg ha hx
  have h4 : x / 2 / a ≤ 1 / 2 := by rw [div_div, div_le_div_iff₀ (by linarith) (by norm_num)]; linarith
  nlinarith

/-- `1 + y/(a+1) (1 + y/(a+2) (... b))`, `n` factors. -/
noncomputable def H (b a y : ℝ) : ℕ → ℝ
  | 0 => b
  | n + 1 => 1 + y / (a + 1) * H b (a + 1) y n

theorem I_lower {x : ℝ} (hx : 0 < x) (n : ℕ) : ∀ {a : ℝ}, 0 < a → T a (x / 2) * H 1 a (x / 2) n ≤ I a x := by
  induction n with
  | zero =>
    intro a ha
    rw [H, mul_one, I_succ ha hx.le]
    have := I_nonneg (a := a + 1) (by linarith) hx.le
    linarith
  | succ n ih =>
    intro a ha
    rw [H, I_succ ha hx.le]
    have := ih (a := a + 1) (by linarith)
    rw [T_succ ha (by linarith)] at this
    linarith

theorem I_upper {x : ℝ} (hx : 0 < x) (n : ℕ) : ∀ {a : ℝ}, 0 < a → x ≤ a + n → I a x ≤ T a (x / 2) * H 2 a (x / 2) n := by
  induction n with
  | zero =>
    intro a ha h
    rw [H, mul_comm]
    exact I_le_two ha hx.le (by simpa using h)
  | succ n ih =>
    intro a ha h
    rw [H, I_succ ha hx.le]
    have := ih (a := a + 1) (by linarith) (by push_cast at h; linarith)
    rw [T_succ ha (by linarith)] at this
    linarith

theorem H_pos {b a y : ℝ} (hb : 0 < b) (ha : 0 ≤ a) (hy : 0 ≤ y) (n : ℕ) : 0 < H b a y n := by
  induction n generalizing a with
  | zero => exact hb
  | succ n ih =>
    rw [H]
    have := ih (a := a + 1) (by linarith)
    positivity

/-- `a = 1`: the exponential distribution. -/
theorem I_one {x : ℝ} (hx : 0 ≤ x) : I 1 x = 1 - exp (-(x / 2)) := by
  unfold I
  have key : (∫ t in (0 : ℝ)..x, dens 1 t) = -exp (-(x / 2)) - -exp (-(0 / 2)) := by
    refine intervalIntegral.integral_eq_sub_of_hasDerivAt_of_le (f := fun t => -exp (-(t / 2))) hx (by fun_prop) ?_
      (dens_integrable one_pos x)
    intro t ht
    have h1 : HasDerivAt (fun t : ℝ => t / 2) (1 / 2) t := (hasDerivAt_id t).div_const 2
    refine HasDerivAt.congr_deriv (h1.neg.exp).neg ?_
    unfold dens
    rw [show -(1 / 2 * t) = -(t / 2) by ring]
    simp
    ring
  rw [key]; simp; ring

theorem T_one (y : ℝ) : T 1 y = y * exp (-y) := by
  unfold T
  rw [rpow_one, Gamma_add_one one_ne_zero, Gamma_one, mul_one, div_one]

theorem exp_lower {x : ℝ} (hx : 0 < x) (n : ℕ) : H 1 0 (x / 2) (n + 1) ≤ exp (x / 2) := by
  have h := I_lower hx n one_pos
  rw [I_one hx.le, T_one] at h
  have hp : exp (x / 2) * exp (-(x / 2)) = 1 := by rw [← exp_add]; simp
  have he := exp_pos (x / 2)
  have : exp (x / 2) * (x / 2 * exp (-(x / 2)) * H 1 1 (x / 2) n) ≤ exp (x / 2) * (1 - exp (-(x / 2))) :=
    mul_le_mul_of_nonneg_left h he.le
  rw [H, zero_add, div_one]
  have e : exp (x / 2) * (x / 2 * exp (-(x / 2)) * H 1 1 (x / 2) n) = x / 2 * H 1 1 (x / 2) n := by
    rw [show exp (x / 2) * (x / 2 * exp (-(x / 2)) * H 1 1 (x / 2) n) = (exp (x / 2) * exp (-(x / 2))) * (x / 2 * H 1 1 (x / 2) n) by ring, hp, one_mul]
  rw [e, mul_sub, hp, mul_one] at this
  linarith

theorem exp_upper {x : ℝ} (hx : 0 < x) (n : ℕ) (hn : x ≤ 1 + n) : exp (x / 2) ≤ H 2 0 (x / 2) (n + 1) := by
  have h := I_upper hx n one_pos hn
  rw [I_one hx.le, T_one] at h
  have hp : exp (x / 2) * exp (-(x / 2)) = 1 := by rw [← exp_add]; simp
  have he := exp_pos (x / 2)
  have : exp (x / 2) * (1 - exp (-(x / 2))) ≤ exp (x / 2) * (x / 2 * exp (-(x / 2)) * H 2 1 (x / 2) n) :=
    mul_le_mul_of_nonneg_left h he.le
  rw [H, zero_add, div_one]
  have e : exp (x / 2) * (x / 2 * exp (-(x / 2)) * H 2 1 (x / 2) n) = x / 2 * H 2 1 (x / 2) n := by
    rw [show exp (x / 2) * (x / 2 * exp (-(x / 2)) * H 2 1 (x / 2) n) = (exp (x / 2) * exp (-(x / 2))) * (x / 2 * H 2 1 (x / 2) n) by ring, hp, one_mul]
  rw [e, mul_sub, hp, mul_one] at this
  linarith

/-! ## In integers -/

/-- `H`, scaled by `s` and rounded down (`r = 0`) or up (`r = 1`), for `y = M/(2 D)` and `a = k/2`. -/
def hN (r b s M D : ℕ) : ℕ → ℕ → ℕ
  | _, 0 => b * s
  | k, n + 1 => s + (M * hN r b s M D (k + 2) n / (D * (k + 2)) + r)

theorem hN_lower {b s M D : ℕ} (hD : 0 < D) (n : ℕ) : ∀ k : ℕ, (hN 0 b s M D k n : ℝ) ≤ s * H b ((k : ℝ) / 2) ((M : ℝ) / D / 2) n := by
  induction n with
  | zero => intro k; simp [hN, H, mul_comm]
  | succ n ih =>
    intro k
    have hD' : (0:ℝ) < D := by exact_mod_cast hD
    have h := ih (k + 2)
    rw [hN, H]
    push_cast at h ⊢
    rw [show ((k:ℝ) + 2) / 2 = k / 2 + 1 by ring] at h
    have h1 : ((M * hN 0 b s M D (k + 2) n / (D * (k + 2)) : ℕ) : ℝ) ≤ ((M * hN 0 b s M D (k + 2) n : ℕ) : ℝ) / ((D * (k + 2) : ℕ) : ℝ) :=
      Nat.cast_div_le
    push_cast at h1
    have h2 : (M : ℝ) * hN 0 b s M D (k + 2) n / (D * (k + 2)) ≤ (M : ℝ) * (s * H b (k / 2 + 1) (M / D / 2) n) / (D * (k + 2)) := by
      gcongr
    have h3 : (M : ℝ) * (s * H b (k / 2 + 1) (M / D / 2) n) / (D * (k + 2)) = s * (M / D / 2 / (k / 2 + 1) * H b (k / 2 + 1) (M / D / 2) n) := by
      field_simp
    rw [mul_add (s : ℝ) 1, mul_one]
    linarith

theorem hN_upper {b s M D : ℕ} (hD : 0 < D) (n : ℕ) : ∀ k : ℕ, s * H b ((k : ℝ) / 2) ((M : ℝ) / D / 2) n ≤ (hN 1 b s M D k n : ℝ) := by
  induction n with
  | zero => intro k; simp [hN, H, mul_comm]
  | succ n ih =>
    intro k
    have hD' : (0:ℝ) < D := by exact_mod_cast hD
    have h := ih (k + 2)
    rw [hN, H]
    push_cast at h ⊢
    rw [show ((k:ℝ) + 2) / 2 = k / 2 + 1 by ring] at h
    have h1 : ((M * hN 1 b s M D (k + 2) n : ℕ) : ℝ) / ((D * (k + 2) : ℕ) : ℝ) ≤ ((M * hN 1 b s M D (k + 2) n / (D * (k + 2)) : ℕ) : ℝ) + 1 := by
      rw [div_le_iff₀ (by positivity)]
      have := Nat.lt_div_mul_add (a := M * hN 1 b s M D (k + 2) n) (b := D * (k + 2)) (by positivity)
      have h5 : M * hN 1 b s M D (k + 2) n ≤ (M * hN 1 b s M D (k + 2) n / (D * (k + 2)) + 1) * (D * (k + 2)) := by
        rw [add_mul, one_mul]; exact this.le
      exact_mod_cast h5
    push_cast at h1
    have h2 : (M : ℝ) * (s * H b (k / 2 + 1) (M / D / 2) n) / (D * (k + 2)) ≤ (M : ℝ) * hN 1 b s M D (k + 2) n / (D * (k + 2)) := by
      gcongr
    have h3 : (M : ℝ) * (s * H b (k / 2 + 1) (M / D / 2) n) / (D * (k + 2)) = s * (M / D / 2 / (k / 2 + 1) * H b (k / 2 + 1) (M / D / 2) n) := by
      field_simp
    rw [mul_add (s : ℝ) 1, mul_one]
    linarith

/-- `Γ(k/2 + 1)²`. -/
theorem gamma_sq (k : ℕ) : Gamma ((k : ℝ) / 2 + 1) ^ 2 =
    ((k.doubleFactorial : ℕ) : ℝ) ^ 2 * (if k % 2 = 1 then π else 1) / 4 ^ ((k + 1) / 2) := by
  induction k using Nat.twoStepInduction with
  | zero => simp
  | one =>
    simp only [Nat.cast_one, Nat.doubleFactorial]
    rw [Gamma_add_one (by norm_num), show (1:ℝ) / 2 = 1 / 2 by rfl, Gamma_one_half_eq]
    rw [mul_pow, sq_sqrt pi_pos.le]
    norm_num
    ring
  | more k ih _ =>
    have e : ((k + 2 : ℕ) : ℝ) / 2 + 1 = ((k : ℝ) / 2 + 1) + 1 := by push_cast; ring
    rw [e, Gamma_add_one (by positivity), mul_pow, ih, Nat.doubleFactorial]
    have h1 : (k + 2) % 2 = k % 2 := by omega
    have h2 : (k + 2 + 1) / 2 = (k + 1) / 2 + 1 := by omega
    rw [h1, h2, pow_succ]
    push_cast
    ring

/-- Twenty digits of pi, rounded down or up; 1 for even `k`. -/
def piN (up : ℕ) (k : ℕ) : ℕ := if k % 2 = 1 then 314159265358979323846 + up else 10 ^ 20

theorem piN_lower (k : ℕ) : (piN 0 k : ℝ) ≤ 10 ^ 20 * (if k % 2 = 1 then π else 1) := by
  unfold piN
  split
  · have := pi_gt_d20; push_cast; norm_num at this ⊢; linarith
  · norm_num

theorem piN_upper (k : ℕ) : 10 ^ 20 * (if k % 2 = 1 then π else 1) ≤ (piN 1 k : ℝ) := by
  unfold piN
  split
  · have := pi_lt_d20; push_cast; norm_num at this ⊢; linarith
  · norm_num

/-- The check that the distribution function at `M/D` is at most `P/1000`. -/
def below (P k M D n s : ℕ) : Bool :=
  decide (0 < M ∧ M ≤ D * (n + 1) ∧ M ^ k * hN 1 2 s M D k (n + 1) ^ 2 * (10 ^ 6 * 4 ^ ((k + 1) / 2) * 10 ^ 20) ≤
    P ^ 2 * hN 0 1 s M D 0 (n + 1) ^ 2 * (k.doubleFactorial ^ 2 * piN 0 k * (2 * D) ^ k))

/-- The check that the distribution function at `M/D` is at least `P/1000`. -/
def above (P k M D n s : ℕ) : Bool :=
  decide (0 < M ∧ M ≤ D * (n + 1) ∧ P ^ 2 * hN 1 2 s M D 0 (n + 1) ^ 2 * (k.doubleFactorial ^ 2 * piN 1 k * (2 * D) ^ k) ≤
    M ^ k * hN 0 1 s M D k (n + 1) ^ 2 * (10 ^ 6 * 4 ^ ((k + 1) / 2) * 10 ^ 20))

section
variable {P k M D n s : ℕ}

theorem rpow_sq {y : ℝ} (hy : 0 ≤ y) (k : ℕ) : (y ^ ((k : ℝ) / 2)) ^ 2 = y ^ k := by
  rw [← rpow_natCast, ← rpow_mul hy]
  push_cast
  rw [div_mul_cancel₀ _ (by norm_num : (2:ℝ) ≠ 0), rpow_natCast]

theorem below_sound (hk : 0 < k) (hD : 0 < D) (hs : 0 < s) (h : below P k M D n s = true) :
    cdf (chi2 k) ((M : ℝ) / D) ≤ P / 1000 := by
  obtain ⟨hM, hn, h⟩ := of_decide_eq_true h
  have hk' : (0:ℝ) < (k : ℝ) / 2 := by have : (0:ℝ) < k := by exact_mod_cast hk
                                       positivity
  have hM' : (0:ℝ) < M := by exact_mod_cast hM
  have hD' : (0:ℝ) < D := by exact_mod_cast hD
  have hs' : (0:ℝ) < s := by exact_mod_cast hs
  have hx : (0:ℝ) < (M : ℝ) / D := by positivity
  have hxn : (M : ℝ) / D ≤ n + 1 := by
    rw [div_le_iff₀ hD', mul_comm]; exact_mod_cast hn
  unfold chi2
  rw [cdf_eq hk' hx.le]
  refine (I_upper hx (n + 1) hk' (by push_cast; linarith)).trans ?_
  have hU := hN_upper (b := 2) (s := s) (M := M) hD (n + 1) k
  have hL := hN_lower (b := 1) (s := s) (M := M) hD (n + 1) 0
  have hE := exp_lower hx n
  rw [Nat.cast_zero, zero_div, Nat.cast_one] at hL
  push_cast at hU
  set y : ℝ := (M : ℝ) / D / 2 with hy
  have hy0 : 0 < y := by positivity
  have hHp := H_pos (b := 2) (a := (k : ℝ) / 2) (y := y) two_pos hk'.le hy0.le (n + 1)
  set U : ℝ := H 2 ((k : ℝ) / 2) y (n + 1)
  have hL' : (hN 0 1 s M D 0 (n + 1) : ℝ) ≤ s * exp y := hL.trans (mul_le_mul_of_nonneg_left hE hs'.le)
  have hG := Gamma_pos_of_pos (by linarith : 0 < (k : ℝ) / 2 + 1)
  have hGs := gamma_sq k
  have hpi := piN_lower k
  have hyk := rpow_sq hy0.le k
  have hyp : 0 < y ^ ((k : ℝ) / 2) := rpow_pos_of_pos hy0 _
  set u : ℕ := hN 1 2 s M D k (n + 1)
  set l : ℕ := hN 0 1 s M D 0 (n + 1)
  set c : ℕ := (k + 1) / 2
  set pk : ℝ := if k % 2 = 1 then π else 1
  have hpk : 0 ≤ pk := by show (0:ℝ) ≤ if k % 2 = 1 then π else 1; split <;> [exact pi_pos.le; norm_num]
  have hc : ((M:ℝ) ^ k * (u:ℝ) ^ 2 * (10 ^ 6 * 4 ^ c * 10 ^ 20)) ≤
      (P:ℝ) ^ 2 * (l:ℝ) ^ 2 * (((k.doubleFactorial : ℕ) : ℝ) ^ 2 * (piN 0 k : ℝ) * (2 * D) ^ k) := by exact_mod_cast h
  have key : (y ^ ((k : ℝ) / 2) * U * 1000) ^ 2 ≤ (P * exp y * Gamma ((k : ℝ) / 2 + 1)) ^ 2 := by
    have e1 : (y ^ ((k : ℝ) / 2) * U * 1000) ^ 2 = y ^ k * U ^ 2 * 10 ^ 6 := by rw [mul_pow, mul_pow, hyk]; ring
    have e2 : (P * exp y * Gamma ((k : ℝ) / 2 + 1)) ^ 2 = (P:ℝ) ^ 2 * exp y ^ 2 * Gamma ((k : ℝ) / 2 + 1) ^ 2 := by ring
    rw [e1, e2, hGs]
    have e3 : y ^ k = (M:ℝ) ^ k / (2 * D) ^ k := by rw [hy, div_div, div_pow, mul_comm (D:ℝ)]
    have a1 : (s * U) ^ 2 ≤ (u:ℝ) ^ 2 := pow_le_pow_left₀ (by positivity) hU 2
    have a2 : (l:ℝ) ^ 2 ≤ (s * exp y) ^ 2 := pow_le_pow_left₀ (by positivity) hL' 2
    have a3 : (M:ℝ) ^ k * (s * U) ^ 2 * (10 ^ 6 * 4 ^ c * 10 ^ 20) ≤
        (P:ℝ) ^ 2 * (s * exp y) ^ 2 * (((k.doubleFactorial : ℕ) : ℝ) ^ 2 * (10 ^ 20 * pk) * (2 * D) ^ k) :=
      calc _ ≤ (M:ℝ) ^ k * (u:ℝ) ^ 2 * (10 ^ 6 * 4 ^ c * 10 ^ 20) := by gcongr
        _ ≤ _ := hc
        _ ≤ _ := by gcongr
    rw [e3]
    have hs2 : (0:ℝ) < (s:ℝ) ^ 2 := by positivity
    have hDk : (0:ℝ) < (2 * (D:ℝ)) ^ k := by positivity
    have h4 : (0:ℝ) < 4 ^ c := by positivity
    rw [div_mul_eq_mul_div, div_mul_eq_mul_div, mul_div_assoc', div_le_div_iff₀ hDk h4]
    refine le_of_mul_le_mul_right ?_ (show (0:ℝ) < s ^ 2 * 10 ^ 20 by positivity)
    calc _ = (M:ℝ) ^ k * (s * U) ^ 2 * (10 ^ 6 * 4 ^ c * 10 ^ 20) := by ring
      _ ≤ _ := a3
      _ = _ := by ring
  have key2 := (pow_le_pow_iff_left₀ (by positivity) (by positivity) two_ne_zero).mp key
  unfold T
  rw [exp_neg, div_mul_eq_mul_div, div_le_div_iff₀ hG (by norm_num)]
  have he := exp_pos y
  have : y ^ ((k:ℝ) / 2) * (exp y)⁻¹ * U * 1000 = (y ^ ((k:ℝ) / 2) * U * 1000) * (exp y)⁻¹ := by ring
  rw [this, mul_inv_le_iff₀ he]
  calc _ ≤ _ := key2
    _ = _ := by ring

theorem above_sound (hk : 0 < k) (hD : 0 < D) (hs : 0 < s) (h : above P k M D n s = true) :
    (P : ℝ) / 1000 ≤ cdf (chi2 k) ((M : ℝ) / D) := by
  obtain ⟨hM, hn, h⟩ := of_decide_eq_true h
  have hk' : (0:ℝ) < (k : ℝ) / 2 := by have : (0:ℝ) < k := by exact_mod_cast hk
                                       positivity
  have hM' : (0:ℝ) < M := by exact_mod_cast hM
  have hD' : (0:ℝ) < D := by exact_mod_cast hD
  have hs' : (0:ℝ) < s := by exact_mod_cast hs
  have hx : (0:ℝ) < (M : ℝ) / D := by positivity
  have hxn : (M : ℝ) / D ≤ 1 + n := by
    rw [div_le_iff₀ hD', mul_comm, add_comm]; exact_mod_cast hn
  unfold chi2
  rw [cdf_eq hk' hx.le]
  refine le_trans ?_ (I_lower hx (n + 1) hk')
  have hU := hN_upper (b := 2) (s := s) (M := M) hD (n + 1) 0
  have hL := hN_lower (b := 1) (s := s) (M := M) hD (n + 1) k
  have hE := exp_upper hx n hxn
  rw [Nat.cast_zero, zero_div, Nat.cast_ofNat] at hU
  rw [Nat.cast_one] at hL
  set y : ℝ := (M : ℝ) / D / 2 with hy
  have hy0 : 0 < y := by positivity
  have hHp := H_pos (b := 1) (a := (k : ℝ) / 2) (y := y) one_pos hk'.le hy0.le (n + 1)
  set L : ℝ := H 1 ((k : ℝ) / 2) y (n + 1)
  have hU' : s * exp y ≤ (hN 1 2 s M D 0 (n + 1) : ℝ) := (mul_le_mul_of_nonneg_left hE hs'.le).trans hU
  have hG := Gamma_pos_of_pos (by linarith : 0 < (k : ℝ) / 2 + 1)
  have hGs := gamma_sq k
  have hpi := piN_upper k
  have hyk := rpow_sq hy0.le k
  have hyp : 0 < y ^ ((k : ℝ) / 2) := rpow_pos_of_pos hy0 _
  set u : ℕ := hN 1 2 s M D 0 (n + 1)
  set l : ℕ := hN 0 1 s M D k (n + 1)
  set c : ℕ := (k + 1) / 2
  set pk : ℝ := if k % 2 = 1 then π else 1
  have hpk : 0 ≤ pk := by show (0:ℝ) ≤ if k % 2 = 1 then π else 1; split <;> [exact pi_pos.le; norm_num]
  have hc : (P:ℝ) ^ 2 * (u:ℝ) ^ 2 * (((k.doubleFactorial : ℕ) : ℝ) ^ 2 * (piN 1 k : ℝ) * (2 * D) ^ k) ≤
      ((M:ℝ) ^ k * (l:ℝ) ^ 2 * (10 ^ 6 * 4 ^ c * 10 ^ 20)) := by exact_mod_cast h
  have key : (P * exp y * Gamma ((k : ℝ) / 2 + 1)) ^ 2 ≤ (y ^ ((k : ℝ) / 2) * L * 1000) ^ 2 := by
    have e1 : (y ^ ((k : ℝ) / 2) * L * 1000) ^ 2 = y ^ k * L ^ 2 * 10 ^ 6 := by rw [mul_pow, mul_pow, hyk]; ring
    have e2 : (P * exp y * Gamma ((k : ℝ) / 2 + 1)) ^ 2 = (P:ℝ) ^ 2 * exp y ^ 2 * Gamma ((k : ℝ) / 2 + 1) ^ 2 := by ring
    rw [e1, e2, hGs]
    have e3 : y ^ k = (M:ℝ) ^ k / (2 * D) ^ k := by rw [hy, div_div, div_pow, mul_comm (D:ℝ)]
    have a1 : (l:ℝ) ^ 2 ≤ (s * L) ^ 2 := pow_le_pow_left₀ (by positivity) hL 2
    have a2 : (s * exp y) ^ 2 ≤ (u:ℝ) ^ 2 := pow_le_pow_left₀ (by positivity) hU' 2
    have a3 : (P:ℝ) ^ 2 * (s * exp y) ^ 2 * (((k.doubleFactorial : ℕ) : ℝ) ^ 2 * (10 ^ 20 * pk) * (2 * D) ^ k) ≤
        (M:ℝ) ^ k * (s * L) ^ 2 * (10 ^ 6 * 4 ^ c * 10 ^ 20) :=
      calc _ ≤ (P:ℝ) ^ 2 * (u:ℝ) ^ 2 * (((k.doubleFactorial : ℕ) : ℝ) ^ 2 * (piN 1 k : ℝ) * (2 * D) ^ k) := by gcongr
        _ ≤ _ := hc
        _ ≤ _ := by gcongr
    rw [e3]
    have hDk : (0:ℝ) < (2 * (D:ℝ)) ^ k := by positivity
    have h4 : (0:ℝ) < 4 ^ c := by positivity
    rw [div_mul_eq_mul_div, div_mul_eq_mul_div, mul_div_assoc', div_le_div_iff₀ h4 hDk]
    refine le_of_mul_le_mul_right ?_ (show (0:ℝ) < s ^ 2 * 10 ^ 20 by positivity)
    calc _ = (P:ℝ) ^ 2 * (s * exp y) ^ 2 * (((k.doubleFactorial : ℕ) : ℝ) ^ 2 * (10 ^ 20 * pk) * (2 * D) ^ k) := by ring
      _ ≤ _ := a3
      _ = _ := by ring
  have key2 := (pow_le_pow_iff_left₀ (by positivity) (by positivity) two_ne_zero).mp key
  unfold T
  rw [exp_neg, div_mul_eq_mul_div, div_le_div_iff₀ (by norm_num) hG]
  have he := exp_pos y
  have : y ^ ((k:ℝ) / 2) * (exp y)⁻¹ * L * 1000 = (y ^ ((k:ℝ) / 2) * L * 1000) * (exp y)⁻¹ := by ring
  rw [this, le_mul_inv_iff₀ he]
  calc _ = _ := by ring
    _ ≤ _ := key2

end

end Chi2
end Ikf
