import Verif.Model.MeasData
import Verif.Lemmas.Mat
import Verif.Lemmas.FpErr
import Mathlib.LinearAlgebra.Matrix.PosDef
import Mathlib.Data.Real.StarOrdered
import Mathlib.Tactic.Linarith

/-! # C53: interpolation of measurements -/

namespace Ikf
open Mat

namespace MeasD

theorem lerp_ok {x y : Mat} (hr : y.rows = x.rows) (hc : y.cols = x.cols) (r : ℝ) :
    ∃ w, lerp x y r = .ok w ∧ w.rows = x.rows ∧ w.cols = x.cols ∧ ∀ i j, w.e i j = (1 - r) * x.e i j + r * y.e i j := by
  refine ⟨x + smul r (y - x), ?_, rfl, rfl, fun i j => ?_⟩
  · unfold lerp
    rw [subC_ok hr hc, Res.bind_ok, addC_ok (by simp [hr]) (by simp [hc])]
  · rw [add_e _ _ (by simp [hr]) (by simp [hc]), smul_e, sub_e _ _ hr.symm hc.symm]; ring

theorem lerp_ub {x y : Mat} (h : ¬ (y.rows = x.rows ∧ y.cols = x.cols)) (r : ℝ) : lerp x y r = .ub := by
  unfold lerp subC; rw [if_neg h]; rfl

theorem rnd_zero (fp : FP) : fp.rnd 0 = 0 := by have := fp.exactInt 0 (by norm_num) (by norm_num); simpa using this
theorem rnd_one (fp : FP) : fp.rnd 1 = 1 := by have := fp.exactInt 1 (by norm_num) (by norm_num); simpa using this

/-- For a time between the ends the ratio is in [0, 1] in every rounding, 0 and 1 at the ends. -/
theorem ratio_spec (fp : FP) (a c b : Timestamp) (hac : fp.rnd (fp.toSec c - fp.toSec a) ≠ 0) (h1 : fp.toSec a ≤ fp.toSec b)
    (h2 : fp.toSec b ≤ fp.toSec c) :
    ∃ r, ratio fp a c b = some r ∧ 0 ≤ r ∧ r ≤ 1 ∧ (fp.toSec b = fp.toSec a → r = 0) ∧ (fp.toSec b = fp.toSec c → r = 1) := by
  have hab0 : 0 ≤ fp.rnd (fp.toSec b - fp.toSec a) := by
    have := fp.mono 0 (fp.toSec b - fp.toSec a) (by linarith); rwa [rnd_zero] at this
  have hle : fp.rnd (fp.toSec b - fp.toSec a) ≤ fp.rnd (fp.toSec c - fp.toSec a) := fp.mono _ _ (by linarith)
  have hpos : 0 < fp.rnd (fp.toSec c - fp.toSec a) := lt_of_le_of_ne (by linarith) (Ne.symm hac)
  refine ⟨_, by rw [ratio, if_neg hac], ?_, ?_, ?_, ?_⟩
  · have := fp.mono 0 (fp.rnd (fp.toSec b - fp.toSec a) / fp.rnd (fp.toSec c - fp.toSec a)) (div_nonneg hab0 hpos.le)
    rwa [rnd_zero] at this
  · have := fp.mono (fp.rnd (fp.toSec b - fp.toSec a) / fp.rnd (fp.toSec c - fp.toSec a)) 1 ((div_le_one hpos).mpr hle)
    rwa [rnd_one] at this
  · intro h; rw [h, sub_self, rnd_zero, zero_div, rnd_zero]
  · intro h; rw [h, div_self hac, rnd_one]

/-- C53. For two measurements of the same shape whose times differ (as doubles) and every time `t_b` between them, in
every rounding mode: the result is stamped `t_b`, keeps the sensor and type of the first one, and its value and
covariance are one and the same convex combination `(1 - r) a + r c` with `0 ≤ r ≤ 1`; the first measurement at `t_a`
and the second at `t_c` exactly. -/
theorem c53_interpolate (fp : FP) (a c : MeasD) (b : Timestamp) (hz : c.z.rows = a.z.rows ∧ c.z.cols = a.z.cols)
    (hR : c.R.rows = a.R.rows ∧ c.R.cols = a.R.cols) (hac : fp.rnd (fp.toSec c.t_m - fp.toSec a.t_m) ≠ 0)
    (h1 : fp.toSec a.t_m ≤ fp.toSec b) (h2 : fp.toSec b ≤ fp.toSec c.t_m) :
    ∃ (m : MeasD) (r : ℝ), linInterpolate fp a c b = .ok (some m) ∧ 0 ≤ r ∧ r ≤ 1 ∧ m.t_m = b ∧ m.t_p = b ∧ m.id = a.id ∧
      m.kind = a.kind ∧ m.info = a.info ∧ m.z.rows = a.z.rows ∧ m.z.cols = a.z.cols ∧ m.R.rows = a.R.rows ∧ m.R.cols = a.R.cols ∧
      (∀ i j, m.z.e i j = (1 - r) * a.z.e i j + r * c.z.e i j) ∧ (∀ i j, m.R.e i j = (1 - r) * a.R.e i j + r * c.R.e i j) ∧
      (fp.toSec b = fp.toSec a.t_m → m.z = a.z ∧ m.R = a.R) ∧ (fp.toSec b = fp.toSec c.t_m → m.z = c.z ∧ m.R = c.R) := by
  obtain ⟨r, hr, r0, r1, ra, rc⟩ := ratio_spec fp a.t_m c.t_m b hac h1 h2
  obtain ⟨z, e1, z1, z2, z3⟩ := lerp_ok (x := a.z) (y := c.z) hz.1 hz.2 (r : ℝ)
  obtain ⟨R, e2, R1, R2, R3⟩ := lerp_ok (x := a.R) (y := c.R) hR.1 hR.2 (r : ℝ)
  refine ⟨{ a with t_m := b, t_p := b, z := z, R := R }, r, ?_, by exact_mod_cast r0, by exact_mod_cast r1, rfl, rfl, rfl, rfl, rfl,
    z1, z2, R1, R2, z3, R3, fun h => ?_, fun h => ?_⟩
  · unfold linInterpolate
    rw [hr]
    show (lerp a.z c.z r >>= fun z => lerp a.R c.R r >>= fun R => _) = _
    rw [e1, Res.bind_ok, e2, Res.bind_ok]
  · have : r = 0 := ra h
    subst this
    exact ⟨Mat.ext z1 z2 (by funext i j; rw [z3]; simp), Mat.ext R1 R2 (by funext i j; rw [R3]; simp)⟩
  · have : r = 1 := rc h
    subst this
    exact ⟨Mat.ext (z1.trans hz.1.symm) (z2.trans hz.2.symm) (by funext i j; rw [z3]; simp),
      Mat.ext (R1.trans hR.1.symm) (R2.trans hR.2.symm) (by funext i j; rw [R3]; simp)⟩

/-- C53. In exact arithmetic the ratio is `(t_b - t_a)/(t_c - t_a)` for all times (extrapolation included). -/
theorem c53_ratio_exact (a c b : Timestamp) (h : a.ns ≠ c.ns) :
    ratio FP.exact a c b = some (((b.ns : ℚ) - a.ns) / ((c.ns : ℚ) - a.ns)) := by
  have hne : (c.ns : ℚ) - a.ns ≠ 0 := by
    rw [sub_ne_zero]; exact_mod_cast Ne.symm h
  unfold ratio
  simp only [FP.exact_rnd, FP.exact_toSec]
  have e : (c.ns : ℚ) / 1000000000 - a.ns / 1000000000 = (c.ns - a.ns) / 1000000000 := by ring
  have e2 : (b.ns : ℚ) / 1000000000 - a.ns / 1000000000 = (b.ns - a.ns) / 1000000000 := by ring
  rw [e, e2, if_neg (div_ne_zero hne (by norm_num))]
  congr 1
  field_simp

/-- C53. Between the ends the interpolated covariance of two covariances is one: symmetric positive semidefinite. -/
theorem c53_psd (fp : FP) (a c : MeasD) (b : Timestamp) (m : MeasD) (n : ℕ) (hz : c.z.rows = a.z.rows ∧ c.z.cols = a.z.cols)
    (hRa : a.R.rows = n ∧ a.R.cols = n) (hRc : c.R.rows = n ∧ c.R.cols = n)
    (hac : fp.rnd (fp.toSec c.t_m - fp.toSec a.t_m) ≠ 0) (h1 : fp.toSec a.t_m ≤ fp.toSec b) (h2 : fp.toSec b ≤ fp.toSec c.t_m)
    (pa : (a.R.toM n n).PosSemidef) (pc : (c.R.toM n n).PosSemidef) (h : linInterpolate fp a c b = .ok (some m)) :
    (m.R.toM n n).PosSemidef := by
  obtain ⟨m', r, hm, r0, r1, -, -, -, -, -, -, -, -, -, -, hR, -⟩ := c53_interpolate fp a c b hz
    ⟨hRc.1.trans hRa.1.symm, hRc.2.trans hRa.2.symm⟩ hac h1 h2
  rw [hm] at h; cases h
  have : m.R.toM n n = (1 - r) • a.R.toM n n + r • c.R.toM n n := by
    ext i j; simp [hR]
  rw [this]
  exact (pa.smul (by linarith)).add (pc.smul r0)

/-- C53. Measurements with equal times (as doubles) give NaN or infinite entries, and different shapes undefined
behaviour; different sensors or types are only logged (no test of `id` or `kind` influences the result). -/
theorem c53_degenerate (fp : FP) (a c : MeasD) (b : Timestamp) :
    ((c.z.rows = a.z.rows ∧ c.z.cols = a.z.cols) → (c.R.rows = a.R.rows ∧ c.R.cols = a.R.cols) →
      fp.toSec c.t_m = fp.toSec a.t_m → linInterpolate fp a c b = .ok none) ∧
    (¬ (c.z.rows = a.z.rows ∧ c.z.cols = a.z.cols ∧ c.R.rows = a.R.rows ∧ c.R.cols = a.R.cols) → linInterpolate fp a c b = .ub) ∧
    (∀ id kind info, linInterpolate fp a { c with id := id, kind := kind, info := info } b = linInterpolate fp a c b) := by
  refine ⟨fun hz hR ht => ?_, fun h => ?_, fun _ _ _ => rfl⟩
  · have : ratio fp a.t_m c.t_m b = none := by unfold ratio; simp [ht, rnd_zero]
    simp only [linInterpolate, this]
    rw [if_pos ⟨hz.1, hz.2, hR.1, hR.2⟩]
  · unfold linInterpolate
    cases ratio fp a.t_m c.t_m b with
    | none => simp only; rw [if_neg h]
    | some r =>
      show (lerp a.z c.z r >>= fun z => lerp a.R c.R r >>= fun R => _) = _
      by_cases hz : c.z.rows = a.z.rows ∧ c.z.cols = a.z.cols
      · obtain ⟨z, e1, -⟩ := lerp_ok (x := a.z) (y := c.z) hz.1 hz.2 (r : ℝ)
        rw [e1, Res.bind_ok, lerp_ub (fun hR => h ⟨hz.1, hz.2, hR⟩)]; rfl
      · rw [lerp_ub hz]; rfl

/-- C53, limit of the claim. There is no range check: outside `[t_a, t_c]` the code extrapolates, and the "covariance" of two
measurements with variances 1 and 2 at times 1 s and 2 s is -1 at time -1 s. -/
theorem c53_extrapolates :
    ∃ (a c : MeasD) (b : Timestamp) (m : MeasD), linInterpolate FP.exact a c b = .ok (some m) ∧
      (a.R.toM 1 1).PosSemidef ∧ (c.R.toM 1 1).PosSemidef ∧ m.R.e 0 0 < 0 := by
  let a : MeasD := ⟨⟨1, 0⟩, ⟨1, 0⟩, 0, ("", ""), 1, of 1 1 (fun _ _ => 0), of 1 1 (fun _ _ => 1)⟩
  let c : MeasD := ⟨⟨2, 0⟩, ⟨2, 0⟩, 0, ("", ""), 1, of 1 1 (fun _ _ => 0), of 1 1 (fun _ _ => 2)⟩
  have hr := c53_ratio_exact a.t_m c.t_m ⟨-1, 0⟩ (by simp [a, c, Timestamp.ns])
  obtain ⟨z, e1, z1, z2, z3⟩ := lerp_ok (x := a.z) (y := c.z) rfl rfl
    ((((⟨-1, 0⟩ : Timestamp).ns - a.t_m.ns : ℚ) / ((c.t_m.ns : ℚ) - a.t_m.ns) : ℚ) : ℝ)
  obtain ⟨R, e2, R1, R2, R3⟩ := lerp_ok (x := a.R) (y := c.R) rfl rfl
    ((((⟨-1, 0⟩ : Timestamp).ns - a.t_m.ns : ℚ) / ((c.t_m.ns : ℚ) - a.t_m.ns) : ℚ) : ℝ)
  refine ⟨a, c, ⟨-1, 0⟩, { a with t_m := ⟨-1, 0⟩, t_p := ⟨-1, 0⟩, z := z, R := R }, ?_, ?_, ?_, ?_⟩
  · unfold linInterpolate
    rw [hr]
    show (lerp a.z c.z _ >>= fun z => lerp a.R c.R _ >>= fun R => _) = _
    rw [e1, Res.bind_ok, e2, Res.bind_ok]
  · have : a.R.toM 1 1 = 1 := by ext i j; fin_cases i; fin_cases j; simp [a, of_e]
    rw [this]; exact Matrix.PosSemidef.one
  · have : c.R.toM 1 1 = (2 : ℝ) • 1 := by ext i j; fin_cases i; fin_cases j; simp [c, of_e]
    rw [this]; exact Matrix.PosSemidef.one.smul (by norm_num)
  · show R.e 0 0 < 0
    rw [R3]; simp [a, c, of_e, Timestamp.ns]; norm_num

/-- C53. `get_R` of a column of variances is the diagonal matrix of them, a covariance exactly if all are
non-negative; any matrix with another number of columns is returned as it is. -/
theorem c53_getR (m : MeasD) :
    (m.R.cols ≠ 1 → m.getR = m.R) ∧
    (m.R.cols = 1 → m.getR.rows = m.R.rows ∧ m.getR.cols = m.R.rows ∧
      (∀ i j, i < m.R.rows → j < m.R.rows → m.getR.e i j = if i = j then m.R.e i 0 else 0) ∧
      ((m.getR.toM m.R.rows m.R.rows).PosSemidef ↔ ∀ i < m.R.rows, 0 ≤ m.R.e i 0)) := by
  refine ⟨fun h => by rw [getR, if_neg h], fun h => ?_⟩
  have e : ∀ i j, i < m.R.rows → j < m.R.rows → m.getR.e i j = if i = j then m.R.e i 0 else 0 := by
    intro i j hi hj
    rw [getR, if_pos h, of_e, if_pos ⟨hi, hj⟩]
  refine ⟨by rw [getR, if_pos h]; rfl, by rw [getR, if_pos h]; rfl, e, ?_⟩
  have hd : m.getR.toM m.R.rows m.R.rows = Matrix.diagonal (fun i : Fin m.R.rows => m.R.e i 0) := by
    ext i j
    rw [toM_apply, e i j i.2 j.2, Matrix.diagonal_apply]
    by_cases hij : i = j
    · simp [hij]
    · rw [if_neg hij, if_neg (fun hc => hij (Fin.ext hc))]
  rw [hd, Matrix.posSemidef_diagonal_iff]
  exact ⟨fun hh i hi => hh ⟨i, hi⟩, fun hh i => hh i i.2⟩

/-- C53. `has_meas_noise`: no noise if the matrix is empty or zero; noise as soon as one entry exceeds 1e-11 in
magnitude; and noise only if the sum of squares of the entries exceeds 1e-22. -/
theorem c53_noise (m : MeasD) :
    (m.R.rows = 0 ∨ m.R.cols = 0 → m.hasNoise = false) ∧
    ((∀ i < m.R.rows, ∀ j < m.R.cols, m.R.e i j = 0) → m.hasNoise = false) ∧
    ((∃ i < m.R.rows, ∃ j < m.R.cols, 1 / 10 ^ 11 < |m.R.e i j|) → m.hasNoise = true) ∧
    (m.hasNoise = true → 1 / 10 ^ 22 < ∑ i ∈ Finset.range m.R.rows, ∑ j ∈ Finset.range m.R.cols, m.R.e i j ^ 2) := by
  refine ⟨fun h => ?_, fun h => ?_, fun h => ?_, fun h => ?_⟩
  · unfold hasNoise
    rw [decide_eq_false_iff_not]
    rintro ⟨h1, -⟩
    apply h1
    unfold Mat.size
    rcases h with h | h <;> simp [h]
  · unfold hasNoise
    rw [decide_eq_false_iff_not]
    rintro ⟨-, h1⟩
    rw [Finset.sum_eq_zero (fun i hi => Finset.sum_eq_zero (fun j hj => by
      rw [h i (Finset.mem_range.mp hi) j (Finset.mem_range.mp hj)]; norm_num)), Real.sqrt_zero] at h1
    norm_num at h1
  · obtain ⟨i, hi, j, hj, hij⟩ := h
    unfold hasNoise
    rw [decide_eq_true_iff]
    refine ⟨?_, lt_of_lt_of_le hij ?_⟩
    · unfold Mat.size
      exact Nat.mul_ne_zero (by omega) (by omega)
    · apply Real.abs_le_sqrt
      refine le_trans ?_ (Finset.single_le_sum (f := fun i => ∑ j ∈ Finset.range m.R.cols, m.R.e i j ^ 2)
        (fun i _ => Finset.sum_nonneg (fun j _ => sq_nonneg _)) (Finset.mem_range.mpr hi))
      exact Finset.single_le_sum (f := fun j => m.R.e i j ^ 2) (fun j _ => sq_nonneg _) (Finset.mem_range.mpr hj)
  · unfold hasNoise at h
    rw [decide_eq_true_iff] at h
    have := Real.lt_sqrt (by norm_num) |>.mp h.2
    calc (1:ℝ) / 10 ^ 22 = (1 / 10 ^ 11) ^ 2 := by norm_num
      _ < _ := this

/-- The hypotheses of `c53_interpolate` are met: times 1 s, 2 s and 1.5 s. -/
example : FP.exact.rnd (FP.exact.toSec ⟨2, 0⟩ - FP.exact.toSec ⟨1, 0⟩) ≠ 0 ∧ FP.exact.toSec ⟨1, 0⟩ ≤ FP.exact.toSec ⟨1, 500000000⟩ ∧
    FP.exact.toSec ⟨1, 500000000⟩ ≤ FP.exact.toSec ⟨2, 0⟩ := by
  simp only [FP.exact_rnd, FP.exact_toSec, Timestamp.ns]; norm_num

end MeasD
end Ikf
