import Verif.Lemmas.ChiSquare
import Mathlib.Probability.Distributions.Gaussian.Multivariate
import Mathlib.Probability.Moments.ComplexMGF
import Mathlib.Analysis.SpecialFunctions.ImproperIntegrals

/-! # The squared norm of a standard Gaussian vector is chi-square distributed -/

namespace Ikf
namespace Chi2
open MeasureTheory ProbabilityTheory Real Set
open scoped NNReal ENNReal

theorem chi2_prob {k : ℕ} (hk : 0 < k) : IsProbabilityMeasure (chi2 k) :=
  isProbabilityMeasure_gammaMeasure (by have : (0:ℝ) < k := by exact_mod_cast hk
                                        positivity) (by norm_num)

theorem mgf_sq (t : ℝ) : mgf (fun z : ℝ => z ^ 2) (gaussianReal 0 1) t = √(π / (1 / 2 - t)) / √(2 * π) := by
  unfold mgf
  rw [integral_gaussianReal_eq_integral_smul one_ne_zero]
  have : ∀ z : ℝ, gaussianPDFReal 0 1 z • exp (t * z ^ 2) = (√(2 * π))⁻¹ * exp (-(1 / 2 - t) * z ^ 2) := by
    intro z
    rw [gaussianPDFReal, smul_eq_mul, mul_assoc, ← exp_add]
    congr 2
    · simp
    · simp; ring
  simp_rw [this]
  rw [integral_const_mul, integral_gaussian, mul_comm, ← div_eq_mul_inv]

theorem integral_gamma {a : ℝ} (ha : 0 < a) (f : ℝ → ℝ) :
    ∫ x, f x ∂(gammaMeasure a (1 / 2)) = ∫ x in Ioi 0, dens a x * f x := by
  have hm : Measurable (gammaPDF a (1 / 2)) := (measurable_gammaPDFReal a (1 / 2)).ennreal_ofReal
  unfold gammaMeasure
  rw [integral_withDensity_eq_integral_toReal_smul hm (ae_of_all _ fun x => by unfold gammaPDF; exact ENNReal.ofReal_lt_top)]
  have h1 : ∀ x, (gammaPDF a (1 / 2) x).toReal • f x = gammaPDFReal a (1 / 2) x * f x := by
    intro x
    unfold gammaPDF
    rw [ENNReal.toReal_ofReal (gammaPDFReal_nonneg ha (by norm_num) x), smul_eq_mul]
  simp_rw [h1]
  rw [← setIntegral_univ, setIntegral_eq_of_subset_of_forall_sdiff_eq_zero (s := Ici 0) MeasurableSet.univ (subset_univ _) ?_,
    integral_Ici_eq_integral_Ioi]
  · refine setIntegral_congr_fun measurableSet_Ioi (fun x hx => ?_)
    simp only [gammaPDFReal, dens]
    rw [if_pos (le_of_lt hx)]
  · rintro x ⟨-, hx⟩
    have hx' : ¬ (0:ℝ) ≤ x := fun h => hx h
    rw [gammaPDFReal, if_neg hx', zero_mul]

theorem mgf_gamma {a : ℝ} (ha : 0 < a) (t : ℝ) :
    mgf (fun x => x) (gammaMeasure a (1 / 2)) t = if t < 1 / 2 then (1 / 2) ^ a * (1 / (1 / 2 - t)) ^ a else 0 := by
  unfold mgf
  have hG := Gamma_pos_of_pos ha
  rw [integral_gamma ha]
  have h1 : ∀ x : ℝ, dens a x * exp (t * x) = (1 / 2) ^ a / Gamma a * (x ^ (a - 1) * exp (-((1 / 2 - t) * x))) := by
    intro x
    unfold dens
    rw [mul_assoc, mul_assoc, ← exp_add]
    congr 3
    ring
  simp_rw [h1]
  rw [integral_const_mul]
  split_ifs with ht
  · rw [integral_rpow_mul_exp_neg_mul_Ioi ha (by linarith)]
    field_simp
  · rw [integral_undef, mul_zero]
    intro hi
    refine not_integrableOn_Ioi_rpow (a - 1) (Integrable.mono' hi ?_ ?_)
    · exact (measurable_id.pow_const (a - 1)).aestronglyMeasurable
    · refine (ae_restrict_iff' measurableSet_Ioi).mpr (ae_of_all _ fun x (hx : 0 < x) => ?_)
      have h2 : 0 ≤ x ^ (a - 1) := rpow_nonneg hx.le _
      rw [norm_of_nonneg h2]
      have h3 : 1 ≤ exp (-((1 / 2 - t) * x)) := by
        rw [one_le_exp_iff]
        push Not at ht
        nlinarith
      nlinarith

/-- The law of the sum of squares of independent standard normal variables. -/
theorem sum_sq_law {m : ℕ} (hm : 0 < m) :
    (Measure.pi (fun _ : Fin m => gaussianReal 0 1)).map (fun z => ∑ i, z i ^ 2) = chi2 m := by
  have := chi2_prob hm
  have hmR : (0:ℝ) < (m:ℝ) / 2 := by have : (0:ℝ) < m := by exact_mod_cast hm
                                     positivity
  set μ : Measure (Fin m → ℝ) := Measure.pi (fun _ : Fin m => gaussianReal 0 1) with hμ
  have hX : Measurable (fun z : Fin m → ℝ => ∑ i, z i ^ 2) := by fun_prop
  have hmgf : mgf (fun z : Fin m → ℝ => ∑ i, z i ^ 2) μ = mgf (fun x : ℝ => x) (chi2 m) := by
    funext t
    have hind : iIndepFun (fun (i : Fin m) (ω : Fin m → ℝ) => (fun z : ℝ => z ^ 2) (ω i)) μ :=
      iIndepFun_pi (X := fun _ z => z ^ 2) (fun i => by fun_prop)
    have e1 : (fun z : Fin m → ℝ => ∑ i, z i ^ 2) = ∑ i, (fun ω : Fin m → ℝ => (fun z : ℝ => z ^ 2) (ω i)) := by
      funext z; simp
    rw [e1, hind.mgf_sum (fun i => by fun_prop)]
    have e2 : ∀ i : Fin m, mgf (fun ω : Fin m → ℝ => (fun z : ℝ => z ^ 2) (ω i)) μ t = √(π / (1 / 2 - t)) / √(2 * π) := by
      intro i
      rw [← mgf_sq]
      have hp := measurePreserving_eval (fun _ : Fin m => gaussianReal 0 1) i
      unfold mgf
      rw [← hp.map_eq, integral_map hp.measurable.aemeasurable (by fun_prop)]
    rw [Finset.prod_congr rfl (fun i _ => e2 i), Finset.prod_const, Finset.card_univ, Fintype.card_fin]
    unfold chi2
    rw [mgf_gamma hmR]
    split_ifs with ht
    · have hb : 0 < 1 / 2 - t := by linarith
      rw [← mul_rpow (by norm_num) (by positivity), ← sqrt_div' _ (by positivity)]
      have e3 : π / (1 / 2 - t) / (2 * π) = 1 / 2 * (1 / (1 / 2 - t)) := by
        have := pi_pos.ne'
        field_simp
      rw [e3, sqrt_eq_rpow, ← rpow_natCast, ← rpow_mul (by positivity)]
      congr 1; ring
    · push Not at ht
      rw [sqrt_eq_zero_of_nonpos (div_nonpos_of_nonneg_of_nonpos pi_pos.le (by linarith)), zero_div, zero_pow (by omega)]
  have hint : interior (integrableExpSet (fun z : Fin m → ℝ => ∑ i, z i ^ 2) μ) ∈ nhds (0:ℝ) := by
    rw [interior_mem_nhds]
    refine Filter.mem_of_superset (Iio_mem_nhds (show (0:ℝ) < 1 / 2 by norm_num)) (fun t (ht : t < 1 / 2) => ?_)
    rw [integrableExpSet_eq_of_mgf hmgf]
    show Integrable _ _
    rw [← mgf_pos_iff]
    unfold chi2
    rw [mgf_gamma hmR, if_pos ht]
    have : 0 < 1 / 2 - t := by linarith
    positivity
  have hC := eqOn_complexMGF_of_mgf hmgf
  have h2 : (chi2 m).map (fun x : ℝ => x) = chi2 m := Measure.map_id'
  rw [← h2]
  have : IsProbabilityMeasure (μ.map (fun z : Fin m → ℝ => ∑ i, z i ^ 2)) := Measure.isProbabilityMeasure_map hX.aemeasurable
  have : IsProbabilityMeasure ((chi2 m).map (fun x : ℝ => x)) := by rw [h2]; infer_instance
  refine Measure.ext_of_charFun (funext fun t => ?_)
  rw [← complexMGF_mul_I hX.aemeasurable, ← complexMGF_mul_I (by fun_prop)]
  refine hC ?_
  have h0 : ((t : ℂ) * Complex.I).re = 0 := by rw [Complex.re_ofReal_mul, Complex.I_re, mul_zero]
  rw [mem_ofPred_eq, h0]
  exact mem_of_mem_nhds hint

open Matrix WithLp in
open scoped MatrixOrder in
/-- The normalised square of a centred Gaussian vector with covariance `S`. -/
theorem nis_law {m : ℕ} (hm : 0 < m) {S : Matrix (Fin m) (Fin m) ℝ} (hS : S.PosDef) :
    (multivariateGaussian 0 S).map (fun r : EuclideanSpace ℝ (Fin m) => ofLp r ⬝ᵥ (S⁻¹ *ᵥ ofLp r)) = chi2 m := by
  have hS0 : 0 ≤ S := hS.posSemidef.nonneg
  set Q : Matrix (Fin m) (Fin m) ℝ := CFC.sqrt S with hQ
  have hQQ : Q * Q = S := CFC.sqrt_mul_sqrt_self S hS0
  have hQp : Q.PosSemidef := Matrix.nonneg_iff_posSemidef.mp (CFC.sqrt_nonneg S)
  have hQt : Qᵀ = Q := hQp.1
  have hdet : IsUnit Q.det := by
    have h1 : Q.det * Q.det = S.det := by rw [← Matrix.det_mul, hQQ]
    have h2 := hS.det_pos.ne'
    rw [isUnit_iff_ne_zero]
    intro h0; rw [h0, mul_zero] at h1; exact h2 h1.symm
  have hone : Qᵀ * (S⁻¹ * Q) = 1 := by
    rw [hQt, ← hQQ, Matrix.mul_inv_rev, Matrix.mul_assoc, Matrix.nonsing_inv_mul _ hdet, Matrix.mul_one,
      Matrix.mul_nonsing_inv _ hdet]
  unfold multivariateGaussian
  rw [← map_pi_eq_stdGaussian, Measure.map_map (by fun_prop) (by fun_prop), Measure.map_map (by fun_prop) (by fun_prop), ← sum_sq_law hm]
  congr 1
  funext z
  show ofLp (0 + toEuclideanCLM (𝕜 := ℝ) Q (toLp 2 z)) ⬝ᵥ (S⁻¹ *ᵥ ofLp (0 + toEuclideanCLM (𝕜 := ℝ) Q (toLp 2 z))) = _
  rw [zero_add, ofLp_toEuclideanCLM, Matrix.mulVec_mulVec, ← Matrix.vecMul_transpose, ← Matrix.dotProduct_mulVec,
    Matrix.mulVec_mulVec, hone, Matrix.one_mulVec]
  simp only [dotProduct, sq]

end Chi2
end Ikf
