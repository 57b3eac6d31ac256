import Verif.Model.Normal
import Verif.Lemmas.Kalman
import Mathlib.Probability.Distributions.Gaussian.Multivariate

/-! # Linear images of a standard Gaussian vector -/

namespace Ikf
namespace Normal
open MeasureTheory ProbabilityTheory Matrix WithLp
open scoped RealInnerProductSpace

/-- `μ + T z` for a standard Gaussian `z`. -/
theorem affine_law {n : ℕ} (mu : EuclideanSpace ℝ (Fin n)) (T : Matrix (Fin n) (Fin n) ℝ) :
    (stdGaussian (EuclideanSpace ℝ (Fin n))).map (fun x => mu + toEuclideanCLM (𝕜 := ℝ) T x) = multivariateGaussian mu (T * Tᵀ) := by
  have hp : (T * Tᵀ).PosSemidef := by
    have := Matrix.posSemidef_self_mul_conjTranspose T
    rwa [conjTranspose_eq_transpose_of_trivial] at this
  refine Measure.ext_of_charFun (funext fun t => ?_)
  rw [charFun_multivariateGaussian hp, charFun_apply, integral_map (by fun_prop) (by fun_prop)]
  have h1 : ∀ x : EuclideanSpace ℝ (Fin n), ⟪mu + toEuclideanCLM (𝕜 := ℝ) T x, t⟫ = ⟪mu, t⟫ + ⟪x, toEuclideanCLM (𝕜 := ℝ) Tᵀ t⟫ := by
    intro x
    rw [inner_add_left]
    congr 1
    rw [EuclideanSpace.inner_eq_star_dotProduct, EuclideanSpace.inner_eq_star_dotProduct, ofLp_toEuclideanCLM, ofLp_toEuclideanCLM]
    simp only [star_trivial]
    rw [dotProduct_mulVec, ← mulVec_transpose]
  have h2 : ∀ x : EuclideanSpace ℝ (Fin n), Complex.exp (↑(⟪mu + toEuclideanCLM (𝕜 := ℝ) T x, t⟫) * Complex.I) =
      Complex.exp (⟪mu, t⟫ * Complex.I) * Complex.exp (⟪x, toEuclideanCLM (𝕜 := ℝ) Tᵀ t⟫ * Complex.I) := by
    intro x
    rw [h1, ← Complex.exp_add]
    push_cast
    ring_nf
  simp_rw [h2]
  rw [integral_const_mul, ← charFun_apply, charFun_stdGaussian, ← Complex.exp_add]
  congr 1
  rw [real_inner_comm]
  have h3 : ‖toEuclideanCLM (𝕜 := ℝ) Tᵀ t‖ ^ 2 = ofLp t ⬝ᵥ (T * Tᵀ) *ᵥ ofLp t := by
    rw [← real_inner_self_eq_norm_sq, EuclideanSpace.inner_eq_star_dotProduct, ofLp_toEuclideanCLM]
    simp only [star_trivial]
    rw [← mulVec_mulVec, dotProduct_mulVec (ofLp t) T, ← mulVec_transpose]
  rw [← Complex.ofReal_pow, h3]
  push_cast
  ring

end Normal
end Ikf
