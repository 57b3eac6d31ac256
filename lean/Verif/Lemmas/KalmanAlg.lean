import Mathlib.LinearAlgebra.Matrix.PosDef
import Mathlib.Analysis.Matrix.PosDef
import Mathlib.Tactic.NoncommRing
import Mathlib.Tactic.Abel
import Mathlib.Data.Real.StarOrdered

/-! # Algebra of the Kalman update on Mathlib matrices -/

namespace Ikf.Alg
open Matrix
variable {n m : Type*} [Fintype n] [Fintype m] [DecidableEq n] [DecidableEq m]

theorem psd_congr {A : Matrix n n ℝ} (hA : A.PosSemidef) (B : Matrix m n ℝ) : (B * A * Bᵀ).PosSemidef := by
  have := hA.mul_mul_conjTranspose_same B
  rwa [conjTranspose_eq_transpose_of_trivial] at this

theorem psd_symm {A : Matrix n n ℝ} (hA : A.PosSemidef) : Aᵀ = A := by
  have := hA.isHermitian
  rwa [Matrix.IsHermitian, conjTranspose_eq_transpose_of_trivial] at this

theorem pd_symm {A : Matrix n n ℝ} (hA : A.PosDef) : Aᵀ = A := psd_symm hA.posSemidef

theorem smul_one_psd {c : ℝ} (hc : 0 ≤ c) : (c • (1 : Matrix n n ℝ)).PosSemidef :=
  PosSemidef.one.smul hc

theorem smul_one_pd {c : ℝ} (hc : 0 < c) : (c • (1 : Matrix n n ℝ)).PosDef :=
  PosDef.one.smul hc

/-- The Kalman gain `Σ Hᵀ (H Σ Hᵀ + R)⁻¹`. -/
noncomputable def gain (S : Matrix n n ℝ) (H : Matrix m n ℝ) (R : Matrix m m ℝ) : Matrix n m ℝ :=
  S * Hᵀ * (H * S * Hᵀ + R)⁻¹

/-- Covariance after a correction with an arbitrary gain `K` (Joseph form). -/
def joseph (S : Matrix n n ℝ) (H : Matrix m n ℝ) (R : Matrix m m ℝ) (K : Matrix n m ℝ) : Matrix n n ℝ :=
  (1 - K * H) * S * (1 - K * H)ᵀ + K * R * Kᵀ

theorem innov_pd {S : Matrix n n ℝ} (hS : S.PosSemidef) (H : Matrix m n ℝ) {R : Matrix m m ℝ} (hR : R.PosDef) :
    (H * S * Hᵀ + R).PosDef := PosDef.posSemidef_add (psd_congr hS H) hR

theorem joseph_expand (S : Matrix n n ℝ) (H : Matrix m n ℝ) (R : Matrix m m ℝ) (K : Matrix n m ℝ) :
    joseph S H R K = S - K * H * S - S * Hᵀ * Kᵀ + K * (H * S * Hᵀ + R) * Kᵀ := by
  unfold joseph
  simp only [transpose_sub, transpose_one, transpose_mul, Matrix.sub_mul, Matrix.mul_sub, Matrix.mul_add,
    Matrix.add_mul, Matrix.one_mul, Matrix.mul_one, Matrix.mul_assoc]
  abel

theorem joseph_psd {S : Matrix n n ℝ} (hS : S.PosSemidef) (H : Matrix m n ℝ) {R : Matrix m m ℝ}
    (hR : R.PosSemidef) (K : Matrix n m ℝ) : (joseph S H R K).PosSemidef :=
  (psd_congr hS _).add (psd_congr hR _)

theorem gain_mul {S : Matrix n n ℝ} (H : Matrix m n ℝ) {R : Matrix m m ℝ} (h : (H * S * Hᵀ + R).PosDef) :
    gain S H R * (H * S * Hᵀ + R) = S * Hᵀ := by
  unfold gain
  rw [Matrix.mul_assoc, Matrix.nonsing_inv_mul _ ((Matrix.isUnit_iff_isUnit_det _).mp h.isUnit), Matrix.mul_one]

theorem gain_form {S : Matrix n n ℝ} (hS : S.PosSemidef) (H : Matrix m n ℝ) (R : Matrix m m ℝ) :
    gain S H R * H * S = (S * Hᵀ) * (H * S * Hᵀ + R)⁻¹ * (S * Hᵀ)ᵀ := by
  unfold gain
  rw [transpose_mul, transpose_transpose, psd_symm hS]
  simp only [Matrix.mul_assoc]

theorem gain_info_psd {S : Matrix n n ℝ} (hS : S.PosSemidef) (H : Matrix m n ℝ) {R : Matrix m m ℝ}
    (h : (H * S * Hᵀ + R).PosDef) : (gain S H R * H * S).PosSemidef := by
  rw [gain_form hS]; exact psd_congr h.inv.posSemidef _

/-- Joseph form at the optimal gain = short form. -/
theorem joseph_gain {S : Matrix n n ℝ} (hS : S.PosSemidef) (H : Matrix m n ℝ) {R : Matrix m m ℝ}
    (h : (H * S * Hᵀ + R).PosDef) : joseph S H R (gain S H R) = (1 - gain S H R * H) * S := by
  rw [joseph_expand, gain_mul H h]
  rw [Matrix.sub_mul, Matrix.one_mul]
  abel

/-- The optimal gain minimises the posterior covariance. -/
theorem gain_optimal {S : Matrix n n ℝ} (hS : S.PosSemidef) (H : Matrix m n ℝ) {R : Matrix m m ℝ}
    (h : (H * S * Hᵀ + R).PosDef) (K' : Matrix n m ℝ) :
    joseph S H R K' - (1 - gain S H R * H) * S =
      (K' - gain S H R) * (H * S * Hᵀ + R) * (K' - gain S H R)ᵀ := by
  set K := gain S H R with hK
  set T := H * S * Hᵀ + R with hT
  have h1 : K * T = S * Hᵀ := gain_mul H h
  have h2 : T * Kᵀ = H * S := by
    have := congrArg transpose h1
    rwa [transpose_mul, transpose_mul, transpose_transpose, pd_symm h, psd_symm hS] at this
  have h3 : K * (H * S) = K * T * Kᵀ := by rw [Matrix.mul_assoc, h2]
  rw [joseph_expand, ← hT, transpose_sub]
  simp only [Matrix.sub_mul, Matrix.mul_sub, Matrix.one_mul]
  rw [h1, Matrix.mul_assoc K' T Kᵀ, h2, ← h1, ← h3]
  simp only [Matrix.mul_assoc]
  abel

theorem gain_optimal_psd {S : Matrix n n ℝ} (hS : S.PosSemidef) (H : Matrix m n ℝ) {R : Matrix m m ℝ}
    (h : (H * S * Hᵀ + R).PosDef) (K' : Matrix n m ℝ) :
    (joseph S H R K' - (1 - gain S H R * H) * S).PosSemidef := by
  rw [gain_optimal hS H h]; exact psd_congr h.posSemidef _

/-- Information form: the posterior inverse is the prior inverse plus the measurement information. -/
theorem info_form {S : Matrix n n ℝ} (hS : S.PosDef) (H : Matrix m n ℝ) {R : Matrix m m ℝ} (hR : R.PosDef) :
    (S⁻¹ + Hᵀ * R⁻¹ * H) * ((1 - gain S H R * H) * S) = 1 := by
  have hT := innov_pd hS.posSemidef H hR
  have hSu : IsUnit S.det := (Matrix.isUnit_iff_isUnit_det _).mp hS.isUnit
  have hRu : IsUnit R.det := (Matrix.isUnit_iff_isUnit_det _).mp hR.isUnit
  have hTu : IsUnit (H * S * Hᵀ + R).det := (Matrix.isUnit_iff_isUnit_det _).mp hT.isUnit
  set T := H * S * Hᵀ + R with hTd
  have hK : gain S H R = S * Hᵀ * T⁻¹ := rfl
  have hHSH : H * S * Hᵀ = T - R := by rw [hTd]; abel
  have e1 : S⁻¹ * ((1 - gain S H R * H) * S) = 1 - Hᵀ * T⁻¹ * (H * S) := by
    rw [hK, Matrix.sub_mul, Matrix.mul_sub, Matrix.one_mul, Matrix.nonsing_inv_mul _ hSu]
    congr 1
    simp only [Matrix.mul_assoc]
    rw [Matrix.nonsing_inv_mul_cancel_left _ _ hSu]
  have e2 : Hᵀ * R⁻¹ * H * ((1 - gain S H R * H) * S) = Hᵀ * T⁻¹ * (H * S) := by
    have : R⁻¹ * (H * S - H * S * Hᵀ * T⁻¹ * (H * S)) = T⁻¹ * (H * S) := by
      rw [hHSH, Matrix.sub_mul, Matrix.mul_nonsing_inv _ hTu, Matrix.sub_mul, Matrix.one_mul]
      rw [sub_sub_cancel, Matrix.mul_assoc R, Matrix.nonsing_inv_mul_cancel_left _ _ hRu]
    rw [Matrix.mul_assoc Hᵀ T⁻¹, ← this, hK]
    simp only [Matrix.mul_assoc, Matrix.mul_sub, Matrix.sub_mul, Matrix.one_mul]
  rw [Matrix.add_mul, e1, e2]
  abel

theorem sym_half (S : Matrix n n ℝ) (h : Sᵀ = S) : (1/2 : ℝ) • (S + Sᵀ) = S := by
  rw [h, ← two_smul ℝ S, smul_smul]; norm_num

theorem sym_half_symm (S : Matrix n n ℝ) : ((1/2 : ℝ) • (S + Sᵀ))ᵀ = (1/2 : ℝ) • (S + Sᵀ) := by
  rw [transpose_smul, transpose_add, transpose_transpose, add_comm]

end Ikf.Alg
