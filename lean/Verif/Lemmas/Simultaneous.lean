import Verif.Lemmas.KalmanAlg
import Mathlib.Data.Matrix.ColumnRowPartitioned

/-! # Algebra of two Kalman updates in a row -/

namespace Ikf.Alg
open Matrix
variable {n m k l : Type*} [Fintype n] [Fintype m] [Fintype k] [Fintype l] [DecidableEq n] [DecidableEq m] [DecidableEq k] [DecidableEq l]

/-- The covariance after an update. -/
noncomputable def apos (P : Matrix n n ℝ) (H : Matrix m n ℝ) (R : Matrix m m ℝ) : Matrix n n ℝ := (1 - gain P H R * H) * P

theorem apos_psd {P : Matrix n n ℝ} (hP : P.PosSemidef) (H : Matrix m n ℝ) {R : Matrix m m ℝ} (hR : R.PosDef) : (apos P H R).PosSemidef := by
  unfold apos
  rw [← joseph_gain hP H (innov_pd hP H hR)]
  exact joseph_psd hP H hR.posSemidef _

/-- Gain of the first measurement in the result of two updates. -/
noncomputable def gain1 (P : Matrix n n ℝ) (H1 : Matrix m n ℝ) (R1 : Matrix m m ℝ) (H2 : Matrix k n ℝ) (R2 : Matrix k k ℝ) : Matrix n m ℝ :=
  (1 - gain (apos P H1 R1) H2 R2 * H2) * gain P H1 R1

/-- Gain of the second. -/
noncomputable def gain2 (P : Matrix n n ℝ) (H1 : Matrix m n ℝ) (R1 : Matrix m m ℝ) (H2 : Matrix k n ℝ) (R2 : Matrix k k ℝ) : Matrix n k ℝ :=
  gain (apos P H1 R1) H2 R2

section
variable {P : Matrix n n ℝ} (hP : P.PosSemidef) (H1 : Matrix m n ℝ) {R1 : Matrix m m ℝ} (hR1 : R1.PosDef) (H2 : Matrix k n ℝ) {R2 : Matrix k k ℝ}
  (hR2 : R2.PosDef)
include hP hR1 hR2

/-- The normal equations of the two gains. -/
theorem gains_normal :
    gain1 P H1 R1 H2 R2 * (H1 * P * H1ᵀ + R1) + gain2 P H1 R1 H2 R2 * (H2 * P * H1ᵀ) = P * H1ᵀ ∧
    gain1 P H1 R1 H2 R2 * (H1 * P * H2ᵀ) + gain2 P H1 R1 H2 R2 * (H2 * P * H2ᵀ + R2) = P * H2ᵀ := by
  have h1 := gain_mul H1 (innov_pd hP H1 hR1)
  have h2 := gain_mul H2 (innov_pd (apos_psd hP H1 hR1) H2 hR2)
  unfold gain1 gain2
  set K1 := gain P H1 R1 with hK1
  set K2 := gain (apos P H1 R1) H2 R2 with hK2
  have hA : apos P H1 R1 = P - K1 * H1 * P := by unfold apos; rw [Matrix.sub_mul, Matrix.one_mul]
  rw [hA] at h2
  constructor
  · rw [Matrix.mul_assoc, h1]
    simp only [Matrix.sub_mul, Matrix.one_mul, Matrix.mul_assoc]
    abel
  · have e : K2 * (H2 * P * H2ᵀ + R2) = K2 * (H2 * (P - K1 * H1 * P) * H2ᵀ + R2) + K2 * H2 * K1 * (H1 * P * H2ᵀ) := by
      simp only [Matrix.mul_sub, Matrix.sub_mul, Matrix.mul_add, Matrix.mul_assoc]
      abel
    rw [e, h2]
    simp only [Matrix.sub_mul, Matrix.one_mul, Matrix.mul_assoc]
    abel

omit hP hR1 hR2 in
/-- The factor of the error in the result. -/
theorem gains_factor : (1 - gain2 P H1 R1 H2 R2 * H2) * (1 - gain P H1 R1 * H1) = 1 - gain1 P H1 R1 H2 R2 * H1 - gain2 P H1 R1 H2 R2 * H2 := by
  unfold gain1
  rw [show gain (apos P H1 R1) H2 R2 = gain2 P H1 R1 H2 R2 from rfl]
  simp only [Matrix.sub_mul, Matrix.mul_sub, Matrix.one_mul, Matrix.mul_one, Matrix.mul_assoc]
  abel

/-- The noise of two independent measurements. -/
theorem blocks_pd : (fromBlocks R1 0 0 R2).PosDef := by
  refine PosDef.of_dotProduct_mulVec_pos ?_ fun x hx => ?_
  · rw [Matrix.IsHermitian, fromBlocks_conjTranspose, hR1.isHermitian.eq, hR2.isHermitian.eq]
    simp
  · have hx' : (fun i => x (Sum.inl i)) ≠ 0 ∨ (fun i => x (Sum.inr i)) ≠ 0 := by
      by_contra hn
      push Not at hn
      refine hx (funext fun i => ?_)
      cases i with
      | inl i => exact congrFun hn.1 i
      | inr i => exact congrFun hn.2 i
    have e : star x ⬝ᵥ (fromBlocks R1 0 0 R2) *ᵥ x =
        (fun i => x (Sum.inl i)) ⬝ᵥ R1 *ᵥ (fun i => x (Sum.inl i)) + (fun i => x (Sum.inr i)) ⬝ᵥ R2 *ᵥ (fun i => x (Sum.inr i)) := by
      simp [dotProduct, mulVec, Fintype.sum_sum_type, fromBlocks]
    rw [e]
    have p1 := hR1.posSemidef.dotProduct_mulVec_nonneg (fun i => x (Sum.inl i))
    have p2 := hR2.posSemidef.dotProduct_mulVec_nonneg (fun i => x (Sum.inr i))
    rw [star_trivial] at p1 p2
    rcases hx' with h | h
    · have := hR1.dotProduct_mulVec_pos h
      rw [star_trivial] at this
      linarith
    · have := hR2.dotProduct_mulVec_pos h
      rw [star_trivial] at this
      linarith

omit hR1 hR2 in
/-- The normal equations have one solution. -/
theorem gains_stacked (hR : (fromBlocks R1 0 0 R2).PosDef) {A : Matrix n m ℝ} {B : Matrix n k ℝ}
    (e1 : A * (H1 * P * H1ᵀ + R1) + B * (H2 * P * H1ᵀ) = P * H1ᵀ) (e2 : A * (H1 * P * H2ᵀ) + B * (H2 * P * H2ᵀ + R2) = P * H2ᵀ) :
    fromCols A B = gain P (fromRows H1 H2) (fromBlocks R1 0 0 R2) := by
  have hS := innov_pd hP (fromRows H1 H2) hR
  have hu := (Matrix.isUnit_iff_isUnit_det _).mp hS.isUnit
  have hg := gain_mul (S := P) (fromRows H1 H2) hS
  have hf : fromCols A B * (fromRows H1 H2 * P * (fromRows H1 H2)ᵀ + fromBlocks R1 0 0 R2) = P * (fromRows H1 H2)ᵀ := by
    have hb : fromRows H1 H2 * P * (fromRows H1 H2)ᵀ + fromBlocks R1 0 0 R2 =
        fromBlocks (H1 * P * H1ᵀ + R1) (H1 * P * H2ᵀ) (H2 * P * H1ᵀ) (H2 * P * H2ᵀ + R2) := by
      rw [transpose_fromRows, fromRows_mul, fromRows_mul_fromCols, fromBlocks_add]
      simp
    rw [hb, fromCols_mul_fromBlocks, e1, e2, transpose_fromRows, mul_fromCols]
  have := hf.trans hg.symm
  calc fromCols A B = fromCols A B * (fromRows H1 H2 * P * (fromRows H1 H2)ᵀ + fromBlocks R1 0 0 R2) *
        (fromRows H1 H2 * P * (fromRows H1 H2)ᵀ + fromBlocks R1 0 0 R2)⁻¹ := by rw [Matrix.mul_assoc, Matrix.mul_nonsing_inv _ hu, Matrix.mul_one]
    _ = _ := by rw [this, Matrix.mul_assoc, Matrix.mul_nonsing_inv _ hu, Matrix.mul_one]

/-- Two updates in a row are one update with both measurements. -/
theorem gains_both : fromCols (gain1 P H1 R1 H2 R2) (gain2 P H1 R1 H2 R2) = gain P (fromRows H1 H2) (fromBlocks R1 0 0 R2) :=
  gains_stacked hP H1 H2 (blocks_pd hP hR1 hR2) (gains_normal hP H1 hR1 H2 hR2).1 (gains_normal hP H1 hR1 H2 hR2).2

/-- The gains do not depend on the order of the updates. -/
theorem gains_comm : gain1 P H1 R1 H2 R2 = gain2 P H2 R2 H1 R1 ∧ gain2 P H1 R1 H2 R2 = gain1 P H2 R2 H1 R1 := by
  have h1 := gains_both hP H1 hR1 H2 hR2
  obtain ⟨n1, n2⟩ := gains_normal hP H2 hR2 H1 hR1
  have h2 := gains_stacked hP H1 H2 (blocks_pd hP hR1 hR2) (A := gain2 P H2 R2 H1 R1) (B := gain1 P H2 R2 H1 R1) (by rw [add_comm]; exact n2)
    (by rw [add_comm]; exact n1)
  exact (fromCols_inj (h1.trans h2.symm)).imp id id

omit hP hR1 hR2 in
theorem apos_apos : apos (apos P H1 R1) H2 R2 = (1 - gain1 P H1 R1 H2 R2 * H1 - gain2 P H1 R1 H2 R2 * H2) * P := by
  rw [← gains_factor, Matrix.mul_assoc]
  rfl

theorem apos_comm : apos (apos P H1 R1) H2 R2 = apos (apos P H2 R2) H1 R1 := by
  rw [apos_apos, apos_apos, (gains_comm hP H1 hR1 H2 hR2).1, (gains_comm hP H1 hR1 H2 hR2).2]
  congr 1
  abel

theorem factor_comm : (1 - gain (apos P H1 R1) H2 R2 * H2) * (1 - gain P H1 R1 * H1) = (1 - gain (apos P H2 R2) H1 R1 * H1) * (1 - gain P H2 R2 * H2) := by
  have e1 := gains_factor (P := P) (R1 := R1) (R2 := R2) H1 H2
  have e2 := gains_factor (P := P) (R1 := R2) (R2 := R1) H2 H1
  unfold gain2 at e1 e2
  rw [e1, e2]
  have h := gains_comm hP H1 hR1 H2 hR2
  unfold gain2 at h
  rw [h.1, h.2]
  abel

omit hP hR1 hR2 in
theorem mean_mean {o : Type*} [Fintype o] (x : Matrix n o ℝ) (z1 : Matrix m o ℝ) (z2 : Matrix k o ℝ) :
    (x + gain P H1 R1 * (z1 - H1 * x)) + gain (apos P H1 R1) H2 R2 * (z2 - H2 * (x + gain P H1 R1 * (z1 - H1 * x))) =
      x + gain1 P H1 R1 H2 R2 * (z1 - H1 * x) + gain2 P H1 R1 H2 R2 * (z2 - H2 * x) := by
  unfold gain1 gain2
  simp only [Matrix.mul_sub, Matrix.sub_mul, Matrix.mul_add, Matrix.one_mul, Matrix.mul_assoc]
  abel

theorem mean_comm {o : Type*} [Fintype o] (x : Matrix n o ℝ) (z1 : Matrix m o ℝ) (z2 : Matrix k o ℝ) :
    (x + gain P H1 R1 * (z1 - H1 * x)) + gain (apos P H1 R1) H2 R2 * (z2 - H2 * (x + gain P H1 R1 * (z1 - H1 * x))) =
    (x + gain P H2 R2 * (z2 - H2 * x)) + gain (apos P H2 R2) H1 R1 * (z1 - H1 * (x + gain P H2 R2 * (z2 - H2 * x))) := by
  rw [mean_mean, mean_mean, (gains_comm hP H1 hR1 H2 hR2).1, (gains_comm hP H1 hR1 H2 hR2).2]
  abel

/-- One update with both measurements. -/
theorem both_eq {o : Type*} [Fintype o] (x : Matrix n o ℝ) (z1 : Matrix m o ℝ) (z2 : Matrix k o ℝ) :
    apos P (fromRows H1 H2) (fromBlocks R1 0 0 R2) = apos (apos P H1 R1) H2 R2 ∧
    x + gain P (fromRows H1 H2) (fromBlocks R1 0 0 R2) * (fromRows z1 z2 - fromRows H1 H2 * x) =
      (x + gain P H1 R1 * (z1 - H1 * x)) + gain (apos P H1 R1) H2 R2 * (z2 - H2 * (x + gain P H1 R1 * (z1 - H1 * x))) := by
  have hg := gains_both hP H1 hR1 H2 hR2
  constructor
  · rw [apos_apos]
    conv_lhs => unfold apos
    rw [← hg, fromCols_mul_fromRows, sub_add_eq_sub_sub]
  · rw [← hg]
    have : fromRows z1 z2 - fromRows H1 H2 * x = fromRows (z1 - H1 * x) (z2 - H2 * x) := by
      rw [fromRows_mul]
      ext i j
      cases i <;> rfl
    rw [this, fromCols_mul_fromRows, mean_mean, add_assoc]

end

/-- Renaming the measurements renames the columns of the gain. -/
theorem gain_reindex (P : Matrix n n ℝ) (H : Matrix m n ℝ) (R : Matrix m m ℝ) (e : l ≃ m) :
    gain P (H.submatrix e id) (R.submatrix e e) = (gain P H R).submatrix id e := by
  unfold gain
  have h1 : H.submatrix e id * P * (H.submatrix e id)ᵀ + R.submatrix e e = (H * P * Hᵀ + R).submatrix e e := by
    ext i j
    simp [Matrix.mul_apply]
  have h2 : P * (H.submatrix e id)ᵀ = (P * Hᵀ).submatrix id e := by
    ext i j
    simp [Matrix.mul_apply]
  rw [h1, h2, Matrix.inv_submatrix_equiv, Matrix.submatrix_mul_equiv]

end Ikf.Alg
