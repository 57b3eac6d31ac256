import Verif.Props.Ldlt
import Verif.Lemmas.Kalman

/-! # Property C134: the test on stabilised covariances, and on singular ones -/

namespace Ikf
namespace Ldlt
open Finset Matrix

/-- C134. A positive semidefinite covariance of any size passes once it has been stabilised, by however little. -/
theorem c134_stabilised (S : Mat) (n : ℕ) (hS : S.Shape n n) (hp : (S.toM n n).PosSemidef) (eps : ℝ) (he : 0 < eps) : isPsd (stabM S eps) = .ok true := by
  have sh := hS.stabM eps
  have e := toM_stabM_symm hS eps (Alg.psd_symm hp)
  have r : (stabM S eps).rows = n := sh.1
  have c : (stabM S eps).cols = n := sh.2
  have pd : ((stabM S eps).toM n n).PosDef := by
    rw [e]
    exact Matrix.PosDef.posSemidef_add hp (Matrix.PosDef.smul Matrix.PosDef.one he)
  apply c134_complete
  · refine ⟨by rw [r, c], fun i j hi hj => ?_⟩
    rw [r] at hi hj
    have := congrFun (congrFun pd.isHermitian ⟨j, hj⟩) ⟨i, hi⟩
    simpa [Mat.toM] using this
  · rw [r]; exact pd

/-- Two equal states and a better known third one. -/
noncomputable def twin (c : ℝ) : Mat := Mat.of 3 3 fun i j => if i = 2 ∧ j = 2 then c else if i < 2 ∧ j < 2 then 1 else 0

theorem twin_psd {c : ℝ} (hc : 0 ≤ c) : ((twin c).toM 3 3).PosSemidef := by
  have : (twin c).toM 3 3 = (Matrix.of fun (i : Fin 3) (_ : Fin 1) => if (i : ℕ) < 2 then (1 : ℝ) else 0) *
      (Matrix.of fun (i : Fin 3) (_ : Fin 1) => if (i : ℕ) < 2 then (1 : ℝ) else 0).conjTranspose + Matrix.diagonal ![0, 0, c] := by
    ext i j
    fin_cases i <;> fin_cases j <;> simp [twin, Mat.toM, Mat.of, Matrix.mul_apply]
  rw [this]
  refine (Matrix.posSemidef_self_mul_conjTranspose _).add (Matrix.PosSemidef.diagonal fun i => ?_)
  fin_cases i <;> simp [hc]

/-- C134, finding. A positive semidefinite matrix that is not definite may be refused: the pivots are chosen by the diagonal of the given
matrix, a zero pivot may therefore come before a non-zero one, and Eigen then reports a numerical issue. -/
theorem c134_singular_fails (c : ℝ) (h0 : 0 < c) (h1 : c < 1) :
    Psd.Symmetric (twin c) ∧ ((twin c).toM 3 3).PosSemidef ∧ isPsd (twin c) = .ok false := by
  have sym : Psd.Symmetric (twin c) := by
    refine ⟨rfl, fun i j hi hj => ?_⟩
    simp only [twin, Mat.of_e, and_comm]
  refine ⟨sym, twin_psd h0.le, ?_⟩
  have e : ∀ i j, i < 3 → j < 3 → (twin c).e i j = if i = 2 ∧ j = 2 then c else if i < 2 ∧ j < 2 then 1 else 0 := by
    intro i j hi hj
    simp [twin, Mat.of_e, hi, hj]
  have c1 : |c| = c := abs_of_pos h0
  have big : ∀ (m : ℕ → ℕ → ℝ), |m 1 1| ≤ |m 0 0| → |m 2 2| ≤ |m 0 0| → biggest m 3 0 = 0 := by
    intro m a b
    simp [biggest, List.range_succ, not_lt.mpr a, not_lt.mpr b]
  have big1 : ∀ (m : ℕ → ℕ → ℝ), |m 2 2| ≤ |m 1 1| → biggest m 3 1 = 1 := by
    intro m b
    simp [biggest, List.range_succ, not_lt.mpr b]
  have big2 : ∀ (m : ℕ → ℕ → ℝ), biggest m 3 2 = 2 := by
    intro m
    simp [biggest, List.range_succ]
  -- the first step
  set m0 := (twin c).e with hm0
  have d00 : m0 0 0 = 1 := by simp [e]
  have d10 : m0 1 0 = 1 := by simp [e]
  have d20 : m0 2 0 = 0 := by simp [e]
  have d11 : m0 1 1 = 1 := by simp [e]
  have d21 : m0 2 1 = 0 := by simp [e]
  have d22 : m0 2 2 = c := by simp [e]
  have p0 : pivot m0 3 0 = m0 := by
    unfold pivot
    rw [big m0 (by rw [d11, d00]) (by rw [d22, d00, c1, abs_one]; exact h1.le)]
    simp
  obtain ⟨s1, hs1⟩ : ∃ s, s = step 3 ⟨m0, .zero, false, true⟩ 0 := ⟨_, rfl⟩
  have a00 : s1.m 0 0 = 1 := by rw [hs1]; simp [step, scale, reduce, p0, d00]
  have a10 : s1.m 1 0 = 1 := by rw [hs1]; simp [step, scale, reduce, p0, d00, d10]
  have a20 : s1.m 2 0 = 0 := by rw [hs1]; simp [step, scale, reduce, p0, d00, d20]
  have a11 : s1.m 1 1 = 1 := by rw [hs1]; simp [step, scale, reduce, p0, d11]
  have a21 : s1.m 2 1 = 0 := by rw [hs1]; simp [step, scale, reduce, p0, d21]
  have a22 : s1.m 2 2 = c := by rw [hs1]; simp [step, scale, reduce, p0, d22]
  have ar : s1.ret = true := by rw [hs1]; simp [step, reduce, p0, d00]
  have af : s1.found = false := by rw [hs1]; simp [step, reduce, p0, d00]
  -- the second step
  have p1 : pivot s1.m 3 1 = s1.m := by
    unfold pivot
    rw [big1 s1.m (by rw [a22, a11, c1, abs_one]; exact h1.le)]
    simp
  obtain ⟨s2, hs2⟩ : ∃ s, s = step 3 s1 1 := ⟨_, rfl⟩
  have b00 : s2.m 0 0 = 1 := by rw [hs2]; simp [step, scale, reduce, p1, a00]
  have b11 : s2.m 1 1 = 0 := by rw [hs2]; simp [step, scale, reduce, p1, a00, a10, a11]
  have b20 : s2.m 2 0 = 0 := by rw [hs2]; simp [step, scale, reduce, p1, a20]
  have b22 : s2.m 2 2 = c := by rw [hs2]; simp [step, scale, reduce, p1, a22]
  have bf : s2.found = true := by rw [hs2]; simp [step, reduce, p1, a00, a10, a11]
  -- the third step
  have p2 : pivot s2.m 3 2 = s2.m := by
    unfold pivot
    rw [big2]; simp
  have r3 : (step 3 s2 2).ret = false := by
    simp [step, reduce, p2, b22, b20, b11, bf, h0.ne', Finset.sum_range_succ]
  have hu : (unblocked m0 3).2 = false := by
    unfold unblocked
    rw [if_neg (by norm_num), if_neg (by norm_num), if_neg (by rw [p0, d00]; norm_num)]
    simp only [List.range_succ, List.range_zero, List.nil_append, List.cons_append, List.foldl_cons, List.foldl_nil]
    rw [← hs1, ← hs2, r3]
  unfold isPsd
  rw [symmetric_nearly sym, Res.bind_ok]
  have r : (twin c).rows = 3 := rfl
  simp only [if_true, ← hm0, r, hu, Bool.false_and]

/-! ## Examples -/

/-- The same matrix passes once stabilised ... -/
example : isPsd (stabM (twin (1 / 2)) (1 / 10 ^ 12)) = .ok true :=
  c134_stabilised _ 3 ⟨rfl, rfl⟩ (twin_psd (by norm_num)) _ (by positivity)

/-- ... and a matrix with a negative eigenvalue does not pass. -/
example : isPsd (Mat.of 2 2 fun i j => if i = j then 1 else 2) ≠ .ok true := by
  intro h
  have := c134_symmetric _ ⟨rfl, fun i j hi hj => by simp only [Mat.of_e, eq_comm, and_comm]⟩ h
  have e : (Mat.of 2 2 fun i j => if i = j then (1 : ℝ) else 2).toM 2 2 = !![1, 2; 2, 1] := by
    ext i j
    fin_cases i <;> fin_cases j <;> simp [Mat.toM, Mat.of]
  have r : ∀ x : Fin 2 → ℝ, 0 ≤ star x ⬝ᵥ ((Mat.of 2 2 fun i j => if i = j then (1 : ℝ) else 2).toM 2 2).mulVec x := this.dotProduct_mulVec_nonneg
  have := r ![1, -1]
  rw [e] at this
  norm_num [Matrix.mulVec, dotProduct, Fin.sum_univ_two] at this

end Ldlt
end Ikf
