import Verif.Props.KalmanMath
import Mathlib.Data.Matrix.ColumnRowPartitioned
import Mathlib.Analysis.Real.Sqrt

/-! # Property C45: covariance intersection update -/

namespace Ikf
open Mat Matrix

section
variable {Hi Hj R r Si Sj : Mat} {n p m : ℕ}

/-- `S` of KF.cpp:140-143, stabilised. -/
noncomputable def ciInnov (Hj R Sj : Mat) (wi eps : ℝ) : Mat :=
  stabM (smul (1 / (1 - wi)) Hj * Sj * Hj.tr + R) eps
/-- Posterior of KF.cpp:152-153. -/
noncomputable def ciPost (Hi Hj R Si Sj : Mat) (wi eps : ℝ) : Mat :=
  smul (1 / wi) Si - smul (1 / wi ^ 2) Si * Hi.tr * (ciInnov Hj R Sj wi eps).inv * Hi * Si

theorem ciInnov_shape (hj : ObsShape Hj R r Sj p m) (wi eps) : (ciInnov Hj R Sj wi eps).Shape m m := by
  have : (smul (1 / (1 - wi)) Hj * Sj * Hj.tr + R).Shape m m := (((hj.H.smul _).mul hj.S).mul hj.H.tr).add
  exact this.stabM _

theorem ciPost_shape (hi : ObsShape Hi R r Si n m) (wi eps) : (ciPost Hi Hj R Si Sj wi eps).Shape n n :=
  (hi.S.smul _).sub

theorem ciCorrection_eq (hi : ObsShape Hi R r Si n m) (hj : ObsShape Hj R r Sj p m) (wi : ℝ) (cfg : Cfg) :
    ciCorrection Hi Hj R r Si Sj wi cfg =
      ((if cfg.outlier then do
        let good ← checkNIS (ciInnov Hj R Sj wi cfg.eps) r cfg.conf
        .ok (!good)
      else .ok false : Res Bool) >>= fun rej =>
      .ok ⟨if cfg.stab then stabM (ciPost Hi Hj R Si Sj wi cfg.eps) cfg.eps else ciPost Hi Hj R Si Sj wi cfg.eps,
        smul (1 / wi) Si * Hi.tr * (ciInnov Hj R Sj wi cfg.eps).inv * r, Mat.empty, rej⟩) := by
  unfold ciCorrection
  rw [if_pos (by rw [hi.check, hj.check]; rfl)]
  have hA := (hj.H.smul (1 / (1 - wi))).mul hj.S
  have hB := hA.mul hj.H.tr
  have hI := ciInnov_shape hj wi cfg.eps
  have hC := (hi.S.smul (1 / wi ^ 2)).mul hi.H.tr
  have hG := (hi.S.smul (1 / wi)).mul hi.H.tr
  have hP := ciPost_shape (Hj := Hj) (Sj := Sj) hi wi cfg.eps
  simp only
  rw [(hj.H.smul _).mulC hj.S, Res.bind_ok, hA.mulC hj.H.tr, Res.bind_ok, hB.addC hj.R, Res.bind_ok,
    stabilize_ok (n := m) hB.add, Res.bind_ok]
  rw [show stabM (smul (1 / (1 - wi)) Hj * Sj * Hj.tr + R) cfg.eps = ciInnov Hj R Sj wi cfg.eps from rfl]
  congr 1
  funext rej
  rw [hI.invC, Res.bind_ok, (hi.S.smul _).mulC hi.H.tr, Res.bind_ok, hC.mulC hI.inv, Res.bind_ok,
    (hC.mul hI.inv).mulC hi.H, Res.bind_ok, ((hC.mul hI.inv).mul hi.H).mulC hi.S, Res.bind_ok,
    (hi.S.smul _).subC (((hC.mul hI.inv).mul hi.H).mul hi.S), Res.bind_ok,
    (hi.S.smul _).mulC hi.H.tr, Res.bind_ok, hG.mulC hI.inv, Res.bind_ok, (hG.mul hI.inv).mulC hi.r, Res.bind_ok]
  rw [show smul (1 / wi) Si - smul (1 / wi ^ 2) Si * Hi.tr * (ciInnov Hj R Sj wi cfg.eps).inv * Hi * Si
    = ciPost Hi Hj R Si Sj wi cfg.eps from rfl]
  split
  · rw [stabilize_ok hP, Res.bind_ok]
  · rw [Res.bind_ok]

theorem toM_ciInnov (hj : ObsShape Hj R r Sj p m) (pj : (Sj.toM p p).PosSemidef) (pR : (R.toM m m).PosSemidef)
    (wi eps : ℝ) (hw : wi < 1) :
    (ciInnov Hj R Sj wi eps).toM m m =
      (1 / (1 - wi)) • (Hj.toM m p * Sj.toM p p * (Hj.toM m p)ᵀ) + R.toM m m + eps • 1 := by
  have hA := (hj.H.smul (1 / (1 - wi))).mul hj.S
  have hB := hA.mul hj.H.tr
  have hv : (smul (1 / (1 - wi)) Hj * Sj * Hj.tr + R).toM m m =
      (1 / (1 - wi)) • (Hj.toM m p * Sj.toM p p * (Hj.toM m p)ᵀ) + R.toM m m := by
    rw [hB.toM_add hj.R, hA.toM_mul, (hj.H.smul _).toM_mul, toM_smul, toM_tr, Matrix.smul_mul, Matrix.smul_mul]
  have hp : ((1 / (1 - wi)) • (Hj.toM m p * Sj.toM p p * (Hj.toM m p)ᵀ) + R.toM m m).PosSemidef :=
    ((Alg.psd_congr pj _).smul (by have : 0 < 1 - wi := by linarith
                                   positivity)).add pR
  unfold ciInnov
  rw [toM_stabM_symm (n := m) hB.add eps (by rw [hv]; exact Alg.psd_symm hp), hv]

theorem toM_ciPost (hi : ObsShape Hi R r Si n m) (hj : ObsShape Hj R r Sj p m) (wi eps : ℝ) :
    (ciPost Hi Hj R Si Sj wi eps).toM n n = (1 / wi) • Si.toM n n -
      ((1 / wi) • Si.toM n n) * (Hi.toM m n)ᵀ * ((ciInnov Hj R Sj wi eps).toM m m)⁻¹ * Hi.toM m n
        * ((1 / wi) • Si.toM n n) := by
  have hI := ciInnov_shape hj wi eps
  have hC := (hi.S.smul (1 / wi ^ 2)).mul hi.H.tr
  unfold ciPost
  rw [(hi.S.smul _).toM_sub (((hC.mul hI.inv).mul hi.H).mul hi.S), ((hC.mul hI.inv).mul hi.H).toM_mul,
    (hC.mul hI.inv).toM_mul, hC.toM_mul, (hi.S.smul _).toM_mul, toM_smul, toM_smul, toM_tr, hI.toM_inv]
  congr 1
  simp only [Matrix.smul_mul, Matrix.mul_smul, smul_smul]
  congr 1
  by_cases hw : wi = 0
  · subst hw; simp
  · field_simp
end

/-- C45, proved part: the posterior is symmetric. It falls short of a bound that is conservative for *every*
unknown cross-correlation `X` by exactly `K Hᵢ (Σᵢ/ωᵢ) Hᵢᵀ Kᵀ`: adding this term covers the true error
covariance of the correction. (With ε = 0 and without added stabilisation.) -/
theorem c45_bound_partial {n p m : ℕ} (Hi Hj R r Si Sj : Mat) (wi : ℝ) (cfg : Cfg)
    (hi : ObsShape Hi R r Si n m) (hj : ObsShape Hj R r Sj p m) (hw0 : 0 < wi) (hw1 : wi < 1)
    (pi : (Si.toM n n).PosSemidef) (pj : (Sj.toM p p).PosSemidef) (pR : (R.toM m m).PosDef)
    (he : cfg.eps = 0) (hs : cfg.stab = false) (res : CorrRes)
    (hres : ciCorrection Hi Hj R r Si Sj wi cfg = .ok res) :
    ∃ K : Matrix (Fin n) (Fin m) ℝ, res.dx.toM n 1 = K * r.toM m 1 ∧
      (res.Sapos.toM n n)ᵀ = res.Sapos.toM n n ∧
      ∀ X : Matrix (Fin n) (Fin p) ℝ, (fromBlocks (Si.toM n n) X Xᵀ (Sj.toM p p)).PosSemidef →
        let A := 1 - K * Hi.toM m n
        let B := K * Hj.toM m p
        -- covariance of the error `eᵢ - K (Hᵢ eᵢ + Hⱼ eⱼ + v)`
        let C := A * Si.toM n n * Aᵀ - A * X * Bᵀ - B * Xᵀ * Aᵀ + B * Sj.toM p p * Bᵀ + K * R.toM m m * Kᵀ
        (res.Sapos.toM n n + K * (Hi.toM m n * ((1 / wi) • Si.toM n n) * (Hi.toM m n)ᵀ) * Kᵀ - C).PosSemidef := by
  have hval : res = ⟨ciPost Hi Hj R Si Sj wi 0, smul (1 / wi) Si * Hi.tr * (ciInnov Hj R Sj wi 0).inv * r,
      Mat.empty, res.rejected⟩ := by
    rw [ciCorrection_eq hi hj, hs, he] at hres
    generalize (if cfg.outlier then do
        let good ← checkNIS (ciInnov Hj R Sj wi 0) r cfg.conf
        .ok (!good)
      else .ok false : Res Bool) = x at hres
    cases x with
    | ok b => simp only [Res.bind_ok, Res.ok.injEq, Bool.false_eq_true, if_false] at hres; rw [← hres]
    | throws => simp at hres
    | ub => simp at hres
  have hwj : 0 < 1 - wi := by linarith
  set T := (ciInnov Hj R Sj wi 0).toM m m with hTdef
  have hT : T = (1 / (1 - wi)) • (Hj.toM m p * Sj.toM p p * (Hj.toM m p)ᵀ) + R.toM m m := by
    rw [hTdef, toM_ciInnov hj pj pR.posSemidef wi 0 hw1, zero_smul, add_zero]
  have hTpd : T.PosDef := by
    rw [hT]; exact PosDef.posSemidef_add ((Alg.psd_congr pj _).smul (by positivity)) pR
  set P := (1 / wi) • Si.toM n n with hP
  have hPp : P.PosSemidef := pi.smul (by positivity)
  set K := P * (Hi.toM m n)ᵀ * T⁻¹ with hK
  have hpost : (ciPost Hi Hj R Si Sj wi 0).toM n n = P - K * Hi.toM m n * P := by
    rw [toM_ciPost hi hj]
  have hKT : K * T = P * (Hi.toM m n)ᵀ := by
    rw [hK, Matrix.mul_assoc, Matrix.nonsing_inv_mul _ ((Matrix.isUnit_iff_isUnit_det _).mp hTpd.isUnit), Matrix.mul_one]
  have hform : K * Hi.toM m n * P = (P * (Hi.toM m n)ᵀ) * T⁻¹ * (P * (Hi.toM m n)ᵀ)ᵀ := by
    rw [hK, transpose_mul, transpose_transpose, Alg.psd_symm hPp]; simp only [Matrix.mul_assoc]
  rw [hval]
  refine ⟨K, ?_, ?_, ?_⟩
  · have hI := ciInnov_shape hj wi 0
    have hG := (hi.S.smul (1 / wi)).mul hi.H.tr
    show (smul (1 / wi) Si * Hi.tr * (ciInnov Hj R Sj wi 0).inv * r).toM n 1 = _
    rw [(hG.mul hI.inv).toM_mul, hG.toM_mul, (hi.S.smul _).toM_mul, toM_smul, toM_tr, hI.toM_inv]
  · show ((ciPost Hi Hj R Si Sj wi 0).toM n n)ᵀ = _
    rw [hpost, transpose_sub, Alg.psd_symm hPp, hform, Alg.psd_symm (Alg.psd_congr hTpd.inv.posSemidef _)]
  · intro X hX A B C
    show ((ciPost Hi Hj R Si Sj wi 0).toM n n + K * (Hi.toM m n * P * (Hi.toM m n)ᵀ) * Kᵀ - C).PosSemidef
    have hjos : P - K * Hi.toM m n * P + K * (Hi.toM m n * P * (Hi.toM m n)ᵀ) * Kᵀ = Alg.joseph P (Hi.toM m n) T K := by
      rw [Alg.joseph_expand, Matrix.mul_add, Matrix.add_mul, hKT]; abel
    rw [hpost, hjos]
    set s := Real.sqrt ((1 - wi) / wi) with hsd
    have hs2 : s * s = (1 - wi) / wi := Real.mul_self_sqrt (by positivity)
    have hs0 : s ≠ 0 := by
      intro h; rw [h] at hs2
      have : 0 < (1 - wi) / wi := by positivity
      linarith
    have hs2' : s⁻¹ * s⁻¹ = wi / (1 - wi) := by rw [← _root_.mul_inv, hs2, inv_div]
    have hN := Alg.psd_congr hX (fromCols (s • A) (s⁻¹ • B))
    convert hN using 1
    rw [transpose_fromCols, fromCols_mul_fromBlocks, fromCols_mul_fromRows]
    simp only [transpose_smul, Matrix.add_mul, Matrix.smul_mul, Matrix.mul_smul, smul_add, smul_smul, hs2, hs2',
      inv_mul_cancel₀ hs0, mul_inv_cancel₀ hs0, one_smul]
    have e1 : Alg.joseph P (Hi.toM m n) T K = (1 / wi) • (A * Si.toM n n * Aᵀ)
        + (1 / (1 - wi)) • (B * Sj.toM p p * Bᵀ) + K * R.toM m m * Kᵀ := by
      show A * P * Aᵀ + K * T * Kᵀ = _
      have e2 : K * (Hj.toM m p * Sj.toM p p * (Hj.toM m p)ᵀ) * Kᵀ = B * Sj.toM p p * Bᵀ := by
        show _ = K * Hj.toM m p * Sj.toM p p * (K * Hj.toM m p)ᵀ
        rw [transpose_mul K (Hj.toM m p)]; simp only [Matrix.mul_assoc]
      have e3 : A * P * Aᵀ = (1 / wi) • (A * Si.toM n n * Aᵀ) := by
        rw [hP, Matrix.mul_smul, Matrix.smul_mul]
      rw [e3, hT, Matrix.mul_add, Matrix.add_mul, Matrix.mul_smul, Matrix.smul_mul, e2, ← add_assoc]
    have f1 : (1 / wi) = (1 - wi) / wi + 1 := by field_simp; ring
    have f2 : 1 / (1 - wi) = wi / (1 - wi) + 1 := by field_simp; ring
    rw [e1, f1, f2, add_smul, add_smul, one_smul, one_smul]
    show _ - (A * Si.toM n n * Aᵀ - A * X * Bᵀ - B * Xᵀ * Aᵀ + B * Sj.toM p p * Bᵀ + K * R.toM m m * Kᵀ) = _
    abel

/-- C45, proved part: positive semidefinite if the code's `S` dominates the missing term
`Hᵢ (Σᵢ/ωᵢ) Hᵢᵀ`. -/
theorem c45_psd_partial {n p m : ℕ} (Hi Hj R r Si Sj : Mat) (wi : ℝ) (cfg : Cfg)
    (hi : ObsShape Hi R r Si n m) (hj : ObsShape Hj R r Sj p m) (hw0 : 0 < wi) (hw1 : wi < 1)
    (pi : (Si.toM n n).PosSemidef) (pj : (Sj.toM p p).PosSemidef) (pR : (R.toM m m).PosSemidef)
    (heps : 0 ≤ cfg.eps)
    (hS : ((1 / (1 - wi)) • (Hj.toM m p * Sj.toM p p * (Hj.toM m p)ᵀ) + R.toM m m + cfg.eps • 1).PosDef)
    (hdom : ((1 / (1 - wi)) • (Hj.toM m p * Sj.toM p p * (Hj.toM m p)ᵀ) + R.toM m m + cfg.eps • 1
      - Hi.toM m n * ((1 / wi) • Si.toM n n) * (Hi.toM m n)ᵀ).PosSemidef) (res : CorrRes)
    (hres : ciCorrection Hi Hj R r Si Sj wi cfg = .ok res) : (res.Sapos.toM n n).PosSemidef := by
  have hP := ciPost_shape (Hj := Hj) (Sj := Sj) hi wi cfg.eps
  have hpsd : ((ciPost Hi Hj R Si Sj wi cfg.eps).toM n n).PosSemidef := by
    rw [toM_ciPost hi hj, toM_ciInnov hj pj pR wi _ hw1]
    set T := (1 / (1 - wi)) • (Hj.toM m p * Sj.toM p p * (Hj.toM m p)ᵀ) + R.toM m m + cfg.eps • 1 with hT
    set P := (1 / wi) • Si.toM n n with hPd
    have hPp : P.PosSemidef := pi.smul (by positivity)
    set R' := T - Hi.toM m n * P * (Hi.toM m n)ᵀ with hR'
    have hsum : Hi.toM m n * P * (Hi.toM m n)ᵀ + R' = T := by rw [hR']; abel
    have h1 := Alg.joseph_gain hPp (Hi.toM m n) (R := R') (by rw [hsum]; exact hS)
    have h2 := Alg.joseph_psd hPp (Hi.toM m n) hdom (Alg.gain P (Hi.toM m n) R')
    rw [h1, Matrix.sub_mul, Matrix.one_mul] at h2
    unfold Alg.gain at h2
    rwa [hsum] at h2
  rw [ciCorrection_eq hi hj] at hres
  generalize (if cfg.outlier then do
        let good ← checkNIS (ciInnov Hj R Sj wi cfg.eps) r cfg.conf
        .ok (!good)
      else .ok false : Res Bool) = x at hres
  cases x with
  | ok b =>
    simp only [Res.bind_ok, Res.ok.injEq] at hres
    rw [← hres]
    simp only
    split
    · rw [toM_stabM_symm hP _ (Alg.psd_symm hpsd)]
      exact hpsd.add (Alg.smul_one_psd heps)
    · exact hpsd
  | throws => simp at hres
  | ub => simp at hres

/-- C45 fails: for every weight in (0,1) there are scalar positive inputs whose posterior variance is
negative. -/
theorem c45_consistent_fails (wi : ℝ) (hw0 : 0 < wi) (hw1 : wi < 1) :
    ∃ Hi Hj R r Si Sj : Mat, ObsShape Hi R r Si 1 1 ∧ ObsShape Hj R r Sj 1 1 ∧
      (Si.toM 1 1).PosDef ∧ (Sj.toM 1 1).PosDef ∧ (R.toM 1 1).PosDef ∧
      ∃ (cfg : Cfg) (res : CorrRes), cfg.eps = 0 ∧ cfg.stab = false ∧
        ciCorrection Hi Hj R r Si Sj wi cfg = .ok res ∧ res.rejected = false ∧ res.Sapos.e 0 0 < 0 := by
  have hwj : 0 < 1 - wi := by linarith
  set s : ℝ := 1 / (1 - wi) + 1 with hs
  have hs0 : 0 < s := by rw [hs]; positivity
  have hi : ObsShape (one 1) (one 1) (zero 1 1) (smul s (one 1)) 1 1 := ⟨⟨rfl, rfl⟩, ⟨rfl, rfl⟩, ⟨rfl, rfl⟩, ⟨rfl, rfl⟩⟩
  have hj : ObsShape (one 1) (one 1) (zero 1 1) (one 1) 1 1 := ⟨⟨rfl, rfl⟩, ⟨rfl, rfl⟩, ⟨rfl, rfl⟩, ⟨rfl, rfl⟩⟩
  refine ⟨one 1, one 1, one 1, zero 1 1, smul s (one 1), one 1, hi, hj, ?_, ?_, ?_,
    { outlier := false, eps := 0, stab := false }, _, rfl, rfl, ciCorrection_eq hi hj wi _, rfl, ?_⟩
  · rw [toM_smul, toM_one]; exact Alg.smul_one_pd hs0
  · rw [toM_one]; exact PosDef.one
  · rw [toM_one]; exact PosDef.one
  · show (ciPost (one 1) (one 1) (one 1) (smul s (one 1)) (one 1) wi 0).toM 1 1 0 0 < 0
    rw [toM_ciPost hi hj, toM_ciInnov hj (by rw [toM_one]; exact PosSemidef.one)
      (by rw [toM_one]; exact PosSemidef.one) wi 0 hw1]
    rw [toM_smul, toM_one]
    have : (1 / (1 - wi)) • ((1 : Matrix (Fin 1) (Fin 1) ℝ) * 1 * (1 : Matrix (Fin 1) (Fin 1) ℝ)ᵀ) + 1 + (0:ℝ) • 1
        = s • (1 : Matrix (Fin 1) (Fin 1) ℝ) := by
      rw [transpose_one, Matrix.mul_one, Matrix.mul_one, zero_smul, add_zero, hs, add_smul, one_smul]
    rw [this]
    have hinv : (s • (1 : Matrix (Fin 1) (Fin 1) ℝ))⁻¹ = s⁻¹ • 1 := by
      apply Matrix.inv_eq_left_inv
      rw [Matrix.smul_mul, Matrix.mul_smul, smul_smul, inv_mul_cancel₀ hs0.ne', one_smul, Matrix.one_mul]
    rw [hinv]
    simp only [transpose_one, Matrix.mul_one, Matrix.smul_mul, Matrix.mul_smul, Matrix.one_mul, smul_smul,
      Matrix.sub_apply, Matrix.smul_apply, Matrix.one_apply_eq, smul_eq_mul]
    have h1 : 1 / wi * s - 1 / wi * s * (s⁻¹ * (1 / wi * s)) = s / wi * (1 - 1 / wi) := by
      field_simp
    have h2 : 1 < 1 / wi := by rw [lt_div_iff₀ hw0]; linarith
    have h3 : s / wi * (1 - 1 / wi) < 0 := by
      have : 0 < s / wi := by positivity
      nlinarith
    have : ∀ x : ℝ, x = s / wi * (1 - 1 / wi) → x < 0 := fun x hx => hx ▸ h3
    apply this
    rw [← h1]; ring

end Ikf
