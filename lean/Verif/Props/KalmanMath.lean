import Verif.Lemmas.Kalman

/-! # Properties C17, C18, C51: the Kalman equations in exact arithmetic -/

namespace Ikf
open Mat Matrix

/-! ## C17 -/

/-- C17. Without stabilisation: `Φ Σ Φᵀ + Q`, again symmetric positive semidefinite. -/
theorem c17_propagation {n : ℕ} (Sigma Phi Q : Mat) (hS : Sigma.Shape n n) (hP : Phi.Shape n n) (hQ : Q.Shape n n)
    (pS : (Sigma.toM n n).PosSemidef) (pQ : (Q.toM n n).PosSemidef) :
    ∃ P, covPropagation Sigma Phi Q false = .ok P ∧ P.Shape n n ∧
      P.toM n n = Phi.toM n n * Sigma.toM n n * (Phi.toM n n)ᵀ + Q.toM n n ∧
      (∀ i j, P.e i j = P.e j i) ∧ (P.toM n n).PosSemidef := by
  have hc : checkDimQ Sigma Phi Q = true := by
    rw [checkDimQ_iff]; exact ⟨by rw [hP.1, hS.1], by rw [hP.2, hS.1], by rw [hQ.1, hS.1], by rw [hQ.2, hS.1]⟩
  have hv : (Phi * Sigma * Phi.tr + Q).toM n n = Phi.toM n n * Sigma.toM n n * (Phi.toM n n)ᵀ + Q.toM n n := by
    rw [((hP.mul hS).mul hP.tr).toM_add hQ, (hP.mul hS).toM_mul, hP.toM_mul, toM_tr]
  have hpsd : ((Phi * Sigma * Phi.tr + Q).toM n n).PosSemidef := by
    rw [hv]; exact (Alg.psd_congr pS _).add pQ
  refine ⟨Phi * Sigma * Phi.tr + Q, ?_, ((hP.mul hS).mul hP.tr).add, hv, ?_, hpsd⟩
  · unfold covPropagation
    rw [if_pos hc, if_neg (by simp), hP.mulC hS, Res.bind_ok, (hP.mul hS).mulC hP.tr, Res.bind_ok,
      ((hP.mul hS).mul hP.tr).addC hQ]
  · intro i j
    by_cases h : i < n ∧ j < n
    · have := congrFun (congrFun (Alg.psd_symm hpsd) ⟨i, h.1⟩) ⟨j, h.2⟩
      simp only [transpose_apply, toM_apply] at this
      exact this.symm
    · have hsh : (Phi * Sigma * Phi.tr + Q).Shape n n := ((hP.mul hS).mul hP.tr).add
      rw [Mat.out _ i j (by rw [hsh.1, hsh.2]; omega), Mat.out _ j i (by rw [hsh.1, hsh.2]; omega)]

/-- C17. With stabilisation the result is `Φ (Σ + εI) Φᵀ + Q + 2εI`, ε = 10⁻¹², positive definite. -/
theorem c17_propagation_stabilised {n : ℕ} (Sigma Phi Q : Mat) (hS : Sigma.Shape n n) (hP : Phi.Shape n n)
    (hQ : Q.Shape n n) (pS : (Sigma.toM n n).PosSemidef) (pQ : (Q.toM n n).PosSemidef) :
    ∃ P, covPropagation Sigma Phi Q true = .ok P ∧ P.Shape n n ∧
      P.toM n n = Phi.toM n n * (Sigma.toM n n + (1 / 10^12 : ℝ) • 1) * (Phi.toM n n)ᵀ + Q.toM n n
        + (2 / 10^12 : ℝ) • 1 ∧ (P.toM n n).PosDef := by
  have hc : checkDimQ Sigma Phi Q = true := by
    rw [checkDimQ_iff]; exact ⟨by rw [hP.1, hS.1], by rw [hP.2, hS.1], by rw [hQ.1, hS.1], by rw [hQ.2, hS.1]⟩
  set ε : ℝ := 1 / 10^12 with hε
  have hε0 : (0 : ℝ) < ε := by rw [hε]; positivity
  have hSs := hS.stabM ε
  have hQs := hQ.stabM ε
  have hB := (hP.mul hSs).mul hP.tr
  have hC : (Phi * stabM Sigma ε * Phi.tr + stabM Q ε).Shape n n := hB.add
  have v1 : (Phi * stabM Sigma ε * Phi.tr + stabM Q ε).toM n n =
      Phi.toM n n * (Sigma.toM n n + ε • 1) * (Phi.toM n n)ᵀ + (Q.toM n n + ε • 1) := by
    rw [hB.toM_add hQs, (hP.mul hSs).toM_mul, hP.toM_mul, toM_tr, toM_stabM_symm hS _ (Alg.psd_symm pS),
      toM_stabM_symm hQ _ (Alg.psd_symm pQ)]
  have p1 : (Phi.toM n n * (Sigma.toM n n + ε • 1) * (Phi.toM n n)ᵀ + (Q.toM n n + ε • 1)).PosDef :=
    PosDef.posSemidef_add (Alg.psd_congr (pS.add (Alg.smul_one_psd hε0.le)) _)
      (PosDef.posSemidef_add pQ (Alg.smul_one_pd hε0))
  have v2 : (stabM (Phi * stabM Sigma ε * Phi.tr + stabM Q ε) ε).toM n n =
      Phi.toM n n * (Sigma.toM n n + ε • 1) * (Phi.toM n n)ᵀ + (Q.toM n n + ε • 1) + ε • 1 := by
    rw [toM_stabM_symm hC _ (by rw [v1]; exact Alg.pd_symm p1), v1]
  refine ⟨_, ?_, hC.stabM ε, ?_, ?_⟩
  · unfold covPropagation
    rw [if_pos hc, if_pos rfl, stabilize_ok hS, Res.bind_ok, hP.mulC hSs, Res.bind_ok, (hP.mul hSs).mulC hP.tr,
      Res.bind_ok, stabilize_ok hQ, Res.bind_ok, hB.addC hQs, Res.bind_ok, stabilize_ok hC]
  · rw [v2]
    have : (2 / 10^12 : ℝ) • (1 : Matrix (Fin n) (Fin n) ℝ) = ε • 1 + ε • 1 := by
      rw [← add_smul]; congr 1; rw [hε]; norm_num
    rw [this]; abel
  · rw [v2]; exact p1.add_posSemidef (Alg.smul_one_psd hε0.le)

/-- C17. If `Φ` or `Q` does not have the row count of `Σ` in both dimensions, the empty matrix is
returned. -/
theorem c17_mismatch (Sigma Phi Q : Mat) (b : Bool) (n : ℕ) (hS : Sigma.rows = n)
    (h : ¬ (Phi.Shape n n ∧ Q.Shape n n)) : covPropagation Sigma Phi Q b = .ok Mat.empty := by
  unfold covPropagation
  rw [if_neg]
  rw [checkDimQ_iff]
  rintro ⟨a, c, d, e⟩
  exact h ⟨⟨a.trans hS, c.trans hS⟩, ⟨d.trans hS, e.trans hS⟩⟩

/-- C17. A non-square `Σ` with fitting row count is not caught: undefined behaviour. -/
theorem c17_nonsquare_undefined (Sigma Phi Q : Mat) (n : ℕ) (hS : Sigma.rows = n) (hc : Sigma.cols ≠ n)
    (hP : Phi.Shape n n) (hQ : Q.Shape n n) (b : Bool) : covPropagation Sigma Phi Q b = .ub := by
  have hd : checkDimQ Sigma Phi Q = true := by
    rw [checkDimQ_iff]; exact ⟨by rw [hP.1, hS], by rw [hP.2, hS], by rw [hQ.1, hS], by rw [hQ.2, hS]⟩
  unfold covPropagation
  rw [if_pos hd]
  cases b with
  | false =>
    rw [if_neg (by simp), mulC_ok (by rw [hP.2, hS]), Res.bind_ok]
    have : (Phi * Sigma) *! Phi.tr = .ub := by
      unfold Mat.mulC; rw [if_neg]; simp only [mul_cols, tr_rows]; rw [hP.2]; exact hc
    rw [this]; rfl
  | true =>
    rw [if_pos rfl]
    have : stabilize Sigma (1 / 10^12) = .ub := by
      unfold stabilize
      have : Sigma +! Sigma.tr = .ub := by
        unfold Mat.addC; rw [if_neg]; simp only [tr_rows, tr_cols]; rintro ⟨a, _⟩; exact hc (a.symm.trans hS)
      simp only [this]; rfl
    rw [this]; rfl

/-! ## C51 -/

/-- C51. `symmetrize_covariance` of any square matrix: symmetric, the same quadratic form, the identity on
symmetric matrices (hence idempotent). -/
theorem c51_symmetrize {n : ℕ} (S : Mat) (hS : S.Shape n n) :
    ∃ P, symmetrize S = .ok P ∧ P.Shape n n ∧ (∀ i j, P.e i j = P.e j i) ∧
      (∀ i j, P.e i j = (S.e i j + S.e j i) / 2) ∧
      (∀ x : Fin n → ℝ, x ⬝ᵥ (P.toM n n *ᵥ x) = x ⬝ᵥ (S.toM n n *ᵥ x)) ∧
      ((∀ i j, S.e i j = S.e j i) → P = S) ∧ symmetrize P = .ok P := by
  have he : ∀ i j, (symM S).e i j = (S.e i j + S.e j i) / 2 := by
    intro i j
    unfold symM
    rw [smul_e, add_e _ _ (by simp [hS.1, hS.2]) (by simp [hS.1, hS.2]), tr_e]; ring
  have hid : ∀ T : Mat, T.Shape n n → (∀ i j, T.e i j = T.e j i) → symM T = T := by
    intro T hT hs
    refine ext' rfl rfl ?_
    intro i j _ _
    unfold symM
    rw [smul_e, add_e _ _ (by simp [hT.1, hT.2]) (by simp [hT.1, hT.2]), tr_e, hs j i]; ring
  have hsym : ∀ i j, (symM S).e i j = (symM S).e j i := by intro i j; rw [he, he, add_comm]
  refine ⟨symM S, symmetrize_ok hS, hS.symM, hsym, he, ?_, hid S hS, ?_⟩
  · intro x
    rw [toM_symM hS, Matrix.smul_mulVec, Matrix.add_mulVec, dotProduct_smul, dotProduct_add]
    have : x ⬝ᵥ ((S.toM n n)ᵀ *ᵥ x) = x ⬝ᵥ (S.toM n n *ᵥ x) := by
      rw [Matrix.mulVec_transpose, dotProduct_comm, ← Matrix.dotProduct_mulVec]
    rw [this, smul_eq_mul]; ring
  · rw [symmetrize_ok hS.symM, hid _ hS.symM hsym]

/-- C51. `stabilize_covariance` adds exactly `ε I` to the symmetrised matrix; a positive semidefinite input
becomes positive definite for ε > 0. -/
theorem c51_stabilize {n : ℕ} (S : Mat) (hS : S.Shape n n) (eps : ℝ) :
    ∃ P, stabilize S eps = .ok P ∧ P.Shape n n ∧ (∀ i j, P.e i j = P.e j i) ∧
      (∀ i j, P.e i j = (S.e i j + S.e j i) / 2 + if i = j ∧ i < n then eps else 0) ∧
      ((S.toM n n).PosSemidef → 0 ≤ eps → (P.toM n n).PosSemidef) ∧
      ((S.toM n n).PosSemidef → 0 < eps → (P.toM n n).PosDef) := by
  have he : ∀ i j, (stabM S eps).e i j = (S.e i j + S.e j i) / 2 + if i = j ∧ i < n then eps else 0 := by
    intro i j
    unfold stabM
    rw [add_e _ _ (by simp) (by simp [hS.1, hS.2]), smul_e, smul_e,
      add_e _ _ (by simp [hS.1, hS.2]) (by simp [hS.1, hS.2]), tr_e, one_e, hS.1]
    split <;> ring
  refine ⟨stabM S eps, stabilize_ok hS eps, hS.stabM eps, ?_, he, ?_, ?_⟩
  · intro i j
    rw [he, he, add_comm (S.e i j)]
    by_cases h : i = j
    · subst h; rfl
    · rw [if_neg (fun hc => h hc.1), if_neg (fun hc => h hc.1.symm)]
  · intro hp h0
    rw [toM_stabM_symm hS _ (Alg.psd_symm hp)]
    exact hp.add (Alg.smul_one_psd h0)
  · intro hp h0
    rw [toM_stabM_symm hS _ (Alg.psd_symm hp)]
    exact PosDef.posSemidef_add hp (Alg.smul_one_pd h0)

/-- C51. Non-square input is an Eigen assertion. -/
theorem c51_nonsquare (S : Mat) (h : S.rows ≠ S.cols) (eps : ℝ) :
    symmetrize S = .ub ∧ stabilize S eps = .ub := by
  have : S +! S.tr = .ub := by unfold Mat.addC; rw [if_neg]; rintro ⟨a, _⟩; exact h a
  constructor
  · unfold symmetrize; rw [this]; rfl
  · unfold stabilize; simp only [this]; rfl

/-! ## C18 -/

/-- C18. For `R` positive semidefinite with `R + εI` positive definite (`ε = cfg.eps`; e.g. `R` positive
definite and ε = 0) and `Σ` positive semidefinite, every result of `correction_step` is the Kalman update
with innovation covariance `H Σ Hᵀ + R + εI`; the posterior is symmetric positive definite-or-semidefinite;
without added stabilisation no information is lost, and the short form is the optimum over all gains; the
Joseph form lies `ε K Kᵀ` below it. -/
theorem c18_kalman_update {n m : ℕ} (H R r Sigma : Mat) (cfg : Cfg) (h : ObsShape H R r Sigma n m)
    (pS : (Sigma.toM n n).PosSemidef) (pR : (R.toM m m).PosSemidef) (heps : 0 ≤ cfg.eps)
    (pRe : (R.toM m m + cfg.eps • 1).PosDef) (res : CorrRes) (hres : correctionStep H R r Sigma cfg = .ok res) :
    let P₀ := Sigma.toM n n
    let H' := H.toM m n
    let K := P₀ * H'ᵀ * (H' * P₀ * H'ᵀ + (R.toM m m + cfg.eps • 1))⁻¹
    let short := (1 - K * H') * P₀
    let jos := (1 - K * H') * P₀ * (1 - K * H')ᵀ + K * R.toM m m * Kᵀ
    let δ : Matrix (Fin n) (Fin n) ℝ := if cfg.stab then cfg.eps • 1 else 0
    res.Sapos.Shape n n ∧ res.dx.Shape n 1 ∧ res.U.Shape n n ∧
    res.dx.toM n 1 = K * r.toM m 1 ∧ res.U.toM n n = 1 - K * H' ∧
    res.Sapos.toM n n = (if cfg.joseph then jos else short) + δ ∧
    short = jos + cfg.eps • (K * Kᵀ) ∧
    (∀ i j, res.Sapos.e i j = res.Sapos.e j i) ∧
    (res.Sapos.toM n n).PosSemidef ∧ (res.Sapos.toM n n - δ).PosSemidef ∧
    (P₀ - (res.Sapos.toM n n - δ)).PosSemidef ∧
    (∀ K' : Matrix (Fin n) (Fin m) ℝ,
      ((1 - K' * H') * P₀ * (1 - K' * H')ᵀ + K' * (R.toM m m + cfg.eps • 1) * K'ᵀ - short).PosSemidef) := by
  intro P₀ H' K short jos δ
  have hK : K = Alg.gain P₀ H' (R.toM m m + cfg.eps • 1) := rfl
  have hT : (H' * P₀ * H'ᵀ + (R.toM m m + cfg.eps • 1)).PosDef := Alg.innov_pd pS H' pRe
  -- the value returned
  have hval : res = ⟨postM H R Sigma cfg, gainM H R Sigma cfg.eps * r, updM H R Sigma cfg.eps, res.rejected⟩ := by
    rw [correctionStep_eq h] at hres
    generalize (if cfg.outlier then do
        let good ← checkNIS (innov H R Sigma cfg.eps) r cfg.conf
        .ok (!good)
      else .ok false : Res Bool) = x at hres
    cases x with
    | ok b => simp only [Res.bind_ok, Res.ok.injEq] at hres; rw [← hres]
    | throws => simp at hres
    | ub => simp at hres
  rw [hval]
  have hshort : short = jos + cfg.eps • (K * Kᵀ) := by
    have h1 := Alg.joseph_gain pS H' hT
    rw [← hK] at h1
    show (1 - K * H') * P₀ = _
    rw [← h1]
    show (1 - K * H') * P₀ * (1 - K * H')ᵀ + K * (R.toM m m + cfg.eps • 1) * Kᵀ =
      (1 - K * H') * P₀ * (1 - K * H')ᵀ + K * R.toM m m * Kᵀ + cfg.eps • (K * Kᵀ)
    rw [Matrix.mul_add, Matrix.add_mul, add_assoc, Matrix.mul_smul, Matrix.smul_mul, Matrix.mul_one]
  have hKK : (cfg.eps • (K * Kᵀ)).PosSemidef := by
    have : (K * Kᵀ).PosSemidef := by
      have := Alg.psd_congr (PosSemidef.one (n := Fin m) (R := ℝ)) K
      rwa [Matrix.mul_one] at this
    exact this.smul heps
  have hjos : jos.PosSemidef := Alg.joseph_psd pS H' pR K
  have hshp : short.PosSemidef := by rw [hshort]; exact hjos.add hKK
  have hdiff : (P₀ - short).PosSemidef := by
    have : P₀ - short = K * H' * P₀ := by
      show P₀ - (1 - K * H') * P₀ = _
      rw [Matrix.sub_mul, Matrix.one_mul]; abel
    rw [this, hK]; exact Alg.gain_info_psd pS H' hT
  have hbase : (post0 H R Sigma cfg).toM n n = if cfg.joseph then jos else short := toM_post0 h pS pR cfg
  have hbp : ((post0 H R Sigma cfg).toM n n).PosSemidef := by
    rw [hbase]; split
    · exact hjos
    · exact hshp
  have hδ : δ.PosSemidef := by
    show (if cfg.stab then cfg.eps • (1 : Matrix (Fin n) (Fin n) ℝ) else 0).PosSemidef
    split
    · exact Alg.smul_one_psd heps
    · exact PosSemidef.zero
  have hP0 := post0_shape h cfg
  have hpost : (postM H R Sigma cfg).toM n n = (if cfg.joseph then jos else short) + δ := by
    unfold postM
    rw [← hbase]
    show _ = _ + (if cfg.stab then cfg.eps • (1 : Matrix (Fin n) (Fin n) ℝ) else 0)
    split
    · have : (stabM (post0 H R Sigma cfg) cfg.eps).toM n n = (post0 H R Sigma cfg).toM n n + cfg.eps • 1 :=
        toM_stabM_symm hP0 _ (Alg.psd_symm hbp)
      rw [toM_symM_symm (hP0.stabM _), this]
      rw [this]; exact Alg.psd_symm (hbp.add (Alg.smul_one_psd heps))
    · rw [toM_symM_symm hP0 (Alg.psd_symm hbp), add_zero]
  have hpsd : ((postM H R Sigma cfg).toM n n).PosSemidef := by
    rw [hpost, ← hbase]; exact hbp.add hδ
  have hsub : (postM H R Sigma cfg).toM n n - δ = if cfg.joseph then jos else short := by
    rw [hpost]; abel
  have hsh := postM_shape h cfg
  refine ⟨hsh, (gainM_shape h _).mul h.r, updM_shape h _, ?_, toM_updM h pS pR _, hpost, hshort, ?_, hpsd, ?_, ?_, ?_⟩
  · show (gainM H R Sigma cfg.eps * r).toM n 1 = _
    rw [(gainM_shape h _).toM_mul, toM_gainM h pS pR]; rfl
  · intro i j
    by_cases hij : i < n ∧ j < n
    · have := congrFun (congrFun (Alg.psd_symm hpsd) ⟨j, hij.2⟩) ⟨i, hij.1⟩
      exact this
    · show (postM H R Sigma cfg).e i j = (postM H R Sigma cfg).e j i
      rw [Mat.out _ i j (by rw [hsh.1, hsh.2]; omega), Mat.out _ j i (by rw [hsh.1, hsh.2]; omega)]
  · show ((postM H R Sigma cfg).toM n n - δ).PosSemidef
    rw [hsub, ← hbase]; exact hbp
  · show (P₀ - ((postM H R Sigma cfg).toM n n - δ)).PosSemidef
    rw [hsub]; split
    · have : P₀ - jos = (P₀ - short) + cfg.eps • (K * Kᵀ) := by rw [hshort]; abel
      rw [this]; exact hdiff.add hKK
    · exact hdiff
  · intro K'
    have := Alg.gain_optimal_psd pS H' hT K'
    rw [← hK] at this
    exact this

/-- C18. With ε = 0 and `R` positive definite both forms coincide and the result minimises the posterior
covariance over all gains for the given `R`. -/
theorem c18_forms_coincide {n m : ℕ} (H R r Sigma : Mat) (cfg cfg' : Cfg) (h : ObsShape H R r Sigma n m)
    (pS : (Sigma.toM n n).PosSemidef) (pR : (R.toM m m).PosDef)
    (he : cfg.eps = 0) (he' : cfg'.eps = 0) (res res' : CorrRes)
    (hres : correctionStep H R r Sigma cfg = .ok res) (hres' : correctionStep H R r Sigma cfg' = .ok res') :
    res.Sapos = res'.Sapos ∧ res.dx = res'.dx ∧ res.U = res'.U ∧
    ∀ K' : Matrix (Fin n) (Fin m) ℝ, ((1 - K' * H.toM m n) * Sigma.toM n n * (1 - K' * H.toM m n)ᵀ
      + K' * R.toM m m * K'ᵀ - res.Sapos.toM n n).PosSemidef := by
  have hR0 : R.toM m m + (0 : ℝ) • (1 : Matrix (Fin m) (Fin m) ℝ) = R.toM m m := by rw [zero_smul, add_zero]
  obtain ⟨a1, a2, a3, a4, a5, a6, a7, _, _, _, _, a12⟩ :=
    c18_kalman_update H R r Sigma cfg h pS pR.posSemidef (by rw [he]) (by rw [he, hR0]; exact pR) res hres
  obtain ⟨b1, b2, b3, b4, b5, b6, b7, _, _, _, _, b12⟩ :=
    c18_kalman_update H R r Sigma cfg' h pS pR.posSemidef (by rw [he']) (by rw [he', hR0]; exact pR) res' hres'
  rw [he] at a4 a5 a6 a7 a12
  rw [he'] at b4 b5 b6 b7 b12
  simp only [hR0, zero_smul, add_zero, ite_self] at a4 a5 a6 a7 a12 b4 b5 b6 b7 b12
  refine ⟨toM_inj a1.1 a1.2 b1.1 b1.2 ?_, toM_inj a2.1 a2.2 b2.1 b2.2 (by rw [a4, b4]),
    toM_inj a3.1 a3.2 b3.1 b3.2 (by rw [a5, b5]), ?_⟩
  · rw [a6, b6, ← a7, ite_self, ite_self]
  · intro K'
    have := a12 K'
    rwa [a6, ← a7, ite_self]

/-- C18. Information form: for positive definite prior the posterior inverse is the prior inverse plus
`Hᵀ R⁻¹ H`. -/
theorem c18_information {n m : ℕ} (H R r Sigma : Mat) (cfg : Cfg) (h : ObsShape H R r Sigma n m)
    (pS : (Sigma.toM n n).PosDef) (pR : (R.toM m m).PosDef) (he : cfg.eps = 0) (res : CorrRes)
    (hres : correctionStep H R r Sigma cfg = .ok res) :
    ((Sigma.toM n n)⁻¹ + (H.toM m n)ᵀ * (R.toM m m)⁻¹ * H.toM m n) * res.Sapos.toM n n = 1 := by
  have hR0 : R.toM m m + (0 : ℝ) • (1 : Matrix (Fin m) (Fin m) ℝ) = R.toM m m := by rw [zero_smul, add_zero]
  obtain ⟨a1, a2, a3, a4, a5, a6, a7, _, _, _, _, a12⟩ :=
    c18_kalman_update H R r Sigma cfg h pS.posSemidef pR.posSemidef (by rw [he]) (by rw [he, hR0]; exact pR) res hres
  rw [he] at a6 a7
  simp only [hR0, zero_smul, add_zero, ite_self] at a6 a7
  rw [a6, ← a7, ite_self]
  exact Alg.info_form pS (H.toM m n) pR

/-- C18. Ill-dimensioned input gives the default (rejected) result; a non-square `Σ` with fitting rows is
undefined behaviour. -/
theorem c18_dimensions (H R r Sigma : Mat) (cfg : Cfg) :
    (¬ (H.cols = Sigma.rows ∧ r.Shape H.rows 1 ∧ R.Shape H.rows H.rows) →
      correctionStep H R r Sigma cfg = .ok CorrRes.dflt ∧ CorrRes.dflt.rejected = true) ∧
    ((H.cols = Sigma.rows ∧ r.Shape H.rows 1 ∧ R.Shape H.rows H.rows) → Sigma.cols ≠ Sigma.rows →
      correctionStep H R r Sigma cfg = .ub) := by
  constructor
  · intro hn
    refine ⟨?_, rfl⟩
    unfold correctionStep
    rw [if_neg]
    rw [checkDimObs_iff]
    rintro ⟨a, b, c, d, e⟩
    exact hn ⟨a, ⟨b, c⟩, ⟨d, e⟩⟩
  · rintro ⟨a, ⟨b, c⟩, ⟨d, e⟩⟩ hs
    unfold correctionStep
    rw [if_pos ((checkDimObs_iff _ _ _ _).mpr ⟨a, b, c, d, e⟩), mulC_ok a, Res.bind_ok]
    have : (H * Sigma) *! H.tr = .ub := by
      unfold Mat.mulC; rw [if_neg]; simp only [mul_cols, tr_rows]; rw [a]; exact hs
    rw [this]; rfl

/-! ## Concrete cases -/

namespace KalmanExample

/-- Two states, one measurement of their sum, unit covariances. -/
noncomputable def S : Mat := ofM (!![2, 1; 1, 2] : Matrix (Fin 2) (Fin 2) ℝ)
noncomputable def H : Mat := ofM (!![1, 1] : Matrix (Fin 1) (Fin 2) ℝ)
noncomputable def R : Mat := one 1
noncomputable def r : Mat := ofM (!![3] : Matrix (Fin 1) (Fin 1) ℝ)

theorem S_pd : (S.toM 2 2).PosDef := by
  have : S.toM 2 2 = 1 + Matrix.of (fun _ _ => (1:ℝ)) := by
    unfold S; rw [toM_ofM]; ext i j; fin_cases i <;> fin_cases j <;> norm_num [Matrix.one_apply]
  rw [this]
  refine PosDef.add_posSemidef PosDef.one ?_
  have h := posSemidef_vecMulVec_self_star (fun _ : Fin 2 => (1:ℝ))
  convert h using 1
  ext i j; simp [vecMulVec]

example : ObsShape H R r S 2 1 ∧ (S.toM 2 2).PosSemidef ∧ (R.toM 1 1).PosDef ∧
    ∃ cfg : Cfg, cfg.eps = 0 ∧ ∃ res, correctionStep H R r S cfg = .ok res := by
  have hs : ObsShape H R r S 2 1 := ⟨⟨rfl, rfl⟩, ⟨rfl, rfl⟩, ⟨rfl, rfl⟩, ⟨rfl, rfl⟩⟩
  refine ⟨hs, S_pd.posSemidef, ?_, { outlier := false, eps := 0 }, rfl, ?_⟩
  · unfold R; rw [toM_one]; exact PosDef.one
  · rw [correctionStep_eq hs]; exact ⟨_, rfl⟩

/-- The default configuration (ε = 10⁻¹⁶) meets the hypotheses of `c18_kalman_update` as well. -/
example : (0:ℝ) ≤ ({} : Cfg).eps ∧ (R.toM 1 1 + ({} : Cfg).eps • 1).PosDef := by
  have h : (0:ℝ) ≤ ({} : Cfg).eps := by show (0:ℝ) ≤ 1 / 10^16; positivity
  refine ⟨h, ?_⟩
  unfold R; rw [toM_one]
  exact PosDef.one.add_posSemidef (Alg.smul_one_psd h)

example : ∃ P, covPropagation S (one 2) (one 2) false = .ok P ∧ (P.toM 2 2).PosSemidef := by
  obtain ⟨P, h1, _, _, _, h5⟩ := c17_propagation (n := 2) S (one 2) (one 2) ⟨rfl, rfl⟩ ⟨rfl, rfl⟩ ⟨rfl, rfl⟩
    S_pd.posSemidef (by rw [toM_one]; exact PosSemidef.one)
  exact ⟨P, h1, h5⟩

/-- A 1 × 2 covariance passes the dimension check of a 1-state model. -/
example : covPropagation (zero 1 2) (one 1) (one 1) false = .ub :=
  c17_nonsquare_undefined _ _ _ 1 rfl (by simp) ⟨rfl, rfl⟩ ⟨rfl, rfl⟩ false

end KalmanExample
end Ikf
