import Verif.Model.PreCheck
import Verif.Spec.PreCheck
import Verif.Props.Progress
import Verif.Props.NIS

/-! # Property C128: testing an observation before processing it -/

namespace Ikf
namespace PreCheck
open Mat Matrix

/-- The larger of two covariances has the smaller normalised square. -/
theorem nis_anti {m : ℕ} {S A : Matrix (Fin m) (Fin m) ℝ} (hS : S.PosDef) (hA : A.PosDef) (h : (A - S).PosSemidef) (r : Matrix (Fin m) (Fin 1) ℝ) :
    (rᵀ * A⁻¹ * r) 0 0 ≤ (rᵀ * S⁻¹ * r) 0 0 := by
  have uS : IsUnit S.det := (Matrix.isUnit_iff_isUnit_det _).mp hS.isUnit
  have uA : IsUnit A.det := (Matrix.isUnit_iff_isUnit_det _).mp hA.isUnit
  have tS : (S⁻¹)ᵀ = S⁻¹ := Alg.pd_symm hS.inv
  have tA : (A⁻¹)ᵀ = A⁻¹ := Alg.pd_symm hA.inv
  have sS := Alg.pd_symm hS
  have sA := Alg.pd_symm hA
  -- r' S⁻¹ r - r' A⁻¹ r = (S⁻¹r - A⁻¹r)' S (S⁻¹r - A⁻¹r) + (A⁻¹r)' (A - S) (A⁻¹r)
  have key : rᵀ * S⁻¹ * r - rᵀ * A⁻¹ * r =
      (S⁻¹ * r - A⁻¹ * r)ᵀ * S * ((S⁻¹ * r - A⁻¹ * r)ᵀ)ᵀ + (A⁻¹ * r)ᵀ * (A - S) * ((A⁻¹ * r)ᵀ)ᵀ := by
    rw [transpose_transpose, transpose_transpose, transpose_sub, transpose_mul, transpose_mul, tS, tA]
    have e1 : (rᵀ * S⁻¹) * S = rᵀ := by rw [Matrix.mul_assoc, Matrix.nonsing_inv_mul _ uS, Matrix.mul_one]
    have e2 : S * (S⁻¹ * r) = r := by rw [← Matrix.mul_assoc, Matrix.mul_nonsing_inv _ uS, Matrix.one_mul]
    have e3 : A * (A⁻¹ * r) = r := by rw [← Matrix.mul_assoc, Matrix.mul_nonsing_inv _ uA, Matrix.one_mul]
    rw [Matrix.sub_mul, e1, Matrix.sub_mul, Matrix.mul_sub, Matrix.mul_sub, Matrix.mul_sub, Matrix.sub_mul, Matrix.mul_assoc (rᵀ * A⁻¹) A, e3,
      Matrix.mul_assoc (rᵀ * A⁻¹) S (S⁻¹ * r), e2, ← Matrix.mul_assoc rᵀ S⁻¹, ← Matrix.mul_assoc rᵀ A⁻¹]
    abel
  have p1 := (Alg.psd_congr hS.posSemidef (S⁻¹ * r - A⁻¹ * r)ᵀ).diag_nonneg (i := 0)
  have p2 := (Alg.psd_congr h (A⁻¹ * r)ᵀ).diag_nonneg (i := 0)
  have := congrFun (congrFun key 0) 0
  simp only [Matrix.sub_apply, Matrix.add_apply] at this
  linarith

variable {n m : ℕ} {H R r Sigma : Mat}

theorem Observation.shape (o : Observation n m H R r Sigma) : ObsShape H R r Sigma n m := ⟨o.sizeH, o.sizeR, o.sizer, o.sizeS⟩

theorem Listed.row {conf : ℚ} (h : Listed conf) : ∃ row, nisTable.lookup (round (conf * 1000)) = some row := by
  obtain ⟨_, row, hm⟩ := h
  cases hl : nisTable.lookup (round (conf * 1000)) with
  | some row => exact ⟨row, rfl⟩
  | none =>
    rw [List.lookup_eq_none_iff] at hl
    have := hl _ hm
    simp at this

/-- The threshold of the code. -/
noncomputable def limit (row : List ℤ) (m : ℕ) : ℝ := ((if m < row.length then row.getD m 0 else 0 : ℤ) : ℝ) / 100000

theorem nis_iff {S : Mat} (hS : S.Shape m m) (hr : r.Shape m 1) {conf : ℚ} (hc : 0 < conf) {row : List ℤ}
    (hrow : nisTable.lookup (round (conf * 1000)) = some row) :
    checkNIS S r conf = .ok (decide (nisValue S r m ≤ limit row m)) := by
  unfold checkNIS
  rw [if_pos hc, nis_ok hS hr, Res.bind_ok, chi2inv_ok hrow, Res.bind_ok, hr.1]
  unfold limit
  by_cases h : nisValue S r m ≤ ((if m < row.length then row.getD m 0 else 0 : ℤ) : ℝ) / 100000
  · rw [if_neg (not_lt.mpr h), decide_eq_true h]
  · rw [if_pos (not_le.mp h), decide_eq_false h]

theorem pre_iff (o : Observation n m H R r Sigma) {conf : ℚ} {row : List ℤ}
    (hrow : nisTable.lookup (round (conf * 1000)) = some row) :
    checkNISObs H R r Sigma conf = .ok (decide (nisValue (innov H R Sigma 0) r m ≤ limit row m)) := by
  have h := o.shape
  unfold checkNISObs
  have hS0 := innov0_shape h
  rw [h.H.mulC h.S, Res.bind_ok, (h.H.mul h.S).mulC h.H.tr, Res.bind_ok, ((h.H.mul h.S).mul h.H.tr).addC h.R, Res.bind_ok]
  rw [show (H * Sigma * H.tr + R) = innov0 H R Sigma from rfl, symmetrize_ok hS0, Res.bind_ok, nis_ok hS0.symM h.r, Res.bind_ok,
    chi2inv_ok hrow, Res.bind_ok, h.r.1]
  have e : nisValue (symM (innov0 H R Sigma)) r m = nisValue (innov H R Sigma 0) r m := by
    unfold nisValue
    rw [toM_innov h o.cov o.noise, toM_symM hS0, Alg.sym_half _ (innov0_symm h o.cov o.noise), toM_innov0 h, zero_smul, add_zero]
  rw [e]
  unfold limit
  by_cases h : nisValue (innov H R Sigma 0) r m ≤ ((if m < row.length then row.getD m 0 else 0 : ℤ) : ℝ) / 100000
  · rw [if_neg (not_lt.mpr h), decide_eq_true h]
  · rw [if_pos (not_le.mp h), decide_eq_false h]

theorem own (o : Observation n m H R r Sigma) {cfg : Cfg} (hc : 0 < cfg.conf) (ho : cfg.outlier = true) {row : List ℤ}
    (hrow : nisTable.lookup (round (cfg.conf * 1000)) = some row) :
    Verdict H R r Sigma cfg (decide (nisValue (innov H R Sigma cfg.eps) r m ≤ limit row m)) := by
  unfold Verdict
  rw [correctionStep_eq o.shape, if_pos ho, nis_iff (innov_shape o.shape _) o.shape.r hc hrow]
  simp only [Res.bind_ok]
  exact ⟨_, rfl, rfl⟩

theorem verdict_unique {cfg : Cfg} {a b : Bool} (ha : Verdict H R r Sigma cfg a) (hb : Verdict H R r Sigma cfg b) : a = b := by
  obtain ⟨x, hx, ha⟩ := ha
  obtain ⟨y, hy, hb⟩ := hb
  rw [hx] at hy
  cases hy
  rw [ha] at hb
  simpa using hb

theorem lt_bound (o : Observation n m H R r Sigma) {eps : ℝ} (he : 0 ≤ eps) : nisValue (innov H R Sigma eps) r m ≤ nisValue (innov H R Sigma 0) r m := by
  unfold nisValue
  rw [toM_innov o.shape o.cov o.noise, toM_innov o.shape o.cov o.noise, zero_smul, add_zero]
  apply nis_anti o.regular
  · rw [← add_assoc]; exact o.regular.add_posSemidef (Alg.smul_one_psd he)
  · rw [← add_assoc, add_sub_cancel_left]; exact Alg.smul_one_psd he

/-- C128. The test always ends with a verdict; an observation that passes it is accepted by the filter, whatever the stabilisation and the form of the update. -/
theorem c128_accepted (o : Observation n m H R r Sigma) (cfg : Cfg) (hc : Listed cfg.conf) (he : 0 ≤ cfg.eps) :
    (∃ b, checkNISObs H R r Sigma cfg.conf = .ok b) ∧
    (checkNISObs H R r Sigma cfg.conf = .ok true → Verdict H R r Sigma cfg true) := by
  obtain ⟨row, hrow⟩ := hc.row
  rw [pre_iff o hrow]
  refine ⟨⟨_, rfl⟩, fun h => ?_⟩
  have h := of_decide_eq_true (Res.ok.inj h)
  cases ho : cfg.outlier with
  | true =>
    have := own o hc.1 ho hrow
    rwa [decide_eq_true ((lt_bound o he).trans h)] at this
  | false =>
    obtain ⟨rej, h1, h2⟩ := correctionStep_progress o.shape (cfg := cfg) (Or.inl ho)
    exact ⟨_, h1, by simp [h2 ho]⟩

/-- C128. Without stabilisation the test and the filter agree. -/
theorem c128_agree (o : Observation n m H R r Sigma) (cfg : Cfg) (hc : Listed cfg.conf) (he : cfg.eps = 0) (ho : cfg.outlier = true) (b : Bool) :
    checkNISObs H R r Sigma cfg.conf = .ok b ↔ Verdict H R r Sigma cfg b := by
  obtain ⟨row, hrow⟩ := hc.row
  rw [pre_iff o hrow]
  have := own o hc.1 ho hrow
  rw [he] at this
  constructor
  · intro h; rw [← Res.ok.inj h]; exact this
  · intro h; rw [verdict_unique this h]

/-- C128. With stabilisation they differ only for residuals next to the threshold: where `δ` times the innovation covariance is at least `eps` times the identity,
the filter refuses every residual `r` for which the test refuses even `r / √(1+δ)`. -/
theorem c128_margin (o : Observation n m H R r Sigma) (cfg : Cfg) (hc : Listed cfg.conf) (he : 0 ≤ cfg.eps) (ho : cfg.outlier = true) (δ : ℝ) (hδ : 0 ≤ δ)
    (hs : (δ • (H.toM m n * Sigma.toM n n * (H.toM m n).transpose + R.toM m m) - cfg.eps • 1).PosSemidef)
    (r' : Mat) (o' : Observation n m H R r' Sigma) (hr' : r'.toM m 1 = (Real.sqrt (1 + δ))⁻¹ • r.toM m 1)
    (h : checkNISObs H R r' Sigma cfg.conf = .ok false) : Verdict H R r Sigma cfg false := by
  obtain ⟨row, hrow⟩ := hc.row
  rw [pre_iff o' hrow] at h
  have h := of_decide_eq_false (Res.ok.inj h)
  have own := own o hc.1 ho hrow
  have h1 : (0:ℝ) < 1 + δ := by linarith
  have hle : nisValue (innov H R Sigma 0) r' m ≤ nisValue (innov H R Sigma cfg.eps) r m := by
    unfold nisValue
    rw [hr', toM_innov o.shape o.cov o.noise, toM_innov o.shape o.cov o.noise, zero_smul, add_zero, transpose_smul]
    set S := H.toM m n * Sigma.toM n n * (H.toM m n).transpose + R.toM m m with hS
    have hk : ((1 + δ) • S).PosDef := o.regular.smul h1
    have hA : (S + cfg.eps • 1).PosDef := o.regular.add_posSemidef (Alg.smul_one_psd he)
    have a := nis_anti hA hk (by
      have : (1 + δ) • S - (S + cfg.eps • 1) = δ • S - cfg.eps • 1 := by rw [add_smul, one_smul]; abel
      rw [this]; exact hs) (r.toM m 1)
    have e : ((1 + δ) • S)⁻¹ = (1 + δ)⁻¹ • S⁻¹ := by
      apply Matrix.inv_eq_right_inv
      rw [Matrix.smul_mul, Matrix.mul_smul, smul_smul, mul_inv_cancel₀ h1.ne', one_smul,
        Matrix.mul_nonsing_inv _ ((Matrix.isUnit_iff_isUnit_det _).mp o.regular.isUnit)]
    rw [e] at a
    have e2 : ((Real.sqrt (1 + δ))⁻¹ • (r.toM m 1)ᵀ) * S⁻¹ * ((Real.sqrt (1 + δ))⁻¹ • r.toM m 1) = (r.toM m 1)ᵀ * ((1 + δ)⁻¹ • S⁻¹) * r.toM m 1 := by
      simp only [Matrix.smul_mul, Matrix.mul_smul, smul_smul]
      rw [← _root_.mul_inv, Real.mul_self_sqrt h1.le]
    rw [e2, ← add_assoc]
    exact a
  rwa [decide_eq_false (fun hh => h (hle.trans hh))] at own

/-- C128 fails, 1: whatever the stabilisation, the filter accepts some observation that the test refuses. -/
theorem c128_borderline_fails (cfg : Cfg) (hc : Listed cfg.conf) (he : 0 < cfg.eps) (ho : cfg.outlier = true) :
    ∃ H R r Sigma, Observation 1 1 H R r Sigma ∧ checkNISObs H R r Sigma cfg.conf = .ok false ∧ Verdict H R r Sigma cfg true := by
  obtain ⟨row, hrow⟩ := hc.row
  have hmem : (round (cfg.conf * 1000), row) ∈ nisTable := by
    obtain ⟨l1, l2, h, _⟩ := List.lookup_eq_some_iff.mp hrow
    rw [h]; simp
  obtain ⟨hlen, hmono, hpos⟩ := table_rows _ hmem
  have hth : 0 < limit row 1 := by
    unfold limit
    have h2 := hmono 0 (by norm_num)
    simp only at hlen hpos h2
    rw [if_pos (by rw [hlen]; norm_num)]
    have : 0 < row.getD 1 0 := by rw [zero_add] at h2; omega
    positivity
  set th := limit row 1 with hthd
  set q := Real.sqrt (th * (1 + cfg.eps / 2)) with hq
  have hqq : q * q = th * (1 + cfg.eps / 2) := Real.mul_self_sqrt (by positivity)
  have o : Observation 1 1 (one 1) (one 1) (smul q (one 1)) (Mat.zero 1 1) :=
    { sizeH := ⟨rfl, rfl⟩, sizeR := ⟨rfl, rfl⟩, sizer := ⟨rfl, rfl⟩, sizeS := ⟨rfl, rfl⟩,
      cov := by rw [toM_zero]; exact PosSemidef.zero
      noise := by rw [toM_one]; exact PosSemidef.one
      regular := by rw [toM_one, toM_zero, Matrix.mul_zero, Matrix.zero_mul, zero_add]; exact PosDef.one }
  have val : ∀ e : ℝ, 0 ≤ e → nisValue (innov (one 1) (one 1) (Mat.zero 1 1) e) (smul q (one 1)) 1 = (1 + e)⁻¹ * (q * q) := by
    intro e h0
    unfold nisValue
    have hinv : ((1 : Matrix (Fin 1) (Fin 1) ℝ) + e • 1)⁻¹ = (1 + e)⁻¹ • 1 := by
      apply Matrix.inv_eq_right_inv
      rw [Matrix.mul_smul, Matrix.mul_one, show (1 : Matrix (Fin 1) (Fin 1) ℝ) + e • 1 = (1 + e) • 1 by rw [add_smul, one_smul], smul_smul,
        inv_mul_cancel₀ (by positivity), one_smul]
    rw [toM_innov o.shape o.cov o.noise, toM_smul, toM_one, toM_zero, Matrix.mul_zero, Matrix.zero_mul, zero_add, hinv]
    simp
    ring
  refine ⟨_, _, _, _, o, ?_, ?_⟩
  · rw [pre_iff o hrow, val 0 le_rfl, decide_eq_false]
    rw [add_zero, inv_one, _root_.one_mul, hqq, not_le]
    nlinarith
  · have := own o hc.1 ho hrow
    rwa [val _ he.le, decide_eq_true] at this
    rw [hqq, inv_mul_le_iff₀ (by positivity), ← hthd]
    nlinarith

/-- C128 fails, 2: with a confidence of 0 or less the filter accepts every observation; the test has no defined behaviour. -/
theorem c128_no_gate_fails (o : Observation n m H R r Sigma) (cfg : Cfg) (hc : cfg.conf ≤ 0) :
    Verdict H R r Sigma cfg true ∧ checkNISObs H R r Sigma cfg.conf = .ub := by
  constructor
  · unfold Verdict
    rw [correctionStep_eq o.shape]
    split
    · rw [(c20_gate_partial _ r (innov_shape o.shape _) o.shape.r cfg.conf).1 hc, Res.bind_ok, Res.bind_ok]
      exact ⟨_, rfl, rfl⟩
    · exact ⟨_, rfl, rfl⟩
  · have h := o.shape
    unfold checkNISObs
    have hS0 := innov0_shape h
    rw [h.H.mulC h.S, Res.bind_ok, (h.H.mul h.S).mulC h.H.tr, Res.bind_ok, ((h.H.mul h.S).mul h.H.tr).addC h.R, Res.bind_ok]
    rw [show (H * Sigma * H.tr + R) = innov0 H R Sigma from rfl, symmetrize_ok hS0, Res.bind_ok, nis_ok hS0.symM h.r, Res.bind_ok]
    have : chi2inv cfg.conf r.rows = .ub := by
      unfold chi2inv
      cases hl : nisTable.lookup (round (cfg.conf * 1000)) with
      | none => rfl
      | some row =>
        exfalso
        have hmem : (round (cfg.conf * 1000), row) ∈ nisTable := by
          obtain ⟨l1, l2, h, _⟩ := List.lookup_eq_some_iff.mp hl
          rw [h]; simp
        have h1 : ∀ x ∈ nisTable, 0 < x.1 := by decide
        have h2 := h1 _ hmem
        have h3 : round (cfg.conf * 1000) ≤ 0 := by
          rw [round_eq]
          have : ⌊cfg.conf * 1000 + 1 / 2⌋ < 1 := by rw [Int.floor_lt]; push_cast; linarith
          omega
        simp only at h2
        omega
    rw [this]
    rfl

/-- C128 fails, 3: a residual whose size does not fit passes the test; the filter refuses it. -/
theorem c128_size_fails (hH : H.rows = m ∧ H.cols = n) (hR : R.rows = m ∧ R.cols = m) (hS : Sigma.rows = n ∧ Sigma.cols = n) (k : ℕ) (hr : r.rows = k ∧ r.cols = 1)
    (hk : k ≠ m) (cfg : Cfg) (hc : Listed cfg.conf) : checkNISObs H R r Sigma cfg.conf = .ok true ∧ Verdict H R r Sigma cfg false := by
  obtain ⟨row, hrow⟩ := hc.row
  have hmem : (round (cfg.conf * 1000), row) ∈ nisTable := by
    obtain ⟨l1, l2, h, _⟩ := List.lookup_eq_some_iff.mp hrow
    rw [h]; simp
  constructor
  · have h : ObsShape H R (Mat.zero m 1) Sigma n m := ⟨hH, hR, ⟨rfl, rfl⟩, hS⟩
    unfold checkNISObs
    have hS0 := innov0_shape h
    rw [h.H.mulC h.S, Res.bind_ok, (h.H.mul h.S).mulC h.H.tr, Res.bind_ok, ((h.H.mul h.S).mul h.H.tr).addC h.R, Res.bind_ok]
    rw [show (H * Sigma * H.tr + R) = innov0 H R Sigma from rfl, symmetrize_ok hS0, Res.bind_ok]
    have : nis (symM (innov0 H R Sigma)) r = .ok 0 := by
      unfold nis
      rw [if_neg]
      unfold nisDim
      simp only [Bool.not_eq_true', Bool.or_eq_false_iff, bne_eq_false_iff_eq, not_and]
      intro _ h2
      rw [hr.1, hS0.symM.1] at h2
      exact hk h2
    rw [this, Res.bind_ok, chi2inv_ok hrow, Res.bind_ok, if_neg]
    have hn : ∀ x ∈ nisTable, ∀ y ∈ x.2, (0 : ℤ) ≤ y := by decide
    have hnn : (0 : ℤ) ≤ if r.rows < row.length then row.getD r.rows 0 else 0 := by
      split
      · rename_i hlt
        rw [List.getD_eq_getElem?_getD, List.getElem?_eq_getElem hlt, Option.getD_some]
        exact hn _ hmem _ (List.getElem_mem hlt)
      · exact le_rfl
    have : (0 : ℝ) ≤ ((if r.rows < row.length then row.getD r.rows 0 else 0 : ℤ) : ℝ) := by exact_mod_cast hnn
    rw [not_lt]
    positivity
  · refine ⟨CorrRes.dflt, ?_, rfl⟩
    unfold correctionStep
    rw [if_neg]
    rw [checkDimObs_iff]
    rintro ⟨_, h2, _⟩
    rw [hr.1, hH.1] at h2
    exact hk h2

/-- Non-vacuity: the default configuration has a listed confidence, and a position that is measured with a noise of variance 1 while its own variance is 1 is an observation. -/
example : Listed ({} : Cfg).conf ∧ 0 ≤ ({} : Cfg).eps ∧ ∀ x : ℝ, Observation 1 1 (one 1) (one 1) (smul x (one 1)) (one 1) := by
  refine ⟨⟨by show (0:ℚ) < 997 / 1000; norm_num, ?_⟩, by show (0:ℝ) ≤ 1 / 10 ^ 16; positivity, fun x => ?_⟩
  · have : round ((997 / 1000 : ℚ) * 1000) = 997 := by norm_num
    show ∃ row, (round ((997 / 1000 : ℚ) * 1000), row) ∈ nisTable
    rw [this]
    exact ⟨_, by unfold nisTable; simp; rfl⟩
  · exact
    { sizeH := ⟨rfl, rfl⟩, sizeR := ⟨rfl, rfl⟩, sizer := ⟨rfl, rfl⟩, sizeS := ⟨rfl, rfl⟩,
      cov := by rw [toM_one]; exact PosSemidef.one
      noise := by rw [toM_one]; exact PosSemidef.one
      regular := by
        rw [toM_one, transpose_one, Matrix.mul_one, Matrix.mul_one]
        exact PosDef.one.add PosDef.one }

end PreCheck
end Ikf
