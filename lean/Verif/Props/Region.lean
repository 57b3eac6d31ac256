import Verif.Spec.Region
import Verif.Props.InnovationTeam

/-! # Property C141: which measured values pass the outlier test -/

namespace Ikf
namespace Honest
open Matrix SKF

variable {n m : ℕ}

/-! ## Ellipsoids -/

theorem sub_form {E : Matrix (Fin m) (Fin m) ℝ} (hE : E.PosDef) (r y : Vec m) (l : ℝ) :
    ((y - l • (E⁻¹ * r))ᵀ * E * (y - l • (E⁻¹ * r))) 0 0 = surprise E r * (l * l) + (-(2 * (yᵀ * r) 0 0)) * l + (yᵀ * E * y) 0 0 := by
  have hu := Matrix.isUnit_iff_isUnit_det E |>.mp hE.isUnit
  have hEt : Eᵀ = E := Alg.psd_symm hE.posSemidef
  have hEit : (E⁻¹)ᵀ = E⁻¹ := Alg.psd_symm hE.inv.posSemidef
  have e1 : E * (E⁻¹ * r) = r := by rw [← Matrix.mul_assoc, Matrix.mul_nonsing_inv _ hu, Matrix.one_mul]
  have e2 : (E⁻¹ * r)ᵀ * E = rᵀ := by rw [Matrix.transpose_mul, hEit, Matrix.mul_assoc, Matrix.nonsing_inv_mul _ hu, Matrix.mul_one]
  have e3 : (E⁻¹ * r)ᵀ * r = rᵀ * E⁻¹ * r := by rw [Matrix.transpose_mul, hEit]
  have e4 : (rᵀ * y) 0 0 = (yᵀ * r) 0 0 := by
    have := congrFun (congrFun (Matrix.transpose_mul yᵀ r) 0) 0
    rw [Matrix.transpose_transpose] at this
    rw [← this, Matrix.transpose_apply]
  rw [Matrix.transpose_sub, Matrix.transpose_smul, Matrix.sub_mul, Matrix.smul_mul, e2, Matrix.sub_mul, Matrix.mul_sub, Matrix.mul_sub, Matrix.mul_smul, Matrix.mul_assoc yᵀ E (E⁻¹ * r), e1,
    Matrix.smul_mul, Matrix.smul_mul, Matrix.mul_smul, ← Matrix.mul_assoc rᵀ]
  simp only [Matrix.sub_apply, Matrix.smul_apply, smul_eq_mul, e4, surprise]
  ring

theorem within_iff {E : Matrix (Fin m) (Fin m) ℝ} (hE : E.PosDef) (r : Vec m) {q : ℝ} (hq : 0 ≤ q) : surprise E r ≤ q ↔ Within q E r := by
  constructor
  · intro h y
    have h1 : discrim (surprise E r) (-(2 * (yᵀ * r) 0 0)) ((yᵀ * E * y) 0 0) ≤ 0 := by
      refine discrim_le_zero fun l => ?_
      rw [← sub_form hE r y l]
      have := Alg.psd_congr hE.posSemidef (y - l • (E⁻¹ * r))ᵀ
      rw [Matrix.transpose_transpose] at this
      exact this.diag_nonneg (i := 0)
    have h2 : 0 ≤ (yᵀ * E * y) 0 0 := by
      have := Alg.psd_congr hE.posSemidef yᵀ
      rw [Matrix.transpose_transpose] at this
      exact this.diag_nonneg (i := 0)
    unfold discrim at h1
    nlinarith [mul_le_mul_of_nonneg_right h h2]
  · intro h
    have hu := Matrix.isUnit_iff_isUnit_det E |>.mp hE.isUnit
    have hEit : (E⁻¹)ᵀ = E⁻¹ := Alg.psd_symm hE.inv.posSemidef
    have h1 := h (E⁻¹ * r)
    rw [Matrix.mul_assoc _ E, ← Matrix.mul_assoc E, Matrix.mul_nonsing_inv _ hu, Matrix.one_mul, Matrix.transpose_mul, hEit] at h1
    have h0 := surprise_nonneg hE r
    change surprise E r ^ 2 ≤ q * surprise E r at h1
    rcases h0.eq_or_lt with e | e
    · rw [← e]; exact hq
    · nlinarith

theorem threshold_nonneg {conf : ℚ} {row : List ℤ} (hrow : nisTable.lookup (round (conf * 1000)) = some row) (m : ℕ) : 0 ≤ thresholdInUse row m := by
  unfold thresholdInUse
  split
  · rename_i hm
    exact (row_pos hrow hm).le
  · exact le_refl _

theorem expected_pd {H R : Mat} {cfg : Cfg} {row : List ℤ} (hg : Gated n m H R cfg row) {S : Matrix (Fin n) (Fin n) ℝ} (hS : S.PosSemidef) :
    (expected H R cfg S : Matrix (Fin m) (Fin m) ℝ).PosDef := by
  unfold expected
  rw [add_assoc]
  exact hg.pd.posSemidef_add (Alg.psd_congr hS _)

/-! ## The theorems -/

/-- The answer of the filter to a measurement of any size with the outlier gate on. -/
theorem region_answer {h : Buf Belief} (ho : Ok n h) {t : Int} {e : Vec n} {S : Matrix (Fin n) (Fin n) ℝ} (he : estimates n h t = some ⟨e, S⟩)
    {H R : Mat} {cfg : Cfg} {row : List ℤ} (hg : Gated n m H R cfg row) (z : Vec m) :
    S.PosSemidef ∧ ∃ h' a, call h (.priv H R (Mat.ofM z) t cfg) = .ok (h', a) ∧
      (a = true ↔ surprise (expected H R cfg S) (z - H.toM m n * e) ≤ thresholdInUse row m) := by
  obtain ⟨b, hb, hbe⟩ := Option.map_eq_some_iff.mp he
  obtain ⟨hm1, hS1, hP1⟩ := ho.at hb
  have sH : H.Shape m n := hg.sizeH
  have sR : R.Shape m m := hg.sizeR
  have sz : (Mat.ofM z).Shape m 1 := ⟨rfl, rfl⟩
  have e1 : b.mean.toM n 1 = e := congrArg Gauss.mean hbe
  have e2 : b.Sigma.toM n n = S := congrArg Gauss.cov hbe
  have sr : (Mat.ofM z - H * b.mean).Shape m 1 := sz.sub
  have hO : ObsShape H R (Mat.ofM z - H * b.mean) b.Sigma n m := ⟨sH, sR, sr, hS1⟩
  have hv : nisValue (innov H R b.Sigma cfg.eps) (Mat.ofM z - H * b.mean) m = surprise (expected H R cfg S) (z - H.toM m n * e) := by
    unfold nisValue surprise expected
    rw [toM_innov hO hP1 hg.psd, sz.toM_sub (sH.mul hm1), sH.toM_mul, e1, e2, add_assoc, Mat.toM_ofM]
  refine ⟨by rw [← e2]; exact hP1, ?_⟩
  obtain ⟨a, ha, hi⟩ := (c20_gate_partial _ _ (innov_shape hO cfg.eps) sr cfg.conf).2 hg.pos row hg.listed
  rw [hv] at hi
  simp only [call, privKF, hb]
  rw [sH.mulC hm1, Res.bind_ok, sz.subC (sH.mul hm1), Res.bind_ok]
  unfold privEKF
  rw [correctionStep_eq hO, if_pos hg.on, ha, Res.bind_ok, Res.bind_ok, Res.bind_ok]
  cases a with
  | false => exact ⟨h, false, by simp, hi⟩
  | true =>
    simp only [Bool.not_true, Bool.not_false, if_true]
    unfold Belief.correct
    rw [hm1.addC ((gainM_shape hO _).mul sr), Res.bind_ok, Res.bind_ok]
    exact ⟨_, true, rfl, hi⟩

/-- C141. A measured value passes the outlier test exactly if every combination of its components deviates from the predicted one by at most `√q` of the standard deviations
the filter expects, `q` the threshold in use; every other value is answered too, with false. -/
theorem c141_accepts {h : Buf Belief} (ho : Ok n h) {t : Int} {e : Vec n} {S : Matrix (Fin n) (Fin n) ℝ} (he : estimates n h t = some ⟨e, S⟩)
    {H R : Mat} {cfg : Cfg} {row : List ℤ} (hg : Gated n m H R cfg row) (z : Vec m) :
    (Accepts h t H R cfg z ↔ Within (thresholdInUse row m) (expected H R cfg S) (z - H.toM m n * e)) ∧
    (¬ Accepts h t H R cfg z → ∃ h', call h (.priv H R (Mat.ofM z) t cfg) = .ok (h', false)) := by
  obtain ⟨hS, h', a, h1, h2⟩ := region_answer ho he hg z
  rw [within_iff (expected_pd hg hS) _ (threshold_nonneg hg.listed m)] at h2
  have h3 : Accepts h t H R cfg z ↔ a = true := by
    constructor
    · rintro ⟨h'', h3⟩
      rw [h1, Res.ok.injEq, Prod.mk.injEq] at h3
      exact h3.2
    · rintro rfl
      exact ⟨h', h1⟩
  refine ⟨h3.trans h2, fun h4 => ⟨h', ?_⟩⟩
  rw [h1, (Bool.not_eq_true a).mp fun h5 => h4 (h3.mpr h5)]

/-- C141. The values that pass are a convex set around the predicted measurement, which is its centre: it passes itself, and with each value that passes also the one mirrored at
it and all between two values that pass. -/
theorem c141_convex {h : Buf Belief} (ho : Ok n h) {t : Int} {e : Vec n} {S : Matrix (Fin n) (Fin n) ℝ} (he : estimates n h t = some ⟨e, S⟩)
    {H R : Mat} {cfg : Cfg} {row : List ℤ} (hg : Gated n m H R cfg row) :
    Convex ℝ {z : Vec m | Accepts h t H R cfg z} ∧ Accepts h t H R cfg (H.toM m n * e) ∧
    ∀ d : Vec m, Accepts h t H R cfg (H.toM m n * e + d) → Accepts h t H R cfg (H.toM m n * e - d) := by
  have ha := fun z => (c141_accepts ho he hg z).1
  have hE : ∀ y : Vec m, 0 ≤ (yᵀ * (expected H R cfg S : Matrix (Fin m) (Fin m) ℝ) * y) 0 0 := by
    intro y
    obtain ⟨hS, -⟩ := region_answer ho he hg (0 : Vec m)
    have := Alg.psd_congr (expected_pd hg hS).posSemidef yᵀ
    rw [Matrix.transpose_transpose] at this
    exact this.diag_nonneg (i := 0)
  have hq := threshold_nonneg hg.listed m
  refine ⟨?_, ?_, fun d hd => ?_⟩
  · intro z1 h1 z2 h2 a b h3 h4 h5
    simp only [Set.mem_ofPred_eq] at h1 h2 ⊢
    rw [ha] at h1 h2 ⊢
    intro y
    have e1 : a • z1 + b • z2 - H.toM m n * e = a • (z1 - H.toM m n * e) + b • (z2 - H.toM m n * e) := by
      have : H.toM m n * e = a • (H.toM m n * e) + b • (H.toM m n * e) := by rw [← add_smul, h5, one_smul]
      rw [smul_sub, smul_sub]
      nth_rewrite 1 [this]
      abel
    rw [e1, Matrix.mul_add, Matrix.mul_smul, Matrix.mul_smul, Matrix.add_apply, Matrix.smul_apply, Matrix.smul_apply, smul_eq_mul, smul_eq_mul]
    have g1 := h1 y
    have g2 := h2 y
    set u := (yᵀ * (z1 - H.toM m n * e)) 0 0
    set w := (yᵀ * (z2 - H.toM m n * e)) 0 0
    have h6 : (a * u + b * w) ^ 2 ≤ a * u ^ 2 + b * w ^ 2 := by
      have hb' : b = 1 - a := by linarith
      subst hb'
      nlinarith [mul_nonneg (mul_nonneg h3 h4) (sq_nonneg (u - w))]
    have h7 := mul_le_mul_of_nonneg_left g1 h3
    have h8 := mul_le_mul_of_nonneg_left g2 h4
    have h9 : a * (thresholdInUse row m * (yᵀ * (expected H R cfg S : Matrix (Fin m) (Fin m) ℝ) * y) 0 0) + b * (thresholdInUse row m * (yᵀ * (expected H R cfg S : Matrix (Fin m) (Fin m) ℝ) * y) 0 0) =
      thresholdInUse row m * (yᵀ * (expected H R cfg S : Matrix (Fin m) (Fin m) ℝ) * y) 0 0 := by rw [← add_mul, h5, one_mul]
    linarith
  · rw [ha]
    intro y
    rw [sub_self, Matrix.mul_zero]
    simp only [Matrix.zero_apply, ne_eq, OfNat.ofNat_ne_zero, not_false_eq_true, zero_pow]
    exact mul_nonneg hq (hE y)
  · rw [ha] at hd ⊢
    intro y
    have := hd y
    rw [add_sub_cancel_left] at this
    have e1 : H.toM m n * e - d - H.toM m n * e = -d := by abel
    rw [e1, Matrix.mul_neg, Matrix.neg_apply, neg_sq]
    exact this

theorem rows_mono : nisTable.Pairwise fun a b => a.1 < b.1 ∧ ∀ i < 50, a.2.getD i 0 ≤ b.2.getD i 0 := by
  decide +kernel

theorem threshold_mono {conf conf' : ℚ} (hc : conf ≤ conf') {row row' : List ℤ} (h : nisTable.lookup (round (conf * 1000)) = some row)
    (h' : nisTable.lookup (round (conf' * 1000)) = some row') (m : ℕ) : thresholdInUse row m ≤ thresholdInUse row' m := by
  have hr : round (conf * 1000) ≤ round (conf' * 1000) := by
    rw [round_eq, round_eq]
    exact Int.floor_mono (by linarith)
  have hm : ∀ {k : ℤ} {r : List ℤ}, nisTable.lookup k = some r → (k, r) ∈ nisTable := by
    intro k r hk
    obtain ⟨l1, l2, h, _⟩ := List.lookup_eq_some_iff.mp hk
    rw [h]; simp
  have key : ∀ i < 50, row.getD i 0 ≤ row'.getD i 0 := by
    rcases hr.eq_or_lt with e | e
    · rw [e, h'] at h
      obtain rfl := Option.some.inj h
      exact fun i _ => le_refl _
    · intro i hi
      have := List.Pairwise.forall_of_forall_of_flip (R := fun a b : ℤ × List ℤ => a.1 < b.1 → ∀ i < 50, a.2.getD i 0 ≤ b.2.getD i 0)
        (l := nisTable) (fun x _ hx => absurd hx (lt_irrefl _)) (rows_mono.imp fun h1 _ => h1.2)
        (rows_mono.imp fun h1 h2 => absurd h2 (not_lt.mpr h1.1.le)) (hm h) (hm h') e
      exact this i hi
  unfold thresholdInUse
  split
  · rename_i h50
    unfold tableQuantile
    rw [Nat.add_sub_cancel]
    have h2 : ((row.getD m 0 : ℤ) : ℝ) ≤ ((row'.getD m 0 : ℤ) : ℝ) := by exact_mod_cast key m h50
    linarith
  · exact le_refl _

/-- C141. A less certain filter, one that is told more measurement noise, or one with a higher confidence of the test, lets at least as much pass: what
the first filter accepts the second accepts too, if both predict the same measurement. -/
theorem c141_monotone {h h2 : Buf Belief} (ho : Ok n h) (ho2 : Ok n h2) {t t2 : Int} {e e2 : Vec n} {S S2 : Matrix (Fin n) (Fin n) ℝ} (he : estimates n h t = some ⟨e, S⟩)
    (he2 : estimates n h2 t2 = some ⟨e2, S2⟩) (hS : (S2 - S).PosSemidef) {H R R2 : Mat} (hpred : H.toM m n * e2 = H.toM m n * e) {cfg cfg2 : Cfg} {row row2 : List ℤ}
    (hg : Gated n m H R cfg row) (hg2 : Gated n m H R2 cfg2 row2)
    (hR : (R2.toM m m + cfg2.eps • 1 - (R.toM m m + cfg.eps • 1)).PosSemidef) (hc : cfg.conf ≤ cfg2.conf) (z : Vec m) (ha : Accepts h t H R cfg z) :
    Accepts h2 t2 H R2 cfg2 z := by
  rw [(c141_accepts ho he hg z).1] at ha
  rw [(c141_accepts ho2 he2 hg2 z).1, hpred]
  obtain ⟨pS, -⟩ := region_answer ho he hg (0 : Vec m)
  have hq := threshold_mono hc hg.listed hg2.listed m
  intro y
  have quadPos : ∀ M : Matrix (Fin m) (Fin m) ℝ, M.PosSemidef → 0 ≤ (yᵀ * M * y) 0 0 := by
    intro M hM
    have := Alg.psd_congr hM yᵀ
    rw [Matrix.transpose_transpose] at this
    exact this.diag_nonneg (i := 0)
  have h1 := quadPos _ (expected_pd hg pS).posSemidef
  have h3 : 0 ≤ (yᵀ * (expected H R2 cfg2 S2 - expected H R cfg S : Matrix (Fin m) (Fin m) ℝ) * y) 0 0 := by
    refine quadPos _ ?_
    have : expected H R2 cfg2 S2 - expected H R cfg S =
        H.toM m n * (S2 - S) * (H.toM m n)ᵀ + (R2.toM m m + cfg2.eps • 1 - (R.toM m m + cfg.eps • 1)) := by
      simp only [expected, Matrix.mul_sub, Matrix.sub_mul]
      abel
    rw [this]
    exact (Alg.psd_congr hS _).add hR
  rw [Matrix.mul_sub, Matrix.sub_mul, Matrix.sub_apply, sub_nonneg] at h3
  exact (ha y).trans (mul_le_mul hq h3 h1 (threshold_nonneg hg2.listed m))

/-- C141. A measurement with 50 or more components passes only if it is exactly the predicted one. -/
theorem c141_fifty {h : Buf Belief} (ho : Ok n h) {t : Int} {e : Vec n} {S : Matrix (Fin n) (Fin n) ℝ} (he : estimates n h t = some ⟨e, S⟩)
    {H R : Mat} {cfg : Cfg} {row : List ℤ} (hg : Gated n m H R cfg row) (hm : 50 ≤ m) (z : Vec m) :
    Accepts h t H R cfg z ↔ z = H.toM m n * e := by
  rw [(c141_accepts ho he hg z).1]
  have hq : thresholdInUse row m = 0 := if_neg (by omega)
  rw [hq]
  constructor
  · intro h1
    have h2 := h1 (z - H.toM m n * e)
    rw [zero_mul] at h2
    have h3 : ((z - H.toM m n * e)ᵀ * (z - H.toM m n * e)) 0 0 = 0 := pow_eq_zero_iff two_ne_zero |>.mp (le_antisymm h2 (sq_nonneg _))
    rw [Matrix.mul_apply] at h3
    have h4 := (Finset.sum_eq_zero_iff_of_nonneg fun i _ => by rw [Matrix.transpose_apply]; exact mul_self_nonneg _).mp h3
    ext i j
    obtain rfl : j = 0 := Subsingleton.elim _ _
    have h5 := h4 i (Finset.mem_univ i)
    rw [Matrix.transpose_apply, mul_self_eq_zero, Matrix.sub_apply, sub_eq_zero] at h5
    exact h5
  · rintro rfl y
    rw [sub_self, Matrix.mul_zero]
    simp

/-! ## Example -/

/-- A filter with estimate 7 and variance 1 measures its state with variance 1 and the default configuration: up to epsilon, the values that pass lie within
`√(2 · 11.6183) ≈ 4.8` of 7, so 11 passes and 12 does not. -/
example : Accepts startH 0 (Mat.ofM (1 : Matrix (Fin 1) (Fin 1) ℝ)) (Mat.ofM (1 : Matrix (Fin 1) (Fin 1) ℝ)) {} (Matrix.of fun _ _ => 11 : Vec 1) ∧
    ¬ Accepts startH 0 (Mat.ofM (1 : Matrix (Fin 1) (Fin 1) ℝ)) (Mat.ofM (1 : Matrix (Fin 1) (Fin 1) ℝ)) {} (Matrix.of fun _ _ => 12 : Vec 1) := by
  have hO0 : Ok 1 ([] : Buf Belief) := ⟨List.Pairwise.nil, by simp⟩
  have ho : Ok 1 startH := hO0.set 0 ⟨rfl, rfl⟩ ⟨rfl, rfl⟩ (by rw [Mat.toM_ofM]; exact Matrix.PosSemidef.one)
  have he : estimates 1 startH 0 = some ⟨seven, 1⟩ := by
    rw [startH, estimates_set hO0, Function.update_self]
    simp only [Mat.toM_ofM]
  have hg : Gated 1 1 (Mat.ofM (1 : Matrix (Fin 1) (Fin 1) ℝ)) (Mat.ofM (1 : Matrix (Fin 1) (Fin 1) ℝ)) {} _ :=
    ⟨⟨rfl, rfl⟩, ⟨rfl, rfl⟩, by rw [Mat.toM_ofM]; exact Matrix.PosSemidef.one, by norm_num, by
      rw [Mat.toM_ofM]
      exact Matrix.PosDef.one.add_posSemidef (Alg.smul_one_psd (by norm_num)), rfl, by norm_num, by norm_num [round_eq]; rfl⟩
  rw [(c141_accepts ho he hg _).1, (c141_accepts ho he hg _).1]
  constructor
  · intro y
    simp [thresholdInUse, tableQuantile, expected, seven, Matrix.mul_apply]
    nlinarith [sq_nonneg (y 0 0)]
  · intro h1
    have := h1 1
    simp [thresholdInUse, tableQuantile, expected, seven, Matrix.mul_apply] at this
    norm_num at this

end Honest
end Ikf
