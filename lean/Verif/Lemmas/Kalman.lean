import Verif.Model.KalmanMath
import Verif.Lemmas.Mat
import Verif.Lemmas.KalmanAlg

/-! # The model functions of KalmanMath evaluated on fitting shapes -/

namespace Ikf
open Mat

/-- The matrix `A` has shape `r × c`. -/
def Mat.Shape (A : Mat) (r c : ℕ) : Prop := A.rows = r ∧ A.cols = c

namespace Mat
variable {A B : Mat} {n m k : ℕ}
theorem Shape.mul (hA : A.Shape n k) (hB : B.Shape k m) : (A * B).Shape n m := ⟨hA.1, hB.2⟩
theorem Shape.add (hA : A.Shape n m) : (A + B).Shape n m := hA
theorem Shape.sub (hA : A.Shape n m) : (A - B).Shape n m := hA
theorem Shape.smul (hA : A.Shape n m) (c : ℝ) : (Mat.smul c A).Shape n m := hA
theorem Shape.tr (hA : A.Shape n m) : A.tr.Shape m n := ⟨hA.2, hA.1⟩
theorem Shape.one (n) : (Mat.one n).Shape n n := ⟨rfl, rfl⟩
theorem Shape.inv (hA : A.Shape n n) : A.inv.Shape n n := ⟨hA.1, hA.1⟩

theorem Shape.mulC (hA : A.Shape n k) (hB : B.Shape k m) : A.mulC B = .ok (A * B) :=
  mulC_ok (by rw [hA.2, hB.1])
theorem Shape.addC (hA : A.Shape n m) (hB : B.Shape n m) : A.addC B = .ok (A + B) :=
  addC_ok (by rw [hA.1, hB.1]) (by rw [hA.2, hB.2])
theorem Shape.subC (hA : A.Shape n m) (hB : B.Shape n m) : A.subC B = .ok (A - B) :=
  subC_ok (by rw [hA.1, hB.1]) (by rw [hA.2, hB.2])
theorem Shape.invC (hA : A.Shape n n) : A.invC = .ok A.inv := invC_ok (by rw [hA.1, hA.2])

theorem Shape.toM_mul (hA : A.Shape n k) (m) : (A * B).toM n m = A.toM n k * B.toM k m :=
  Mat.toM_mul A B n k m (Or.inl (by rw [hA.2]))
theorem Shape.toM_add (hA : A.Shape n m) (hB : B.Shape n m) (a b) : (A + B).toM a b = A.toM a b + B.toM a b :=
  Mat.toM_add A B (by rw [hA.1, hB.1]) (by rw [hA.2, hB.2]) a b
theorem Shape.toM_sub (hA : A.Shape n m) (hB : B.Shape n m) (a b) : (A - B).toM a b = A.toM a b - B.toM a b :=
  Mat.toM_sub A B (by rw [hA.1, hB.1]) (by rw [hA.2, hB.2]) a b
theorem Shape.toM_inv (hA : A.Shape n n) : A.inv.toM n n = (A.toM n n)⁻¹ := Mat.toM_inv A n hA.1
end Mat

/-- Value of `stabilize` on a square matrix. -/
noncomputable def stabM (S : Mat) (eps : ℝ) : Mat := smul (1/2) (S + S.tr) + smul eps (one S.rows)
/-- Value of `symmetrize` on a square matrix. -/
noncomputable def symM (S : Mat) : Mat := smul (1/2) (S + S.tr)

theorem stabilize_ok {S : Mat} {n : ℕ} (h : S.Shape n n) (eps : ℝ) : stabilize S eps = .ok (stabM S eps) := by
  unfold stabilize
  rw [h.addC h.tr]
  simp only [Res.bind_ok]
  rw [Shape.addC (n := n) (m := n) ((h.add).smul _) (((by rw [h.1]; exact Shape.one n) : (one S.rows).Shape n n).smul eps)]
  rfl

theorem symmetrize_ok {S : Mat} {n : ℕ} (h : S.Shape n n) : symmetrize S = .ok (symM S) := by
  unfold symmetrize
  rw [h.addC h.tr]; rfl

theorem Mat.Shape.stabM {S : Mat} {n : ℕ} (h : S.Shape n n) (eps) : (stabM S eps).Shape n n := h
theorem Mat.Shape.symM {S : Mat} {n : ℕ} (h : S.Shape n n) : (symM S).Shape n n := h

theorem toM_stabM {S : Mat} {n : ℕ} (h : S.Shape n n) (eps : ℝ) :
    (stabM S eps).toM n n = (1/2 : ℝ) • (S.toM n n + (S.toM n n).transpose) + eps • 1 := by
  unfold stabM
  rw [Shape.toM_add (n := n) (m := n) ((h.add).smul _) (by rw [h.1]; exact Shape.smul (Shape.one n) _), toM_smul, h.toM_add h.tr, toM_smul, h.1,
    toM_one, toM_tr]

theorem toM_symM {S : Mat} {n : ℕ} (h : S.Shape n n) :
    (symM S).toM n n = (1/2 : ℝ) • (S.toM n n + (S.toM n n).transpose) := by
  unfold symM
  rw [toM_smul, h.toM_add h.tr, toM_tr]

theorem toM_stabM_symm {S : Mat} {n : ℕ} (h : S.Shape n n) (eps : ℝ) (hs : (S.toM n n).transpose = S.toM n n) :
    (stabM S eps).toM n n = S.toM n n + eps • 1 := by rw [toM_stabM h, Alg.sym_half _ hs]

theorem toM_symM_symm {S : Mat} {n : ℕ} (h : S.Shape n n) (hs : (S.toM n n).transpose = S.toM n n) :
    (symM S).toM n n = S.toM n n := by rw [toM_symM h, Alg.sym_half _ hs]

theorem checkDimObs_iff (H R r Sigma : Mat) : checkDimObs H R r Sigma = true ↔
    H.cols = Sigma.rows ∧ r.rows = H.rows ∧ r.cols = 1 ∧ R.rows = H.rows ∧ R.cols = H.rows := by
  unfold checkDimObs
  simp only [Bool.and_eq_true, Bool.not_eq_true', Bool.or_eq_false_iff, bne_eq_false_iff_eq]
  constructor
  · rintro ⟨⟨⟨a, b⟩, c, d⟩, e, f⟩; exact ⟨a, d, c, e.symm, f.symm⟩
  · rintro ⟨a, b, c, d, e⟩; exact ⟨⟨⟨a, b.symm⟩, c, b⟩, d.symm, e.symm⟩

theorem checkDimQ_iff (S Phi Q : Mat) : checkDimQ S Phi Q = true ↔
    Phi.rows = S.rows ∧ Phi.cols = S.rows ∧ Q.rows = S.rows ∧ Q.cols = S.rows := by
  unfold checkDimQ checkDimPhi
  simp only [Bool.and_eq_true, Bool.not_eq_true', Bool.or_eq_false_iff, bne_eq_false_iff_eq]
  constructor
  · rintro ⟨⟨a, b⟩, c, d⟩; exact ⟨a.symm, b.symm, c.symm, d.symm⟩
  · rintro ⟨a, b, c, d⟩; exact ⟨⟨a.symm, b.symm⟩, c.symm, d.symm⟩

/-- Innovation covariance before stabilisation. -/
noncomputable def innov0 (H R Sigma : Mat) : Mat := H * Sigma * H.tr + R
/-- Innovation covariance used. -/
noncomputable def innov (H R Sigma : Mat) (eps : ℝ) : Mat := stabM (innov0 H R Sigma) eps
/-- Gain used. -/
noncomputable def gainM (H R Sigma : Mat) (eps : ℝ) : Mat := Sigma * H.tr * (innov H R Sigma eps).inv
/-- `I - K H`. -/
noncomputable def updM (H R Sigma : Mat) (eps : ℝ) : Mat := one Sigma.rows - gainM H R Sigma eps * H
/-- A posteriori covariance before stabilisation. -/
noncomputable def post0 (H R Sigma : Mat) (cfg : Cfg) : Mat :=
  if cfg.joseph then
    updM H R Sigma cfg.eps * Sigma * (updM H R Sigma cfg.eps).tr +
      gainM H R Sigma cfg.eps * R * (gainM H R Sigma cfg.eps).tr
  else updM H R Sigma cfg.eps * Sigma
/-- A posteriori covariance. -/
noncomputable def postM (H R Sigma : Mat) (cfg : Cfg) : Mat :=
  symM (if cfg.stab then stabM (post0 H R Sigma cfg) cfg.eps else post0 H R Sigma cfg)

/-- Shapes of a well-dimensioned correction. -/
structure ObsShape (H R r Sigma : Mat) (n m : ℕ) : Prop where
  H : H.Shape m n
  R : R.Shape m m
  r : r.Shape m 1
  S : Sigma.Shape n n

theorem ObsShape.check {H R r Sigma : Mat} {n m : ℕ} (h : ObsShape H R r Sigma n m) :
    checkDimObs H R r Sigma = true := by
  rw [checkDimObs_iff]
  exact ⟨by rw [h.H.2, h.S.1], by rw [h.r.1, h.H.1], h.r.2, by rw [h.R.1, h.H.1], by rw [h.R.2, h.H.1]⟩

section
variable {H R r Sigma : Mat} {n m : ℕ}
theorem innov0_shape (h : ObsShape H R r Sigma n m) : (innov0 H R Sigma).Shape m m :=
  ((h.H.mul h.S).mul h.H.tr).add
theorem innov_shape (h : ObsShape H R r Sigma n m) (eps) : (innov H R Sigma eps).Shape m m :=
  (innov0_shape h).stabM eps
theorem gainM_shape (h : ObsShape H R r Sigma n m) (eps) : (gainM H R Sigma eps).Shape n m :=
  (h.S.mul h.H.tr).mul (innov_shape h eps).inv
theorem updM_shape (h : ObsShape H R r Sigma n m) (eps) : (updM H R Sigma eps).Shape n n := by
  unfold updM; rw [h.S.1]; exact (Shape.one n).sub
theorem post0_shape (h : ObsShape H R r Sigma n m) (cfg : Cfg) : (post0 H R Sigma cfg).Shape n n := by
  unfold post0
  split
  · exact (((updM_shape h _).mul h.S).mul (updM_shape h _).tr).add
  · exact (updM_shape h _).mul h.S
theorem postM_shape (h : ObsShape H R r Sigma n m) (cfg : Cfg) : (postM H R Sigma cfg).Shape n n := by
  unfold postM
  split
  · exact ((post0_shape h cfg).stabM _).symM
  · exact (post0_shape h cfg).symM

/-- `correction_step` on fitting shapes. -/
theorem correctionStep_eq (h : ObsShape H R r Sigma n m) (cfg : Cfg) :
    correctionStep H R r Sigma cfg =
      ((if cfg.outlier then do
        let good ← checkNIS (innov H R Sigma cfg.eps) r cfg.conf
        .ok (!good)
      else .ok false : Res Bool) >>= fun rej =>
      .ok ⟨postM H R Sigma cfg, gainM H R Sigma cfg.eps * r, updM H R Sigma cfg.eps, rej⟩) := by
  unfold correctionStep
  rw [if_pos h.check]
  have hS0 := innov0_shape h
  have hSi := innov_shape h cfg.eps
  have hK := gainM_shape h cfg.eps
  have hU := updM_shape h cfg.eps
  rw [h.H.mulC h.S, Res.bind_ok, (h.H.mul h.S).mulC h.H.tr, Res.bind_ok,
    ((h.H.mul h.S).mul h.H.tr).addC h.R, Res.bind_ok]
  rw [show (H * Sigma * H.tr + R) = innov0 H R Sigma from rfl, stabilize_ok hS0, Res.bind_ok]
  rw [show stabM (innov0 H R Sigma) cfg.eps = innov H R Sigma cfg.eps from rfl]
  congr 1
  funext rej
  rw [h.S.mulC h.H.tr, Res.bind_ok, hSi.invC, Res.bind_ok, (h.S.mul h.H.tr).mulC hSi.inv, Res.bind_ok]
  rw [show Sigma * H.tr * (innov H R Sigma cfg.eps).inv = gainM H R Sigma cfg.eps from rfl]
  rw [hK.mulC h.r, Res.bind_ok, hK.mulC h.H, Res.bind_ok]
  rw [Shape.subC (n := n) (m := n) (by rw [h.S.1]; exact Shape.one n) (hK.mul h.H), Res.bind_ok]
  rw [show one Sigma.rows - gainM H R Sigma cfg.eps * H = updM H R Sigma cfg.eps from rfl]
  have hp0 : (if cfg.joseph = true then do
        let x ← updM H R Sigma cfg.eps *! Sigma
        let y ← x *! (updM H R Sigma cfg.eps).tr
        let v ← gainM H R Sigma cfg.eps *! R
        let w ← v *! (gainM H R Sigma cfg.eps).tr
        y +! w
      else updM H R Sigma cfg.eps *! Sigma) = .ok (post0 H R Sigma cfg) := by
    unfold post0
    split
    · rw [hU.mulC h.S, Res.bind_ok, (hU.mul h.S).mulC hU.tr, Res.bind_ok, hK.mulC h.R, Res.bind_ok,
        (hK.mul h.R).mulC hK.tr, Res.bind_ok, ((hU.mul h.S).mul hU.tr).addC ((hK.mul h.R).mul hK.tr)]
    · rw [hU.mulC h.S]
  rw [hp0, Res.bind_ok]
  have hP := post0_shape h cfg
  unfold postM
  split
  · rw [stabilize_ok hP, Res.bind_ok, symmetrize_ok (hP.stabM _), Res.bind_ok]
  · rw [Res.bind_ok, symmetrize_ok hP, Res.bind_ok]

/-! Typed values -/

theorem toM_innov0 (h : ObsShape H R r Sigma n m) :
    (innov0 H R Sigma).toM m m = H.toM m n * Sigma.toM n n * (H.toM m n).transpose + R.toM m m := by
  unfold innov0
  rw [((h.H.mul h.S).mul h.H.tr).toM_add h.R, (h.H.mul h.S).toM_mul, h.H.toM_mul, toM_tr]

theorem innov0_symm (h : ObsShape H R r Sigma n m) (hS : (Sigma.toM n n).PosSemidef) (hR : (R.toM m m).PosSemidef) :
    ((innov0 H R Sigma).toM m m).transpose = (innov0 H R Sigma).toM m m := by
  rw [toM_innov0 h]
  exact Alg.psd_symm ((Alg.psd_congr hS _).add hR)

theorem toM_innov (h : ObsShape H R r Sigma n m) (hS : (Sigma.toM n n).PosSemidef) (hR : (R.toM m m).PosSemidef)
    (eps : ℝ) :
    (innov H R Sigma eps).toM m m =
      H.toM m n * Sigma.toM n n * (H.toM m n).transpose + (R.toM m m + eps • 1) := by
  unfold innov
  rw [toM_stabM_symm (innov0_shape h) eps (innov0_symm h hS hR), toM_innov0 h, add_assoc]

theorem toM_gainM (h : ObsShape H R r Sigma n m) (hS : (Sigma.toM n n).PosSemidef) (hR : (R.toM m m).PosSemidef)
    (eps : ℝ) : (gainM H R Sigma eps).toM n m = Alg.gain (Sigma.toM n n) (H.toM m n) (R.toM m m + eps • 1) := by
  unfold gainM Alg.gain
  rw [(h.S.mul h.H.tr).toM_mul, h.S.toM_mul, (innov_shape h eps).toM_inv, toM_innov h hS hR, toM_tr]

theorem toM_updM (h : ObsShape H R r Sigma n m) (hS : (Sigma.toM n n).PosSemidef) (hR : (R.toM m m).PosSemidef)
    (eps : ℝ) : (updM H R Sigma eps).toM n n =
      1 - Alg.gain (Sigma.toM n n) (H.toM m n) (R.toM m m + eps • 1) * H.toM m n := by
  unfold updM
  rw [h.S.1, (Shape.one n).toM_sub ((gainM_shape h eps).mul h.H), toM_one, (gainM_shape h eps).toM_mul,
    toM_gainM h hS hR]

theorem toM_post0 (h : ObsShape H R r Sigma n m) (hS : (Sigma.toM n n).PosSemidef) (hR : (R.toM m m).PosSemidef)
    (cfg : Cfg) : (post0 H R Sigma cfg).toM n n =
      if cfg.joseph then Alg.joseph (Sigma.toM n n) (H.toM m n) (R.toM m m)
        (Alg.gain (Sigma.toM n n) (H.toM m n) (R.toM m m + cfg.eps • 1))
      else (1 - Alg.gain (Sigma.toM n n) (H.toM m n) (R.toM m m + cfg.eps • 1) * H.toM m n) * Sigma.toM n n := by
  have hU := updM_shape h cfg.eps
  have hK := gainM_shape h cfg.eps
  unfold post0
  split
  · rw [((hU.mul h.S).mul hU.tr).toM_add ((hK.mul h.R).mul hK.tr), (hU.mul h.S).toM_mul, hU.toM_mul,
      (hK.mul h.R).toM_mul, hK.toM_mul, toM_tr, toM_tr, toM_updM h hS hR, toM_gainM h hS hR]
    rfl
  · rw [hU.toM_mul, toM_updM h hS hR]

end
end Ikf
