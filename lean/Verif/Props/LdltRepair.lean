import Verif.Model.FixPsd
import Verif.Model.Isolated
import Verif.Props.LdltUse
import Verif.Props.KalmanMath
import Verif.Props.StandaloneMath

/-! # Property C134: the test in the updates -/

namespace Ikf
namespace Ldlt
open Matrix

theorem passes {P : Mat} {n : ℕ} (h : P.Shape n n) (hp : (P.toM n n).PosDef) : isPsd P = .ok true := by
  obtain ⟨r, c⟩ := h
  apply c134_complete
  · refine ⟨by rw [r, c], fun i j hi hj => ?_⟩
    rw [r] at hi hj
    have := congrFun (congrFun hp.isHermitian ⟨j, hj⟩) ⟨i, hi⟩
    simpa [Mat.toM] using this
  · rw [r]; exact hp

/-- C134. The posterior of an update with stabilisation on (the default) passes the test, whatever was measured: the repair that follows
the test is never taken, and leaves the posterior as it is. -/
theorem c134_posterior {n m : ℕ} (near : Mat → Mat) (H R r Sigma : Mat) (cfg : Cfg) (h : ObsShape H R r Sigma n m)
    (pS : (Sigma.toM n n).PosSemidef) (pR : (R.toM m m).PosSemidef) (heps : 0 < cfg.eps) (hst : cfg.stab = true)
    (res : CorrRes) (hres : correctionStep H R r Sigma cfg = .ok res) :
    isPsd res.Sapos = .ok true ∧ repair near res.Sapos = .ok res.Sapos ∧ Hdl.fixPsd near res.Sapos = res.Sapos := by
  have pRe : (R.toM m m + cfg.eps • (1 : Matrix (Fin m) (Fin m) ℝ)).PosDef := Matrix.PosDef.posSemidef_add pR (Alg.smul_one_pd heps)
  obtain ⟨sh, -, -, -, -, -, -, -, p1, p2, -, -⟩ := c18_kalman_update H R r Sigma cfg h pS pR heps.le pRe res hres
  simp only [hst, if_true] at p2
  have pd : (res.Sapos.toM n n).PosDef := by
    have := Matrix.PosDef.posSemidef_add p2 (Alg.smul_one_pd (n := Fin n) heps)
    rwa [sub_add_cancel] at this
  have t := passes sh pd
  refine ⟨t, ?_, ?_⟩
  · unfold repair; rw [t]; rfl
  · unfold Hdl.fixPsd
    rw [if_pos]
    exact ⟨by rw [sh.1, sh.2], by rw [sh.1]; exact p1⟩

/-- C134. ... and so does every covariance propagated with stabilisation. -/
theorem c134_propagated {n : ℕ} (Sigma Phi Q : Mat) (hS : Sigma.Shape n n) (hP : Phi.Shape n n) (hQ : Q.Shape n n)
    (pS : (Sigma.toM n n).PosSemidef) (pQ : (Q.toM n n).PosSemidef) (P : Mat) (h : covPropagation Sigma Phi Q true = .ok P) : isPsd P = .ok true := by
  obtain ⟨P', e, sh, -, pd⟩ := c17_propagation_stabilised Sigma Phi Q hS hP hQ pS pQ
  cases h.symm.trans e
  exact passes sh pd

/-- C134. On symmetric matrices the code's repair and the exact one differ only where the matrix is singular and positive semidefinite. -/
theorem c134_repair {n : ℕ} (near : Mat → Mat) (P : Mat) (hP : P.Shape n n) (hs : P.tr = P) :
    repair near P = .ok (Hdl.fixPsd near P) ∨
      ((P.toM n n).PosSemidef ∧ ¬ (P.toM n n).PosDef ∧ Hdl.fixPsd near P = P ∧ repair near P = .ok (near P)) := by
  obtain ⟨r, c⟩ := hP
  have sym : Psd.Symmetric P := by
    refine ⟨by rw [r, c], fun i j hi hj => ?_⟩
    have := congrArg (fun M : Mat => M.e i j) hs
    exact this.symm
  have sq : ¬ isPsd P = .ub := fun g => ((c134_sound P).2.mpr g) (by rw [r, c])
  by_cases hp : (P.toM n n).PosSemidef
  · have fx : Hdl.fixPsd near P = P := by
      unfold Hdl.fixPsd
      rw [if_pos ⟨by rw [r, c], by rw [r]; exact hp⟩]
    by_cases hd : (P.toM n n).PosDef
    · left
      unfold repair
      rw [passes ⟨r, c⟩ hd, fx]; rfl
    · cases ht : isPsd P with
      | ub => exact absurd ht sq
      | throws =>
        exfalso
        unfold isPsd at ht
        rw [symmetric_nearly sym, Res.bind_ok] at ht
        simp at ht
      | ok b =>
        cases b with
        | true => left; unfold repair; rw [ht, fx]; rfl
        | false => right; exact ⟨hp, hd, fx, by unfold repair; rw [ht]; rfl⟩
  · left
    have fx : Hdl.fixPsd near P = near P := by
      unfold Hdl.fixPsd
      rw [if_neg]
      rintro ⟨-, g⟩
      rw [r] at g
      exact hp g
    cases ht : isPsd P with
    | ub => exact absurd ht sq
    | throws =>
      exfalso
      unfold isPsd at ht
      rw [symmetric_nearly sym, Res.bind_ok] at ht
      simp at ht
    | ok b =>
      cases b with
      | true =>
        exfalso
        have := c134_symmetric P sym ht
        rw [r] at this
        exact hp this
      | false => unfold repair; rw [ht, fx]; rfl

/-- The repair of the twin states differs: the code replaces them, although they are positive semidefinite. -/
example (near : Mat → Mat) : repair near (twin (1 / 2)) = .ok (near (twin (1 / 2))) ∧ Hdl.fixPsd near (twin (1 / 2)) = twin (1 / 2) := by
  obtain ⟨-, p, e⟩ := c134_singular_fails (1 / 2) (by norm_num) (by norm_num)
  refine ⟨by unfold repair; rw [e]; rfl, ?_⟩
  unfold Hdl.fixPsd
  rw [if_pos]
  exact ⟨rfl, p⟩

/-- An update of one state meets the conditions. -/
example (near : Mat → Mat) : ∃ res, correctionStep (SKF.MathExample.sc 1) (SKF.MathExample.sc 1) (SKF.MathExample.sc 3) (SKF.MathExample.sc 2) { outlier := false } = .ok res ∧
    repair near res.Sapos = .ok res.Sapos := by
  have sh : ObsShape (SKF.MathExample.sc 1) (SKF.MathExample.sc 1) (SKF.MathExample.sc 3) (SKF.MathExample.sc 2) 1 1 := ⟨⟨rfl, rfl⟩, ⟨rfl, rfl⟩, ⟨rfl, rfl⟩, ⟨rfl, rfl⟩⟩
  have e := correctionStep_eq sh { outlier := false }
  simp only [Bool.false_eq_true, if_false, Res.bind_ok] at e
  refine ⟨_, e, ?_⟩
  exact (c134_posterior near _ _ _ _ { outlier := false } sh (SKF.MathExample.sc_psd (by norm_num)) (SKF.MathExample.sc_psd (by norm_num)) (by norm_num) rfl _ e).2.1

end Ldlt
end Ikf
