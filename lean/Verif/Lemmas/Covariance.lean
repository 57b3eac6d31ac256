import Verif.Spec.Covariance
import Verif.Props.CrossCov
import Verif.Props.KalmanMath
import Verif.Lemmas.Frame

/-!
# Lemmas for C104: stored covariances stay covariances
-/

namespace Ikf
open Mat

section quad
variable {P : Mat} {n : ℕ}

theorem quad_toM (P : Mat) (n : ℕ) (x : ℕ → ℝ) :
    (∑ i ∈ Finset.range n, ∑ j ∈ Finset.range n, x i * P.e i j * x j) =
      dotProduct (fun i : Fin n => x i) ((P.toM n n).mulVec (fun i : Fin n => x i)) := by
  rw [Finset.sum_range]
  simp only [dotProduct, Matrix.mulVec]
  refine Finset.sum_congr rfl fun i _ => ?_
  rw [Finset.sum_range, Finset.mul_sum]
  refine Finset.sum_congr rfl fun j _ => ?_
  simp only [toM_apply]; ring

theorem toM_symm_iff (h : P.Shape n n) : (P.toM n n).transpose = P.toM n n ↔ ∀ i j, P.e i j = P.e j i := by
  constructor
  · intro hs i j
    by_cases hi : i < n
    · by_cases hj : j < n
      · exact congrFun (congrFun hs ⟨j, hj⟩) ⟨i, hi⟩
      · rw [P.out i j (by rw [h.2]; omega), P.out j i (by rw [h.1]; omega)]
    · rw [P.out i j (by rw [h.1]; omega), P.out j i (by rw [h.2]; omega)]
  · intro hs; ext i j; exact hs _ _

theorem isCov_of (h : P.Shape n n) (hp : (P.toM n n).PosSemidef) : IsCovMat P := by
  refine ⟨by rw [h.1, h.2], (toM_symm_iff h).mp (Alg.psd_symm hp), fun x => ?_⟩
  rw [h.1, quad_toM]
  have := hp.dotProduct_mulVec_nonneg (fun i : Fin n => x i)
  simpa using this

theorem IsCovMat.psd (h : IsCovMat P) (hn : P.rows = n) : P.Shape n n ∧ (P.toM n n).PosSemidef := by
  subst hn
  have hs : P.Shape P.rows P.rows := ⟨rfl, h.1.symm⟩
  refine ⟨hs, Matrix.PosSemidef.of_dotProduct_mulVec_nonneg ?_ ?_⟩
  · rw [Matrix.IsHermitian, Matrix.conjTranspose_eq_transpose_of_trivial]
    exact (toM_symm_iff hs).mpr h.2.1
  · intro x
    have := h.2.2 (fun i => if hi : i < P.rows then x ⟨i, hi⟩ else 0)
    rw [quad_toM] at this
    simpa using this

theorem NoiseOk.pd {R : Mat} {cfg : Cfg} {m : ℕ} (h : NoiseOk R cfg) (hm : R.rows = m) :
    (R.toM m m).PosSemidef ∧ 0 ≤ cfg.eps ∧ (R.toM m m + cfg.eps • 1).PosDef := by
  obtain ⟨hs, hp⟩ := h.1.psd hm
  refine ⟨hp, h.2.1, Matrix.PosDef.of_dotProduct_mulVec_pos ?_ ?_⟩
  · rw [Matrix.IsHermitian, Matrix.conjTranspose_eq_transpose_of_trivial, Matrix.transpose_add, Alg.psd_symm hp, Matrix.transpose_smul,
      Matrix.transpose_one]
  · intro x hx
    obtain ⟨k, hk⟩ := Function.ne_iff.mp hx
    have := h.2.2 (fun i => if hi : i < m then x ⟨i, hi⟩ else 0) ⟨k, by rw [hm]; exact k.2, by simpa using hk⟩
    rw [hm, quad_toM, Finset.sum_range] at this
    rw [Matrix.add_mulVec, dotProduct_add, Matrix.smul_mulVec, Matrix.one_mulVec, dotProduct_smul]
    simp only [Fin.is_lt, dite_true, Fin.eta] at this
    simpa [dotProduct] using this

theorem IsCovMat.block (h : IsCovMat P) {k n : ℕ} (hk : k + n ≤ P.rows) : IsCovMat (P.block k k n n) := by
  obtain ⟨-, hp⟩ := h.psd rfl
  refine isCov_of (n := n) ⟨rfl, rfl⟩ ?_
  have : (P.block k k n n).toM n n = (P.toM P.rows P.rows).submatrix (fun i : Fin n => ⟨k + i, by omega⟩) (fun i : Fin n => ⟨k + i, by omega⟩) := by
    ext i j
    rw [toM_apply, block_e, if_pos ⟨i.2, j.2⟩]; rfl
  rw [this]
  exact hp.submatrix _

theorem IsCovMat.tr_eq (h : IsCovMat P) : P.tr = P := by
  refine Mat.ext' h.1.symm h.1 fun i j _ _ => ?_
  exact h.2.1 _ _

theorem fixPsd_cov {near : Mat → Mat} (hn : NearCov near) (hP : P.Shape n n) (hs : P.tr = P) :
    (Hdl.fixPsd near P).rows = P.rows ∧ IsCovMat (Hdl.fixPsd near P) := by
  unfold Hdl.fixPsd
  split
  · rename_i h; exact ⟨rfl, isCov_of ⟨rfl, h.1.symm⟩ h.2⟩
  · refine hn P (by rw [hP.1, hP.2]) fun i j => ?_
    have := congrArg (fun A => A.e j i) hs
    exact this
end quad

/-! ## Containers -/

theorem Buf.mem_insertMap_sub {α : Type _} {b : Buf α} {k : Int} {v : α} {e : Int × α} (h : e ∈ b.insertMap k v) : e = (k, v) ∨ e ∈ b := by
  induction b with
  | nil => left; simpa [Buf.insertMap] using h
  | cons a r ih =>
    rw [Buf.insertMap] at h
    split at h
    · rcases List.mem_cons.mp h with h | h
      · exact Or.inl h
      · exact Or.inr h
    · split at h
      · rcases List.mem_cons.mp h with h | h
        · exact Or.inl h
        · exact Or.inr (List.mem_cons_of_mem _ h)
      · rcases List.mem_cons.mp h with h | h
        · exact Or.inr (by rw [h]; exact List.mem_cons_self)
        · exact (ih h).imp id (List.mem_cons_of_mem _)

theorem Buf.mem_removeAfter_sub {α : Type _} {b : Buf α} {t : Int} {e : Int × α} (h : e ∈ b.removeAfter t) : e ∈ b := by
  unfold Buf.removeAfter at h
  split at h
  · exact h
  · exact (List.takeWhile_sublist _).subset h

theorem SMap.mem_set_sub {V : Type _} {m : SMap V} {k : ℕ} {v : V} {e : ℕ × V} (h : e ∈ m.set k v) : e = (k, v) ∨ e ∈ m := by
  induction m with
  | nil => left; simpa [SMap.set] using h
  | cons a r ih =>
    rw [SMap.set] at h
    split at h
    · rcases List.mem_cons.mp h with h | h
      · exact Or.inl h
      · exact Or.inr h
    · split at h
      · rcases List.mem_cons.mp h with h | h
        · exact Or.inl h
        · exact Or.inr (List.mem_cons_of_mem _ h)
      · rcases List.mem_cons.mp h with h | h
        · exact Or.inr (by rw [h]; exact List.mem_cons_self)
        · exact (ih h).imp id (List.mem_cons_of_mem _)

theorem SMap.mem_emplace_sub {V : Type _} {m : SMap V} {k : ℕ} {v : V} {e : ℕ × V} (h : e ∈ m.emplace k v) : e = (k, v) ∨ e ∈ m := by
  unfold SMap.emplace at h
  split at h
  · exact Or.inr h
  · exact SMap.mem_set_sub h

/-! ## One instance -/
namespace Inst
variable {i j : Inst}

theorem Covs.setBelief (h : i.Covs) {b : Belief} (hb : IsCovMat b.Sigma) (t : Int) : (i.setBelief b t).Covs := by
  intro e he
  rcases Buf.mem_insertMap_sub he with he | he
  · rw [he]; exact hb
  · exact h e he

theorem Covs.doInit (i : Inst) {b : Belief} (hb : IsCovMat b.Sigma) (t : Int) : (i.doInit b t).Covs := by
  intro e he
  rcases Buf.mem_insertMap_sub he with he | he
  · rw [he]; exact hb
  · simp [reset] at he

theorem Covs.bel_eq (h : i.Covs) (hb : j.bel = i.bel) : j.Covs := by
  intro e he; rw [hb] at he; exact h e he

theorem Covs.sub (h : i.Covs) (hb : ∀ e ∈ j.bel, e ∈ i.bel) : j.Covs := fun e he => h e (hb e he)

theorem addCorrection_bel' {ta tb : Int} {F : Mat} (h : i.addCorrection ta tb F = .ok j) : j.bel = i.bel := by
  unfold addCorrection at h
  obtain ⟨c, _, h⟩ := Hdl.bind_eq_ok h
  rw [← Res.ok.inj h]

theorem applyCorrection_bel' {t : Int} {F : Mat} (h : i.applyCorrection t F = .ok j) : j.bel = i.bel := by
  unfold applyCorrection at h
  obtain ⟨c, _, h⟩ := Hdl.bind_eq_ok h
  rw [← Res.ok.inj h]

theorem setCCF_bel' (t : Int) (J : ℕ) (M : Mat) : (i.setCCF t J M).bel = i.bel := by
  unfold setCCF; split <;> rfl

theorem mem_removeBefore_sub {α : Type _} {b : Buf α} {t : Int} {e : Int × α} (h : e ∈ b.removeBefore t) : e ∈ b := by
  unfold Buf.removeBefore at h
  split at h
  · exact h
  · rename_i it _
    exact (List.dropWhile_sublist _).subset h

theorem Covs.checkHorizon (fp : FP) (h : i.Covs) : (i.checkHorizon fp).Covs := by
  refine h.sub fun e he => ?_
  have he : e ∈ Buf.checkHorizonRestricted fp i.hor i.bel 4 := he
  unfold Buf.checkHorizonRestricted at he
  split at he
  · split at he
    · exact mem_removeBefore_sub he
    · exact he
  · exact he

theorem Covs.removeAfter (h : i.Covs) (t : Int) : (i.removeAfter t).Covs := h.sub fun _ he => Buf.mem_removeAfter_sub he

theorem Covs.removeFrom (h : i.Covs) (t : Int) : (i.removeFrom t).Covs := by
  refine h.sub fun e he => ?_
  have he : e ∈ Buf.removeAt (i.bel.removeAfter t) t := he
  unfold Buf.removeAt at he
  exact Buf.mem_removeAfter_sub (List.mem_filter.mp he).1

theorem Covs.beliefAt (h : i.Covs) {t : Int} {b : Belief} (hb : i.beliefAt t = some b) : IsCovMat b.Sigma := by
  unfold Inst.beliefAt at hb
  obtain ⟨e, he, rfl⟩ := Option.map_eq_some_iff.mp hb
  exact h e (List.mem_of_find?_eq_some he)

theorem covPropagation_cov {S Phi Q P : Mat} (hS : IsCovMat S) (hQ : IsCovMat Q) (hc : checkDimQ S Phi Q = true) (h : covPropagation S Phi Q false = .ok P) :
    IsCovMat P := by
  obtain ⟨c1, c2, c3, c4⟩ := (checkDimQ_iff _ _ _).mp hc
  obtain ⟨s1, p1⟩ := hS.psd rfl
  obtain ⟨s2, p2⟩ := hQ.psd c3
  have hP : Phi.Shape S.rows S.rows := ⟨c1, c2⟩
  unfold covPropagation at h
  rw [if_pos hc, if_neg (by simp), hP.mulC s1, Res.bind_ok, (hP.mul s1).mulC hP.tr, Res.bind_ok, ((hP.mul s1).mul hP.tr).addC s2] at h
  rw [← Res.ok.inj h]
  refine isCov_of (n := S.rows) ((hP.mul s1).mul hP.tr).add ?_
  rw [((hP.mul s1).mul hP.tr).toM_add s2, (hP.mul s1).toM_mul, hP.toM_mul, toM_tr]
  exact (Alg.psd_congr p1 _).add p2

theorem Covs.basePropEKF (h : i.Covs) {ba : Belief} (hb : IsCovMat ba.Sigma) {mb Phi Q : Mat} (hQ : IsCovMat Q) {tb : Int} {r : Inst × Bool}
    (hr : i.basePropEKF ba mb Phi Q tb = .ok r) : r.1.Covs := by
  unfold Inst.basePropEKF at hr
  split at hr
  · rename_i hc
    obtain ⟨Sb, hS, hr⟩ := Hdl.bind_eq_ok hr
    have hSb := covPropagation_cov hb hQ hc hS
    split at hr
    · rename_i hm
      simp only [Belief.set, hm, Bool.not_true, Bool.false_eq_true, if_false, if_true] at hr
      rw [← Res.ok.inj hr]
      exact h.setBelief hSb _
    · rw [← Res.ok.inj hr]; exact h
  · rw [← Res.ok.inj hr]; exact h

theorem Covs.tail (fp : FP) {r r' : Inst × Bool} {ta tb : Int} {Phi : Mat} (h : r.1.Covs)
    (hr : (if r.2 then do
      let j ← r.1.addCorrection ta tb Phi
      .ok (j.checkHorizon fp, true)
    else .ok (r.1, false) : Res (Inst × Bool)) = .ok r') : r'.1.Covs := by
  split at hr
  · obtain ⟨j, hj, hr⟩ := Hdl.bind_eq_ok hr
    rw [← Res.ok.inj hr]
    exact (h.bel_eq (addCorrection_bel' hj)).checkHorizon fp
  · rw [← Res.ok.inj hr]; exact h

theorem Covs.propEKF (fp : FP) (h : i.Covs) {ba : Belief} (hb : IsCovMat ba.Sigma) {mb Phi Q : Mat} (hQ : IsCovMat Q) {ta tb : Int} {r : Inst × Bool}
    (hr : i.propEKF fp ba mb Phi Q ta tb = .ok r) : r.1.Covs := by
  unfold Inst.propEKF at hr
  obtain ⟨r1, h1, hr⟩ := Hdl.bind_eq_ok hr
  exact Covs.tail fp (h.basePropEKF hb hQ h1) hr

theorem Covs.propKF (fp : FP) (h : i.Covs) {Phi Q : Mat} (hQ : IsCovMat Q) {ta tb : Int} {r : Inst × Bool} (hr : i.propKF fp Phi Q ta tb = .ok r) :
    r.1.Covs := by
  unfold Inst.propKF at hr
  obtain ⟨r1, h1, hr⟩ := Hdl.bind_eq_ok hr
  refine Covs.tail fp ?_ hr
  split at h1
  · rename_i ba hba
    split at h1
    · obtain ⟨mb, _, h1⟩ := Hdl.bind_eq_ok h1
      exact h.propEKF fp (h.beliefAt hba) hQ h1
    · rw [← Res.ok.inj h1]; exact h
  · rw [← Res.ok.inj h1]; exact h

theorem Covs.propBel (fp : FP) (h : i.Covs) {bb : Belief} (hb : IsCovMat bb.Sigma) {Phi : Mat} {ta tb : Int} {r : Inst × Bool}
    (hr : i.propBel fp bb Phi ta tb = .ok r) : r.1.Covs := by
  unfold Inst.propBel at hr
  split at hr
  · obtain ⟨j, hj, hr⟩ := Hdl.bind_eq_ok hr
    rw [← Res.ok.inj hr]
    have h1 : (i.setBelief { bb with stamp := tb } tb).Covs := h.setBelief (b := { bb with stamp := tb }) hb tb
    exact (h1.bel_eq (addCorrection_bel' hj)).checkHorizon fp
  · rw [← Res.ok.inj hr]; exact h

theorem step_cov {H R r S : Mat} (hS : IsCovMat S) {cfg : Cfg} (hR : NoiseOk R cfg) {res : CorrRes} (hres : correctionStep H R r S cfg = .ok res)
    (hrej : res.rejected = false) : IsCovMat res.Sapos := by
  by_cases hc : checkDimObs H R r S = true
  · obtain ⟨c1, c2, c3, c4, c5⟩ := (checkDimObs_iff _ _ _ _).mp hc
    obtain ⟨s1, p1⟩ := hS.psd rfl
    obtain ⟨q1, q2, q3⟩ := hR.pd c4
    have hO : ObsShape H R r S S.rows H.rows := ⟨⟨rfl, c1⟩, ⟨c4, c5⟩, ⟨c2, c3⟩, s1⟩
    have := c18_kalman_update H R r S cfg hO p1 q1 q2 q3 res hres
    exact isCov_of this.1 this.2.2.2.2.2.2.2.2.1
  · unfold correctionStep at hres
    rw [if_neg hc] at hres
    rw [← Res.ok.inj hres] at hrej
    simp [CorrRes.dflt] at hrej

theorem Covs.privEKF (h : i.Covs) {b : Belief} (hb : IsCovMat b.Sigma) {key : Int} {H R r : Mat} {cfg : Cfg} (hR : NoiseOk R cfg) {x : Inst × Bool}
    (hx : i.privEKF b key H R r cfg = .ok x) : x.1.Covs := by
  unfold Inst.privEKF at hx
  obtain ⟨res, hres, hx⟩ := Hdl.bind_eq_ok hx
  split at hx
  · rename_i hrej
    obtain ⟨j, hj, hx⟩ := Hdl.bind_eq_ok hx
    obtain ⟨b', hb', hx⟩ := Hdl.bind_eq_ok hx
    rw [← Res.ok.inj hx]
    refine (h.bel_eq (applyCorrection_bel' hj)).setBelief ?_ _
    unfold Belief.correct at hb'
    obtain ⟨m, _, hb'⟩ := Hdl.bind_eq_ok hb'
    rw [← Res.ok.inj hb']
    exact step_cov hb hR hres (by simpa using hrej)
  · rw [← Res.ok.inj hx]; exact h

theorem Covs.privKF (h : i.Covs) {H R z : Mat} {t : Int} {cfg : Cfg} (hR : NoiseOk R cfg) {x : Inst × Bool} (hx : i.privKF H R z t cfg = .ok x) :
    x.1.Covs := by
  unfold Inst.privKF at hx
  split at hx
  · rename_i b hb
    obtain ⟨_, _, hx⟩ := Hdl.bind_eq_ok hx
    obtain ⟨_, _, hx⟩ := Hdl.bind_eq_ok hx
    exact h.privEKF (h.beliefAt hb) hR hx
  · rw [← Res.ok.inj hx]; exact h

end Inst

/-! ## Handler -/
namespace Hdl
variable {h h' : Hdl}

theorem Covs.get (hc : h.Covs) {id : ℕ} {i : Inst} (hg : Hdl.get h id = .ok i) : i.Covs := by
  unfold Hdl.get at hg
  split at hg
  · rename_i j hj
    rw [← Res.ok.inj hg]
    exact hc _ (SMap.mem_of_find hj)
  · simp at hg

theorem Covs.set (hc : h.Covs) {i : Inst} (hi : i.Covs) (id : ℕ) : Hdl.Covs (SMap.set h id i) := by
  intro x hx
  rcases SMap.mem_set_sub hx with hx | hx
  · rw [hx]; exact hi
  · exact hc x hx

theorem Covs.setSigma (hc : h.Covs) {I J : ℕ} {S : Mat} {t : Int} (hs : Hdl.setSigma h I J S t = .ok h') : h'.Covs := by
  unfold Hdl.setSigma at hs
  split at hs
  · obtain ⟨i, hi, hs⟩ := bind_eq_ok hs
    obtain ⟨j, hj, hs⟩ := bind_eq_ok hs
    have h1 := hc.set ((hc.get hi).bel_eq (Inst.setCCF_bel' t J S)) I
    rw [← Res.ok.inj hs]
    exact h1.set ((h1.get hj).bel_eq (Inst.setCCF_bel' _ _ _)) J
  · obtain ⟨j, hj, hs⟩ := bind_eq_ok hs
    obtain ⟨i, hi, hs⟩ := bind_eq_ok hs
    have h1 := hc.set ((hc.get hj).bel_eq (Inst.setCCF_bel' t I S.tr)) J
    rw [← Res.ok.inj hs]
    exact h1.set ((h1.get hi).bel_eq (Inst.setCCF_bel' _ _ _)) I

theorem Covs.applyCorrections {P : Mat} {t : Int} {d : SMap Belief} {row : ℕ} (hc : h.Covs) (hs : Hdl.applyCorrections P t d row h = .ok h') :
    h'.Covs := by
  induction d generalizing row h with
  | nil => rw [← Res.ok.inj hs]; exact hc
  | cons e r ih =>
    rw [Hdl.applyCorrections] at hs
    split at hs
    · obtain ⟨B, _, hs⟩ := bind_eq_ok hs
      obtain ⟨i, hi, hs⟩ := bind_eq_ok hs
      obtain ⟨j, hj, hs⟩ := bind_eq_ok hs
      refine ih (hc.set ((hc.get hi).bel_eq ?_) _) hs
      unfold Inst.applyCorrectionSigma at hj
      obtain ⟨_, _, hj⟩ := bind_eq_ok hj
      obtain ⟨_, _, hj⟩ := bind_eq_ok hj
      exact Inst.applyCorrection_bel' hj
    · exact ih hc hs

theorem Covs.splitRow {P : Mat} {t : Int} {I di row : ℕ} {l : List (ℕ × ℕ)} {col : ℕ} (hc : h.Covs) (hs : Hdl.splitRow P t I di row l col h = .ok h') :
    h'.Covs := by
  induction l generalizing col h with
  | nil => rw [← Res.ok.inj hs]; exact hc
  | cons e r ih =>
    rw [Hdl.splitRow] at hs
    obtain ⟨B, _, hs⟩ := bind_eq_ok hs
    obtain ⟨h1, h1s, hs⟩ := bind_eq_ok hs
    exact ih (hc.setSigma h1s) hs

theorem Covs.splitRows {P : Mat} {t : Int} {l : List (ℕ × ℕ)} {row off : ℕ} (hc : h.Covs) (hs : Hdl.splitRows P t l row off h = .ok h') : h'.Covs := by
  induction l generalizing row off h with
  | nil => rw [← Res.ok.inj hs]; exact hc
  | cons e r ih =>
    rw [Hdl.splitRows] at hs
    obtain ⟨h1, h1s, hs⟩ := bind_eq_ok hs
    exact ih (hc.splitRow h1s) hs

theorem Covs.splitRightUpper {P : Mat} {d : SMap Belief} {t : Int} (hc : h.Covs) (hs : Hdl.splitRightUpper P d t h = .ok h') : h'.Covs := by
  unfold Hdl.splitRightUpper at hs
  simp only at hs
  split at hs
  · simp at hs
  · exact hc.splitRows hs

theorem correct_cov {b b' : Belief} {dx P : Mat} (hP : IsCovMat P) (h : b.correct dx P = .ok b') : IsCovMat b'.Sigma := by
  unfold Belief.correct at h
  obtain ⟨m, _, h⟩ := bind_eq_ok h
  rw [← Res.ok.inj h]; exact hP

theorem blockC_cov {P B : Mat} {k n : ℕ} (hP : IsCovMat P) (h : P.blockC k k n n = .ok B) : IsCovMat B := by
  unfold Mat.blockC at h
  split at h
  · rename_i hk
    rw [← Res.ok.inj h]; exact hP.block hk.1
  · simp at h

theorem Covs.correctBeliefs {P dx : Mat} (hP : IsCovMat P) {t : Int} {d : SMap Belief} {row : ℕ} (hc : h.Covs)
    (hs : Hdl.correctBeliefs P dx t d row h = .ok h') : h'.Covs := by
  induction d generalizing row h with
  | nil => rw [← Res.ok.inj hs]; exact hc
  | cons e r ih =>
    rw [Hdl.correctBeliefs] at hs
    split at hs
    · obtain ⟨B, hB, hs⟩ := bind_eq_ok hs
      obtain ⟨x, _, hs⟩ := bind_eq_ok hs
      obtain ⟨b, hb, hs⟩ := bind_eq_ok hs
      obtain ⟨i, hi, hs⟩ := bind_eq_ok hs
      exact ih (hc.set ((hc.get hi).setBelief (correct_cov (blockC_cov hP hB) hb) t) _) hs
    · exact ih hc hs

theorem Covs.correctBeliefsS {P dx : Mat} (hP : IsCovMat P) {t : Int} {d : SMap Belief} {row : ℕ} (hc : h.Covs)
    (hs : Hdl.correctBeliefsS P dx t d row h = .ok h') : h'.Covs := by
  induction d generalizing row h with
  | nil => rw [← Res.ok.inj hs]; exact hc
  | cons e r ih =>
    rw [Hdl.correctBeliefsS] at hs
    split at hs
    · obtain ⟨B, hB, hs⟩ := bind_eq_ok hs
      obtain ⟨x, _, hs⟩ := bind_eq_ok hs
      obtain ⟨b, hb, hs⟩ := bind_eq_ok hs
      obtain ⟨i, hi, hs⟩ := bind_eq_ok hs
      exact ih (hc.set ((hc.get hi).setBelief (correct_cov (blockC_cov hP hB) hb) t) _) hs
    · exact ih hc hs

theorem Covs.commit {P dx : Mat} (hP : IsCovMat P) {t : Int} {d : SMap Belief} (hc : h.Covs) (hs : Hdl.commit h d P dx t = .ok h') : h'.Covs := by
  unfold Hdl.commit at hs
  obtain ⟨h1, e1, hs⟩ := bind_eq_ok hs
  obtain ⟨h2, e2, hs⟩ := bind_eq_ok hs
  exact ((hc.applyCorrections e1).splitRightUpper e2).correctBeliefs hP hs

theorem Covs.commitD {P dx : Mat} (hP : IsCovMat P) {t : Int} {d : SMap Belief} (hc : h.Covs) (hs : Hdl.commitD h d P dx t = .ok h') : h'.Covs := by
  unfold Hdl.commitD at hs
  obtain ⟨h1, e1, hs⟩ := bind_eq_ok hs
  exact (hc.splitRightUpper e1).correctBeliefs hP hs

theorem Covs.commitS {P dx : Mat} (hP : IsCovMat P) {t : Int} {d : SMap Belief} (hc : h.Covs) (hs : Hdl.commitS h d P dx t = .ok h') : h'.Covs := by
  unfold Hdl.commitS at hs
  obtain ⟨h1, e1, hs⟩ := bind_eq_ok hs
  obtain ⟨h2, e2, hs⟩ := bind_eq_ok hs
  exact ((hc.applyCorrections e1).splitRightUpper e2).correctBeliefsS hP hs

/-! ### The beliefs of a dictionary -/

/-- All beliefs of a dictionary have a covariance matrix. -/
def DCovs (d : SMap Belief) : Prop := ∀ e ∈ d, IsCovMat e.2.Sigma

variable {pred : ℕ → Inst → Int → Inst × Bool}

theorem Covs.beliefPredict (hp : PredCov pred) (hc : h.Covs) {id : ℕ} {t : Int} {x : Hdl × Option Belief} (hx : Hdl.beliefPredict pred h id t = .ok x) :
    x.1.Covs ∧ ∀ b, x.2 = some b → IsCovMat b.Sigma := by
  unfold Hdl.beliefPredict at hx
  obtain ⟨i, hi, hx⟩ := bind_eq_ok hx
  have hi' := hc.get hi
  split at hx
  · rw [← Res.ok.inj hx]; exact ⟨hc, fun b hb => hi'.beliefAt hb⟩
  · rw [← Res.ok.inj hx]
    refine ⟨hc.set (hp id i t hi') id, fun b hb => ?_⟩
    simp only at hb
    split at hb
    · exact (hp id i t hi').beliefAt hb
    · simp at hb

theorem Covs.getDictBel (hp : PredCov pred) {l : List ℕ} {t : Int} {acc : SMap Belief} (hc : h.Covs) (ha : DCovs acc) {x : Hdl × SMap Belief}
    (hx : Hdl.getDictBel pred h l t acc = .ok x) : x.1.Covs ∧ DCovs x.2 := by
  induction l generalizing h acc with
  | nil => rw [← Res.ok.inj hx]; exact ⟨hc, ha⟩
  | cons id r ih =>
    rw [Hdl.getDictBel] at hx
    obtain ⟨y, hy, hx⟩ := bind_eq_ok hx
    obtain ⟨g1, g2⟩ := hc.beliefPredict hp hy
    split at hx
    · rw [← Res.ok.inj hx]; exact ⟨g1, fun e he => by simp at he⟩
    · rename_i b hb
      refine ih g1 (fun e he => ?_) hx
      rcases SMap.mem_emplace_sub he with he | he
      · rw [he]; exact g2 b hb
      · exact ha e he

theorem Covs.getDictAll (hp : PredCov pred) {l : List ℕ} {t : Int} {acc : SMap Belief} (hc : h.Covs) (ha : DCovs acc) {x : Hdl × SMap Belief}
    (hx : Hdl.getDictAll pred h l t acc = .ok x) : x.1.Covs ∧ DCovs x.2 := by
  induction l generalizing h acc with
  | nil => rw [← Res.ok.inj hx]; exact ⟨hc, ha⟩
  | cons id r ih =>
    rw [Hdl.getDictAll] at hx
    obtain ⟨y, hy, hx⟩ := bind_eq_ok hx
    obtain ⟨g1, g2⟩ := hc.beliefPredict hp hy
    split at hx
    · simp at hx
    · rename_i b hb
      refine ih g1 (fun e he => ?_) hx
      rcases SMap.mem_emplace_sub he with he | he
      · rw [he]; exact g2 b hb
      · exact ha e he

/-! ### Symmetric results -/

theorem symmetrize_res {S P : Mat} (h : symmetrize S = .ok P) : P.Shape S.rows S.rows ∧ P.tr = P := by
  unfold symmetrize at h
  obtain ⟨a, ha, h⟩ := bind_eq_ok h
  unfold Mat.addC at ha
  split at ha
  · rename_i hd
    have hS : S.Shape S.rows S.rows := ⟨rfl, hd.1.symm⟩
    rw [← Res.ok.inj ha] at h
    rw [← Res.ok.inj h]
    exact ⟨hS.symM, symM_tr hS⟩
  · simp at ha

theorem stabilize_res {S P : Mat} {eps : ℝ} (h : stabilize S eps = .ok P) : P.Shape S.rows S.rows ∧ P.tr = P ∧ S.cols = S.rows := by
  have h0 := h
  unfold stabilize at h
  simp only at h
  obtain ⟨a, ha, h⟩ := bind_eq_ok h
  unfold Mat.addC at ha
  split at ha
  · rename_i hd
    have hS : S.Shape S.rows S.rows := ⟨rfl, hd.1.symm⟩
    rw [stabilize_ok hS] at h0
    rw [← Res.ok.inj h0]
    refine ⟨hS.stabM _, ?_, hd.1.symm⟩
    apply toM_inj (n := S.rows) (m := S.rows) (hS.stabM _).tr.1 (hS.stabM _).tr.2 (hS.stabM _).1 (hS.stabM _).2
    rw [toM_tr, toM_stabM hS, Matrix.transpose_add, Alg.sym_half_symm, Matrix.transpose_smul, Matrix.transpose_one]
  · simp at ha

/-- A posterior that is not rejected is symmetric. -/
theorem correctionStep_symm {H R r S : Mat} {cfg : Cfg} {res : CorrRes} (h : correctionStep H R r S cfg = .ok res) (hr : res.rejected = false) :
    res.Sapos.Shape res.Sapos.rows res.Sapos.rows ∧ res.Sapos.tr = res.Sapos := by
  unfold correctionStep at h
  split at h
  · obtain ⟨_, _, h⟩ := bind_eq_ok h
    obtain ⟨_, _, h⟩ := bind_eq_ok h
    obtain ⟨_, _, h⟩ := bind_eq_ok h
    obtain ⟨_, _, h⟩ := bind_eq_ok h
    obtain ⟨_, _, h⟩ := bind_eq_ok h
    obtain ⟨_, _, h⟩ := bind_eq_ok h
    obtain ⟨_, _, h⟩ := bind_eq_ok h
    obtain ⟨_, _, h⟩ := bind_eq_ok h
    obtain ⟨_, _, h⟩ := bind_eq_ok h
    obtain ⟨_, _, h⟩ := bind_eq_ok h
    obtain ⟨_, _, h⟩ := bind_eq_ok h
    obtain ⟨_, _, h⟩ := bind_eq_ok h
    obtain ⟨_, _, h⟩ := bind_eq_ok h
    obtain ⟨P, hP, h⟩ := bind_eq_ok h
    rw [← Res.ok.inj h]
    obtain ⟨a, b⟩ := symmetrize_res hP
    exact ⟨⟨rfl, a.2.trans a.1.symm⟩, b⟩
  · rw [← Res.ok.inj h] at hr
    simp [CorrRes.dflt] at hr

theorem schmidtStep_symm {t : Int} {H R r : Mat} {d : SMap Belief} {cfg : Cfg} {res : CorrRes} (h0 : schmidtStep h t H R r d cfg = .ok res)
    (hr : res.rejected = false) : res.Sapos.Shape res.Sapos.rows res.Sapos.rows ∧ res.Sapos.tr = res.Sapos := by
  unfold schmidtStep at h0
  obtain ⟨_, _, h0⟩ := bind_eq_ok h0
  split at h0
  · obtain ⟨_, _, h0⟩ := bind_eq_ok h0
    obtain ⟨_, _, h0⟩ := bind_eq_ok h0
    obtain ⟨_, _, h0⟩ := bind_eq_ok h0
    obtain ⟨_, _, h0⟩ := bind_eq_ok h0
    obtain ⟨_, _, h0⟩ := bind_eq_ok h0
    obtain ⟨_, _, h0⟩ := bind_eq_ok h0
    obtain ⟨_, _, h0⟩ := bind_eq_ok h0
    obtain ⟨_, _, h0⟩ := bind_eq_ok h0
    obtain ⟨_, _, h0⟩ := bind_eq_ok h0
    obtain ⟨_, _, h0⟩ := bind_eq_ok h0
    obtain ⟨_, _, h0⟩ := bind_eq_ok h0
    obtain ⟨_, _, h0⟩ := bind_eq_ok h0
    obtain ⟨_, _, h0⟩ := bind_eq_ok h0
    obtain ⟨_, _, h0⟩ := bind_eq_ok h0
    obtain ⟨_, _, h0⟩ := bind_eq_ok h0
    obtain ⟨_, _, h0⟩ := bind_eq_ok h0
    obtain ⟨_, _, h0⟩ := bind_eq_ok h0
    obtain ⟨P, hP, h0⟩ := bind_eq_ok h0
    rw [← Res.ok.inj h0]
    obtain ⟨a, b⟩ := symmetrize_res hP
    exact ⟨⟨rfl, a.2.trans a.1.symm⟩, b⟩
  · rw [← Res.ok.inj h0] at hr
    simp [CorrRes.dflt] at hr

variable {near : Mat → Mat}

theorem Covs.correctJoint (hn : NearCov near) (hc : h.Covs) {d : SMap Belief} {H R r S : Mat} {t : Int} {cfg : Cfg} {x : Hdl × Bool}
    (hx : Hdl.correctJoint near h d H R r S t cfg = .ok x) : x.1.Covs := by
  unfold Hdl.correctJoint at hx
  obtain ⟨res, hres, hx⟩ := bind_eq_ok hx
  split at hx
  · rename_i hrej
    obtain ⟨h1, e1, hx⟩ := bind_eq_ok hx
    obtain ⟨a, b⟩ := correctionStep_symm hres (by simpa using hrej)
    rw [← Res.ok.inj hx]
    exact hc.commit (fixPsd_cov hn a b).2 e1
  · rw [← Res.ok.inj hx]; exact hc

theorem Covs.correctD (hn : NearCov near) (hc : h.Covs) {d : SMap Belief} {H R r S : Mat} {t : Int} {cfg : Cfg} {x : Hdl × Bool}
    (hx : Hdl.correctD near h d H R r S t cfg = .ok x) : x.1.Covs := by
  unfold Hdl.correctD at hx
  obtain ⟨res, hres, hx⟩ := bind_eq_ok hx
  split at hx
  · rename_i hrej
    obtain ⟨h1, e1, hx⟩ := bind_eq_ok hx
    obtain ⟨a, b⟩ := correctionStep_symm hres (by simpa using hrej)
    rw [← Res.ok.inj hx]
    exact hc.commitD (fixPsd_cov hn a b).2 e1
  · rw [← Res.ok.inj hx]; exact hc

theorem Covs.correctJointS (hn : NearCov near) (hc : h.Covs) {d : SMap Belief} {H R r : Mat} {t : Int} {cfg : Cfg} {x : Hdl × Bool}
    (hx : Hdl.correctJointS near h d H R r t cfg = .ok x) : x.1.Covs := by
  unfold Hdl.correctJointS at hx
  obtain ⟨res, hres, hx⟩ := bind_eq_ok hx
  split at hx
  · rename_i hrej
    obtain ⟨h1, e1, hx⟩ := bind_eq_ok hx
    obtain ⟨a, b⟩ := schmidtStep_symm hres (by simpa using hrej)
    rw [← Res.ok.inj hx]
    exact hc.commitS (fixPsd_cov hn a b).2 e1
  · rw [← Res.ok.inj hx]; exact hc

theorem dcovs_nil : DCovs [] := fun e he => by simp at he

theorem Covs.applyObsR (hn : NearCov near) (hp : PredCov pred) (hc : h.Covs) {dH : SMap Mat} {R r : Mat} {t : Int} {cfg : Cfg} {x : Hdl × Bool}
    (hx : Hdl.applyObsR near pred h dH R r t cfg = .ok x) : x.1.Covs := by
  unfold Hdl.applyObsR at hx
  obtain ⟨_, _, hx⟩ := bind_eq_ok hx
  obtain ⟨y, hy, hx⟩ := bind_eq_ok hx
  have g := hc.getDictBel hp dcovs_nil hy
  split at hx
  · rw [← Res.ok.inj hx]; exact g.1
  · obtain ⟨_, _, hx⟩ := bind_eq_ok hx
    obtain ⟨_, _, hx⟩ := bind_eq_ok hx
    exact g.1.correctJoint hn hx

theorem Covs.applyObsZ (hn : NearCov near) (hp : PredCov pred) (hc : h.Covs) {dH : SMap Mat} {R z : Mat} {t : Int} {cfg : Cfg} {x : Hdl × Bool}
    (hx : Hdl.applyObsZ near pred h dH z R t cfg = .ok x) : x.1.Covs := by
  unfold Hdl.applyObsZ at hx
  obtain ⟨_, _, hx⟩ := bind_eq_ok hx
  obtain ⟨y, hy, hx⟩ := bind_eq_ok hx
  have g := hc.getDictBel hp dcovs_nil hy
  split at hx
  · rw [← Res.ok.inj hx]; exact g.1
  · obtain ⟨_, _, hx⟩ := bind_eq_ok hx
    obtain ⟨_, _, hx⟩ := bind_eq_ok hx
    obtain ⟨_, _, hx⟩ := bind_eq_ok hx
    obtain ⟨_, _, hx⟩ := bind_eq_ok hx
    obtain ⟨_, _, hx⟩ := bind_eq_ok hx
    exact g.1.correctJoint hn hx

theorem Covs.applyObsRD (hn : NearCov near) (hp : PredCov pred) (hc : h.Covs) {dH : SMap Mat} {R r : Mat} {t : Int} {cfg : Cfg} {x : Hdl × Bool}
    (hx : Hdl.applyObsRD near pred h dH R r t cfg = .ok x) : x.1.Covs := by
  unfold Hdl.applyObsRD at hx
  obtain ⟨_, _, hx⟩ := bind_eq_ok hx
  obtain ⟨y, hy, hx⟩ := bind_eq_ok hx
  have g := hc.getDictAll hp dcovs_nil hy
  obtain ⟨_, _, hx⟩ := bind_eq_ok hx
  obtain ⟨_, _, hx⟩ := bind_eq_ok hx
  exact g.1.correctD hn hx

theorem Covs.applyObsZD (hn : NearCov near) (hp : PredCov pred) (hc : h.Covs) {dH : SMap Mat} {R z : Mat} {t : Int} {cfg : Cfg} {x : Hdl × Bool}
    (hx : Hdl.applyObsZD near pred h dH z R t cfg = .ok x) : x.1.Covs := by
  unfold Hdl.applyObsZD at hx
  obtain ⟨_, _, hx⟩ := bind_eq_ok hx
  obtain ⟨y, hy, hx⟩ := bind_eq_ok hx
  have g := hc.getDictAll hp dcovs_nil hy
  obtain ⟨_, _, hx⟩ := bind_eq_ok hx
  obtain ⟨_, _, hx⟩ := bind_eq_ok hx
  obtain ⟨_, _, hx⟩ := bind_eq_ok hx
  obtain ⟨_, _, hx⟩ := bind_eq_ok hx
  obtain ⟨_, _, hx⟩ := bind_eq_ok hx
  exact g.1.correctD hn hx

theorem Covs.applyObsSR (hn : NearCov near) (hp : PredCov pred) (hc : h.Covs) {dH : SMap Mat} {R r : Mat} {t : Int} {cfg : Cfg} {x : Hdl × Bool}
    (hx : Hdl.applyObsSR near pred h dH R r t cfg = .ok x) : x.1.Covs := by
  unfold Hdl.applyObsSR at hx
  obtain ⟨_, _, hx⟩ := bind_eq_ok hx
  obtain ⟨y, hy, hx⟩ := bind_eq_ok hx
  have g := hc.getDictBel hp dcovs_nil hy
  split at hx
  · rw [← Res.ok.inj hx]; exact g.1
  · obtain ⟨_, _, hx⟩ := bind_eq_ok hx
    exact g.1.correctJointS hn hx

theorem Covs.applyObsSZ (hn : NearCov near) (hp : PredCov pred) (hc : h.Covs) {dH : SMap Mat} {R z : Mat} {t : Int} {cfg : Cfg} {x : Hdl × Bool}
    (hx : Hdl.applyObsSZ near pred h dH z R t cfg = .ok x) : x.1.Covs := by
  unfold Hdl.applyObsSZ at hx
  obtain ⟨_, _, hx⟩ := bind_eq_ok hx
  obtain ⟨y, hy, hx⟩ := bind_eq_ok hx
  have g := hc.getDictBel hp dcovs_nil hy
  split at hx
  · rw [← Res.ok.inj hx]; exact g.1
  · obtain ⟨_, _, hx⟩ := bind_eq_ok hx
    obtain ⟨_, _, hx⟩ := bind_eq_ok hx
    obtain ⟨_, _, hx⟩ := bind_eq_ok hx
    obtain ⟨_, _, hx⟩ := bind_eq_ok hx
    obtain ⟨_, _, hx⟩ := bind_eq_ok hx
    exact g.1.correctJointS hn hx

theorem Covs.applyObsSH (hn : NearCov near) (hp : PredCov pred) {hf : SMap Belief → List ℕ → Mat → SMap Mat × Mat} (hc : h.Covs) {R z : Mat} {t : Int}
    {ids : List ℕ} {cfg : Cfg} {x : Hdl × Status} (hx : Hdl.applyObsSH near pred hf h R z t ids cfg = .ok x) : x.1.Covs := by
  unfold Hdl.applyObsSH at hx
  obtain ⟨y, hy, hx⟩ := bind_eq_ok hx
  have g := hc.getDictBel hp dcovs_nil hy
  split at hx
  · rw [← Res.ok.inj hx]; exact g.1
  · obtain ⟨_, _, hx⟩ := bind_eq_ok hx
    obtain ⟨_, _, hx⟩ := bind_eq_ok hx
    obtain ⟨_, _, hx⟩ := bind_eq_ok hx
    obtain ⟨_, _, hx⟩ := bind_eq_ok hx
    obtain ⟨w, hw, hx⟩ := bind_eq_ok hx
    rw [← Res.ok.inj hx]
    exact g.1.correctJointS hn hw

/-! ### The iterated update -/

theorem mulC_eq {A B C : Mat} (h : A.mulC B = .ok C) : C = A * B ∧ A.cols = B.rows := by
  unfold Mat.mulC at h
  split at h
  · rename_i hd; exact ⟨(Res.ok.inj h).symm, hd⟩
  · simp at h

theorem subC_eq {A B C : Mat} (h : A.subC B = .ok C) : C = A - B ∧ A.rows = B.rows ∧ A.cols = B.cols := by
  unfold Mat.subC at h
  split at h
  · rename_i hd; exact ⟨(Res.ok.inj h).symm, hd⟩
  · simp at h

theorem addC_eq {A B C : Mat} (h : A.addC B = .ok C) : C = A + B ∧ A.rows = B.rows ∧ A.cols = B.cols := by
  unfold Mat.addC at h
  split at h
  · rename_i hd; exact ⟨(Res.ok.inj h).symm, hd⟩
  · simp at h

theorem inv_tr {A : Mat} (hs : A.tr = A) : A.inv.tr = A.inv := by
  have hsq : A.cols = A.rows := congrArg Mat.rows hs
  have hA : A.Shape A.rows A.rows := ⟨rfl, hsq⟩
  apply toM_inj (A := A.inv.tr) (B := A.inv) (n := A.rows) (m := A.rows) rfl rfl rfl rfl
  rw [toM_tr, toM_inv A A.rows rfl, Matrix.transpose_nonsing_inv]
  congr 1
  rw [← toM_tr, hs]

/-- What the loop keeps: the projected prior is symmetric, and so is the part the gain takes from it. -/
structure ItSym (s : It) : Prop where
  P : s.P.tr = s.P
  G : s.K.rows = s.P.rows → (s.K * s.H * s.P).tr = s.K * s.H * s.P

theorem iterCorrect_symm {cfg : Cfg} {S R H e J r : Mat} {x : SMap Belief} (hS : S.tr = S) {s : It} {dx : Mat}
    (h : iterCorrect cfg S R H e J r x = .ok (.next s dx)) : ItSym s := by
  unfold iterCorrect at h
  obtain ⟨js, h1, h⟩ := bind_eq_ok h
  obtain ⟨P, h2, h⟩ := bind_eq_ok h
  obtain ⟨a, h3, h⟩ := bind_eq_ok h
  obtain ⟨b, h4, h⟩ := bind_eq_ok h
  obtain ⟨S0, h5, h⟩ := bind_eq_ok h
  obtain ⟨Si, h6, h⟩ := bind_eq_ok h
  obtain ⟨good, _, h⟩ := bind_eq_ok h
  split at h
  · obtain ⟨p, h7, h⟩ := bind_eq_ok h
    obtain ⟨inv, h8, h⟩ := bind_eq_ok h
    obtain ⟨K, h9, h⟩ := bind_eq_ok h
    obtain ⟨_, _, h⟩ := bind_eq_ok h
    obtain ⟨_, _, h⟩ := bind_eq_ok h
    obtain ⟨_, _, h⟩ := bind_eq_ok h
    obtain ⟨_, _, h⟩ := bind_eq_ok h
    have h := Res.ok.inj h
    injection h with hs _
    subst hs
    have e1 := (mulC_eq h1).1
    have e2 := (mulC_eq h2).1
    have hP : P.tr = P := by
      rw [e2, e1, tr_mul, tr_mul, tr_tr, hS, Mat.mul_assoc]
    have e7 := (mulC_eq h7).1
    have e9 := (mulC_eq h9).1
    have e8 : inv = Si.inv := by
      unfold Mat.invC at h8
      split at h8
      · exact (Res.ok.inj h8).symm
      · simp at h8
    have hi : inv.tr = inv := by rw [e8]; exact inv_tr (stabilize_res h6).2.1
    refine ⟨hP, fun _ => ?_⟩
    show (K * H * P).tr = K * H * P
    rw [e9, e7]
    simp only [tr_mul, tr_tr, hP, hi, Mat.mul_assoc]
  · have h := Res.ok.inj h
    cases h

theorem iterLoop_symm (pj : Belief → Mat → Mat) (hf : SMap Belief → List ℕ → Mat → SMap Mat × Mat) (ids : List ℕ) (z R : Mat) (d : SMap Belief) (S : Mat)
    (cfg : Cfg) (hS : S.tr = S) {n iter : ℕ} {s : It} (hs : ItSym s) {k : ℕ} {s' : It} (h : iterLoop pj hf ids z R d S cfg n iter s = .ok (.fin k s')) :
    ItSym s' := by
  induction n generalizing iter s with
  | zero =>
    have h := Res.ok.inj h
    injection h with _ h
    rw [← h]; exact hs
  | succ n ih =>
    rw [iterLoop] at h
    obtain ⟨o, ho, h⟩ := bind_eq_ok h
    cases o with
    | ret st r => have h := Res.ok.inj h; cases h
    | next s1 dx =>
      have h1 : ItSym s1 := by
        unfold iterBody at ho
        simp only at ho
        obtain ⟨H, _, ho⟩ := bind_eq_ok ho
        split at ho
        · obtain ⟨q, _, ho⟩ := bind_eq_ok ho
          exact iterCorrect_symm hS ho
        · have ho := Res.ok.inj ho; cases ho
      simp only at h
      split at h
      · have h := Res.ok.inj h
        injection h with _ h
        rw [← h]; exact h1
      · exact ih h1 h

theorem iterLoopD_symm (h0 : Hdl) (pj : Belief → Mat → Mat) (hf : SMap Belief → List ℕ → Mat → SMap Mat × Mat) (ids : List ℕ) (z R : Mat) (d : SMap Belief)
    (S : Mat) (cfg : Cfg) (hS : S.tr = S) {n iter : ℕ} {s : It} (hs : ItSym s) {k : ℕ} {s' : It}
    (h : iterLoopD h0 pj hf ids z R d S cfg n iter s = .ok (.fin k s')) : ItSym s' := by
  induction n generalizing iter s with
  | zero =>
    have h := Res.ok.inj h
    injection h with _ h
    rw [← h]; exact hs
  | succ n ih =>
    rw [iterLoopD] at h
    obtain ⟨o, ho, h⟩ := bind_eq_ok h
    cases o with
    | ret st r => have h := Res.ok.inj h; cases h
    | next s1 dx =>
      have h1 : ItSym s1 := by
        unfold iterBodyD at ho
        simp only at ho
        obtain ⟨H, _, ho⟩ := bind_eq_ok ho
        split at ho
        · obtain ⟨q, _, ho⟩ := bind_eq_ok ho
          exact iterCorrect_symm hS ho
        · have ho := Res.ok.inj ho; cases ho
      simp only at h
      split at h
      · have h := Res.ok.inj h
        injection h with _ h
        rw [← h]; exact h1
      · exact ih h1 h

theorem project_symm {pj : Belief → Mat → Mat} {d x : SMap Belief} {k : ℕ} {P P' : Mat} (hP : P.tr = P) (h : project pj d x k P = .ok P') : P'.tr = P' := by
  unfold project at h
  split at h
  · obtain ⟨_, _, h⟩ := bind_eq_ok h
    obtain ⟨L, _, h⟩ := bind_eq_ok h
    obtain ⟨a, h1, h⟩ := bind_eq_ok h
    rw [(mulC_eq h).1, (mulC_eq h1).1]
    simp only [tr_mul, tr_tr, hP, Mat.mul_assoc]
  · rw [← Res.ok.inj h]; exact hP

theorem tr_sub {A B : Mat} : (A - B).tr = A.tr - B.tr := by
  refine Mat.ext' rfl rfl fun i j hi hj => ?_
  show (Mat.of A.rows A.cols (fun i j => A.e i j - B.e i j)).e j i = (Mat.of A.cols A.rows (fun i j => A.e j i - B.e j i)).e i j
  rw [of_e, of_e, if_pos ⟨hj, hi⟩, if_pos ⟨hi, hj⟩]

theorem tr_add {A B : Mat} : (A + B).tr = A.tr + B.tr := by
  refine Mat.ext' rfl rfl fun i j hi hj => ?_
  show (Mat.of A.rows A.cols (fun i j => A.e i j + B.e i j)).e j i = (Mat.of A.cols A.rows (fun i j => A.e j i + B.e j i)).e i j
  rw [of_e, of_e, if_pos ⟨hj, hi⟩, if_pos ⟨hi, hj⟩]

theorem iterPost_cov (hn : NearCov near) {pj : Belief → Mat → Mat} {R : Mat} (hR : R.tr = R) {d : SMap Belief} {cfg : Cfg} {k : ℕ} {s : It} (hs : ItSym s)
    {P : Mat} (h : iterPost near pj R d cfg k s = .ok P) : IsCovMat P := by
  unfold iterPost at h
  obtain ⟨KH, h1, h⟩ := bind_eq_ok h
  obtain ⟨U, h2, h⟩ := bind_eq_ok h
  obtain ⟨P0, h3, h⟩ := bind_eq_ok h
  obtain ⟨P1, h4, h⟩ := bind_eq_ok h
  obtain ⟨P2, h5, h⟩ := bind_eq_ok h
  have hP0 : P0.tr = P0 := by
    split at h3
    · obtain ⟨x, h6, h3⟩ := bind_eq_ok h3
      obtain ⟨y, h7, h3⟩ := bind_eq_ok h3
      obtain ⟨v, h8, h3⟩ := bind_eq_ok h3
      obtain ⟨w, h9, h3⟩ := bind_eq_ok h3
      rw [(addC_eq h3).1, tr_add]
      congr 1
      · rw [(mulC_eq h7).1, (mulC_eq h6).1]
        simp only [tr_mul, tr_tr, hs.P, Mat.mul_assoc]
      · rw [(mulC_eq h9).1, (mulC_eq h8).1]
        simp only [tr_mul, tr_tr, hR, Mat.mul_assoc]
    · obtain ⟨u1, u2, u3⟩ := subC_eq h2
      obtain ⟨v1, v2⟩ := mulC_eq h3
      have hPr : s.P.rows = getDim d := by rw [← v2, u1]; rfl
      rw [v1, u1, Mat.sub_mul _ _ _ u2.symm u3.symm, Mat.one_mul _ _ hPr, tr_sub, hs.P, (mulC_eq h1).1, hs.G (by rw [hPr]; rw [(mulC_eq h1).1] at u2; exact u2.symm)]
  have hP1 := project_symm hP0 h4
  have hP2 : P2.tr = P2 := by
    split at h5
    · exact (stabilize_res h5).2.1
    · rw [← Res.ok.inj h5]; exact hP1
  have hsq : P2.cols = P2.rows := congrArg Mat.rows hP2
  rw [← Res.ok.inj h]
  exact (fixPsd_cov hn (n := P2.rows) ⟨rfl, hsq⟩ hP2).2

theorem Covs.setMeans {t : Int} {x d : SMap Belief} (hc : h.Covs) (hd : DCovs d) {y : Hdl × SMap Belief} (hy : Hdl.setMeans t x h d = .ok y) :
    y.1.Covs ∧ DCovs y.2 := by
  induction x generalizing h d with
  | nil => rw [← Res.ok.inj hy]; exact ⟨hc, hd⟩
  | cons e r ih =>
    rw [Hdl.setMeans] at hy
    split at hy
    · simp at hy
    · rename_i b hb
      obtain ⟨i, hi, hy⟩ := bind_eq_ok hy
      have hb' : IsCovMat (b.setMean e.2.mean).Sigma := hd _ (SMap.mem_of_find hb)
      refine ih (hc.set ((hc.get hi).setBelief hb' t) _) (fun f hf => ?_) hy
      rcases SMap.mem_set_sub hf with hf | hf
      · rw [hf]; exact hb'
      · exact hd f hf

theorem itSym_start (x : SMap Belief) {J S r : Mat} (hS : S.tr = S) : ItSym ⟨x, Mat.empty, Mat.empty, J, S, r⟩ := by
  refine ⟨hS, fun h0 => ?_⟩
  have hsq : S.cols = S.rows := congrArg Mat.rows hS
  have h0 : S.rows = 0 := h0.symm
  show (Mat.empty * Mat.empty * S).tr = Mat.empty * Mat.empty * S
  refine Mat.ext' (by simp [hsq, h0]) (by simp [hsq, h0]) fun i j hi hj => ?_
  simp [hsq, h0] at hi

theorem isCov_empty : IsCovMat Mat.empty := ⟨rfl, fun i j => by rw [Mat.empty.out i j (by simp), Mat.empty.out j i (by simp)], fun x => by simp⟩

theorem Covs.processDict (hn : NearCov near) {pj : Belief → Mat → Mat} {hf : SMap Belief → List ℕ → Mat → SMap Mat × Mat} {d : SMap Belief} {R z : Mat}
    {t : Int} {ids : List ℕ} {cfg : Cfg} (hR : R.tr = R) (hc : h.Covs) (hd : DCovs d) {o : Hdl × Status × Mat × Mat × SMap Belief}
    (ho : Hdl.processDict near pj hf h d R z t ids cfg = .ok o) : o.1.Covs ∧ IsCovMat o.2.2.2.1 := by
  unfold Hdl.processDict at ho
  obtain ⟨_, _, ho⟩ := bind_eq_ok ho
  obtain ⟨S0, _, ho⟩ := bind_eq_ok ho
  obtain ⟨S, hS, ho⟩ := bind_eq_ok ho
  obtain ⟨l, hl, ho⟩ := bind_eq_ok ho
  have hSs := (stabilize_res hS).2.1
  cases l with
  | ret st r => rw [← Res.ok.inj ho]; exact ⟨hc, isCov_empty⟩
  | fin k s =>
    obtain ⟨P, hP, ho⟩ := bind_eq_ok ho
    obtain ⟨y, hy, ho⟩ := bind_eq_ok ho
    have g := hc.setMeans hd hy
    rw [← Res.ok.inj ho]
    exact ⟨g.1, iterPost_cov hn hR (iterLoop_symm pj hf ids z R d S cfg hSs (itSym_start _ hSs) hl) hP⟩

theorem Covs.processDictD (hn : NearCov near) {pj : Belief → Mat → Mat} {hf : SMap Belief → List ℕ → Mat → SMap Mat × Mat} {d : SMap Belief} {R z : Mat}
    {t : Int} {ids : List ℕ} {cfg : Cfg} (hR : R.tr = R) (hc : h.Covs) (hd : DCovs d) {o : Hdl × Status × Mat × Mat × SMap Belief}
    (ho : Hdl.processDictD near pj hf h d R z t ids cfg = .ok o) : o.1.Covs ∧ IsCovMat o.2.2.2.1 := by
  unfold Hdl.processDictD at ho
  obtain ⟨_, _, ho⟩ := bind_eq_ok ho
  obtain ⟨S0, _, ho⟩ := bind_eq_ok ho
  obtain ⟨S, hS, ho⟩ := bind_eq_ok ho
  obtain ⟨l, hl, ho⟩ := bind_eq_ok ho
  have hSs := (stabilize_res hS).2.1
  cases l with
  | ret st r => rw [← Res.ok.inj ho]; exact ⟨hc, isCov_empty⟩
  | fin k s =>
    obtain ⟨P, hP, ho⟩ := bind_eq_ok ho
    obtain ⟨y, hy, ho⟩ := bind_eq_ok ho
    have g := hc.setMeans hd hy
    rw [← Res.ok.inj ho]
    exact ⟨g.1, iterPost_cov hn hR (iterLoopD_symm h pj hf ids z R d S cfg hSs (itSym_start _ hSs) hl) hP⟩

theorem tr_of_symm {R : Mat} (hsq : R.rows = R.cols) (hR : ∀ i j, R.e i j = R.e j i) : R.tr = R :=
  Mat.ext' hsq.symm hsq fun i j _ _ => hR j i

theorem Covs.applyObsI (hn : NearCov near) (hp : PredCov pred) {pj : Belief → Mat → Mat} {hf : SMap Belief → List ℕ → Mat → SMap Mat × Mat} {R z : Mat}
    {t : Int} {ids : List ℕ} {cfg : Cfg} (hR : R.tr = R) (hc : h.Covs) {x : Hdl × Status × Mat}
    (hx : Hdl.applyObsI near pj pred hf h R z t ids cfg = .ok x) : x.1.Covs := by
  unfold Hdl.applyObsI at hx
  obtain ⟨y, hy, hx⟩ := bind_eq_ok hx
  have g := hc.getDictBel hp dcovs_nil hy
  split at hx
  · rw [← Res.ok.inj hx]; exact g.1
  · obtain ⟨o, ho, hx⟩ := bind_eq_ok hx
    obtain ⟨q1, q2⟩ := g.1.processDict hn hR g.2 ho
    unfold Hdl.finishObs at hx
    split at hx
    · obtain ⟨h1, e1, hx⟩ := bind_eq_ok hx
      rw [← Res.ok.inj hx]
      exact q1.commit q2 e1
    · rw [← Res.ok.inj hx]; exact q1

theorem Covs.applyObsID (hn : NearCov near) (hp : PredCov pred) {pj : Belief → Mat → Mat} {hf : SMap Belief → List ℕ → Mat → SMap Mat × Mat} {R z : Mat}
    {t : Int} {ids : List ℕ} {cfg : Cfg} (hR : R.tr = R) (hc : h.Covs) {x : Hdl × Status × Mat}
    (hx : Hdl.applyObsID near pj pred hf h R z t ids cfg = .ok x) : x.1.Covs := by
  unfold Hdl.applyObsID at hx
  obtain ⟨y, hy, hx⟩ := bind_eq_ok hx
  have g := hc.getDictBel hp dcovs_nil hy
  split at hx
  · rw [← Res.ok.inj hx]; exact g.1
  · obtain ⟨o, ho, hx⟩ := bind_eq_ok hx
    obtain ⟨q1, q2⟩ := g.1.processDictD hn hR g.2 ho
    unfold Hdl.finishObsD at hx
    split at hx
    · obtain ⟨h1, e1, hx⟩ := bind_eq_ok hx
      rw [← Res.ok.inj hx]
      exact q1.commitD q2 e1
    · rw [← Res.ok.inj hx]; exact q1

end Hdl
end Ikf
