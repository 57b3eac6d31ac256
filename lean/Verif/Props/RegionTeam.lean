import Verif.Props.Region
import Verif.Props.TeamPairs

/-! # Property C141: which measured values pass the outlier test of an isolated filter of a team -/

namespace Ikf
namespace Honest
open Mat Hdl

section
variable {m : ℕ} {fp : FP} {near : Mat → Mat} {pred : ℕ → Inst → Int → Inst × Bool} {dim : ℕ → ℕ} {h : Hdl}

theorem answered {α : Type} {r : Res (α × Bool)} {X : Prop} (hr : ∃ h' a, r = .ok (h', a) ∧ (a = true ↔ X)) :
    ((∃ h', r = .ok (h', true)) ↔ X) ∧ ((¬ ∃ h', r = .ok (h', true)) → ∃ h', r = .ok (h', false)) := by
  obtain ⟨h', a, h1, h2⟩ := hr
  have h3 : (∃ h'', r = .ok (h'', true)) ↔ a = true := by
    constructor
    · rintro ⟨h'', h3⟩
      rw [h1, Res.ok.injEq, Prod.mk.injEq] at h3
      exact h3.2
    · rintro rfl
      exact ⟨h', h1⟩
  refine ⟨h3.trans h2, fun h4 => ⟨h', ?_⟩⟩
  rw [h1, (Bool.not_eq_true a).mp fun h5 => h4 (h3.mpr h5)]

/-- C141 for isolated filters: a measurement of instance `p` of a team alone, at the time of its newest belief, with mean `μ` and covariance `S`. -/
theorem c141_isolated (hnear : NearOk near) (hreach : Reach fp near pred dim h) {p : ℕ} {t : Int} (hN : Newest h p t) {μ S : Mat} (hμ : IsMean h p t μ)
    (hS : IsCov dim h p p t S) (hP : (S.toM (dim p) (dim p)).PosSemidef) {H R : Mat} {cfg : Cfg} {row : List ℤ} (hg : Gated (dim p) m H R cfg row) (z : Vec m) :
    ((∃ h', Hdl.run fp near pred h (.privKF p H R (Mat.ofM z) t cfg) = .ok (h', true)) ↔
      Within (thresholdInUse row m) (expected H R cfg (S.toM (dim p) (dim p))) (z - H.toM m (dim p) * μ.toM (dim p) 1)) ∧
    ((¬ ∃ h', Hdl.run fp near pred h (.privKF p H R (Mat.ofM z) t cfg) = .ok (h', true)) →
      ∃ h', Hdl.run fp near pred h (.privKF p H R (Mat.ofM z) t cfg) = .ok (h', false)) := by
  obtain ⟨c, hr⟩ := hreach.rel hnear
  obtain rfl := IsCov.unique (hr.isCov hN hN) hS
  obtain rfl := IsMean.unique (hr.isMean hN) hμ
  have h1 := inst_gate (fp := fp) (near := near) (pred := pred) hr hN (z := Mat.ofM z) hg.sizeH hg.sizeR ⟨rfl, rfl⟩ hP hg.psd hg.on hg.pos hg.listed
  rw [Mat.toM_ofM, within_iff (expected_pd hg hP) _ (threshold_nonneg hg.listed m)] at h1
  exact answered h1

/-- ... and a joint measurement of several instances at the time of their newest beliefs: `M` and `S` are their means and covariances, read by the user and stacked, `H` the
measurement matrices side by side. The prediction of the deviation is made with `S + 10⁻¹² I` in place of `S`. -/
theorem c141_isolated_joint (hnear : NearOk near) (hreach : Reach fp near pred dim h) {dH : SMap Mat} {t : Int} (hd : dH.Sorted) (hne : dH ≠ [])
    (hN : ∀ p ∈ dH.keys, Newest h p t) (he : ∀ e ∈ dH, e.2.Shape m (dim e.1) ∧ fixedAt h t e.1 = false) {C : ℕ → ℕ → Mat} {μ : ℕ → Mat}
    (hC : ∀ p ∈ dH.keys, ∀ q ∈ dH.keys, IsCov dim h p q t (C p q)) (hμ : ∀ p ∈ dH.keys, IsMean h p t (μ p)) (hP : TeamCov dim dH.keys.toFinset C)
    {H S M : Mat} (hH : SideBySide dH H) (hS : StackedCov (hcols dH) C S) (hM : StackedMean (hcols dH) μ M)
    {R : Mat} {cfg : Cfg} {row : List ℤ} (hg : Gated (tot (hcols dH)) m H R cfg row) (z : Vec m) :
    ((∃ h', Hdl.run fp near pred h (.jointZ dH (Mat.ofM z) R t cfg) = .ok (h', true)) ↔
      Within (thresholdInUse row m) (expected H R cfg (S.toM (tot (hcols dH)) (tot (hcols dH)) + (1 / 10 ^ 12 : ℝ) • 1))
        (z - H.toM m (tot (hcols dH)) * M.toM (tot (hcols dH)) 1)) ∧
    ((¬ ∃ h', Hdl.run fp near pred h (.jointZ dH (Mat.ofM z) R t cfg) = .ok (h', true)) →
      ∃ h', Hdl.run fp near pred h (.jointZ dH (Mat.ofM z) R t cfg) = .ok (h', false)) := by
  obtain ⟨c, hr⟩ := hreach.rel hnear
  obtain ⟨H', S', M', hH', hHs, hS', hM', h1⟩ := joint_gate (fp := fp) (pred := pred) hnear hr hd hN hne he hg.sizeR (z := Mat.ofM z) ⟨rfl, rfl⟩ hg.on hg.pos hg.listed
  obtain rfl := sideBySide_unique hd hne hH' hH
  set bs := hcols dH with hbs
  have hbs' : bs = dH.map fun e => (e.1, dim e.1) := List.map_congr_left fun e hem => by rw [(he e hem).1.2]
  have hkeys : bs.map (·.1) = dH.keys := by
    rw [hbs', List.map_map]
    rfl
  have hb : ∀ b ∈ bs, b.2 = dim b.1 := by
    intro b hb
    rw [hbs'] at hb
    obtain ⟨e, -, rfl⟩ := List.mem_map.mp hb
    rfl
  have hnd : (bs.map (·.1)).Nodup := by
    rw [hkeys]
    exact Hdl.Sorted.nodup hd
  have key : ∀ b ∈ bs, b.1 ∈ dH.keys := fun b hbm => by rw [← hkeys]; exact List.mem_map.mpr ⟨b, hbm, rfl⟩
  have eC : ∀ p ∈ dH.keys, ∀ q ∈ dH.keys, C p q = c.cov p q := fun p hp q hq => IsCov.unique (hC p hp q hq) (hr.isCov (hN p hp) (hN q hq))
  have hS2 : StackedCov bs C S' := ⟨hS'.1, fun p hp q hq i hi j hj => by rw [hS'.2 p hp q hq i hi j hj, eC _ (key p hp) _ (key q hq)]⟩
  obtain rfl := stacked_unique hnd hS2 hS
  have hM2 : StackedMean bs μ M' := ⟨hM'.1, fun p hp i hi => by
    rw [hM'.2 p hp i hi, IsMean.unique (hμ _ (key p hp)) (hr.isMean (hN _ (key p hp)))]⟩
  obtain rfl := stackedMean_unique hnd hM2 hM
  have hcov : IsCovMat S' := hS.cov hb hnd (fun a ha b hb' => by
    rw [hkeys] at ha hb'
    rw [eC b hb' a ha, eC a ha b hb', hr.symm a b ((hN a ha).rel hr).1 ((hN b hb').rel hr).1]) (by rw [hkeys]; exact hP)
  obtain ⟨-, hSp⟩ := hcov.psd hS.1.1
  have hT : (stabM S' (1 / 10 ^ 12)).toM (tot bs) (tot bs) = S'.toM (tot bs) (tot bs) + (1 / 10 ^ 12 : ℝ) • 1 := toM_stabM_symm hS.1 _ (Alg.psd_symm hSp)
  have hTp : ((stabM S' (1 / 10 ^ 12)).toM (tot bs) (tot bs)).PosSemidef := by
    rw [hT]
    exact hSp.add (Alg.smul_one_psd (by norm_num))
  have sz : (Mat.ofM z).Shape m 1 := ⟨rfl, rfl⟩
  have hO : ObsShape H' R (Mat.ofM z - H' * M') (stabM S' (1 / 10 ^ 12)) (tot bs) m := ⟨hHs, hg.sizeR, sz.sub, hS.1.stabM _⟩
  have hv : nisValue (innov H' R (stabM S' (1 / 10 ^ 12)) cfg.eps) (Mat.ofM z - H' * M') m =
      surprise (expected H' R cfg (S'.toM (tot bs) (tot bs) + (1 / 10 ^ 12 : ℝ) • 1)) (z - H'.toM m (tot bs) * M'.toM (tot bs) 1) := by
    unfold nisValue surprise expected
    rw [toM_innov hO hTp hg.psd, sz.toM_sub (hHs.mul hM'.1), hHs.toM_mul, hT, Mat.toM_ofM, add_assoc]
  rw [hv, within_iff (expected_pd hg (by rw [← hT]; exact hTp)) _ (threshold_nonneg hg.listed m)] at h1
  exact answered h1

end

/-! ## Example -/

open Hdl.Example (s near nearOk pred dim)
open Hdl.TeamEx (h3 c3 init3 reach3 newest3)

theorem s_toM (x : ℝ) : (s x).toM 1 1 = x • 1 := by
  ext i j
  obtain rfl : i = 0 := Subsingleton.elim _ _
  obtain rfl : j = 0 := Subsingleton.elim _ _
  rw [toM_apply]
  simp [s, Mat.of]

/-- The premises are met by the team of C106: a measured value of 4 of its instance 2 passes, 5 does not. -/
theorem isolated_example : (∃ h', Hdl.run FP.exact near pred h3 (.privKF 2 (s 1) (s 1) (Mat.ofM (Matrix.of fun _ _ => 4 : Vec 1)) 0 {}) = .ok (h', true)) ∧
    ∃ h', Hdl.run FP.exact near pred h3 (.privKF 2 (s 1) (s 1) (Mat.ofM (Matrix.of fun _ _ => 5 : Vec 1)) 0 {}) = .ok (h', false) := by
  have hg : Gated (dim 2) 1 (s 1) (s 1) {} _ :=
    ⟨⟨rfl, rfl⟩, ⟨rfl, rfl⟩, by rw [s_toM, one_smul]; exact Matrix.PosSemidef.one, by norm_num, by
      rw [s_toM, one_smul]
      exact Matrix.PosDef.one.add_posSemidef (Alg.smul_one_psd (by norm_num)), rfl, by norm_num, by norm_num [round_eq]; rfl⟩
  have nn := newest3 (p := 2) (by simp)
  have e1 : c3.cov 2 2 = s 1 := by simp [c3]
  have acc := fun z => c141_isolated (m := 1) (fp := FP.exact) (pred := pred) nearOk reach3 nn (init3.rel.isMean nn) (init3.rel.isCov nn nn)
    (by rw [e1]; show ((s 1).toM 1 1).PosSemidef; rw [s_toM, one_smul]; exact Matrix.PosSemidef.one) hg z
  rw [e1] at acc
  have e2 : ∀ z : Vec 1, z - (s 1).toM 1 (dim 2) * (c3.mu 2).toM (dim 2) 1 = z := by
    intro z
    show z - (s 1).toM 1 1 * (s 0).toM 1 1 = z
    rw [s_toM 0, zero_smul, Matrix.mul_zero, sub_zero]
  have e3 : (expected (s 1) (s 1) {} ((s 1).toM (dim 2) (dim 2)) : Matrix (Fin 1) (Fin 1) ℝ) = (2 + (({} : Cfg).eps)) • 1 := by
    show (s 1).toM 1 1 * (s 1).toM 1 1 * ((s 1).toM 1 1).transpose + (s 1).toM 1 1 + _ = _
    rw [s_toM, one_smul, Matrix.mul_one, Matrix.one_mul, Matrix.transpose_one, add_smul, two_smul]
  refine ⟨(acc _).1.mpr ?_, (acc _).2 fun h1 => ?_⟩
  · rw [e2, e3]
    intro y
    simp [thresholdInUse, tableQuantile, Matrix.mul_apply]
    nlinarith [sq_nonneg (y 0 0)]
  · have h2 := (acc _).1.mp h1
    rw [e2, e3] at h2
    have := h2 1
    simp [thresholdInUse, tableQuantile, Matrix.mul_apply] at this
    norm_num at this

/-- ... and of a joint measurement of the difference of the states of 1 and 2 a value of 5 passes, 6 does not. -/
example : (∃ h', Hdl.run FP.exact near pred h3 (.jointZ [(1, s 1), (2, s (-1))] (Mat.ofM (Matrix.of fun _ _ => 5 : Vec 1)) (s 1) 0 {}) = .ok (h', true)) ∧
    ∃ h', Hdl.run FP.exact near pred h3 (.jointZ [(1, s 1), (2, s (-1))] (Mat.ofM (Matrix.of fun _ _ => 6 : Vec 1)) (s 1) 0 {}) = .ok (h', false) := by
  set H : Mat := Mat.of 1 2 fun _ j => if j = 0 then 1 else -1 with hH
  set S : Mat := Mat.of 2 2 fun i j => if i = j then 1 else 0 with hS
  set M : Mat := Mat.of 2 1 fun _ _ => 0 with hM
  have hg : Gated 2 1 H (s 1) {} _ :=
    ⟨⟨rfl, rfl⟩, ⟨rfl, rfl⟩, by rw [s_toM, one_smul]; exact Matrix.PosSemidef.one, by norm_num, by
      rw [s_toM, one_smul]
      exact Matrix.PosDef.one.add_posSemidef (Alg.smul_one_psd (by norm_num)), rfl, by norm_num, by norm_num [round_eq]; rfl⟩
  have keys : ∀ p, p ∈ SMap.keys [(1, s 1), (2, s (-1))] → p = 1 ∨ p = 2 := by
    intro p hp
    simpa [SMap.keys] using hp
  have nn : ∀ p ∈ SMap.keys [(1, s 1), (2, s (-1))], Newest h3 p 0 := fun p hp => newest3 (by rcases keys p hp with h | h <;> simp [h])
  have acc := fun z => c141_isolated_joint (m := 1) (fp := FP.exact) (pred := pred) nearOk reach3 (dH := [(1, s 1), (2, s (-1))]) (t := 0) (by simp [SMap.Sorted]) (by simp) nn
    (by
      intro e he
      simp only [List.mem_cons, List.not_mem_nil, or_false] at he
      rcases he with rfl | rfl
      · exact ⟨⟨rfl, rfl⟩, rfl⟩
      · exact ⟨⟨rfl, rfl⟩, rfl⟩)
    (fun p hp q hq => init3.rel.isCov (nn p hp) (nn q hq)) (fun p hp => init3.rel.isMean (nn p hp))
    (by
      intro x
      have : (SMap.keys [(1, s 1), (2, s (-1))]).toFinset = {1, 2} := rfl
      rw [this]
      have h1 : ∀ p, bil (c3.cov p p) (dim p) (dim p) (x p) (x p) = x p 0 * x p 0 := by
        intro p
        show bil (c3.cov p p) 1 1 _ _ = _
        simp [bil, c3, s, Mat.of]
      have h2 : ∀ p q, p ≠ q → bil (c3.cov p q) (dim p) (dim q) (x p) (x q) = 0 := by
        intro p q hpq
        show bil (c3.cov p q) 1 1 _ _ = _
        simp [bil, c3, hpq, Mat.zero, Mat.of]
      rw [Finset.sum_pair (by decide), Finset.sum_pair (by decide), Finset.sum_pair (by decide), h1, h1, h2 1 2 (by decide), h2 2 1 (by decide)]
      nlinarith [mul_self_nonneg (x 1 0), mul_self_nonneg (x 2 0)])
    (H := H) (S := S) (M := M)
    (by
      refine ⟨rfl, fun e he => ?_⟩
      simp only [List.mem_cons, List.not_mem_nil, or_false] at he
      rcases he with rfl | rfl
      · refine ⟨rfl, fun i j hj => ?_⟩
        obtain rfl : j = 0 := Nat.lt_one_iff.mp hj
        simp [hH, off, s, Mat.of]
      · refine ⟨rfl, fun i j hj => ?_⟩
        obtain rfl : j = 0 := Nat.lt_one_iff.mp hj
        simp [hH, off, s, Mat.of])
    (by
      refine ⟨⟨rfl, rfl⟩, fun p hp q hq i hi j hj => ?_⟩
      have hp' : p = (1, 1) ∨ p = (2, 1) := by
        have : p ∈ [(1, 1), (2, 1)] := hp
        simpa using this
      have hq' : q = (1, 1) ∨ q = (2, 1) := by
        have : q ∈ [(1, 1), (2, 1)] := hq
        simpa using this
      rcases hp' with rfl | rfl <;> rcases hq' with rfl | rfl <;> obtain rfl := Nat.lt_one_iff.mp hi <;> obtain rfl := Nat.lt_one_iff.mp hj <;>
        simp [hS, off, c3, hcols, s, Mat.of, Mat.zero])
    (by
      refine ⟨⟨rfl, rfl⟩, fun p hp i hi => ?_⟩
      simp [hM, c3, s, Mat.of]) hg z
  have e1 : ∀ z : Vec 1, z - H.toM 1 2 * M.toM 2 1 = z := by
    intro z
    have : M.toM 2 1 = 0 := by
      ext i j
      simp [toM_apply, hM, Mat.of]
    rw [this, Matrix.mul_zero, sub_zero]
  have e2 : (expected (n := 2) H (s 1) {} (S.toM 2 2 + (1 / 10 ^ 12 : ℝ) • (1 : Matrix (Fin 2) (Fin 2) ℝ)) : Matrix (Fin 1) (Fin 1) ℝ) = (3 + 2 / 10 ^ 12 + (({} : Cfg).eps)) • 1 := by
    ext i j
    obtain rfl : i = 0 := Subsingleton.elim _ _
    obtain rfl : j = 0 := Subsingleton.elim _ _
    simp [expected, Matrix.mul_apply, Fin.sum_univ_two, toM_apply, hH, hS, s, Mat.of]
    norm_num
  refine ⟨(acc _).1.mpr ?_, (acc _).2 fun h1 => ?_⟩
  · show Within _ (expected (n := 2) H (s 1) {} (S.toM 2 2 + (1 / 10 ^ 12 : ℝ) • (1 : Matrix (Fin 2) (Fin 2) ℝ))) (_ - H.toM 1 2 * M.toM 2 1)
    rw [e1, e2]
    intro y
    simp [thresholdInUse, tableQuantile, Matrix.mul_apply]
    nlinarith [sq_nonneg (y 0 0)]
  · have h2 := (acc _).1.mp h1
    change Within _ (expected (n := 2) H (s 1) {} (S.toM 2 2 + (1 / 10 ^ 12 : ℝ) • (1 : Matrix (Fin 2) (Fin 2) ℝ))) (_ - H.toM 1 2 * M.toM 2 1) at h2
    rw [e1, e2] at h2
    have := h2 1
    simp [thresholdInUse, tableQuantile, Matrix.mul_apply] at this
    norm_num at this

end Honest
end Ikf
