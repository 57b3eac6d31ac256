import Verif.Spec.Compromise
import Verif.Props.Information
import Verif.Props.Region

/-! # Property C142: the estimate is the best compromise between the estimate before and the measurements -/

namespace Ikf
namespace Simultaneous
open Matrix SKF Honest

variable {n m : ℕ}

/-! ## Completing the square -/

theorem complete {S : Matrix (Fin n) (Fin n) ℝ} (hS : S.PosDef) {N : Matrix (Fin m) (Fin m) ℝ} (hN : N.PosDef) (H : Matrix (Fin m) (Fin n) ℝ) (μ x : Vec n) (z : Vec m) :
    (x - μ)ᵀ * S⁻¹ * (x - μ) + (z - H * x)ᵀ * N⁻¹ * (z - H * x) = (z - H * μ)ᵀ * (H * S * Hᵀ + N)⁻¹ * (z - H * μ) +
      (x - (μ + Alg.gain S H N * (z - H * μ)))ᵀ * (S⁻¹ + Hᵀ * N⁻¹ * H) * (x - (μ + Alg.gain S H N * (z - H * μ))) := by
  have hE := Alg.innov_pd hS.posSemidef H hN
  have uS := (Matrix.isUnit_iff_isUnit_det S).mp hS.isUnit
  have uN := (Matrix.isUnit_iff_isUnit_det N).mp hN.isUnit
  have uE := (Matrix.isUnit_iff_isUnit_det _).mp hE.isUnit
  have tS : Sᵀ = S := Alg.psd_symm hS.posSemidef
  have tN : Nᵀ = N := Alg.psd_symm hN.posSemidef
  have tE : (H * S * Hᵀ + N)ᵀ = H * S * Hᵀ + N := Alg.psd_symm hE.posSemidef
  have gd : Alg.gain S H N * (z - H * μ) = S * Hᵀ * ((H * S * Hᵀ + N)⁻¹ * (z - H * μ)) := by unfold Alg.gain; rw [Matrix.mul_assoc]
  rw [gd]
  have hr : z - H * μ = (H * S * Hᵀ + N) * ((H * S * Hᵀ + N)⁻¹ * (z - H * μ)) := by rw [← Matrix.mul_assoc, Matrix.mul_nonsing_inv _ uE, Matrix.one_mul]
  have q : (z - H * μ)ᵀ * (H * S * Hᵀ + N)⁻¹ * (z - H * μ) =
      ((H * S * Hᵀ + N)⁻¹ * (z - H * μ))ᵀ * (H * S * Hᵀ + N) * ((H * S * Hᵀ + N)⁻¹ * (z - H * μ)) := by
    rw [Matrix.mul_assoc _ (H * S * Hᵀ + N), ← hr, Matrix.transpose_mul, Matrix.transpose_nonsing_inv, tE]
  rw [q]
  generalize (H * S * Hᵀ + N)⁻¹ * (z - H * μ) = w at hr ⊢
  have hx : x - μ = S * Hᵀ * w + (x - (μ + S * Hᵀ * w)) := by abel
  generalize hd : x - (μ + S * Hᵀ * w) = d at hx ⊢
  have hz : z - H * x = N * w - H * d := by
    have : z - H * x = (z - H * μ) - H * (x - μ) := by rw [Matrix.mul_sub]; abel
    rw [this, hr, hx, Matrix.mul_add, Matrix.add_mul]
    simp only [Matrix.mul_assoc]
    abel
  rw [hx, hz]
  have a1 : (S * Hᵀ * w + d)ᵀ * S⁻¹ = wᵀ * H + dᵀ * S⁻¹ := by
    rw [Matrix.transpose_add, Matrix.add_mul, Matrix.transpose_mul, Matrix.transpose_mul, Matrix.transpose_transpose, tS, Matrix.mul_assoc, Matrix.mul_assoc,
      Matrix.mul_nonsing_inv _ uS, Matrix.mul_one]
  have a2 : (N * w - H * d)ᵀ * N⁻¹ = wᵀ - dᵀ * Hᵀ * N⁻¹ := by
    rw [Matrix.transpose_sub, Matrix.sub_mul, Matrix.transpose_mul, Matrix.transpose_mul, tN, Matrix.mul_assoc wᵀ, Matrix.mul_nonsing_inv _ uN, Matrix.mul_one]
  have a3 : dᵀ * S⁻¹ * (S * Hᵀ * w) = dᵀ * Hᵀ * w := by
    rw [Matrix.mul_assoc S, Matrix.mul_assoc dᵀ, ← Matrix.mul_assoc S⁻¹, Matrix.nonsing_inv_mul _ uS, Matrix.one_mul, Matrix.mul_assoc]
  have a4 : dᵀ * Hᵀ * N⁻¹ * (N * w) = dᵀ * Hᵀ * w := by
    rw [Matrix.mul_assoc _ N⁻¹, ← Matrix.mul_assoc N⁻¹, Matrix.nonsing_inv_mul _ uN, Matrix.one_mul]
  rw [a1, a2, Matrix.add_mul, Matrix.mul_add, Matrix.mul_add, a3, Matrix.sub_mul, Matrix.mul_sub, Matrix.mul_sub, a4]
  simp only [Matrix.mul_add, Matrix.add_mul, Matrix.mul_assoc]
  abel

theorem upd_cov {g : Gauss n} (hg : g.cov.PosDef) {o : Obs} (hN : o.N.PosDef) : (upd g o).cov.PosDef ∧ (upd g o).cov⁻¹ = g.cov⁻¹ + o.info n := by
  obtain ⟨e1, e2, -⟩ := Acc.one hg.posSemidef g.mean hN
  have uS := (Matrix.isUnit_iff_isUnit_det _).mp hg.isUnit
  have e3 : (upd g o).cov * (g.cov⁻¹ + o.info n) = 1 := by
    show Alg.apos g.cov (o.H.toM o.m n) o.N * _ = 1
    rw [e2, Matrix.mul_assoc, Matrix.mul_add, Matrix.mul_nonsing_inv _ uS, e1]
  have e4 := Matrix.inv_eq_right_inv e3
  refine ⟨?_, e4⟩
  have pd : (g.cov⁻¹ + o.info n).PosDef := by
    refine hg.inv.add_posSemidef ?_
    have := Alg.psd_congr hN.inv.posSemidef (o.H.toM o.m n)ᵀ
    rwa [Matrix.transpose_transpose] at this
  have := pd.inv
  rwa [Matrix.inv_eq_left_inv e3] at this

/-- One measurement. -/
theorem square {g : Gauss n} (hg : g.cov.PosDef) {o : Obs} (hN : o.N.PosDef) (x : Vec n) :
    surprise g.cov (x - g.mean) + o.misfit x =
      surprise (o.H.toM o.m n * g.cov * (o.H.toM o.m n)ᵀ + o.N) (o.z.toM o.m 1 - o.H.toM o.m n * g.mean) + surprise (upd g o).cov (x - (upd g o).mean) := by
  unfold Obs.misfit surprise
  rw [(upd_cov hg hN).2]
  have := congrFun (congrFun (complete hg hN (o.H.toM o.m n) g.mean x (o.z.toM o.m 1)) 0) 0
  exact this

theorem fold_square {g : Gauss n} (hg : g.cov.PosDef) (os : List Obs) (hv : ∀ o ∈ os, o.Valid n) :
    (os.foldl upd g).cov.PosDef ∧ ∀ x, cost g os x = innovations g os + surprise (os.foldl upd g).cov (x - (os.foldl upd g).mean) := by
  induction os generalizing g with
  | nil => exact ⟨hg, fun x => by simp [cost, innovations]⟩
  | cons o l ih =>
    have hN : o.N.PosDef := (hv o (by simp)).2.2.2.2.2.1
    obtain ⟨h1, h2⟩ := ih (upd_cov hg hN).1 (fun x hx => hv x (by simp [hx]))
    refine ⟨h1, fun x => ?_⟩
    have h3 := h2 x
    have h4 := square hg hN x
    unfold cost at h3 ⊢
    rw [List.map_cons, List.sum_cons, ← add_assoc, h4, add_assoc, h3, ← add_assoc]
    rfl

theorem surprise_zero {S : Matrix (Fin m) (Fin m) ℝ} (hS : S.PosDef) {r : Vec m} (h : surprise S r ≤ 0) : r = 0 := by
  have hu := (Matrix.isUnit_iff_isUnit_det S).mp hS.isUnit
  have h1 := (within_iff hS r (le_refl 0)).mp h r
  rw [zero_mul] at h1
  have h3 : (rᵀ * r) 0 0 = 0 := pow_eq_zero_iff two_ne_zero |>.mp (le_antisymm h1 (sq_nonneg _))
  rw [Matrix.mul_apply] at h3
  have h4 := (Finset.sum_eq_zero_iff_of_nonneg fun i _ => by rw [Matrix.transpose_apply]; exact mul_self_nonneg _).mp h3
  ext i j
  obtain rfl : j = 0 := Subsingleton.elim _ _
  have h5 := h4 i (Finset.mem_univ i)
  rwa [Matrix.transpose_apply, mul_self_eq_zero] at h5

/-! ## The theorems -/

/-- C142. After any measurements of a time of which the filter has an estimate, its estimate is the one and only state of least cost; the covariance describes how the cost grows
around it, and the least cost is the sum of the normalised innovations squared met on the way. -/
theorem c142_least (h : Buf Belief) (ho : Ok n h) (t : Int) (g : Gauss n) (hg : estimates n h t = some g) (hP : g.cov.PosDef) (os : List Obs)
    (hv : ∀ o ∈ os, o.Valid n ∧ Plain o.cfg) :
    ∃ h1 g1, calls h (os.map (Obs.call t)) = .ok (h1, List.replicate os.length true) ∧ estimates n h1 t = some g1 ∧
      (∀ x, x ≠ g1.mean → cost g os g1.mean < cost g os x) ∧
      (∀ x, cost g os x = cost g os g1.mean + surprise g1.cov (x - g1.mean)) ∧
      cost g os g1.mean = innovations g os := by
  obtain ⟨h1, hc, _, he⟩ := list_run ho hg os hv
  obtain ⟨p, q⟩ := fold_square hP os (fun o hx => (hv o hx).1)
  have z : cost g os (os.foldl upd g).mean = innovations g os := by
    rw [q, sub_self]
    simp [surprise]
  refine ⟨h1, os.foldl upd g, hc, by rw [he, Function.update_self], fun x hx => ?_, fun x => by rw [z, q x], z⟩
  rw [z, q x, lt_add_iff_pos_right]
  by_contra hn
  exact hx (sub_eq_zero.mp (surprise_zero p (not_lt.mp hn)))

/-- C142. In whatever order the measurements of a time are taken, their normalised innovations squared have the same sum. -/
theorem c142_order (g : Gauss n) (hP : g.cov.PosDef) (os os' : List Obs) (hv : ∀ o ∈ os, o.Valid n) (hp : os.Perm os') : innovations g os = innovations g os' := by
  obtain ⟨-, q⟩ := fold_square hP os hv
  obtain ⟨-, q'⟩ := fold_square hP os' (fun o ho => hv o (hp.mem_iff.mpr ho))
  have h1 := q (os.foldl upd g).mean
  have h2 := q' (os.foldl upd g).mean
  have h3 : cost g os (os.foldl upd g).mean = cost g os' (os.foldl upd g).mean := by
    unfold cost
    rw [(hp.map _).sum_eq]
  rw [← fold_perm hP.posSemidef hp hv] at h2
  linarith

/-- C142. With the outlier test on, a measured value passes exactly if there is a state that contradicts the estimate and the measurement together by no more than
the threshold in use. -/
theorem c142_gate {h : Buf Belief} (ho : Ok n h) {t : Int} {e : Vec n} {S : Matrix (Fin n) (Fin n) ℝ} (he : estimates n h t = some ⟨e, S⟩) (hS : S.PosDef)
    {H R : Mat} {cfg : Cfg} {row : List ℤ} (hg : Gated n m H R cfg row) (z : Vec m) :
    Honest.Accepts h t H R cfg z ↔ ∃ x : Vec n, surprise S (x - e) + surprise (R.toM m m + cfg.eps • 1) (z - H.toM m n * x) ≤ thresholdInUse row m := by
  obtain ⟨-, h', a, h1, h2⟩ := region_answer ho he hg z
  have h3 : Honest.Accepts h t H R cfg z ↔ a = true := by
    constructor
    · rintro ⟨h'', h3⟩
      rw [h1, Res.ok.injEq, Prod.mk.injEq] at h3
      exact h3.2
    · rintro rfl
      exact ⟨h', h1⟩
  rw [h3, h2]
  have key := fun x => congrFun (congrFun (complete hS hg.pd (H.toM m n) e x z) 0) 0
  have hE : (expected H R cfg S : Matrix (Fin m) (Fin m) ℝ) = H.toM m n * S * (H.toM m n)ᵀ + (R.toM m m + cfg.eps • 1) := by unfold expected; rw [add_assoc]
  rw [hE]
  constructor
  · intro h4
    refine ⟨e + Alg.gain S (H.toM m n) (R.toM m m + cfg.eps • 1) * (z - H.toM m n * e), ?_⟩
    refine (le_of_eq ((key _).trans ?_)).trans h4
    rw [sub_self]
    simp [surprise]
  · rintro ⟨x, h4⟩
    refine le_trans ?_ ((le_of_eq (key x).symm).trans h4)
    rw [Matrix.add_apply]
    refine le_add_of_nonneg_right ?_
    have pd : (S⁻¹ + (H.toM m n)ᵀ * (R.toM m m + cfg.eps • 1)⁻¹ * H.toM m n).PosSemidef := by
      refine hS.inv.posSemidef.add ?_
      have := Alg.psd_congr hg.pd.inv.posSemidef (H.toM m n)ᵀ
      rwa [Matrix.transpose_transpose] at this
    have := Alg.psd_congr pd (x - (e + Alg.gain S (H.toM m n) (R.toM m m + cfg.eps • 1) * (z - H.toM m n * e)))ᵀ
    rw [Matrix.transpose_transpose] at this
    exact this.diag_nonneg (i := 0)

/-! ## Example -/

section Examples
open MathExample Certainty

/-- An estimate 0 with variance 1 and the readings 5 and 9 with noise 2: the new estimate is 3.5, where `x² + (5 - x)² / 2 + (9 - x)² / 2` is least, and that least cost is 28.5. -/
example : ∃ h1 g1, calls (scalar 1) ([one1 2 5, one1 2 9].map (Obs.call 0)) = .ok (h1, [true, true]) ∧ estimates 1 h1 0 = some g1 ∧
    g1.mean = (Matrix.of fun _ _ => 7 / 2) ∧ innovations (⟨0, 1⟩ : Gauss 1) [one1 2 5, one1 2 9] = 57 / 2 := by
  have eg : estimates 1 (scalar 1) 0 = some (⟨0, 1⟩ : Gauss 1) := by
    have e0 : (sc 0).toM 1 1 = 0 := by rw [sc_eq, zero_smul]
    rw [scalar_est, if_pos rfl, e0, one_smul]
  obtain ⟨h1, g1, a1, a2, a3, -, a5⟩ := c142_least (scalar 1) (scalar_ok zero_le_one) 0 ⟨0, 1⟩ eg Matrix.PosDef.one [one1 2 5, one1 2 9] (by
    intro x hx
    simp only [List.mem_cons, List.not_mem_nil, or_false] at hx
    rcases hx with rfl | rfl <;> exact one1_valid (by norm_num))
  have one : ∀ (z : ℝ) (x : Vec 1), (one1 2 z).misfit x = (z - x 0 0) ^ 2 / 2 := by
    intro z x
    have e1 : (sc 2).toM 1 1 + (0 : ℝ) • (1 : Matrix (Fin 1) (Fin 1) ℝ) = (2 : ℝ) • 1 := by
      ext i j; fin_cases i; fin_cases j; simp [sc, Mat.toM, Mat.ofM, Mat.of]
    have e2 : (sc 1).toM 1 1 = 1 := by
      ext i j; fin_cases i; fin_cases j; simp [sc, Mat.toM, Mat.ofM, Mat.of]
    have e3 : (sc z).toM 1 1 = z • 1 := by
      ext i j; fin_cases i; fin_cases j; simp [sc, Mat.toM, Mat.ofM, Mat.of]
    show surprise (m := 1) ((sc 2).toM 1 1 + (0 : ℝ) • (1 : Matrix (Fin 1) (Fin 1) ℝ)) ((sc z).toM 1 1 - (sc 1).toM 1 1 * x) = _
    have e4 : ((2 : ℝ) • (1 : Matrix (Fin 1) (Fin 1) ℝ))⁻¹ = (2 : ℝ)⁻¹ • 1 := Matrix.inv_eq_right_inv (by simp)
    rw [e1, e2, e3, surprise, e4]
    simp [Matrix.mul_apply]
    ring
  have val : ∀ x : Vec 1, cost (⟨0, 1⟩ : Gauss 1) [one1 2 5, one1 2 9] x = 2 * (x 0 0 - 7 / 2) ^ 2 + 57 / 2 := by
    intro x
    unfold cost
    simp only [List.map_cons, List.map_nil, List.sum_cons, List.sum_nil, one]
    simp [surprise, Matrix.mul_apply]
    ring
  have em : g1.mean = (Matrix.of fun _ _ => 7 / 2) := by
    by_contra hne
    have := a3 _ (Ne.symm hne)
    rw [val, val] at this
    simp at this
    nlinarith [sq_nonneg (g1.mean 0 0 - 7 / 2)]
  refine ⟨h1, g1, a1, a2, em, ?_⟩
  rw [← a5, val, em]
  simp

end Examples

end Simultaneous
end Ikf
