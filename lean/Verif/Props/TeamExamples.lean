import Verif.Props.Team
import Verif.Props.Covariance

/-!
# Where the covariances of several instances stop being a covariance (C106)
-/

namespace Ikf
open Mat
namespace Hdl.TeamEx
open Hdl.Example (s s_shape s_tr near nearOk pred cfg dim)

/-- The posterior of two scalar states with prior variances `a`, covariance `x` and an observation of `h1` times the first plus `h2` times
the second, with noise `ρ`. -/
theorem post2 {H R r S : Mat} {res : CorrRes} {cfg : Cfg} (hc : correctionStep H R r S cfg = .ok res) (hrj : res.rejected = false) (hS : S.Shape 2 2)
    (hH : H.rows = 1) {a b x h1 h2 ρ : ℝ} (e00 : S.e 0 0 = a) (e11 : S.e 1 1 = b) (e01 : S.e 0 1 = x) (e10 : S.e 1 0 = x) (f0 : H.e 0 0 = h1) (f1 : H.e 0 1 = h2)
    (g0 : R.e 0 0 = ρ) (ha : 0 ≤ a) (hb : 0 ≤ b) (hab : x * x ≤ a * b) (hρ : 0 ≤ ρ) (he : 0 < cfg.eps) (hj : cfg.joseph = true) (hst : cfg.stab = true) :
    let T := h1 * (h1 * a + h2 * x) + h2 * (h1 * x + h2 * b) + (ρ + cfg.eps)
    let k1 := (h1 * a + h2 * x) / T
    let k2 := (h1 * x + h2 * b) / T
    IsCovMat res.Sapos ∧ res.Sapos.Shape 2 2 ∧
    res.Sapos.e 0 0 = (1 - k1 * h1) * ((1 - k1 * h1) * a - k1 * h2 * x) - k1 * h2 * ((1 - k1 * h1) * x - k1 * h2 * b) + k1 * ρ * k1 + cfg.eps ∧
    res.Sapos.e 0 1 = (1 - k1 * h1) * (-(k2 * h1) * a + (1 - k2 * h2) * x) - k1 * h2 * (-(k2 * h1) * x + (1 - k2 * h2) * b) + k1 * ρ * k2 ∧
    res.Sapos.e 1 1 = -(k2 * h1) * (-(k2 * h1) * a + (1 - k2 * h2) * x) + (1 - k2 * h2) * (-(k2 * h1) * x + (1 - k2 * h2) * b) + k2 * ρ * k2 + cfg.eps := by
  intro T k1 k2
  obtain ⟨hO, -⟩ := Inst.correctionStep_accept hS cfg res hc hrj
  rw [hH] at hO
  have quad2 : ∀ u v : ℝ, 0 ≤ u * u * a + 2 * (u * v * x) + v * v * b := by
    intro u v
    rcases eq_or_lt_of_le ha with h0 | h0
    · have hx : x = 0 := by nlinarith [mul_self_nonneg x]
      rw [← h0, hx]; nlinarith [mul_self_nonneg v]
    · have h2 : 0 ≤ (a * u + x * v) * (a * u + x * v) + (a * b - x * x) * (v * v) :=
        add_nonneg (mul_self_nonneg _) (mul_nonneg (by linarith) (mul_self_nonneg v))
      have h3 : (a * u + x * v) * (a * u + x * v) + (a * b - x * x) * (v * v) = a * (u * u * a + 2 * (u * v * x) + v * v * b) := by ring
      rw [h3] at h2
      exact nonneg_of_mul_nonneg_right h2 h0
  have cS : IsCovMat S := by
    refine ⟨by rw [hS.1, hS.2], fun i j => ?_, fun y => ?_⟩
    · by_cases hij : i < 2 ∧ j < 2
      · obtain ⟨hi, hj⟩ := hij
        interval_cases i <;> interval_cases j <;> simp [e01, e10]
      · rw [S.out i j (by rw [hS.1, hS.2]; omega), S.out j i (by rw [hS.1, hS.2]; omega)]
    · rw [hS.1]
      simp only [Finset.sum_range_succ, Finset.sum_range_zero, e00, e01, e10, e11]
      have := quad2 (y 0) (y 1)
      nlinarith
  have cR : IsCovMat R := by
    refine ⟨by rw [hO.R.1, hO.R.2], fun i j => ?_, fun y => ?_⟩
    · by_cases hij : i < 1 ∧ j < 1
      · obtain ⟨hi, hj⟩ := hij
        interval_cases i; interval_cases j; rfl
      · rw [R.out i j (by rw [hO.R.1, hO.R.2]; omega), R.out j i (by rw [hO.R.1, hO.R.2]; omega)]
    · rw [hO.R.1]
      simp only [Finset.sum_range_succ, Finset.sum_range_zero, g0]
      nlinarith [mul_nonneg hρ (mul_self_nonneg (y 0))]
  have hR : NoiseOk R cfg := by
    refine ⟨cR, he.le, fun y hy => ?_⟩
    obtain ⟨i, hi, hne⟩ := hy
    rw [hO.R.1] at hi
    interval_cases i
    rw [hO.R.1]
    simp only [Finset.sum_range_succ, Finset.sum_range_zero, g0]
    have : 0 < y 0 * y 0 := mul_self_pos.mpr hne
    nlinarith [mul_nonneg hρ this.le, mul_pos he this]
  obtain ⟨-, pS⟩ := cS.psd hO.S.1
  obtain ⟨pR, -, pRe⟩ := hR.pd hO.R.1
  obtain ⟨q1, -, -, -, -, q6, -, -, q9, -⟩ := c18_kalman_update H R r S cfg hO pS pR he.le pRe res hc
  rw [hj, hst, if_pos rfl, if_pos rfl] at q6
  set K := S.toM 2 2 * (H.toM 1 2).transpose * (H.toM 1 2 * S.toM 2 2 * (H.toM 1 2).transpose + (R.toM 1 1 + cfg.eps • (1 : Matrix (Fin 1) (Fin 1) ℝ)))⁻¹ with hK
  have hT : (H.toM 1 2 * S.toM 2 2 * (H.toM 1 2).transpose + (R.toM 1 1 + cfg.eps • (1 : Matrix (Fin 1) (Fin 1) ℝ))) 0 0 = T := by
    simp [Matrix.mul_apply, Matrix.transpose_apply, e00, e01, e10, e11, f0, f1, g0, T]
    ring
  have hK0 : K 0 0 = k1 := by
    rw [hK, Matrix.inv_subsingleton, Matrix.mul_diagonal, hT, Ring.inverse_eq_inv']
    simp [Matrix.mul_apply, Matrix.transpose_apply, e00, e01, f0, f1, k1]
    ring
  have hK1 : K 1 0 = k2 := by
    rw [hK, Matrix.inv_subsingleton, Matrix.mul_diagonal, hT, Ring.inverse_eq_inv']
    simp [Matrix.mul_apply, Matrix.transpose_apply, e10, e11, f0, f1, k2]
    ring
  have q : ∀ i j : Fin 2, res.Sapos.e i j = (((1 : Matrix (Fin 2) (Fin 2) ℝ) - K * H.toM 1 2) * S.toM 2 2 * ((1 : Matrix (Fin 2) (Fin 2) ℝ) - K * H.toM 1 2).transpose + K * R.toM 1 1 * K.transpose + cfg.eps • (1 : Matrix (Fin 2) (Fin 2) ℝ)) i j :=
    fun i j => congrFun (congrFun q6 i) j
  have U : ∀ i j : Fin 2, ((1 : Matrix (Fin 2) (Fin 2) ℝ) - K * H.toM 1 2) i j = (if i = j then 1 else 0) - K i 0 * H.e 0 j := by
    intro i j
    rw [Matrix.sub_apply, Matrix.one_apply, Matrix.mul_apply, Fin.sum_univ_one]; rfl
  refine ⟨isCov_of q1 q9, q1, ?_, ?_, ?_⟩
  · rw [show res.Sapos.e 0 0 = _ from q 0 0]
    simp [Matrix.mul_apply, Matrix.transpose_apply, U, hK0, hK1, e00, e01, e10, e11, f0, f1, g0]
    ring
  · rw [show res.Sapos.e 0 1 = _ from q 0 1]
    simp [Matrix.mul_apply, Matrix.transpose_apply, U, hK0, hK1, e00, e01, e10, e11, f0, f1, g0]
    ring
  · rw [show res.Sapos.e 1 1 = _ from q 1 1]
    simp [Matrix.mul_apply, Matrix.transpose_apply, U, hK0, hK1, e00, e01, e10, e11, f0, f1, g0]
    ring

/-- The posterior entries of two scalar states: `h1`, `h2`, noise `ρ`, prior `a`, `b`, covariance `x`, and `e` for the regularisation. -/
noncomputable def pa (e a b x h1 h2 ρ : ℝ) : ℝ :=
  let T := h1 * (h1 * a + h2 * x) + h2 * (h1 * x + h2 * b) + (ρ + e)
  let k1 := (h1 * a + h2 * x) / T
  (1 - k1 * h1) * ((1 - k1 * h1) * a - k1 * h2 * x) - k1 * h2 * ((1 - k1 * h1) * x - k1 * h2 * b) + k1 * ρ * k1 + e

/-- See `pa`. -/
noncomputable def px (e a b x h1 h2 ρ : ℝ) : ℝ :=
  let T := h1 * (h1 * a + h2 * x) + h2 * (h1 * x + h2 * b) + (ρ + e)
  let k1 := (h1 * a + h2 * x) / T
  let k2 := (h1 * x + h2 * b) / T
  (1 - k1 * h1) * (-(k2 * h1) * a + (1 - k2 * h2) * x) - k1 * h2 * (-(k2 * h1) * x + (1 - k2 * h2) * b) + k1 * ρ * k2

/-- See `pa`. -/
noncomputable def pb (e a b x h1 h2 ρ : ℝ) : ℝ :=
  let T := h1 * (h1 * a + h2 * x) + h2 * (h1 * x + h2 * b) + (ρ + e)
  let k2 := (h1 * x + h2 * b) / T;
  -(k2 * h1) * (-(k2 * h1) * a + (1 - k2 * h2) * x) + (1 - k2 * h2) * (-(k2 * h1) * x + (1 - k2 * h2) * b) + k2 * ρ * k2 + e

theorem stack2 {cov : ℕ → ℕ → Mat} {S : Mat} {p q : ℕ} (hpq : p ≠ q) (hS : StackedCov [(p, 1), (q, 1)] cov S) :
    S.Shape 2 2 ∧ S.e 0 0 = (cov p p).e 0 0 ∧ S.e 0 1 = (cov p q).e 0 0 ∧ S.e 1 0 = (cov q p).e 0 0 ∧ S.e 1 1 = (cov q q).e 0 0 := by
  obtain ⟨h1, h2⟩ := hS
  have o1 : off [(p, 1), (q, 1)] p = 0 := by simp [off]
  have o2 : off [(p, 1), (q, 1)] q = 1 := by simp [off, hpq]
  have g := fun a ha b hb => h2 a ha b hb 0
  have m1 : (p, 1) ∈ [(p, 1), (q, 1)] := by simp
  have m2 : (q, 1) ∈ [(p, 1), (q, 1)] := by simp
  refine ⟨h1, ?_, ?_, ?_, ?_⟩
  · simpa [o1, o2] using h2 _ m1 _ m1 0 (by simp) 0 (by simp)
  · simpa [o1, o2] using h2 _ m1 _ m2 0 (by simp) 0 (by simp)
  · simpa [o1, o2] using h2 _ m2 _ m1 0 (by simp) 0 (by simp)
  · simpa [o1, o2] using h2 _ m2 _ m2 0 (by simp) 0 (by simp)

theorem side2 {p q : ℕ} {x y : ℝ} {H : Mat} (hpq : p ≠ q) (hH : SideBySide [(p, s x), (q, s y)] H) : H.rows = 1 ∧ H.e 0 0 = x ∧ H.e 0 1 = y := by
  obtain ⟨-, h2⟩ := hH
  have m1 : (p, s x) ∈ [(p, s x), (q, s y)] := by simp
  have m2 : (q, s y) ∈ [(p, s x), (q, s y)] := by simp
  have c1 : ∀ z, (s z).cols = 1 := fun _ => rfl
  have c2 : ∀ z, (s z).e 0 0 = z := fun _ => rfl
  refine ⟨(h2 _ m1).1.symm, ?_, ?_⟩
  · have := (h2 _ m1).2 0 0 (by simp [c1])
    simpa [off, c1, c2] using this
  · have := (h2 _ m2).2 0 0 (by simp [c1])
    simpa [off, c1, c2, hpq] using this

/-- What a joint observation of two scalar instances does to the covariances. -/
structure Joint2 (C C' : ℕ → ℕ → Mat) (p q : ℕ) (e a b x h1 h2 ρ : ℝ) : Prop where
  pp : (C' p p).e 0 0 = pa e a b x h1 h2 ρ
  pq : (C' p q).e 0 0 = px e a b x h1 h2 ρ
  qq : (C' q q).e 0 0 = pb e a b x h1 h2 ρ
  left : ∀ o, o ≠ p → o ≠ q → (C' p o).e 0 0 = pa e a b x h1 h2 ρ / (C p p).e 0 0 * (C p o).e 0 0
  right : ∀ o, o ≠ p → o ≠ q → (C' q o).e 0 0 = pb e a b x h1 h2 ρ / (C q q).e 0 0 * (C q o).e 0 0
  rest : ∀ o u, o ≠ p → o ≠ q → u ≠ p → u ≠ q → C' o u = C o u

theorem inv1 {A : Mat} (hA : A.Shape 1 1) : A.inv.e 0 0 = (A.e 0 0)⁻¹ := by
  have h1 : A.inv.toM 1 1 0 0 = ((A.toM 1 1)⁻¹) 0 0 := by rw [toM_inv A 1 hA.1]
  rw [Matrix.inv_subsingleton, Matrix.diagonal_apply_eq, Ring.inverse_eq_inv'] at h1
  exact h1

theorem joint2_entries {c : Central} {p q : ℕ} (hpq : p ≠ q) {P dx : Mat} (hp : (c.cov p p).Shape 1 1) (hq : (c.cov q q).Shape 1 1)
    {e a b x h1 h2 ρ : ℝ} (hP : P.e 0 0 = pa e a b x h1 h2 ρ ∧ P.e 0 1 = px e a b x h1 h2 ρ ∧ P.e 1 1 = pb e a b x h1 h2 ρ) :
    Joint2 c.cov (c.joint [(p, 1), (q, 1)] P dx).cov p q e a b x h1 h2 ρ := by
  have l1 : List.lookup q [(p, 1), (q, 1)] = some 1 := by rw [List.lookup, beq_false_of_ne (Ne.symm hpq)]; simp [List.lookup]
  have l2 : List.lookup p [(p, 1), (q, 1)] = some 1 := by simp [List.lookup]
  have o1 : off [(p, 1), (q, 1)] p = 0 := by simp [off]
  have o2 : off [(p, 1), (q, 1)] q = 1 := by simp [off, hpq]
  refine ⟨?_, ?_, ?_, fun o e1 e2 => ?_, fun o e1 e2 => ?_, fun o u e1 e2 e3 e4 => ?_⟩
  · simp [Central.joint, l1, l2, o1, o2, block_e, hP.1]
  · simp [Central.joint, l1, l2, o1, o2, block_e, hP.2.1]
  · simp [Central.joint, l1, l2, o1, o2, block_e, hP.2.2]
  · have : (c.joint [(p, 1), (q, 1)] P dx).cov p o = P.block 0 0 1 1 * (c.cov p p).inv * c.cov p o := by
      simp [Central.joint, l2, o1, e1, e2]
    rw [this, mul_e' _ _ 1 (Or.inl (by show (c.cov p p).inv.cols ≤ 1; rw [hp.inv.2])), Finset.sum_range_one, mul_e' _ _ 1 (Or.inl le_rfl), Finset.sum_range_one,
      block_e, if_pos ⟨Nat.one_pos, Nat.one_pos⟩, inv1 hp, Nat.add_zero, hP.1]
    rfl
  · have : (c.joint [(p, 1), (q, 1)] P dx).cov q o = P.block 1 1 1 1 * (c.cov q q).inv * c.cov q o := by
      simp [Central.joint, l1, o2, e1, e2]
    rw [this, mul_e' _ _ 1 (Or.inl (by show (c.cov q q).inv.cols ≤ 1; rw [hq.inv.2])), Finset.sum_range_one, mul_e' _ _ 1 (Or.inl le_rfl), Finset.sum_range_one,
      block_e, if_pos ⟨Nat.one_pos, Nat.one_pos⟩, inv1 hq, Nat.add_zero, hP.2.2]
    rfl
  · simp [Central.joint, e1, e2, e3, e4]

theorem corr2 {c : Central} {p q : ℕ} (hpq : p ≠ q) {H S : Mat} {u v ρ : ℝ} {r : Mat} {cfg : Cfg} {res : CorrRes}
    (hH : SideBySide [(p, s u), (q, s v)] H) (hS : StackedCov [(p, 1), (q, 1)] c.cov S)
    (hc : correctionStep H (s ρ) r (stabM S (1 / 10^12)) cfg = .ok res) (hrj : res.rejected = false) (hsym : (c.cov q p).e 0 0 = (c.cov p q).e 0 0)
    {a b x : ℝ} (ea : (c.cov p p).e 0 0 = a) (eb : (c.cov q q).e 0 0 = b) (ex : (c.cov p q).e 0 0 = x) (ha : 0 ≤ a) (hb : 0 ≤ b) (hab : x * x ≤ a * b)
    (hρ : 0 ≤ ρ) (he : 0 < cfg.eps) (hj : cfg.joseph = true) (hst : cfg.stab = true) :
    IsCovMat res.Sapos ∧ res.Sapos.Shape 2 2 ∧ res.Sapos.e 0 0 = pa cfg.eps (a + 1 / 10^12) (b + 1 / 10^12) x u v ρ ∧
      res.Sapos.e 0 1 = px cfg.eps (a + 1 / 10^12) (b + 1 / 10^12) x u v ρ ∧ res.Sapos.e 1 1 = pb cfg.eps (a + 1 / 10^12) (b + 1 / 10^12) x u v ρ := by
  obtain ⟨s1, s2, s3, s4, s5⟩ := stack2 hpq hS
  obtain ⟨k1, k2, k3⟩ := side2 hpq hH
  have sym : (S.toM 2 2).transpose = S.toM 2 2 := by
    ext i j
    rw [Matrix.transpose_apply]
    simp only [toM_apply]
    fin_cases i <;> fin_cases j <;> simp [s3, s4, hsym]
  have eS : ∀ i j : Fin 2, (stabM S (1 / 10^12)).e i j = S.e i j + if i = j then 1 / 10^12 else 0 := by
    intro i j
    have := congrFun (congrFun (toM_stabM_symm s1 (1 / 10^12) sym) i) j
    rw [Matrix.add_apply, Matrix.smul_apply, Matrix.one_apply] at this
    simp only [toM_apply] at this
    rw [this]
    split <;> simp
  have d1 : (stabM S (1 / 10^12)).e 0 0 = a + 1 / 10^12 := by rw [show (stabM S (1 / 10^12)).e 0 0 = _ from eS 0 0, ← ea, ← s2]; rfl
  have d2 : (stabM S (1 / 10^12)).e 1 1 = b + 1 / 10^12 := by rw [show (stabM S (1 / 10^12)).e 1 1 = _ from eS 1 1, ← eb, ← s5]; rfl
  have d3 : (stabM S (1 / 10^12)).e 0 1 = x := by rw [show (stabM S (1 / 10^12)).e 0 1 = _ from eS 0 1, ← ex, ← s3]; simp
  have d4 : (stabM S (1 / 10^12)).e 1 0 = x := by rw [show (stabM S (1 / 10^12)).e 1 0 = _ from eS 1 0, ← ex, ← hsym, ← s4]; simp
  have := post2 hc hrj (s1.stabM _) k1 d1 d2 d3 d4 k2 k3 (show (s ρ).e 0 0 = ρ from rfl) (by positivity) (by positivity)
    (by nlinarith [mul_nonneg ha (by norm_num : (0 : ℝ) ≤ 1 / 10^12), mul_nonneg hb (by norm_num : (0 : ℝ) ≤ 1 / 10^12)]) hρ he hj hst
  exact this

/-- The observation `u * x_p + v * x_q` of two scalar instances. -/
noncomputable def ob (p q : ℕ) (u v ρ : ℝ) : Ev := .jointR [(p, s u), (q, s v)] (s ρ) (s 0) 0 cfg

theorem step2 {h : Hdl} {c : Central} (hr : Rel dim h c) (hre : Reach FP.exact near pred dim h) {p q : ℕ} (hpq : p < q) (np : Newest h p 0) (nq : Newest h q 0)
    (fp : c.fix p = false) (fq : c.fix q = false) {u v ρ a b x : ℝ} (ea : (c.cov p p).e 0 0 = a) (eb : (c.cov q q).e 0 0 = b)
    (ex : (c.cov p q).e 0 0 = x) (ha : 0 ≤ a) (hb : 0 ≤ b) (hab : x * x ≤ a * b) (hρ : 0 ≤ ρ) :
    ∃ h' c', run FP.exact near pred h (ob p q u v ρ) = .ok (h', true) ∧ Wf dim h (ob p q u v ρ) ∧ Rel dim h' c' ∧ Reach FP.exact near pred dim h' ∧ c'.tm = c.tm ∧ c'.fix = c.fix ∧
      (∀ o, Newest h o 0 → Newest h' o 0) ∧ Joint2 c.cov c'.cov p q (1 / 10^16) (a + 1 / 10^12) (b + 1 / 10^12) x u v ρ := by
  have hne : p ≠ q := by omega
  have w : Wf dim h (ob p q u v ρ) := by
    refine ⟨by simp [SMap.Sorted, hpq], fun o ho => ?_⟩
    have : o = p ∨ o = q := by simpa [SMap.keys] using ho
    rcases this with rfl | rfl
    · exact np
    · exact nq
  have fx : ∀ o, Newest h o 0 → c.fix o = false → fixedAt h 0 o = false := by
    intro o ho hf
    obtain ⟨h1, h2⟩ := ho.rel hr
    obtain ⟨b, hb, -, -, -, h5⟩ := hr.bel o h1
    rw [h2] at hb
    have hb' : belief h o 0 = some b := hb
    unfold fixedAt
    rw [hb', ← hf, ← h5]
  have f : Fits dim h (ob p q u v ρ) := by
    refine ⟨by simp, ⟨1, ?_, s_shape ρ, s_shape 0⟩, Hdl.Example.gate⟩
    intro e he
    have he' : e = (p, s u) ∨ e = (q, s v) := by simpa using he
    rcases he' with rfl | rfl
    · exact ⟨s_shape u, fx p np fp⟩
    · exact ⟨s_shape v, fx q nq fq⟩
  obtain ⟨h1, a1, e1, g1⟩ := c57_progress (fp := FP.exact) (pred := pred) nearOk hre _ w f
  obtain rfl := g1 rfl
  obtain ⟨c1, s1, r1⟩ := accepted nearOk hr _ w e1
  have d1 := step_dom hr _ w e1
  have hp := hr.covS p p (np.rel hr).1 (np.rel hr).1
  have hq := hr.covS q q (nq.rel hr).1 (nq.rel hr).1
  have hsym : (c.cov q p).e 0 0 = (c.cov p q).e 0 0 := by rw [hr.symm p q (np.rel hr).1 (nq.rel hr).1, tr_e]
  refine ⟨h1, c1, e1, w, r1, Hdl.Example.Reach.step hre w e1, ?_⟩
  have hpart : participants dim c [(p, s u), (q, s v)] = [(p, 1), (q, 1)] := by
    simp [participants, SMap.keys, fp, fq, List.filter, dim]
  have main : c1.tm = c.tm ∧ c1.fix = c.fix ∧ Joint2 c.cov c1.cov p q (1 / 10^16) (a + 1 / 10^12) (b + 1 / 10^12) x u v ρ := by
    unfold ob at s1
    cases s1 with
    | jointR dH R r t cf H S res hH hS hc hrj =>
      rw [hpart] at hS ⊢
      obtain ⟨q1, q2, q3⟩ := corr2 hne hH hS hc hrj hsym ea eb ex ha hb hab hρ (by norm_num [cfg]) rfl rfl
      have hfix : fixPsd near res.Sapos = res.Sapos := by
        unfold fixPsd
        rw [if_pos]
        exact ⟨by rw [q2.1, q2.2], (q1.psd rfl).2⟩
      refine ⟨rfl, rfl, ?_⟩
      rw [hfix]
      exact joint2_entries hne hp hq q3
  refine ⟨main.1, main.2.1, fun o ho => ?_, main.2.2⟩
  exact Newest.of_rel r1 (sameDom_isSome d1 (ho.rel hr).1) (by rw [main.1]; exact (ho.rel hr).2)

/-- The initial belief: variance 1. -/
def b1 : Belief := { mean := s 0, Sigma := s 1, stamp := 0 }

/-- Three initialised instances. -/
noncomputable def h3 : Hdl := [(1, Inst.doInit ⟨[], [], 10⟩ b1 0), (2, Inst.doInit ⟨[], [], 10⟩ b1 0), (3, Inst.doInit ⟨[], [], 10⟩ b1 0)]

noncomputable def c3 : Central where
  tm _ := 0
  mu _ := s 0
  cov p q := if p = q then s 1 else Mat.zero 1 1
  fix _ := false

theorem init3 : Init dim h3 c3 where
  sorted := by simp [h3, SMap.Sorted]
  inst := by
    intro p i hi
    have : i = Inst.doInit ⟨[], [], 10⟩ b1 0 := by
      simp only [h3, SMap.find] at hi
      split at hi
      · exact (Option.some.inj hi).symm
      · split at hi
        · exact (Option.some.inj hi).symm
        · split at hi
          · exact (Option.some.inj hi).symm
          · simp at hi
    exact ⟨10, b1, this, rfl, Nat.one_pos, rfl, rfl, rfl, s_tr 1, rfl, by simp [c3, b1], rfl⟩
  uncorrelated := by intro p q hpq; simp [c3, hpq]; rfl

theorem reach3 : Reach FP.exact near pred dim h3 := ⟨h3, c3, [], init3, Runs.nil _⟩

theorem newest3 {p : ℕ} (hp : p = 1 ∨ p = 2 ∨ p = 3) : Newest h3 p 0 := by
  refine ⟨Inst.doInit ⟨[], [], 10⟩ b1 0, (0, b1), ?_, rfl, rfl⟩
  rcases hp with rfl | rfl | rfl <;> simp [h3, SMap.find]

theorem bil1 (C : Mat) (u v : ℕ → ℝ) : bil C 1 1 u v = u 0 * C.e 0 0 * v 0 := by simp [bil]

/-- Three instances of one state each start with variance 1 and uncorrelated. The differences of 1 and 3 and then of 1 and 2 are observed with noise
1/10, both accepted. Afterwards the covariances of the three, as they are read, are not a covariance: a combination of the three states has a
negative variance. -/
theorem c106_team_fails : ∃ l h', Runs FP.exact near pred dim h3 l h' ∧ (∀ x ∈ l, x.2 = true) ∧ l.map (·.1) = [ob 1 3 1 (-1) (1 / 10), ob 1 2 1 (-1) (1 / 10)] ∧
    (∀ p, p = 1 ∨ p = 2 ∨ p = 3 → Newest h' p 0) ∧
    ∀ C : ℕ → ℕ → Mat, (∀ p ∈ ({1, 2, 3} : Finset ℕ), ∀ q ∈ ({1, 2, 3} : Finset ℕ), IsCov dim h' p q 0 (C p q)) → ¬ TeamCov dim {1, 2, 3} C := by
  have z : ∀ p q, p ≠ q → (c3.cov p q).e 0 0 = 0 := fun p q h => by simp only [c3]; rw [if_neg h]; rfl
  have o : ∀ p, (c3.cov p p).e 0 0 = 1 := fun p => by simp only [c3]; rw [if_pos trivial]; rfl
  obtain ⟨h1, c1, e1, w1, r1, q1, t1, f1, n1, j1⟩ := step2 (u := 1) (v := -1) (ρ := 1 / 10) init3.rel reach3 (p := 1) (q := 3) (by norm_num) (newest3 (by simp)) (newest3 (by simp)) rfl rfl (o 1) (o 3)
    (z 1 3 (by norm_num)) (by norm_num) (by norm_num) (by norm_num) (by norm_num)
  have a11 := j1.pp
  have a13 := j1.pq
  have a33 := j1.qq
  have a12 := j1.left 2 (by norm_num) (by norm_num)
  have a32 := j1.right 2 (by norm_num) (by norm_num)
  have a22 : (c1.cov 2 2).e 0 0 = 1 := by rw [j1.rest 2 2 (by norm_num) (by norm_num) (by norm_num) (by norm_num)]; exact o 2
  rw [z 1 2 (by norm_num), mul_zero] at a12
  rw [z 3 2 (by norm_num), mul_zero] at a32
  have p11 : 0 < (c1.cov 1 1).e 0 0 := by rw [a11]; norm_num [pa]
  obtain ⟨h2, c2, e2, w2, r2, q2, t2, f2, n2, j2⟩ := step2 (u := 1) (v := -1) (ρ := 1 / 10) r1 q1 (p := 1) (q := 2) (by norm_num) (n1 1 (newest3 (by simp))) (n1 2 (newest3 (by simp)))
    (by rw [f1]; rfl) (by rw [f1]; rfl) rfl a22 a12 p11.le (by norm_num) (by linarith) (by norm_num)
  refine ⟨[(_, true), (_, true)], h2, Runs.step w1 e1 (Runs.step w2 e2 (Runs.nil _)), by simp, rfl, fun p hp => n2 p (n1 p (newest3 hp)), fun C hC hT => ?_⟩
  have nn : ∀ p ∈ ({1, 2, 3} : Finset ℕ), Newest h2 p 0 := fun p hp => n2 p (n1 p (newest3 (by simpa using hp)))
  have eC : ∀ p ∈ ({1, 2, 3} : Finset ℕ), ∀ q ∈ ({1, 2, 3} : Finset ℕ), C p q = c2.cov p q := fun p hp q hq =>
    (hC p hp q hq).unique (r2.isCov (nn p hp) (nn q hq))
  have hT' : TeamCov dim {1, 2, 3} c2.cov := hT.congr fun p hp q hq => (eC p hp q hq).symm
  have sy : ∀ p ∈ ({1, 2, 3} : Finset ℕ), ∀ q ∈ ({1, 2, 3} : Finset ℕ), (c2.cov q p).e 0 0 = (c2.cov p q).e 0 0 := fun p hp q hq => by
    rw [r2.symm p q ((nn p hp).rel r2).1 ((nn q hq).rel r2).1, tr_e]
  have b23 : (c2.cov 2 3).e 0 0 = 0 := by
    rw [j2.right 3 (by norm_num) (by norm_num)]
    have : (c1.cov 2 3).e 0 0 = (c1.cov 3 2).e 0 0 := by
      rw [r1.symm 3 2 ((n1 3 (newest3 (by simp))).rel r1).1 ((n1 2 (newest3 (by simp))).rel r1).1, tr_e]
    rw [this, a32, mul_zero]
  have b33 : (c2.cov 3 3).e 0 0 = (c1.cov 3 3).e 0 0 := by rw [j2.rest 3 3 (by norm_num) (by norm_num) (by norm_num) (by norm_num)]
  have b13 := j2.left 3 (by norm_num) (by norm_num)
  have b11 := j2.pp
  have b12 := j2.pq
  have b22 := j2.qq
  have key := hT' fun p _ => if p = 1 then 1 else if p = 2 then -5 / 6 else -5 / 8
  simp only [dim, bil1] at key
  rw [Finset.sum_insert (by simp)] at key
  simp only [Finset.sum_insert (show (1 : ℕ) ∉ ({2, 3} : Finset ℕ) by simp), Finset.sum_insert (show (2 : ℕ) ∉ ({3} : Finset ℕ) by simp), Finset.sum_singleton] at key
  rw [sy 1 (by simp) 2 (by simp), sy 1 (by simp) 3 (by simp), sy 2 (by simp) 3 (by simp), b11, b12, b22, b13, b23, b33, a11, a13, a33] at key
  revert key
  norm_num [pa, pb, px]

/-- The premises of `c106_groups_partial` are met by the first of the two observations, with 1 and 3 in one group and 2 alone: after it
the covariances of the three are a covariance taken together. -/
theorem groups_example : ∃ h', run FP.exact near pred h3 (ob 1 3 1 (-1) (1 / 10)) = .ok (h', true) ∧
    ∃ C, (∀ p ∈ ({1, 2, 3} : Finset ℕ), ∀ q ∈ ({1, 2, 3} : Finset ℕ), IsCov dim h' p q 0 (C p q)) ∧ TeamCov dim {1, 2, 3} C := by
  have z : ∀ p q, p ≠ q → ∀ i j, (c3.cov p q).e i j = 0 := fun p q h i j => by simp only [c3]; rw [if_neg h]; simp [Mat.zero, Mat.of]
  have o : ∀ p, (c3.cov p p).e 0 0 = 1 := fun p => by simp only [c3]; rw [if_pos trivial]; rfl
  obtain ⟨h1, c1, e1, w1, r1, q1, t1, f1, n1, j1⟩ := step2 (u := 1) (v := -1) (ρ := 1 / 10) init3.rel reach3 (p := 1) (q := 3) (by norm_num) (newest3 (by simp)) (newest3 (by simp)) rfl rfl (o 1) (o 3)
    (z 1 3 (by norm_num) 0 0) (by norm_num) (by norm_num) (by norm_num) (by norm_num)
  have nn : ∀ p ∈ ({1, 2, 3} : Finset ℕ), Newest h3 p 0 := fun p hp => newest3 (by simpa using hp)
  refine ⟨h1, e1, ?_⟩
  refine c106_groups_partial (grp := fun p => if p = 2 then 1 else 0) (C := c3.cov) nearOk Hdl.Example.near_cov reach3 nn (fun p hp q hq => init3.rel.isCov (nn p hp) (nn q hq)) ?_ ?_ ?_
    (l := [(ob 1 3 1 (-1) (1 / 10), true)]) ?_ (Runs.step w1 e1 (Runs.nil _)) (Finset.Subset.refl _) (fun p hp => n1 p (nn p hp))
  · intro p hp
    have : p = 1 ∨ p = 2 ∨ p = 3 := by simpa using hp
    rcases this with rfl | rfl | rfl <;> rfl
  · intro x
    have : ∀ p ∈ ({1, 2, 3} : Finset ℕ), ∑ q ∈ ({1, 2, 3} : Finset ℕ), bil (c3.cov p q) (dim p) (dim q) (x p) (x q) = x p 0 * x p 0 := by
      intro p hp
      rw [Finset.sum_eq_single p]
      · show bil (c3.cov p p) 1 1 _ _ = _
        rw [bil1, o]; ring
      · intro q _ hq
        show bil (c3.cov p q) 1 1 _ _ = _
        rw [bil1, z p q (Ne.symm hq)]; ring
      · intro h; exact absurd hp h
    rw [Finset.sum_congr rfl this]
    exact Finset.sum_nonneg fun p _ => mul_self_nonneg _
  · intro p _ q _ hg i j
    exact z p q (fun e => hg (by rw [e])) i j
  · intro x hx
    rw [List.mem_singleton] at hx
    subst hx
    refine ⟨0, fun p hp => ?_⟩
    have : p = 1 ∨ p = 2 ∨ p = 3 := by simpa using hp
    rcases this with rfl | rfl | rfl <;> simp [SMap.keys]

/-- The premises of `c106_pair_partial` are met by the same observation, for the participant 1 and for 2. -/
theorem pair_example : ∃ h', run FP.exact near pred h3 (ob 1 3 1 (-1) (1 / 10)) = .ok (h', true) ∧
    ∃ C C', IsCov dim h3 1 2 0 (C 1 2) ∧ IsCov dim h' 1 2 0 (C' 1 2) ∧ PairBound dim C C' 1 2 (1 / 10^12 + 1 / 10^16) := by
  have z : ∀ p q, p ≠ q → (c3.cov p q).e 0 0 = 0 := fun p q h => by simp only [c3]; rw [if_neg h]; rfl
  have o : ∀ p, (c3.cov p p).e 0 0 = 1 := fun p => by simp only [c3]; rw [if_pos trivial]; rfl
  obtain ⟨h1, c1, e1, w1, r1, q1, t1, f1, n1, j1⟩ := step2 (u := 1) (v := -1) (ρ := 1 / 10) init3.rel reach3 (p := 1) (q := 3) (by norm_num) (newest3 (by simp)) (newest3 (by simp)) rfl rfl (o 1) (o 3)
    (z 1 3 (by norm_num)) (by norm_num) (by norm_num) (by norm_num) (by norm_num)
  refine ⟨h1, e1, ?_⟩
  have hk : ∀ a ∈ SMap.keys [(1, s 1), (3, s (-1))], a = 1 ∨ a = 3 := by simp [SMap.keys]
  have hR : NoiseOk (s (1 / 10)) cfg := by
    refine ⟨?_, ?_, ?_⟩
    · refine ⟨rfl, fun i j => by rw [← tr_e (s (1 / 10)) i j, s_tr], fun y => ?_⟩
      show 0 ≤ ∑ i ∈ Finset.range 1, ∑ j ∈ Finset.range 1, y i * (s (1 / 10)).e i j * y j
      rw [Finset.sum_range_one, Finset.sum_range_one, show (s (1 / 10)).e 0 0 = 1 / 10 from rfl]
      nlinarith [mul_self_nonneg (y 0)]
    · norm_num [cfg]
    · rintro y ⟨i, hi, hy⟩
      have hi0 : i = 0 := by change i < 1 at hi; omega
      subst hi0
      show 0 < (∑ i ∈ Finset.range 1, ∑ j ∈ Finset.range 1, y i * (s (1 / 10)).e i j * y j) + cfg.eps * ∑ i ∈ Finset.range 1, y i * y i
      rw [Finset.sum_range_one, Finset.sum_range_one, Finset.sum_range_one, show (s (1 / 10)).e 0 0 = 1 / 10 from rfl, show cfg.eps = 1 / 10^16 from rfl]
      nlinarith [mul_self_pos.mpr hy]
  have hf : ∀ a ∈ SMap.keys [(1, s 1), (3, s (-1))], fixedAt h3 0 a = false := by
    intro a ha
    rcases hk a ha with rfl | rfl <;> rfl
  obtain ⟨C, C', g1, g2⟩ := c106_pair_partial (p := 1) (q := 2) nearOk reach3 w1.1 w1.2 e1 hR hf (by simp [SMap.keys]) (by simp [SMap.keys]) (newest3 (by simp))
  · have eC : ∀ a b, a = 1 ∨ a = 2 ∨ a = 3 → b = 1 ∨ b = 2 ∨ b = 3 → C a b = c3.cov a b := fun a b ha hb =>
      (g1 a b (newest3 ha) (newest3 hb)).1.unique (init3.rel.isCov (newest3 ha) (newest3 hb))
    have two : ∀ a b, a ≠ b → a = 1 ∨ a = 2 ∨ a = 3 → b = 1 ∨ b = 2 ∨ b = 3 → TeamCov dim {a, b} C := by
      intro a b hne ha hb x
      simp only [dim, bil1]
      rw [Finset.sum_pair hne, Finset.sum_pair hne, Finset.sum_pair hne, eC a a ha ha, eC a b ha hb, eC b a hb ha, eC b b hb hb, o, o, z a b hne, z b a (Ne.symm hne)]
      nlinarith [mul_self_nonneg (x a 0), mul_self_nonneg (x b 0)]
    refine ⟨C, C', (g1 1 2 (newest3 (by simp)) (newest3 (by simp))).1, (g1 1 2 (newest3 (by simp)) (newest3 (by simp))).2, ?_⟩
    refine g2 ?_ (two 1 2 (by norm_num) (by simp) (by simp)) ?_
    · have := two 1 3 (by norm_num) (by simp) (by simp)
      simpa [SMap.keys] using this
    · rintro u ⟨i, hi, hu⟩
      have hi0 : i = 0 := by change i < 1 at hi; omega
      subst hi0
      show 0 < bil (C 1 1) 1 1 u u
      rw [bil1, eC 1 1 (by simp) (by simp), o]
      nlinarith [mul_self_pos.mpr hu]

theorem pair1 {C : ℕ → ℕ → Mat} {p q : ℕ} (hpq : p ≠ q) (hs : (C q p).e 0 0 = (C p q).e 0 0) (x : ℕ → ℕ → ℝ) :
    ∑ a ∈ ({p, q} : Finset ℕ), ∑ b ∈ ({p, q} : Finset ℕ), bil (C a b) (dim a) (dim b) (x a) (x b) =
      (C p p).e 0 0 * (x p 0 * x p 0) + 2 * ((C p q).e 0 0 * (x p 0 * x q 0)) + (C q q).e 0 0 * (x q 0 * x q 0) := by
  simp only [dim, bil1]
  rw [Finset.sum_pair hpq, Finset.sum_pair hpq, Finset.sum_pair hpq, hs]
  ring

/-- The bound of `c106_pair_partial` cannot be improved to zero: 1 and 3 are fully correlated (set by the user), an observation of 1 and 2
that says nothing (zero Jacobians) is accepted, and afterwards the difference of 1 and 3 has a negative variance as read. -/
theorem c106_pair_fails : ∃ h1 h2, run FP.exact near pred h3 (.setCov 1 3 (s 1) 0) = .ok (h1, true) ∧ Reach FP.exact near pred dim h1 ∧
    (∃ C, (∀ p ∈ ({1, 3} : Finset ℕ), ∀ q ∈ ({1, 3} : Finset ℕ), IsCov dim h1 p q 0 (C p q)) ∧ TeamCov dim {1, 3} C) ∧
    run FP.exact near pred h1 (ob 1 2 0 0 1) = .ok (h2, true) ∧
    ∀ C : ℕ → ℕ → Mat, (∀ p ∈ ({1, 3} : Finset ℕ), ∀ q ∈ ({1, 3} : Finset ℕ), IsCov dim h2 p q 0 (C p q)) → ¬ TeamCov dim {1, 3} C := by
  have z : ∀ p q, p ≠ q → (c3.cov p q).e 0 0 = 0 := fun p q h => by simp only [c3]; rw [if_neg h]; rfl
  have o : ∀ p, (c3.cov p p).e 0 0 = 1 := fun p => by simp only [c3]; rw [if_pos trivial]; rfl
  have w1 : Wf dim h3 (.setCov 1 3 (s 1) 0) := ⟨by norm_num, newest3 (by simp), newest3 (by simp), rfl, rfl⟩
  obtain ⟨h1, a1, e1, g1⟩ := c57_progress (fp := FP.exact) (pred := pred) nearOk reach3 _ w1 trivial
  obtain rfl := g1 trivial
  obtain ⟨c1, s1, r1⟩ := accepted nearOk init3.rel _ w1 e1
  have d1 := step_dom init3.rel _ w1 e1
  have q1 := Hdl.Example.Reach.step reach3 w1 e1
  have hc1 : c1 = c3.setCov 1 3 (s 1) := by cases s1; rfl
  subst hc1
  have n1 : ∀ p, p = 1 ∨ p = 2 ∨ p = 3 → Newest h1 p 0 := fun p hp =>
    Newest.of_rel r1 (sameDom_isSome d1 ((newest3 hp).rel init3.rel).1) rfl
  have v11 : ((c3.setCov 1 3 (s 1)).cov 1 1).e 0 0 = 1 := by simp [Central.setCov, o]
  have v33 : ((c3.setCov 1 3 (s 1)).cov 3 3).e 0 0 = 1 := by simp [Central.setCov, o]
  have v22 : ((c3.setCov 1 3 (s 1)).cov 2 2).e 0 0 = 1 := by simp [Central.setCov, o]
  have v12 : ((c3.setCov 1 3 (s 1)).cov 1 2).e 0 0 = 0 := by simp [Central.setCov, z]
  have v13 : ((c3.setCov 1 3 (s 1)).cov 1 3).e 0 0 = 1 := by simp [Central.setCov]; rfl
  have v31 : ((c3.setCov 1 3 (s 1)).cov 3 1).e 0 0 = 1 := by simp [Central.setCov, tr_e]; rfl
  obtain ⟨h2, c2, e2, w2, r2, q2, t2, f2, n2, j2⟩ := step2 (u := 0) (v := 0) (ρ := 1) r1 q1 (p := 1) (q := 2) (by norm_num) (n1 1 (by simp)) (n1 2 (by simp)) rfl rfl
    v11 v22 v12 (by norm_num) (by norm_num) (by norm_num) (by norm_num)
  have m1 : ∀ p ∈ ({1, 3} : Finset ℕ), Newest h1 p 0 := by
    intro p hp
    have : p = 1 ∨ p = 3 := by simpa using hp
    exact n1 p (by omega)
  refine ⟨h1, h2, e1, q1, ⟨_, fun p hp q hq => r1.isCov (m1 p hp) (m1 q hq), fun x => ?_⟩, e2, fun C hC hT => ?_⟩
  · rw [pair1 (by norm_num) (by rw [v31, v13]), v11, v13, v33]
    nlinarith [mul_self_nonneg (x 1 0 + x 3 0)]
  · have m2 : ∀ p ∈ ({1, 3} : Finset ℕ), Newest h2 p 0 := fun p hp => n2 p (m1 p hp)
    have hT' : TeamCov dim {1, 3} c2.cov := hT.congr fun p hp q hq => (r2.isCov (m2 p hp) (m2 q hq)).unique (hC p hp q hq)
    have sy : (c2.cov 3 1).e 0 0 = (c2.cov 1 3).e 0 0 := by
      rw [r2.symm 1 3 ((m2 1 (by simp)).rel r2).1 ((m2 3 (by simp)).rel r2).1, tr_e]
    have key := hT' fun p _ => if p = 1 then 1 else -1
    rw [pair1 (by norm_num) sy, j2.pp, j2.left 3 (by norm_num) (by norm_num), j2.rest 3 3 (by norm_num) (by norm_num) (by norm_num) (by norm_num), v11, v13, v33] at key
    revert key
    norm_num [pa]

end Hdl.TeamEx
end Ikf
