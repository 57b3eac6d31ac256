import Verif.Props.HonestTeam

/-!
# C116: around a loop of observations an instance reports less than its own error

Three instances observe each other in pairs around a triangle. The filters of the first and the third do not know that their errors are
correlated through the second.
-/

namespace Ikf
namespace Honest
open MeasureTheory Mat Hdl
open Hdl.Example (s s_shape s_tr near nearOk pred cfg dim)
open Hdl.TeamEx (h3 c3 init3 reach3 newest3 pa px pb Joint2 corr2 joint2_entries stack2 side2)

/-! ## One joint observation of a difference -/

/-- The gains of an observation of the difference of two scalar states. -/
theorem gain2 {H R r S : Mat} {res : CorrRes} {cfg : Cfg} (hc : correctionStep H R r S cfg = .ok res) (hrj : res.rejected = false) (hS : S.Shape 2 2)
    (cS : IsCovMat S) (hR : NoiseOk R cfg) (hH : H.rows = 1) {a b x h1 h2 ρ : ℝ} (e00 : S.e 0 0 = a) (e11 : S.e 1 1 = b) (e01 : S.e 0 1 = x) (e10 : S.e 1 0 = x) (f0 : H.e 0 0 = h1)
    (f1 : H.e 0 1 = h2) (g0 : R.e 0 0 = ρ) :
    let T := h1 * (h1 * a + h2 * x) + h2 * (h1 * x + h2 * b) + (ρ + cfg.eps)
    res.dx.Shape 2 1 ∧ res.dx.e 0 0 = (h1 * a + h2 * x) / T * r.e 0 0 ∧ res.dx.e 1 0 = (h1 * x + h2 * b) / T * r.e 0 0 := by
  intro T
  obtain ⟨hO, -⟩ := Inst.correctionStep_accept hS cfg res hc hrj
  rw [hH] at hO
  obtain ⟨-, pS⟩ := cS.psd hO.S.1
  obtain ⟨pR, he, pRe⟩ := hR.pd hO.R.1
  obtain ⟨-, q2, -, q4, -⟩ := c18_kalman_update H R r S cfg hO pS pR he pRe res hc
  set K := S.toM 2 2 * (H.toM 1 2).transpose * (H.toM 1 2 * S.toM 2 2 * (H.toM 1 2).transpose + (R.toM 1 1 + cfg.eps • (1 : Matrix (Fin 1) (Fin 1) ℝ)))⁻¹ with hK
  have hT : (H.toM 1 2 * S.toM 2 2 * (H.toM 1 2).transpose + (R.toM 1 1 + cfg.eps • (1 : Matrix (Fin 1) (Fin 1) ℝ))) 0 0 = T := by
    simp [Matrix.mul_apply, Matrix.transpose_apply, e00, e01, e10, e11, f0, f1, g0, T]
    ring
  have hK0 : K 0 0 = (h1 * a + h2 * x) / T := by
    rw [hK, Matrix.inv_subsingleton, Matrix.mul_diagonal, hT, Ring.inverse_eq_inv']
    simp [Matrix.mul_apply, Matrix.transpose_apply, e00, e01, f0, f1]
    ring
  have hK1 : K 1 0 = (h1 * x + h2 * b) / T := by
    rw [hK, Matrix.inv_subsingleton, Matrix.mul_diagonal, hT, Ring.inverse_eq_inv']
    simp [Matrix.mul_apply, Matrix.transpose_apply, e10, e11, f0, f1]
    ring
  have q : ∀ i : Fin 2, res.dx.e i 0 = K i 0 * r.e 0 0 := by
    intro i
    have : res.dx.toM 2 1 i 0 = (K * r.toM 1 1) i 0 := by rw [q4]
    rw [Matrix.mul_apply, Fin.sum_univ_one] at this
    exact this
  exact ⟨q2, by rw [show res.dx.e 0 0 = _ from q 0, hK0], by rw [show res.dx.e 1 0 = _ from q 1, hK1]⟩

/-- The gain of the first of two scalar states with prior variances `a`, `b`, uncorrelated, whose difference is observed with noise 1. -/
noncomputable def gn (a b : ℝ) : ℝ := a / (a + b + (1 + 1 / 10 ^ 16))

/-- The observation `z` of the difference of two scalar instances, noise 1. -/
noncomputable def df (p q : ℕ) (z : Mat) : Ev := .jointZ [(p, s 1), (q, s (-1))] z (s 1) 0 cfg

theorem stepz {h : Hdl} {c : Central} (hr : Rel dim h c) (hre : Reach FP.exact near pred dim h) {p q : ℕ} (hpq : p < q) (np : Newest h p 0) (nq : Newest h q 0)
    (fp : c.fix p = false) (fq : c.fix q = false) {a b : ℝ} (ea : (c.cov p p).e 0 0 = a) (eb : (c.cov q q).e 0 0 = b)
    (ex : (c.cov p q).e 0 0 = 0) (ha : 0 ≤ a) (hb : 0 ≤ b) {z : Mat} (hz : z.Shape 1 1) :
    ∃ h' c', Hdl.run FP.exact near pred h (df p q z) = .ok (h', true) ∧ Wf dim h (df p q z) ∧ Rel dim h' c' ∧ Reach FP.exact near pred dim h' ∧ c'.tm = c.tm ∧ c'.fix = c.fix ∧
      (∀ o, Newest h o 0 → Newest h' o 0) ∧ Joint2 c.cov c'.cov p q (1 / 10^16) (a + 1 / 10^12) (b + 1 / 10^12) 0 1 (-1) 1 ∧
      (c'.mu p).e 0 0 = (c.mu p).e 0 0 + gn (a + 1 / 10^12) (b + 1 / 10^12) * (z.e 0 0 - ((c.mu p).e 0 0 - (c.mu q).e 0 0)) ∧
      (c'.mu q).e 0 0 = (c.mu q).e 0 0 - gn (b + 1 / 10^12) (a + 1 / 10^12) * (z.e 0 0 - ((c.mu p).e 0 0 - (c.mu q).e 0 0)) ∧
      ∀ o, o ≠ p → o ≠ q → c'.mu o = c.mu o := by
  have hne : p ≠ q := by omega
  have w : Wf dim h (df p q z) := by
    refine ⟨by simp [SMap.Sorted, hpq], fun o ho => ?_⟩
    have : o = p ∨ o = q := by simpa [SMap.keys] using ho
    rcases this with rfl | rfl
    · exact np
    · exact nq
  have fx : ∀ o, Newest h o 0 → c.fix o = false → fixedAt h 0 o = false := by
    intro o ho hf
    obtain ⟨h1, h2⟩ := ho.rel hr
    obtain ⟨b, hb, -, -, -, h5⟩ := hr.bel o h1
    rw [h2] at hb
    have hb' : belief h o 0 = some b := hb
    unfold fixedAt
    rw [hb', ← hf, ← h5]
  have f : Fits dim h (df p q z) := by
    refine ⟨by simp, ⟨1, ?_, s_shape 1, hz⟩, Hdl.Example.gate⟩
    intro e he
    have he' : e = (p, s 1) ∨ e = (q, s (-1)) := by simpa using he
    rcases he' with rfl | rfl
    · exact ⟨s_shape _, fx p np fp⟩
    · exact ⟨s_shape _, fx q nq fq⟩
  obtain ⟨h1, a1, e1, g1⟩ := c57_progress (fp := FP.exact) (pred := pred) nearOk hre _ w f
  obtain rfl := g1 rfl
  obtain ⟨c1, s1, r1⟩ := Hdl.accepted nearOk hr _ w e1
  have d1 := step_dom hr _ w e1
  have hp := hr.covS p p (np.rel hr).1 (np.rel hr).1
  have hq := hr.covS q q (nq.rel hr).1 (nq.rel hr).1
  have hsym : (c.cov q p).e 0 0 = (c.cov p q).e 0 0 := by rw [hr.symm p q (np.rel hr).1 (nq.rel hr).1, tr_e]
  refine ⟨h1, c1, e1, w, r1, Hdl.Example.Reach.step hre w e1, ?_⟩
  have hpart : participants dim c [(p, s 1), (q, s (-1))] = [(p, 1), (q, 1)] := by
    simp [participants, SMap.keys, fp, fq, List.filter, dim]
  have l1 : List.lookup q [(p, 1), (q, 1)] = some 1 := by rw [List.lookup, beq_false_of_ne (Ne.symm hne)]; simp [List.lookup]
  have l2 : List.lookup p [(p, 1), (q, 1)] = some 1 := by simp [List.lookup]
  have o1 : off [(p, 1), (q, 1)] p = 0 := by simp [off]
  have o2 : off [(p, 1), (q, 1)] q = 1 := by simp [off, hne]
  have main : c1.tm = c.tm ∧ c1.fix = c.fix ∧ Joint2 c.cov c1.cov p q (1 / 10^16) (a + 1 / 10^12) (b + 1 / 10^12) 0 1 (-1) 1 ∧
      (c1.mu p).e 0 0 = (c.mu p).e 0 0 + gn (a + 1 / 10^12) (b + 1 / 10^12) * (z.e 0 0 - ((c.mu p).e 0 0 - (c.mu q).e 0 0)) ∧
      (c1.mu q).e 0 0 = (c.mu q).e 0 0 - gn (b + 1 / 10^12) (a + 1 / 10^12) * (z.e 0 0 - ((c.mu p).e 0 0 - (c.mu q).e 0 0)) ∧
      ∀ o, o ≠ p → o ≠ q → c1.mu o = c.mu o := by
    unfold df at s1
    cases s1 with
    | jointZ dH z R t cf H S m res hH hS hm hc hrj =>
      rw [hpart] at hS hm ⊢
      obtain ⟨q1, q2, q3⟩ := corr2 hne hH hS hc hrj hsym ea eb ex ha hb (by rw [MulZeroClass.mul_zero]; positivity) (by norm_num) (by norm_num [cfg]) rfl rfl
      have hfix : fixPsd near res.Sapos = res.Sapos := by
        unfold fixPsd
        rw [if_pos]
        exact ⟨by rw [q2.1, q2.2], (q1.psd rfl).2⟩
      obtain ⟨t1, t2, t3, t4, t5⟩ := stack2 hne hS
      obtain ⟨k1, k2, k3⟩ := side2 hne hH
      have sym : (S.toM 2 2).transpose = S.toM 2 2 := by
        ext i j
        rw [Matrix.transpose_apply]
        simp only [toM_apply]
        fin_cases i <;> fin_cases j <;> simp [t3, t4, hsym]
      have eS : ∀ i j : Fin 2, (stabM S (1 / 10^12)).e i j = S.e i j + if i = j then 1 / 10^12 else 0 := by
        intro i j
        have := congrFun (congrFun (toM_stabM_symm t1 (1 / 10^12) sym) i) j
        rw [Matrix.add_apply, Matrix.smul_apply, Matrix.one_apply] at this
        simp only [toM_apply] at this
        rw [this]
        split <;> simp
      have u1 : (stabM S (1 / 10^12)).e 0 0 = a + 1 / 10^12 := by rw [show (stabM S (1 / 10^12)).e 0 0 = _ from eS 0 0, ← ea, ← t2]; rfl
      have u2 : (stabM S (1 / 10^12)).e 1 1 = b + 1 / 10^12 := by rw [show (stabM S (1 / 10^12)).e 1 1 = _ from eS 1 1, ← eb, ← t5]; rfl
      have u3 : (stabM S (1 / 10^12)).e 0 1 = 0 := by simpa [t3, ex] using eS 0 1
      have u4 : (stabM S (1 / 10^12)).e 1 0 = 0 := by simpa [t4, hsym, ex] using eS 1 0
      have cS : IsCovMat (stabM S (1 / 10^12)) := by
        have sh := t1.stabM (1 / 10^12)
        refine ⟨by rw [sh.1, sh.2], fun i j => ?_, fun y => ?_⟩
        · by_cases hij : i < 2 ∧ j < 2
          · obtain ⟨hi, hj⟩ := hij
            interval_cases i <;> interval_cases j <;> first | rfl | rw [u3, u4]
          · rw [Mat.out _ i j (by rw [sh.1, sh.2]; omega), Mat.out _ j i (by rw [sh.1, sh.2]; omega)]
        · rw [sh.1]
          simp only [Finset.sum_range_succ, Finset.sum_range_zero, u1, u2, u3, u4]
          have i1 : 0 ≤ (a + 1 / 10^12) * (y 0 * y 0) := mul_nonneg (by positivity) (mul_self_nonneg _)
          have i2 : 0 ≤ (b + 1 / 10^12) * (y 1 * y 1) := mul_nonneg (by positivity) (mul_self_nonneg _)
          nlinarith
      obtain ⟨g1, g2, g3⟩ := gain2 hc hrj (t1.stabM _) cS noise5 k1 u1 u2 u3 u4 k2 k3 (show (s 1).e 0 0 = 1 from rfl)
      have hmS := hm.1
      have m0 : m.e 0 0 = (c.mu p).e 0 0 := by simpa [o1] using hm.2 (p, 1) (by simp) 0 (by simp)
      have m1 : m.e 1 0 = (c.mu q).e 0 0 := by simpa [o2] using hm.2 (q, 1) (by simp) 0 (by simp)
      have er : (z - H * m).e 0 0 = z.e 0 0 - ((c.mu p).e 0 0 - (c.mu q).e 0 0) := by
        have hz' : (H * m).Shape 1 1 := ⟨k1, hmS.2⟩
        rw [sub_e _ _ (by rw [hz'.1, hz.1]) (by rw [hz'.2, hz.2]), mul_e' _ _ 2 (Or.inr (by rw [hmS.1]; simp [tot])), Finset.sum_range_succ, Finset.sum_range_one, k2, k3, m0, m1]
        ring
      have ee : cfg.eps = 1 / 10 ^ 16 := by norm_num [cfg]
      refine ⟨rfl, rfl, ?_, ?_, ?_, ?_⟩
      · rw [hfix]
        exact joint2_entries hne hp hq q3
      · have : (c.joint [(p, 1), (q, 1)] (fixPsd near res.Sapos) res.dx).mu p = c.mu p + res.dx.block 0 0 1 1 := by
          simp [Central.joint, l2, o1]
        rw [this, add_e _ _ (by rw [(hr.muS p (np.rel hr).1).1]; rfl) (by rw [(hr.muS p (np.rel hr).1).2]; rfl), block_e, if_pos ⟨Nat.one_pos, Nat.one_pos⟩, g2, er, ee, gn]
        congr 2
        ring
      · have : (c.joint [(p, 1), (q, 1)] (fixPsd near res.Sapos) res.dx).mu q = c.mu q + res.dx.block 1 0 1 1 := by
          simp [Central.joint, l1, o2]
        rw [this, add_e _ _ (by rw [(hr.muS q (nq.rel hr).1).1]; rfl) (by rw [(hr.muS q (nq.rel hr).1).2]; rfl), block_e, if_pos ⟨Nat.one_pos, Nat.one_pos⟩, g3, er, ee, gn]
        ring_nf
      · intro o h1 h2
        simp [Central.joint, h1, h2]
  refine ⟨main.1, main.2.1, fun o ho => ?_, main.2.2⟩
  exact Newest.of_rel r1 (sameDom_isSome d1 (ho.rel hr).1) (by rw [main.1]; exact (ho.rel hr).2)

/-! ## Six independent numbers -/

open ProbabilityTheory in
/-- Six independent standard Gaussian numbers. -/
noncomputable def gauss6 : Measure (Fin 6 → ℝ) := Measure.pi fun _ => gaussianReal 0 1

noncomputable instance : IsProbabilityMeasure gauss6 := by unfold gauss6; infer_instance

open ProbabilityTheory in
theorem gauss6_facts (k : Fin 6) : MemLp (fun ω : Fin 6 → ℝ => ω k) 2 gauss6 ∧ ∫ ω : Fin 6 → ℝ, ω k * ω k ∂gauss6 = 1 ∧
    ∀ j, j ≠ k → ∫ ω : Fin 6 → ℝ, ω k * ω j ∂gauss6 = 0 := by
  have hp : ∀ k : Fin 6, MeasurePreserving (Function.eval k) gauss6 (gaussianReal 0 1) := fun k =>
    measurePreserving_eval (fun _ : Fin 6 => gaussianReal 0 1) k
  have hi : iIndepFun (fun (i : Fin 6) (ω : Fin 6 → ℝ) => (fun z : ℝ => z) (ω i)) gauss6 := iIndepFun_pi (X := fun _ z => z) (fun i => by fun_prop)
  have h0 : ∀ k : Fin 6, ∫ ω, ω k ∂gauss6 = 0 := by
    intro k
    have := integral_map (μ := gauss6) (hp k).measurable.aemeasurable (f := fun x : ℝ => x) (by fun_prop)
    rw [(hp k).map_eq, integral_id_gaussianReal] at this
    exact this.symm
  refine ⟨(memLp_id_gaussianReal (μ := 0) (v := 1) 2).comp_measurePreserving (hp k), ?_, ?_⟩
  · have := integral_map (μ := gauss6) (hp k).measurable.aemeasurable (f := fun x : ℝ => x * x) (by fun_prop)
    rw [(hp k).map_eq] at this
    have hv := variance_fun_id_gaussianReal (μ := 0) (v := 1)
    rw [variance_eq_integral (by fun_prop), integral_id_gaussianReal] at hv
    refine this.symm.trans (Eq.trans ?_ (hv.trans (by simp)))
    exact integral_congr_ae (Filter.Eventually.of_forall fun x => by simp [sq])
  · intro j hj
    have := (hi.indepFun (fun h => hj h.symm) : IndepFun (fun ω : Fin 6 → ℝ => ω k) (fun ω => ω j) gauss6).integral_fun_mul_eq_mul_integral
      (measurable_pi_apply k).aestronglyMeasurable (measurable_pi_apply j).aestronglyMeasurable
    rw [this, h0, MulZeroClass.zero_mul]

/-- The mean square of a combination of them. -/
theorem gauss6_sq (c : Fin 6 → ℝ) : ∫ ω : Fin 6 → ℝ, (∑ k, c k * ω k) ^ 2 ∂gauss6 = ∑ k, c k ^ 2 := by
  have i2 : ∀ k j : Fin 6, Integrable (fun ω : Fin 6 → ℝ => c k * c j * (ω k * ω j)) gauss6 := fun k j =>
    (l2_int (show (fun ω : Fin 6 → ℝ => ω k) ∈ sq2 gauss6 from (gauss6_facts k).1) (gauss6_facts j).1).const_mul _
  have e : ∀ ω : Fin 6 → ℝ, (∑ k, c k * ω k) ^ 2 = ∑ k, ∑ j, c k * c j * (ω k * ω j) := by
    intro ω
    rw [sq, Finset.sum_mul_sum]
    exact Finset.sum_congr rfl fun k _ => Finset.sum_congr rfl fun j _ => by ring
  simp only [e]
  rw [integral_finsetSum _ fun k _ => integrable_finsetSum _ fun j _ => i2 k j]
  refine Finset.sum_congr rfl fun k _ => ?_
  rw [integral_finsetSum _ fun j _ => i2 k j, Finset.sum_eq_single k]
  · rw [integral_const_mul, (gauss6_facts k).2.1, _root_.mul_one, sq]
  · intro j _ hj
    rw [integral_const_mul, (gauss6_facts k).2.2 j hj, MulZeroClass.mul_zero]
  · intro h; exact absurd (Finset.mem_univ k) h

/-- The number `k` of them as a random vector. -/
def draw6 (k : Fin 6) : RVec (Fin 6 → ℝ) := fun ω _ => ω k

theorem draw6_uncorr (n m : ℕ) {k j : Fin 6} (h : j ≠ k) : Uncorr gauss6 (n, draw6 k) (m, draw6 j) := fun _ _ _ _ => (gauss6_facts k).2.2 j h

theorem draw6_atMost (k : Fin 6) : AtMost gauss6 1 (draw6 k) (s 1) := by
  refine ⟨fun _ _ => (gauss6_facts k).1, fun y => ?_⟩
  rw [Hdl.TeamEx.bil1]
  simp only [Finset.range_one, Finset.sum_singleton, draw6, mul_pow]
  rw [integral_const_mul]
  have h := (gauss6_facts k).2.1
  simp only [← sq] at h
  rw [h]
  have : (s 1).e 0 0 = 1 := rfl
  rw [this]
  exact le_of_eq (by ring)

/-- The index of the number an instance starts with. -/
def num6 (p : ℕ) : Fin 6 := if p = 1 then 0 else if p = 2 then 1 else 2

/-- The states at the start: instance 1 has the first number, instance 2 the second, all others the third. -/
def start6 (p : ℕ) : RVec (Fin 6 → ℝ) := draw6 (num6 p)

/-- The differences of the states of 1 and 2, of 2 and 3, and of 1 and 3 are measured, with the last three numbers as errors. -/
noncomputable def loop6 : List (NStp (Fin 6 → ℝ)) :=
  [.joint [(1, s 1), (2, s (-1))] (s 1) 0 cfg (draw6 3), .joint [(2, s 1), (3, s (-1))] (s 1) 0 cfg (draw6 4), .joint [(1, s 1), (3, s (-1))] (s 1) 0 cfg (draw6 5)]

theorem loop6_ok : (∀ st ∈ loop6, st.Told gauss6 dim {1, 2, 3}) ∧ (∀ st ∈ loop6, st.Fit dim) ∧ Timed loop6 fun _ => 0 := by
  refine ⟨?_, ?_, ⟨fun _ _ => rfl, fun _ _ => rfl, fun _ _ => rfl, trivial⟩⟩
  · intro st hst
    simp only [loop6, List.mem_cons, List.not_mem_nil, or_false] at hst
    rcases hst with rfl | rfl | rfl
    all_goals
      refine ⟨by simp, ?_, ?_, noise5, draw6_atMost _⟩
      · intro e he
        simp only [List.mem_cons, List.not_mem_nil, or_false] at he
        rcases he with rfl | rfl <;> rfl
      · simp [SMap.keys]
  · intro st hst
    simp only [loop6, List.mem_cons, List.not_mem_nil, or_false] at hst
    rcases hst with rfl | rfl | rfl
    all_goals
      refine ⟨by simp [SMap.Sorted], ?_, rfl⟩
      intro e he
      simp only [List.mem_cons, List.not_mem_nil, or_false] at he
      rcases he with rfl | rfl <;> rfl

theorem start6_err (p : ℕ) : (fun (ω : Fin 6 → ℝ) (i : ℕ) => start6 p ω i - ((fun (_ : Fin 6 → ℝ) (_ : ℕ) => s 0) ω p).e i 0) = draw6 (num6 p) := by
  funext ω i
  have : (s 0).e i 0 = 0 := by
    show (Mat.of 1 1 _).e i 0 = 0
    rw [of_e]
    split <;> rfl
  rw [this, sub_zero, start6]

theorem num6_ne {p q : ℕ} (hp : p = 1 ∨ p = 2 ∨ p = 3) (hq : q = 1 ∨ q = 2 ∨ q = 3) (h : p ≠ q) : num6 q ≠ num6 p := by
  rcases hp with rfl | rfl | rfl <;> rcases hq with rfl | rfl | rfl <;> first | exact absurd rfl h | decide

theorem start6_ok : Start gauss6 FP.exact near pred dim (fun p => p) {1, 2, 3} (fun _ => h3) 0 c3.cov (fun _ _ => s 0) start6 loop6 := by
  have mem : ∀ p ∈ ({1, 2, 3} : Finset ℕ), p = 1 ∨ p = 2 ∨ p = 3 := fun p hp => by simpa using hp
  have nn : ∀ p ∈ ({1, 2, 3} : Finset ℕ), Newest h3 p 0 := fun p hp => newest3 (mem p hp)
  refine ⟨fun _ => reach3, fun _ => nn, fun _ p hp => ?_, fun _ p hp q hq => init3.rel.isCov (nn p hp) (nn q hq), fun _ p hp => init3.rel.isMean (nn p hp), ⟨?_, fun y => ?_⟩, ?_, ?_, ?_⟩
  · rcases mem p hp with rfl | rfl | rfl <;> rfl
  · intro p _ i _
    have := congrFun₂ (start6_err p)
    rw [show (fun ω : Fin 6 → ℝ => start6 p ω i - ((fun (_ : Fin 6 → ℝ) (_ : ℕ) => s 0) ω p).e i 0) = fun ω => ω (num6 p) from funext fun ω => this ω i]
    exact (gauss6_facts _).1
  · have e1 : ∀ ω : Fin 6 → ℝ, (∑ p ∈ ({1, 2, 3} : Finset ℕ), ∑ i ∈ Finset.range (dim p), y p i * (start6 p ω i - ((fun (_ : Fin 6 → ℝ) (_ : ℕ) => s 0) ω p).e i 0)) =
        ∑ k, (![y 1 0, y 2 0, y 3 0, 0, 0, 0] : Fin 6 → ℝ) k * ω k := by
      intro ω
      have e : ∀ p, ∑ i ∈ Finset.range (dim p), y p i * (start6 p ω i - ((fun (_ : Fin 6 → ℝ) (_ : ℕ) => s 0) ω p).e i 0) = y p 0 * ω (num6 p) := by
        intro p
        show ∑ i ∈ Finset.range 1, _ = _
        rw [Finset.sum_range_one]
        exact congrArg _ (congrFun₂ (start6_err p) ω 0)
      rw [Finset.sum_congr rfl fun p _ => e p, Finset.sum_insert (by simp), Finset.sum_insert (by simp), Finset.sum_singleton]
      have n1 : num6 1 = 0 := rfl
      have n2 : num6 2 = 1 := rfl
      have n3 : num6 3 = 2 := rfl
      rw [n1, n2, n3]
      simp [Fin.sum_univ_succ]
    unfold meanSq
    simp only [e1]
    rw [gauss6_sq]
    have e2 : ∀ p ∈ ({1, 2, 3} : Finset ℕ), ∑ q ∈ ({1, 2, 3} : Finset ℕ), bil (c3.cov p q) (dim p) (dim q) (y p) (y q) = y p 0 ^ 2 := by
      intro p hp
      rw [Finset.sum_eq_single p]
      · show bil (c3.cov p p) 1 1 _ _ = _
        rw [Hdl.TeamEx.bil1, c3_diag]
        have : (s 1).e 0 0 = 1 := rfl
        rw [this]; ring
      · intro q _ hq
        show bil (c3.cov p q) 1 1 _ _ = _
        rw [Hdl.TeamEx.bil1, c3_off (Ne.symm hq)]; ring
      · intro h; exact absurd hp h
    rw [Finset.sum_congr rfl e2, Finset.sum_insert (by simp), Finset.sum_insert (by simp), Finset.sum_singleton]
    simp [Fin.sum_univ_succ]
  · intro p hp q hq hne
    refine ⟨c3_off hne, ?_⟩
    rw [start6_err, start6_err]
    exact draw6_uncorr _ _ (num6_ne (mem p hp) (mem q hq) hne)
  · intro st hst p hp
    rw [start6_err]
    simp only [loop6, List.mem_cons, List.not_mem_nil, or_false] at hst
    rcases hst with rfl | rfl | rfl
    all_goals exact draw6_uncorr _ _ (by rcases mem p hp with rfl | rfl | rfl <;> decide)
  · simp only [loop6, List.map_cons, List.map_nil, NStp.noise]
    refine List.pairwise_cons.mpr ⟨?_, List.pairwise_cons.mpr ⟨?_, List.pairwise_singleton _ _⟩⟩
    · intro a ha
      rcases List.mem_cons.mp ha with rfl | ha
      · exact draw6_uncorr _ _ (by decide)
      · rw [List.mem_singleton] at ha
        subst ha
        exact draw6_uncorr _ _ (by decide)
    · intro a ha
      rw [List.mem_singleton] at ha
      subst ha
      exact draw6_uncorr _ _ (by decide)

/-! ## The numbers around the loop -/

/-- The variance of 1 after the first measurement. -/
noncomputable def v1 : ℝ := pa (1 / 10 ^ 16) (1 + 1 / 10 ^ 12) (1 + 1 / 10 ^ 12) 0 1 (-1) 1
/-- The variance of 2 after the first measurement. -/
noncomputable def v2 : ℝ := pb (1 / 10 ^ 16) (1 + 1 / 10 ^ 12) (1 + 1 / 10 ^ 12) 0 1 (-1) 1
/-- The variance of 3 after the second measurement. -/
noncomputable def v3 : ℝ := pb (1 / 10 ^ 16) (v2 + 1 / 10 ^ 12) (1 + 1 / 10 ^ 12) 0 1 (-1) 1
/-- The variance of 1 at the end. -/
noncomputable def v4 : ℝ := pa (1 / 10 ^ 16) (v1 + 1 / 10 ^ 12) (v3 + 1 / 10 ^ 12) 0 1 (-1) 1
/-- The gains. -/
noncomputable def k1 : ℝ := gn (1 + 1 / 10 ^ 12) (1 + 1 / 10 ^ 12)
/-- The gains. -/
noncomputable def k2 : ℝ := gn (1 + 1 / 10 ^ 12) (v2 + 1 / 10 ^ 12)
/-- The gains. -/
noncomputable def k3 : ℝ := gn (v1 + 1 / 10 ^ 12) (v3 + 1 / 10 ^ 12)

/-- The error of the estimate of 1 at the end in terms of the six numbers. -/
noncomputable def ce : Fin 6 → ℝ := ![1 - ((1 - k3) * k1 + k3 - k3 * k2 * k1), (1 - k3) * k1 + k3 * k2 * (1 - k1), k3 * (1 - k2), -((1 - k3) * k1 - k3 * k2 * k1), k3 * k2, -k3]

theorem v1_pos : 0 ≤ v1 ∧ 0 ≤ v2 ∧ 0 ≤ v3 := by
  have h2 : 0 ≤ v2 := by norm_num [v2, pb]
  refine ⟨by norm_num [v1, pa], h2, ?_⟩
  norm_num [v3, v2, pb]

theorem less : v4 < ∑ k, ce k ^ 2 := by
  simp only [Fin.sum_univ_succ, ce]
  norm_num [v4, v3, v2, v1, k1, k2, k3, gn, pa, pb, Fin.succ]

/-- The measurement of a difference. -/
theorem z_eq (p q : ℕ) (k : Fin 6) (ω : Fin 6 → ℝ) : ∃ z : Mat, z.Shape 1 1 ∧ z.e 0 0 = ω (num6 p) - ω (num6 q) + ω k ∧
    (NStp.joint [(p, s 1), (q, s (-1))] (s 1) 0 cfg (draw6 k)).call dim start6 ω = df p q z := by
  refine ⟨_, ⟨rfl, rfl⟩, ?_, rfl⟩
  have e1 : (s 1).rows = 1 := rfl
  have e2 : (s 1).e 0 0 = 1 := rfl
  have e3 : (s (-1)).e 0 0 = -1 := rfl
  have d : ∀ p, dim p = 1 := fun _ => rfl
  rw [of_e, if_pos ⟨by rw [e1]; exact Nat.one_pos, Nat.one_pos⟩]
  simp [app, d, e2, e3, start6, draw6]
  ring

theorem one_eq {M : Mat} (h : M.Shape 1 1) {v : ℝ} (e : M.e 0 0 = v) : M = s v := by
  refine Mat.ext' h.1 h.2 fun i j hi hj => ?_
  rw [h.1] at hi
  rw [h.2] at hj
  obtain rfl : i = 0 := by omega
  obtain rfl : j = 0 := by omega
  rw [e]
  rfl

/-- The three calls. -/
theorem loop_run (ω : Fin 6 → ℝ) : ∃ h' m, Runs FP.exact near pred dim h3 ((teamScript dim loop6 start6 ω).map (·, true)) h' ∧ Newest h' 1 0 ∧ IsCov dim h' 1 1 0 (s v4) ∧
    IsMean h' 1 0 m ∧ start6 1 ω 0 - m.e 0 0 = ∑ k, ce k * ω k := by
  obtain ⟨p1, p2, p3⟩ := v1_pos
  obtain ⟨z1, hz1, ez1, cz1⟩ := z_eq 1 2 3 ω
  obtain ⟨z2, hz2, ez2, cz2⟩ := z_eq 2 3 4 ω
  obtain ⟨z3, hz3, ez3, cz3⟩ := z_eq 1 3 5 ω
  have n1 := newest3 (p := 1) (by simp)
  have n2 := newest3 (p := 2) (by simp)
  have n3 := newest3 (p := 3) (by simp)
  have s1 : ∀ x, (s x).e 0 0 = x := fun _ => rfl
  obtain ⟨g1, c1, r1, w1, R1, Re1, t1, f1, N1, J1, a1, b1, o1⟩ := stepz init3.rel reach3 (p := 1) (q := 2) (by omega) n1 n2 rfl rfl (a := 1) (b := 1) (by rw [c3_diag, s1])
    (by rw [c3_diag, s1]) (c3_off (by omega) 0 0) (by norm_num) (by norm_num) hz1
  have x1 : (c1.cov 2 3).e 0 0 = 0 := by rw [J1.right 3 (by omega) (by omega), c3_off (p := 2) (q := 3) (by omega), MulZeroClass.mul_zero]
  have y1 : (c1.cov 1 3).e 0 0 = 0 := by rw [J1.left 3 (by omega) (by omega), c3_off (p := 1) (q := 3) (by omega), MulZeroClass.mul_zero]
  have u1 : (c1.cov 3 3).e 0 0 = 1 := by rw [J1.rest 3 3 (by omega) (by omega) (by omega) (by omega), c3_diag, s1]
  obtain ⟨g2, c2, r2, w2, R2, Re2, t2, f2, N2, J2, a2, b2, o2⟩ := stepz R1 Re1 (p := 2) (q := 3) (by omega) (N1 2 n2) (N1 3 n3) (by rw [f1]; rfl) (by rw [f1]; rfl) (a := v2) (b := 1) J1.qq
    u1 x1 p2 (by norm_num) hz2
  have M1 := N2 1 (N1 1 n1)
  have M3 := N2 3 (N1 3 n3)
  have y1' : (c1.cov 3 1).e 0 0 = 0 := by rw [R1.symm 1 3 ((N1 1 n1).rel R1).1 ((N1 3 n3).rel R1).1, tr_e, y1]
  have y2 : (c2.cov 1 3).e 0 0 = 0 := by
    rw [R2.symm 3 1 (M3.rel R2).1 (M1.rel R2).1, tr_e, J2.right 1 (by omega) (by omega), y1', MulZeroClass.mul_zero]
  have u2 : (c2.cov 1 1).e 0 0 = v1 := by rw [J2.rest 1 1 (by omega) (by omega) (by omega) (by omega), J1.pp]; rfl
  obtain ⟨g3, c3', r3, w3, R3, Re3, t3, f3, N3, J3, a3, b3, o3⟩ := stepz R2 Re2 (p := 1) (q := 3) (by omega) M1 M3 (by rw [f2, f1]; rfl) (by rw [f2, f1]; rfl) (a := v1) (b := v3) u2
    J2.qq y2 p1 p3 hz3
  have L1 := N3 1 M1
  refine ⟨g3, c3'.mu 1, ?_, L1, ?_, R3.isMean L1, ?_⟩
  · show Runs FP.exact near pred dim h3 [(_, true), (_, true), (_, true)] g3
    refine Runs.step (h1 := g1) ?_ ?_ (Runs.step (h1 := g2) ?_ ?_ (Runs.step (h1 := g3) ?_ ?_ (Runs.nil _)))
    · exact cz1 ▸ w1
    · exact cz1 ▸ r1
    · exact cz2 ▸ w2
    · exact cz2 ▸ r2
    · exact cz3 ▸ w3
    · exact cz3 ▸ r3
  · have := R3.isCov L1 L1
    rwa [one_eq (R3.covS 1 1 (L1.rel R3).1 (L1.rel R3).1) (show (c3'.cov 1 1).e 0 0 = v4 from J3.pp)] at this
  · have m0 : ∀ p, (c3.mu p).e 0 0 = 0 := fun _ => rfl
    have q1 : num6 1 = 0 := rfl
    have q2 : num6 2 = 1 := rfl
    have q3 : num6 3 = 2 := rfl
    rw [o2 1 (by omega) (by omega)] at a3
    rw [o1 3 (by omega) (by omega)] at b2
    rw [a3, b2, a1, b1, m0, m0, m0, ez1, ez2, ez3, q1, q2, q3]
    have e : ∑ k, ce k * ω k = ce 0 * ω 0 + ce 1 * ω 1 + ce 2 * ω 2 + ce 3 * ω 3 + ce 4 * ω 4 + ce 5 * ω 5 := by
      simp only [Fin.sum_univ_succ, Fin.sum_univ_zero]
      simp only [add_assoc, add_zero]
      rfl
    rw [e]
    show ω 0 - (0 + k1 * (ω 0 - ω 1 + ω 3 - (0 - 0)) + k3 * (ω 0 - ω 2 + ω 5 - (0 + k1 * (ω 0 - ω 1 + ω 3 - (0 - 0)) -
      (0 - k2 * (ω 1 - ω 2 + ω 4 - (0 - k1 * (ω 0 - ω 1 + ω 3 - (0 - 0)) - 0)))))) = (1 - ((1 - k3) * k1 + k3 - k3 * k2 * k1)) * ω 0 + ((1 - k3) * k1 + k3 * k2 * (1 - k1)) * ω 1 +
        k3 * (1 - k2) * ω 2 + -((1 - k3) * k1 - k3 * k2 * k1) * ω 3 + k3 * k2 * ω 4 + -k3 * ω 5
    ring

/-- Not even the variance an instance reports for itself is right when the joint measurements do not follow groups: three instances with independent errors of
variance 1 are told the truth about everything. The differences of 1 and 2, of 2 and 3, and of 1 and 3 are measured, all calls are accepted whatever chance
is, and at the end instance 1 reports a variance smaller than the mean squared error of its own estimate. -/
theorem c116_own_fails : ∃ (l : List (NStp (Fin 6 → ℝ))) (x : ℕ → RVec (Fin 6 → ℝ)) (h' : (Fin 6 → ℝ) → Hdl) (C : Mat) (m' : (Fin 6 → ℝ) → Mat),
    Start gauss6 FP.exact near pred dim (fun p => p) {1, 2, 3} (fun _ => h3) 0 c3.cov (fun _ _ => s 0) x l ∧
    (∀ st ∈ l, st.Told gauss6 dim {1, 2, 3}) ∧ (∀ st ∈ l, st.Fit dim) ∧ Timed l (fun _ => 0) ∧
    (∀ ω, Runs FP.exact near pred dim h3 ((teamScript dim l x ω).map (·, true)) (h' ω)) ∧
    (∀ ω, Newest (h' ω) 1 0 ∧ IsCov dim (h' ω) 1 1 0 C ∧ IsMean (h' ω) 1 0 (m' ω)) ∧
    C.e 0 0 < ∫ ω, (teamTruth dim l x 1 ω 0 - (m' ω).e 0 0) ^ 2 ∂gauss6 := by
  choose h' m' q1 q2 q3 q4 q5 using loop_run
  refine ⟨loop6, start6, h', s v4, m', start6_ok, loop6_ok.1, loop6_ok.2.1, loop6_ok.2.2, q1, fun ω => ⟨q2 ω, q3 ω, q4 ω⟩, ?_⟩
  have e : ∀ ω, teamTruth dim loop6 start6 1 ω 0 - (m' ω).e 0 0 = ∑ k, ce k * ω k := q5
  simp only [e]
  rw [gauss6_sq]
  exact less

end Honest
end Ikf
