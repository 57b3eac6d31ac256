import Verif.Model.SampleStats
import Verif.Spec.Covariance
import Verif.Props.Convert
import Mathlib.Algebra.BigOperators.Fin
import Mathlib.Tactic.FieldSimp
import Mathlib.Probability.Independence.Integration
import Mathlib.Probability.Distributions.Gaussian.Real

/-! # Property C114: mean and covariance of samples -/

namespace Ikf
namespace Conv

/-! ## Specification -/

/-- The mean of the component `i` of the samples. -/
noncomputable def avg (vs : List Mat) (i : ℕ) : ℝ := (∑ k : Fin vs.length, vs[k].e i 0) / vs.length

/-- The sample covariance of the components `i` and `j`. -/
noncomputable def scov (vs : List Mat) (i j : ℕ) : ℝ :=
  (∑ k : Fin vs.length, (vs[k].e i 0 - avg vs i) * (vs[k].e j 0 - avg vs j)) / ((vs.length : ℝ) - 1)

/-! ## Proofs -/

theorem stats_cols (g : ℕ → ℕ → ℝ) (M : Mat) (vs : List Mat) (hN : 0 < vs.length) (hc : M.cols = vs.length)
    (he : ∀ i (k : Fin vs.length), i < M.rows → M.e i k = vs[k].e i 0) :
    (∀ i, i < M.rows → (rowwiseMean g M).e i 0 = avg vs i) ∧
    ∀ i j, i < M.rows → j < M.rows →
      ((colwiseSub M (rowwiseMean g M)) * (colwiseSub M (rowwiseMean g M)).tr).e i j =
        ∑ k : Fin vs.length, (vs[k].e i 0 - avg vs i) * (vs[k].e j 0 - avg vs j) := by
  have h1 : ∀ i, i < M.rows → (rowwiseMean g M).e i 0 = avg vs i := by
    intro i hi
    rw [rowwiseMean, Mat.of_e, if_pos ⟨hi, Nat.zero_lt_one⟩, if_neg (by omega), hc, Finset.sum_range, avg]
    congr 1
    exact Finset.sum_congr rfl fun k _ => he i k hi
  refine ⟨h1, fun i j hi hj => ?_⟩
  rw [Mat.mul_e]
  have hcc : (colwiseSub M (rowwiseMean g M)).cols = vs.length := hc
  rw [hcc, Finset.sum_range]
  refine Finset.sum_congr rfl fun k _ => ?_
  have hk : (k : ℕ) < M.cols := by rw [hc]; exact k.2
  rw [Mat.tr_e, colwiseSub, Mat.of_e, Mat.of_e, if_pos ⟨hi, hk⟩, if_pos ⟨hj, hk⟩, he i k hi, he j k hj, h1 i hi, h1 j hj]

theorem fill_cols (dim : ℕ) (vs : List Mat) :
    ∃ M, loop (fun c M => do putCol M c (← vat vs c)) vs.length (Mat.zero dim vs.length) = .ok M ∧ M.rows = dim ∧ M.cols = vs.length ∧
      ∀ i (k : Fin vs.length), i < dim → M.e i k = vs[k].e i 0 := by
  obtain ⟨M, h, h1, h2, h3⟩ := c113_columns (fun _ _ => 0) dim vs
  exact ⟨M, h, h1, h2, fun i k hi => h3 i k k.2 hi⟩

/-- C114: for at least two samples, the covariance computed from them has the entries of the sample covariance (the sum of the products of the
deviations from the mean, divided by the number of samples less one). -/
theorem c114_entry (g : ℕ → ℕ → ℝ) (dim : ℕ) (vs : List Mat) (hN : 2 ≤ vs.length) :
    ∃ Q, sampleCovariance g dim vs = .ok Q ∧ Q.rows = dim ∧ Q.cols = dim ∧ ∀ i j, i < dim → j < dim → Q.e i j = scov vs i j := by
  obtain ⟨M, h, h1, h2, h3⟩ := fill_cols dim vs
  obtain ⟨-, hs⟩ := stats_cols g M vs (by omega) h2 (fun i k hi => h3 i k (by omega))
  refine ⟨divBy g (colwiseSub M (rowwiseMean g M) * (colwiseSub M (rowwiseMean g M)).tr) ((vs.length - 1 : ℕ) : ℝ),
    by rw [sampleCovariance, if_pos (by omega), h]; rfl, h1, h1, fun i j hi hj => ?_⟩
  have hN' : (2 : ℝ) ≤ vs.length := by exact_mod_cast hN
  have hd : ((vs.length - 1 : ℕ) : ℝ) = (vs.length : ℝ) - 1 := by rw [Nat.cast_sub (by omega), Nat.cast_one]
  have hb : i < (colwiseSub M (rowwiseMean g M) * (colwiseSub M (rowwiseMean g M)).tr).rows ∧
      j < (colwiseSub M (rowwiseMean g M) * (colwiseSub M (rowwiseMean g M)).tr).cols := by
    refine ⟨?_, ?_⟩
    · show i < M.rows; omega
    · show j < M.rows; omega
  rw [divBy, Mat.of_e, if_pos hb, hd, if_neg (by linarith), hs i j (by omega) (by omega), scov]

/-- C114: both functions agree: for the matrix whose columns are the samples, `calc_cov_mean` yields the same covariance as `sample_covariance`, and
the mean of every component. -/
theorem c114_agree (g : ℕ → ℕ → ℝ) (dim : ℕ) (vs : List Mat) (hN : 2 ≤ vs.length) :
    ∃ M Q mu, toEigenColMatrix g dim vs = .ok M ∧ calcCovMean g M = (Q, mu) ∧ sampleCovariance g dim vs = .ok Q ∧
      mu.rows = dim ∧ mu.cols = 1 ∧ ∀ i, i < dim → mu.e i 0 = avg vs i := by
  obtain ⟨M, h, h1, h2, h3⟩ := c113_columns g dim vs
  obtain ⟨hm, hs⟩ := stats_cols g M vs (by omega) h2 (fun i k hi => h3 i k k.2 (by omega))
  obtain ⟨Q, q1, q2, q3, q4⟩ := c114_entry g dim vs hN
  refine ⟨M, Q, _, h, Prod.ext ?_ rfl, q1, h1, rfl, fun i hi => hm i (by omega)⟩
  have hN' : (2 : ℝ) ≤ vs.length := by exact_mod_cast hN
  refine Mat.ext' (by rw [q2]; exact h1) (by rw [q3]; exact h1) fun i j hi hj => ?_
  have hi' : i < dim := by rw [← h1]; exact hi
  have hj' : j < dim := by rw [← h1]; exact hj
  rw [q4 i j hi' hj']
  show (divBy g _ _).e i j = _
  rw [divBy, Mat.of_e, if_pos ⟨hi, hj⟩, h2, if_neg (by linarith), hs i j (by omega) (by omega), scov]

theorem scov_comm (vs : List Mat) (i j : ℕ) : scov vs i j = scov vs j i := by
  unfold scov
  congr 1
  exact Finset.sum_congr rfl fun k _ => _root_.mul_comm _ _

/-- The variance of a linear combination of the components. -/
theorem scov_quad (vs : List Mat) (n m : ℕ) (x y : ℕ → ℝ) :
    ∑ i ∈ Finset.range n, ∑ j ∈ Finset.range m, x i * scov vs i j * y j =
      (∑ k : Fin vs.length, (∑ i ∈ Finset.range n, x i * (vs[k].e i 0 - avg vs i)) * ∑ j ∈ Finset.range m, y j * (vs[k].e j 0 - avg vs j)) /
        ((vs.length : ℝ) - 1) := by
  have hk : ∀ k : Fin vs.length,
      (∑ i ∈ Finset.range n, x i * (vs[k].e i 0 - avg vs i)) * ∑ j ∈ Finset.range m, y j * (vs[k].e j 0 - avg vs j) =
      ∑ i ∈ Finset.range n, ∑ j ∈ Finset.range m, x i * ((vs[k].e i 0 - avg vs i) * (vs[k].e j 0 - avg vs j)) * y j := by
    intro k
    rw [Finset.sum_mul_sum]
    exact Finset.sum_congr rfl fun i _ => Finset.sum_congr rfl fun j _ => by ring
  simp only [hk]
  rw [Finset.sum_comm (s := (Finset.univ : Finset (Fin vs.length))), Finset.sum_div]
  refine Finset.sum_congr rfl fun i _ => ?_
  rw [Finset.sum_comm (s := (Finset.univ : Finset (Fin vs.length))), Finset.sum_div]
  refine Finset.sum_congr rfl fun j _ => ?_
  rw [← Finset.sum_mul, ← Finset.mul_sum, scov]
  ring

/-- C114: it is a covariance matrix: symmetric, and no linear combination of the components has a negative variance. -/
theorem c114_covariance (g : ℕ → ℕ → ℝ) (dim : ℕ) (vs : List Mat) (hN : 2 ≤ vs.length) :
    ∃ Q, sampleCovariance g dim vs = .ok Q ∧ Q.rows = dim ∧ IsCovMat Q := by
  obtain ⟨Q, q1, q2, q3, q4⟩ := c114_entry g dim vs hN
  have hN' : (2 : ℝ) ≤ vs.length := by exact_mod_cast hN
  refine ⟨Q, q1, q2, by omega, fun i j => ?_, fun x => ?_⟩
  · by_cases h : i < dim ∧ j < dim
    · rw [q4 i j h.1 h.2, q4 j i h.2 h.1, scov_comm]
    · rw [Q.out i j (by omega), Q.out j i (by omega)]
  · have he : ∑ i ∈ Finset.range Q.rows, ∑ j ∈ Finset.range Q.rows, x i * Q.e i j * x j =
        ∑ i ∈ Finset.range dim, ∑ j ∈ Finset.range dim, x i * scov vs i j * x j := by
      rw [q2]
      exact Finset.sum_congr rfl fun i hi => Finset.sum_congr rfl fun j hj => by
        rw [q4 i j (Finset.mem_range.mp hi) (Finset.mem_range.mp hj)]
    rw [he, scov_quad]
    exact div_nonneg (Finset.sum_nonneg fun k _ => mul_self_nonneg _) (by linarith)

/-- C114: the order of the samples does not matter. -/
theorem c114_order (g : ℕ → ℕ → ℝ) (dim : ℕ) (vs ws : List Mat) (hN : 2 ≤ vs.length) (hp : vs.Perm ws) :
    sampleCovariance g dim vs = sampleCovariance g dim ws := by
  have hl := hp.length_eq
  have ha : ∀ i, avg vs i = avg ws i := by
    intro i
    unfold avg
    rw [show (∑ k : Fin vs.length, vs[k].e i 0) = (vs.map fun v => v.e i 0).sum from Fin.sum_univ_fun_getElem vs fun v => v.e i 0,
      show (∑ k : Fin ws.length, ws[k].e i 0) = (ws.map fun v => v.e i 0).sum from Fin.sum_univ_fun_getElem ws fun v => v.e i 0,
      (hp.map _).sum_eq, hl]
  have hs : ∀ i j, scov vs i j = scov ws i j := by
    intro i j
    unfold scov
    rw [ha i, ha j, show (∑ k : Fin vs.length, (vs[k].e i 0 - avg ws i) * (vs[k].e j 0 - avg ws j)) = _ from
        Fin.sum_univ_fun_getElem vs fun v => (v.e i 0 - avg ws i) * (v.e j 0 - avg ws j),
      show (∑ k : Fin ws.length, (ws[k].e i 0 - avg ws i) * (ws[k].e j 0 - avg ws j)) = _ from
        Fin.sum_univ_fun_getElem ws fun v => (v.e i 0 - avg ws i) * (v.e j 0 - avg ws j), (hp.map _).sum_eq, hl]
  obtain ⟨Q, q1, q2, q3, q4⟩ := c114_entry g dim vs hN
  obtain ⟨P, p1, p2, p3, p4⟩ := c114_entry g dim ws (by omega)
  rw [q1, p1]
  congr 1
  refine Mat.ext' (by omega) (by omega) fun i j hi hj => ?_
  rw [q4 i j (by omega) (by omega), p4 i j (by omega) (by omega), hs]

/-- C114: samples that are all transformed by x ↦ A x + b have the covariance A Q Aᵀ. -/
theorem c114_affine (g : ℕ → ℕ → ℝ) (dim : ℕ) (A b : Mat) (vs : List Mat) (hN : 2 ≤ vs.length) (hA : A.cols = dim) (hb : b.rows = A.rows)
    (hb1 : b.cols = 1) (hv : ∀ v ∈ vs, v.rows = dim ∧ v.cols = 1) :
    ∃ Q, sampleCovariance g dim vs = .ok Q ∧ sampleCovariance g A.rows (vs.map fun v => A * v + b) = .ok (A * Q * A.tr) := by
  obtain ⟨Q, q1, q2, q3, q4⟩ := c114_entry g dim vs hN
  obtain ⟨P, p1, p2, p3, p4⟩ := c114_entry g A.rows (vs.map fun v => A * v + b) (by simpa using hN)
  refine ⟨Q, q1, p1.trans ?_⟩
  have hN' : (2 : ℝ) ≤ vs.length := by exact_mod_cast hN
  have he : ∀ i (k : Fin vs.length), (A * vs[k] + b).e i 0 = (∑ l ∈ Finset.range dim, A.e i l * vs[k].e l 0) + b.e i 0 := by
    intro i k
    have hk := hv _ (List.getElem_mem k.2)
    rw [Mat.add_e (A * vs[k]) b hb (by rw [hb1]; exact hk.2.symm), Mat.mul_e, hA]
  have hav : ∀ i, avg (vs.map fun v => A * v + b) i = (∑ l ∈ Finset.range dim, A.e i l * avg vs l) + b.e i 0 := by
    intro i
    unfold avg
    rw [show (∑ k : Fin (vs.map fun v => A * v + b).length, (vs.map fun v => A * v + b)[k].e i 0) = _ from
        Fin.sum_univ_fun_getElem (vs.map fun v => A * v + b) fun v => v.e i 0, List.map_map,
      ← Fin.sum_univ_fun_getElem vs ((fun v : Mat => v.e i 0) ∘ fun v => A * v + b), List.length_map]
    have h1 : (∑ k : Fin vs.length, ((fun v : Mat => v.e i 0) ∘ fun v => A * v + b) vs[k.1]) =
        (∑ l ∈ Finset.range dim, A.e i l * ∑ k : Fin vs.length, vs[k].e l 0) + vs.length * b.e i 0 := by
      rw [show (∑ k : Fin vs.length, ((fun v : Mat => v.e i 0) ∘ fun v => A * v + b) vs[k.1]) = ∑ k : Fin vs.length, (A * vs[k] + b).e i 0
        from rfl, Finset.sum_congr rfl (fun k _ => he i k), Finset.sum_add_distrib, Finset.sum_comm]
      congr 1
      · exact Finset.sum_congr rfl fun l _ => by rw [Finset.mul_sum]
      · simp
    rw [h1, add_div, Finset.sum_div]
    congr 1
    · exact Finset.sum_congr rfl fun l _ => by rw [mul_div_assoc]
    · field_simp
  have hsc : ∀ i j, scov (vs.map fun v => A * v + b) i j =
      ∑ k ∈ Finset.range dim, ∑ l ∈ Finset.range dim, A.e i k * scov vs k l * A.e j l := by
    intro i j
    rw [scov_quad, scov]
    rw [show (∑ k : Fin (vs.map fun v => A * v + b).length, ((vs.map fun v => A * v + b)[k].e i 0 - avg (vs.map fun v => A * v + b) i) *
          ((vs.map fun v => A * v + b)[k].e j 0 - avg (vs.map fun v => A * v + b) j)) = _ from
        Fin.sum_univ_fun_getElem (vs.map fun v => A * v + b) fun v => (v.e i 0 - avg (vs.map fun v => A * v + b) i) *
          (v.e j 0 - avg (vs.map fun v => A * v + b) j), List.map_map, ← Fin.sum_univ_fun_getElem vs, List.length_map]
    congr 1
    refine Finset.sum_congr rfl fun k _ => ?_
    have hd : ∀ i, (A * vs[k] + b).e i 0 - avg (vs.map fun v => A * v + b) i =
        ∑ l ∈ Finset.range dim, A.e i l * (vs[k].e l 0 - avg vs l) := by
      intro i
      rw [he, hav, Finset.sum_congr rfl fun l _ => _root_.mul_sub _ _ _, Finset.sum_sub_distrib]
      ring
    rw [← hd i, ← hd j]
    rfl
  congr 1
  refine Mat.ext' (by rw [p2]; rfl) (by rw [p3]; rfl) fun i j hi hj => ?_
  rw [p4 i j (by omega) (by omega), hsc, Mat.mul_e]
  have hcc : (A * Q).cols = dim := q3
  rw [hcc, Finset.sum_comm]
  refine Finset.sum_congr rfl fun l hl => ?_
  rw [Mat.mul_e, hA, Mat.tr_e, Finset.sum_mul]
  exact Finset.sum_congr rfl fun k hk => by rw [q4 k l (Finset.mem_range.mp hk) (Finset.mem_range.mp hl)]

/-- C114: the variance of a component is zero exactly if all samples agree in it. -/
theorem c114_zero (g : ℕ → ℕ → ℝ) (dim : ℕ) (vs : List Mat) (hN : 2 ≤ vs.length) (i : ℕ) (hi : i < dim) :
    ∃ Q, sampleCovariance g dim vs = .ok Q ∧ (Q.e i i = 0 ↔ ∀ v ∈ vs, ∀ w ∈ vs, v.e i 0 = w.e i 0) := by
  obtain ⟨Q, q1, q2, q3, q4⟩ := c114_entry g dim vs hN
  have hN' : (2 : ℝ) ≤ vs.length := by exact_mod_cast hN
  refine ⟨Q, q1, ?_⟩
  rw [q4 i i hi hi, scov, div_eq_zero_iff, or_iff_left (by linarith),
    Finset.sum_eq_zero_iff_of_nonneg fun k _ => mul_self_nonneg _]
  constructor
  · intro h
    have hall : ∀ v ∈ vs, v.e i 0 = avg vs i := by
      intro v hv
      obtain ⟨k, hk, rfl⟩ := List.getElem_of_mem hv
      have := mul_self_eq_zero.mp (h ⟨k, hk⟩ (Finset.mem_univ _))
      exact sub_eq_zero.mp this
    intro v hv w hw
    rw [hall v hv, hall w hw]
  · intro h k _
    have hav : avg vs i = vs[k].e i 0 := by
      unfold avg
      rw [Finset.sum_congr rfl fun l _ => h _ (List.getElem_mem l.2) _ (List.getElem_mem k.2)]
      rw [Finset.sum_const, Finset.card_univ, Fintype.card_fin, nsmul_eq_mul]
      field_simp
      rfl
    rw [hav]
    ring

/-- C114: with a single sample (0/0), or none, the result has nothing to do with the samples: it may have any value. -/
theorem c114_few_fails (dim : ℕ) (vs : List Mat) (hN : vs.length < 2) (i j : ℕ) (hi : i < dim) (hj : j < dim) (x : ℝ) :
    ∃ g Q, sampleCovariance g dim vs = .ok Q ∧ Q.e i j = x := by
  refine ⟨fun _ _ => x, ?_⟩
  rw [sampleCovariance]
  by_cases h0 : 0 < vs.length
  · rw [if_pos h0]
    obtain ⟨M, h, h1, h2, h3⟩ := fill_cols dim vs
    rw [h]
    refine ⟨_, rfl, ?_⟩
    have hb : i < (colwiseSub M (rowwiseMean (fun _ _ => x) M) * (colwiseSub M (rowwiseMean (fun _ _ => x) M)).tr).rows ∧
        j < (colwiseSub M (rowwiseMean (fun _ _ => x) M) * (colwiseSub M (rowwiseMean (fun _ _ => x) M)).tr).cols := by
      refine ⟨?_, ?_⟩
      · show i < M.rows; omega
      · show j < M.rows; omega
    rw [divBy, Mat.of_e, if_pos hb, if_pos (by rw [show vs.length - 1 = 0 by omega]; exact Nat.cast_zero)]
  · rw [if_neg h0]
    exact ⟨_, rfl, by rw [Mat.of_e, if_pos ⟨hi, hj⟩]⟩

/-! ## Unbiased -/

open MeasureTheory ProbabilityTheory

theorem sum_map_range (N : ℕ) (f : ℕ → ℝ) : ((List.range N).map f).sum = ∑ k ∈ Finset.range N, f k := by
  induction N with
  | zero => simp
  | succ N ih => rw [List.range_succ, List.map_append, List.sum_append, ih, Finset.sum_range_succ]; simp

/-- The samples `X 0, ..., X (N - 1)` drawn at `ω`, as vectors of `dim` elements. -/
noncomputable def draws {Ω : Type _} (dim N : ℕ) (X : ℕ → ℕ → Ω → ℝ) (ω : Ω) : List Mat :=
  (List.range N).map fun k => Mat.of dim 1 fun i _ => X k i ω

theorem avg_draws {Ω : Type _} (dim N : ℕ) (X : ℕ → ℕ → Ω → ℝ) (ω : Ω) (i : ℕ) (hi : i < dim) :
    avg (draws dim N X ω) i = (∑ k ∈ Finset.range N, X k i ω) / N := by
  unfold avg
  have hl : (draws dim N X ω).length = N := by simp [draws]
  rw [show (∑ k : Fin (draws dim N X ω).length, (draws dim N X ω)[k].e i 0) = _ from
    Fin.sum_univ_fun_getElem (draws dim N X ω) fun v => v.e i 0, hl]
  congr 1
  rw [draws, List.map_map, sum_map_range]
  exact Finset.sum_congr rfl fun k _ => by simp [Mat.of_e, hi]

theorem scov_draws {Ω : Type _} (dim N : ℕ) (X : ℕ → ℕ → Ω → ℝ) (ω : Ω) (i j : ℕ) (hi : i < dim) (hj : j < dim) :
    scov (draws dim N X ω) i j =
      (∑ k ∈ Finset.range N, (X k i ω - (∑ l ∈ Finset.range N, X l i ω) / N) * (X k j ω - (∑ l ∈ Finset.range N, X l j ω) / N)) /
        ((N : ℝ) - 1) := by
  unfold scov
  have hl : (draws dim N X ω).length = N := by simp [draws]
  rw [show (∑ k : Fin (draws dim N X ω).length, ((draws dim N X ω)[k].e i 0 - avg (draws dim N X ω) i) *
      ((draws dim N X ω)[k].e j 0 - avg (draws dim N X ω) j)) = _ from
    Fin.sum_univ_fun_getElem (draws dim N X ω) fun v => (v.e i 0 - avg (draws dim N X ω) i) * (v.e j 0 - avg (draws dim N X ω) j), hl,
    avg_draws dim N X ω i hi, avg_draws dim N X ω j hj]
  congr 1
  rw [draws, List.map_map, sum_map_range]
  exact Finset.sum_congr rfl fun k _ => by simp [Mat.of_e, hi, hj]

/-- The sum of the products of the deviations, written with the deviations from any other point. -/
theorem centre (N : ℕ) (hN : (N : ℝ) ≠ 0) (a b : ℕ → ℝ) (m n : ℝ) :
    ∑ k ∈ Finset.range N, (a k - (∑ l ∈ Finset.range N, a l) / N) * (b k - (∑ l ∈ Finset.range N, b l) / N) =
      ∑ k ∈ Finset.range N, (a k - m) * (b k - n) - (∑ k ∈ Finset.range N, ∑ l ∈ Finset.range N, (a k - m) * (b l - n)) / N := by
  have hs : ∑ k ∈ Finset.range N, ∑ l ∈ Finset.range N, (a k - m) * (b l - n) =
      ((∑ l ∈ Finset.range N, a l) - N * m) * ((∑ l ∈ Finset.range N, b l) - N * n) := by
    rw [← Finset.sum_mul_sum, Finset.sum_sub_distrib, Finset.sum_sub_distrib]
    simp
  have he : ∀ (p q : ℝ), ∑ k ∈ Finset.range N, (a k - p) * (b k - q) =
      (∑ k ∈ Finset.range N, a k * b k) - q * (∑ l ∈ Finset.range N, a l) - p * (∑ l ∈ Finset.range N, b l) + N * (p * q) := by
    intro p q
    have : ∀ k, (a k - p) * (b k - q) = a k * b k - q * a k - p * b k + p * q := fun k => by ring
    simp only [this, Finset.sum_add_distrib, Finset.sum_sub_distrib, Finset.sum_const, Finset.card_range, nsmul_eq_mul, ← Finset.mul_sum]
  rw [hs, he, he]
  field_simp
  ring

/-- C114: for at least two samples drawn independently from a distribution with mean `m` and covariance `S`, the expected values of the mean and
of the covariance computed from them are `m` and `S`. -/
theorem c114_unbiased {Ω : Type _} [MeasurableSpace Ω] (P : Measure Ω) [IsProbabilityMeasure P] (g : ℕ → ℕ → ℝ) (dim N : ℕ) (hN : 2 ≤ N)
    (X : ℕ → ℕ → Ω → ℝ) (m : ℕ → ℝ) (S : ℕ → ℕ → ℝ)
    (h2 : ∀ k < N, ∀ i < dim, MemLp (X k i) 2 P)
    (hind : ∀ k < N, ∀ l < N, k ≠ l → ∀ i < dim, ∀ j < dim, IndepFun (X k i) (X l j) P)
    (hm : ∀ k < N, ∀ i < dim, ∫ ω, X k i ω ∂P = m i)
    (hS : ∀ k < N, ∀ i < dim, ∀ j < dim, ∫ ω, (X k i ω - m i) * (X k j ω - m j) ∂P = S i j) :
    ∃ (Q : Ω → Mat) (M : Ω → Mat), (∀ ω, sampleCovariance g dim (draws dim N X ω) = .ok (Q ω)) ∧
      (∀ ω, ∃ C, toEigenColMatrix g dim (draws dim N X ω) = .ok C ∧ calcCovMean g C = (Q ω, M ω)) ∧
      ∀ i < dim, ∫ ω, (M ω).e i 0 ∂P = m i ∧ ∀ j < dim, ∫ ω, (Q ω).e i j ∂P = S i j := by
  have hN' : (2 : ℝ) ≤ N := by exact_mod_cast hN
  have hlen : ∀ ω, (draws dim N X ω).length = N := fun ω => by simp [draws]
  choose C Q M hc hq hs _ _ hmu using fun ω => c114_agree g dim (draws dim N X ω) (by rw [hlen]; exact hN)
  refine ⟨Q, M, hs, fun ω => ⟨C ω, hc ω, hq ω⟩, fun i hi => ⟨?_, fun j hj => ?_⟩⟩
  · have h1 : ∀ k ∈ Finset.range N, Integrable (X k i) P := fun k hk =>
      (h2 k (Finset.mem_range.mp hk) i hi).integrable (by norm_num)
    rw [integral_congr_ae (Filter.Eventually.of_forall fun ω => (hmu ω i hi).trans (avg_draws dim N X ω i hi)), integral_div,
      integral_finsetSum _ h1, Finset.sum_congr rfl (fun k hk => hm k (Finset.mem_range.mp hk) i hi)]
    simp only [Finset.sum_const, Finset.card_range, nsmul_eq_mul]
    field_simp
  · have hQ : ∀ ω, (Q ω).e i j = (∑ k ∈ Finset.range N, (X k i ω - m i) * (X k j ω - m j) -
        (∑ k ∈ Finset.range N, ∑ l ∈ Finset.range N, (X k i ω - m i) * (X l j ω - m j)) / N) / ((N : ℝ) - 1) := by
      intro ω
      obtain ⟨Q', q1, -, -, q4⟩ := c114_entry g dim (draws dim N X ω) (by rw [hlen]; exact hN)
      have : Q' = Q ω := by
        have := q1.symm.trans (hs ω)
        injection this
      rw [← this, q4 i j hi hj, scov_draws dim N X ω i j hi hj,
        centre N (by linarith) (fun k => X k i ω) (fun k => X k j ω) (m i) (m j)]
    have hint : ∀ k < N, ∀ l < N, Integrable (fun ω => (X k i ω - m i) * (X l j ω - m j)) P := fun k hk l hl =>
      MemLp.integrable_mul ((h2 k hk i hi).sub (memLp_const (m i))) ((h2 l hl j hj).sub (memLp_const (m j)))
    have hcross : ∀ k < N, ∀ l < N, k ≠ l → ∫ ω, (X k i ω - m i) * (X l j ω - m j) ∂P = 0 := by
      intro k hk l hl hkl
      have hi1 : Integrable (X k i) P := (h2 k hk i hi).integrable (by norm_num)
      have hcomp : IndepFun (fun ω => X k i ω - m i) (fun ω => X l j ω - m j) P :=
        (hind k hk l hl hkl i hi j hj).comp (φ := fun x => x - m i) (ψ := fun x => x - m j) (by fun_prop) (by fun_prop)
      rw [hcomp.integral_fun_mul_eq_mul_integral ((h2 k hk i hi).sub (memLp_const (m i))).1
        ((h2 l hl j hj).sub (memLp_const (m j))).1, integral_sub hi1 (integrable_const _), hm k hk i hi]
      simp
    rw [integral_congr_ae (Filter.Eventually.of_forall hQ), integral_div, integral_sub
      (integrable_finsetSum _ fun k hk => hint k (Finset.mem_range.mp hk) k (Finset.mem_range.mp hk))
      ((integrable_finsetSum _ fun k hk => integrable_finsetSum _ fun l hl =>
        hint k (Finset.mem_range.mp hk) l (Finset.mem_range.mp hl)).div_const _), integral_div,
      integral_finsetSum _ (fun k hk => hint k (Finset.mem_range.mp hk) k (Finset.mem_range.mp hk)),
      integral_finsetSum _ (fun k hk => integrable_finsetSum _ fun l hl => hint k (Finset.mem_range.mp hk) l (Finset.mem_range.mp hl)),
      Finset.sum_congr rfl (fun k hk => hS k (Finset.mem_range.mp hk) i hi j hj)]
    have hin : ∀ k ∈ Finset.range N, ∫ ω, ∑ l ∈ Finset.range N, (X k i ω - m i) * (X l j ω - m j) ∂P = S i j := by
      intro k hk
      have hk' := Finset.mem_range.mp hk
      rw [integral_finsetSum _ (fun l hl => hint k hk' l (Finset.mem_range.mp hl)), Finset.sum_eq_single_of_mem k hk
        (fun l hl hlk => hcross k hk' l (Finset.mem_range.mp hl) (Ne.symm hlk)), hS k hk' i hi j hj]
    rw [Finset.sum_congr rfl hin]
    simp only [Finset.sum_const, Finset.card_range, nsmul_eq_mul]
    have h1 : (N : ℝ) - 1 ≠ 0 := by linarith
    field_simp

/-! ## Examples -/

/-- Two samples of two components. -/
example : ∃ Q, sampleCovariance (fun _ _ => 7) 2 [Mat.of 2 1 (fun i _ => if i = 0 then 1 else 5), Mat.of 2 1 (fun i _ => if i = 0 then 3 else 1)] =
    .ok Q ∧ Q.e 0 0 = 2 ∧ Q.e 0 1 = -4 ∧ Q.e 1 1 = 8 := by
  obtain ⟨Q, h, -, -, h4⟩ := c114_entry (fun _ _ => 7) 2
    [Mat.of 2 1 (fun i _ => if i = 0 then 1 else 5), Mat.of 2 1 (fun i _ => if i = 0 then 3 else 1)] (by simp)
  refine ⟨Q, h, ?_, ?_, ?_⟩
  · rw [h4 0 0 (by omega) (by omega)]; simp [scov, avg, Mat.of_e, Fin.sum_univ_succ]; norm_num
  · rw [h4 0 1 (by omega) (by omega)]; simp [scov, avg, Mat.of_e, Fin.sum_univ_succ]; norm_num
  · rw [h4 1 1 (by omega) (by omega)]; simp [scov, avg, Mat.of_e, Fin.sum_univ_succ]; norm_num

/-- Three independent normal samples with mean 5 and variance 4. -/
example (g : ℕ → ℕ → ℝ) : ∃ (P : Measure (Fin 3 → ℝ)) (X : ℕ → ℕ → (Fin 3 → ℝ) → ℝ) (Q : (Fin 3 → ℝ) → Mat),
    IsProbabilityMeasure P ∧ (∀ ω, sampleCovariance g 1 (draws 1 3 X ω) = .ok (Q ω)) ∧ ∫ ω, (Q ω).e 0 0 ∂P = 4 := by
  let X : ℕ → ℕ → (Fin 3 → ℝ) → ℝ := fun k _ ω => if h : k < 3 then ω ⟨k, h⟩ else 0
  let P : Measure (Fin 3 → ℝ) := Measure.pi fun _ => gaussianReal 5 4
  have hX : ∀ k (h : k < 3) i, X k i = fun ω => ω ⟨k, h⟩ := fun k h i => by funext ω; simp [X, h]
  have hp : ∀ k : Fin 3, MeasurePreserving (Function.eval k) P (gaussianReal 5 4) := fun k =>
    measurePreserving_eval (fun _ : Fin 3 => gaussianReal 5 4) k
  have hi : iIndepFun (fun (i : Fin 3) (ω : Fin 3 → ℝ) => (fun z : ℝ => z) (ω i)) P := iIndepFun_pi (X := fun _ z => z) (fun i => by fun_prop)
  obtain ⟨Q, M, h1, -, h3⟩ := c114_unbiased P g 1 3 (by omega) X (fun _ => 5) (fun _ _ => 4)
    (fun k hk i _ => by
      rw [hX k hk i]
      exact (memLp_id_gaussianReal (μ := 5) (v := 4) 2).comp_measurePreserving (hp ⟨k, hk⟩))
    (fun k hk l hl hkl i _ j _ => by
      rw [hX k hk i, hX l hl j]
      exact hi.indepFun (fun h => hkl (congrArg Fin.val h)))
    (fun k hk i _ => by
      rw [hX k hk i]
      have := integral_map (μ := P) (hp ⟨k, hk⟩).measurable.aemeasurable (f := fun x : ℝ => x) (by fun_prop)
      rw [(hp ⟨k, hk⟩).map_eq, integral_id_gaussianReal] at this
      exact this.symm)
    (fun k hk i _ j _ => by
      rw [hX k hk i]
      have := integral_map (μ := P) (hp ⟨k, hk⟩).measurable.aemeasurable (f := fun x : ℝ => (x - 5) * (x - 5)) (by fun_prop)
      rw [(hp ⟨k, hk⟩).map_eq] at this
      have hv := variance_fun_id_gaussianReal (μ := 5) (v := 4)
      rw [variance_eq_integral (by fun_prop), integral_id_gaussianReal] at hv
      refine this.symm.trans (Eq.trans ?_ hv)
      exact integral_congr_ae (Filter.Eventually.of_forall fun x => (sq (x - 5)).symm))
  exact ⟨P, X, Q, inferInstance, h1, (h3 0 (by omega)).2 0 (by omega)⟩

end Conv
end Ikf
