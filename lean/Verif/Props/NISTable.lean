import Verif.Props.NIS
import Verif.Lemmas.ChiSquareLaw

/-! # Property C20: the table holds the chi-square quantiles, and what the gate then accepts

The chi-square distribution with `k` degrees of freedom is Mathlib's gamma distribution with shape `k/2` and rate `1/2`
(`Chi2.chi2`), a Gaussian residual is Mathlib's `multivariateGaussian`. -/

namespace Ikf
open Chi2 ProbabilityTheory MeasureTheory Mat Matrix WithLp

/-- The entry for confidence `c/1000` and `k` degrees of freedom is within 5e-5 of the quantile. -/
def entryOk (c : ℕ) (k n : ℕ) : Bool := below c k (n - 5) 100000 100 (10 ^ 24) && above c k (n + 5) 100000 100 (10 ^ 24)

def rowOk (c : ℕ) : ℕ → List ℤ → Bool
  | _, [] => true
  | k, n :: r => decide (5 < n) && entryOk c k n.toNat && rowOk c (k + 1) r

theorem table_checked : ∀ x ∈ nisTable, 0 ≤ x.1 ∧ rowOk x.1.toNat 1 x.2 = true := by
  decide +kernel

theorem rowOk_get {c k : ℕ} {row : List ℤ} (h : rowOk c k row = true) : ∀ i < row.length,
    5 < row.getD i 0 ∧ entryOk c (k + i) (row.getD i 0).toNat = true := by
  induction row generalizing k with
  | nil => intro i hi; simp at hi
  | cons n r ih =>
    simp only [rowOk, Bool.and_eq_true, decide_eq_true_eq] at h
    intro i hi
    cases i with
    | zero => exact ⟨h.1.1, h.1.2⟩
    | succ i =>
      have := ih h.2 i (by simpa using hi)
      rw [show k + 1 + i = k + (i + 1) by omega] at this
      simpa using this

/-- C20. Every entry of the table is the chi-square quantile to four decimals: the true quantile of confidence `c/1000`
with `k` degrees of freedom (`k` from 1 to 50) lies within 5e-5 of the entry at position `k`. -/
theorem c20_table {c : ℤ} {row : List ℤ} (h : (c, row) ∈ nisTable) (k : ℕ) (h1 : 1 ≤ k) (h2 : k ≤ 50) :
    cdf (chi2 k) (tableQuantile row k - 5 / 100000) ≤ c / 1000 ∧ c / 1000 ≤ cdf (chi2 k) (tableQuantile row k + 5 / 100000) := by
  obtain ⟨hc, hr⟩ := table_checked _ h
  have hl := (table_rows _ h).1
  simp only at hc hr hl
  obtain ⟨g1, g2⟩ := rowOk_get hr (k - 1) (by omega)
  rw [show 1 + (k - 1) = k by omega] at g2
  unfold tableQuantile
  set n : ℤ := row.getD (k - 1) 0
  obtain ⟨n', hn⟩ := Int.eq_ofNat_of_zero_le (by omega : 0 ≤ n)
  obtain ⟨c', hc'⟩ := Int.eq_ofNat_of_zero_le hc
  rw [hn] at g1 g2 ⊢
  rw [hc'] at g2 ⊢
  simp only [Int.toNat_natCast, entryOk, Bool.and_eq_true] at g1 g2 ⊢
  have b := below_sound (by omega) (by norm_num) (by norm_num) g2.1
  have a := above_sound (by omega) (by norm_num) (by norm_num) g2.2
  have e1 : ((n' - 5 : ℕ) : ℝ) = (n' : ℝ) - 5 := by
    rw [Nat.cast_sub (by omega)]; norm_num
  rw [e1] at b
  push_cast at a b ⊢
  rw [show (n' : ℝ) / 100000 - 5 / 100000 = ((n' : ℝ) - 5) / 100000 by ring,
    show (n' : ℝ) / 100000 + 5 / 100000 = ((n' : ℝ) + 5) / 100000 by ring]
  exact ⟨b, a⟩

/-- The threshold the gate uses for an `m`-dimensional residual. -/
theorem accepts_iff {m : ℕ} {S r : Mat} (hS : S.Shape m m) (hr : r.Shape m 1) {conf : ℚ} (hc : 0 < conf) {row : List ℤ}
    (hrow : nisTable.lookup (round (conf * 1000)) = some row) :
    checkNIS S r conf = .ok true ↔ nisValue S r m ≤ if m < 50 then tableQuantile row (m + 1) else 0 := by
  obtain ⟨b, hb, hi⟩ := (c20_gate_partial S r hS hr conf).2 hc row hrow
  rw [hb, ← hi]
  constructor
  · intro h; exact Res.ok.inj h
  · intro h; rw [h]

/-- A residual vector as a column. -/
noncomputable def column {m : ℕ} (r : EuclideanSpace ℝ (Fin m)) : Mat := ofM (Matrix.of fun (i : Fin m) (_ : Fin 1) => ofLp r i)

theorem column_shape {m : ℕ} (r : EuclideanSpace ℝ (Fin m)) : (column r).Shape m 1 := ⟨rfl, rfl⟩

theorem nisValue_column {m : ℕ} (S : Mat) (r : EuclideanSpace ℝ (Fin m)) :
    nisValue S (column r) m = ofLp r ⬝ᵥ ((S.toM m m)⁻¹ *ᵥ ofLp r) := by
  have h : (column r).toM m 1 = Matrix.of fun (i : Fin m) (_ : Fin 1) => ofLp r i := by
    unfold column; rw [toM_ofM]
  unfold nisValue
  rw [h, Matrix.mul_assoc, Matrix.mul_apply]
  simp only [dotProduct, mulVec, Matrix.mul_apply, transpose_apply, Matrix.of_apply]

/-- C20. What the gate does to a consistent filter: if the residual is a centred Gaussian vector whose covariance is the
innovation covariance `S`, the probability of acceptance is the chi-square distribution function, with the dimension of
the residual as degrees of freedom, at the threshold the code uses. -/
theorem c20_acceptance {m : ℕ} (hm : 1 ≤ m) {S : Mat} (hS : S.Shape m m) (hp : (S.toM m m).PosDef) {conf : ℚ} (hc : 0 < conf)
    {row : List ℤ} (hrow : nisTable.lookup (round (conf * 1000)) = some row) :
    (multivariateGaussian 0 (S.toM m m)).real {r | checkNIS S (column r) conf = .ok true} =
      cdf (chi2 m) (if m < 50 then tableQuantile row (m + 1) else 0) := by
  have := chi2_prob hm
  rw [cdf_eq_real, ← nis_law hm hp, map_measureReal_apply (by fun_prop) measurableSet_Iic]
  congr 1
  ext r
  rw [Set.mem_ofPred_eq, accepts_iff hS (column_shape r) hc hrow, nisValue_column]
  rfl

/-- C20. So for dimensions 1 to 49 a consistent residual passes at least with the nominal probability ... -/
theorem c20_at_least_nominal {m : ℕ} (hm : 1 ≤ m) (hm2 : m < 50) {S : Mat} (hS : S.Shape m m) (hp : (S.toM m m).PosDef) {conf : ℚ} (hc : 0 < conf)
    {row : List ℤ} (hrow : nisTable.lookup (round (conf * 1000)) = some row) :
    (round (conf * 1000) : ℝ) / 1000 ≤ (multivariateGaussian 0 (S.toM m m)).real {r | checkNIS S (column r) conf = .ok true} := by
  have hmem : (round (conf * 1000), row) ∈ nisTable := by
    obtain ⟨l1, l2, h, _⟩ := List.lookup_eq_some_iff.mp hrow
    rw [h]; simp
  have := chi2_prob hm
  rw [c20_acceptance hm hS hp hc hrow, if_pos hm2]
  refine (c20_table hmem m hm hm2.le).2.trans (monotone_cdf _ ?_)
  have hl := (table_rows _ hmem).1
  have hgap : ∀ x ∈ nisTable, ∀ i < 49, x.2.getD i 0 + 5 ≤ x.2.getD (i + 1) 0 := by decide
  have := hgap _ hmem (m - 1) (by omega)
  simp only at this
  rw [show m - 1 + 1 = m by omega] at this
  unfold tableQuantile
  rw [Nat.add_sub_cancel]
  have h2 : ((row.getD (m - 1) 0 : ℤ) : ℝ) + 5 ≤ (row.getD m 0 : ℤ) := by exact_mod_cast this
  linarith

/-- C20 fails in numbers: one-dimensional residuals (variance `S`, whatever it is) are rejected at most in 1.5 % of the cases where
5 % are asked for, 0.1 % instead of 0.3 %; at 50 % confidence at most in 24.1 % instead of 50 %. -/
theorem c20_one_dimension_fails {S : Mat} (hS : S.Shape 1 1) (hp : (S.toM 1 1).PosDef) :
    0.985 ≤ (multivariateGaussian 0 (S.toM 1 1)).real {r | checkNIS S (column r) (950 / 1000) = .ok true} ∧
    0.999 ≤ (multivariateGaussian 0 (S.toM 1 1)).real {r | checkNIS S (column r) (997 / 1000) = .ok true} ∧
    0.759 ≤ (multivariateGaussian 0 (S.toM 1 1)).real {r | checkNIS S (column r) (500 / 1000) = .ok true} := by
  have h950 : round ((950 / 1000 : ℚ) * 1000) = 950 := by norm_num
  have h997 : round ((997 / 1000 : ℚ) * 1000) = 997 := by norm_num
  have h500 : round ((500 / 1000 : ℚ) * 1000) = 500 := by norm_num
  have a1 := above_sound (P := 985) (k := 1) (M := 599150) (D := 100000) (n := 100) (s := 10 ^ 24) (by norm_num) (by norm_num)
    (by norm_num) (by decide +kernel)
  have a2 := above_sound (P := 999) (k := 1) (M := 1161830) (D := 100000) (n := 100) (s := 10 ^ 24) (by norm_num) (by norm_num)
    (by norm_num) (by decide +kernel)
  have a3 := above_sound (P := 759) (k := 1) (M := 138630) (D := 100000) (n := 100) (s := 10 ^ 24) (by norm_num) (by norm_num)
    (by norm_num) (by decide +kernel)
  refine ⟨?_, ?_, ?_⟩
  · rw [c20_acceptance (le_refl 1) hS hp (by norm_num) (by rw [h950]; rfl), if_pos (by norm_num)]
    refine le_trans (by norm_num) (a1.trans (le_of_eq (congrArg _ ?_)))
    unfold tableQuantile; norm_num
  · rw [c20_acceptance (le_refl 1) hS hp (by norm_num) (by rw [h997]; rfl), if_pos (by norm_num)]
    refine le_trans (by norm_num) (a2.trans (le_of_eq (congrArg _ ?_)))
    unfold tableQuantile; norm_num
  · rw [c20_acceptance (le_refl 1) hS hp (by norm_num) (by rw [h500]; rfl), if_pos (by norm_num)]
    refine le_trans (by norm_num) (a3.trans (le_of_eq (congrArg _ ?_)))
    unfold tableQuantile; norm_num

/-- C20 fails: from dimension 50 on a consistent residual is rejected with probability 1. -/
theorem c20_high_dimension_probability_fails {m : ℕ} (hm : 50 ≤ m) {S : Mat} (hS : S.Shape m m) (hp : (S.toM m m).PosDef) {conf : ℚ} (hc : 0 < conf)
    {row : List ℤ} (hrow : nisTable.lookup (round (conf * 1000)) = some row) :
    (multivariateGaussian 0 (S.toM m m)).real {r | checkNIS S (column r) conf = .ok true} = 0 := by
  rw [c20_acceptance (by omega) hS hp hc hrow, if_neg (by omega)]
  unfold chi2
  rw [cdf_eq (by have : (0:ℝ) < m := by exact_mod_cast (by omega : 0 < m)
                 positivity) le_rfl]
  unfold I
  exact intervalIntegral.integral_same

/-- The premises are met: any variance, the default confidence. -/
example : (one 1).Shape 1 1 ∧ ((one 1).toM 1 1).PosDef ∧ (0:ℚ) < 997 / 1000 ∧
    (nisTable.lookup (round ((997 / 1000 : ℚ) * 1000))).isSome := by
  refine ⟨⟨rfl, rfl⟩, by rw [toM_one]; exact PosDef.one, by norm_num, ?_⟩
  have h997 : round ((997 / 1000 : ℚ) * 1000) = 997 := by norm_num
  rw [h997]; rfl

end Ikf
