import Verif.Lemmas.Kalman
import Mathlib.Analysis.Real.Sqrt
import Mathlib.Analysis.Complex.ExponentialBounds

/-! # Property C20: the outlier gate -/

namespace Ikf
open Mat Matrix

/-- The table as documented in NIS.cpp:102 ("generate_NIS_table([...],[1:50])"): the quantile for `df`
degrees of freedom is the `df`-th entry, counted from 1. -/
noncomputable def tableQuantile (row : List ℤ) (df : ℕ) : ℝ := (row.getD (df - 1) 0 : ℤ) / 100000

/-- The normalised innovation squared. -/
noncomputable def nisValue (S r : Mat) (m : ℕ) : ℝ :=
  ((r.toM m 1)ᵀ * (S.toM m m)⁻¹ * r.toM m 1) 0 0

theorem nis_ok {S r : Mat} {m : ℕ} (hS : S.Shape m m) (hr : r.Shape m 1) : nis S r = .ok (nisValue S r m) := by
  unfold nis
  have : nisDim r S = true := by
    unfold nisDim
    simp only [Bool.not_eq_true', Bool.or_eq_false_iff, bne_eq_false_iff_eq]
    exact ⟨hr.2, by rw [hr.1, hS.1]⟩
  rw [if_pos this, hS.invC, Res.bind_ok, hr.tr.mulC hS.inv, Res.bind_ok, (hr.tr.mul hS.inv).mulC hr, Res.bind_ok]
  unfold nisValue
  have h : (r.tr * S.inv * r).toM 1 1 = (r.toM m 1)ᵀ * (S.toM m m)⁻¹ * r.toM m 1 := by
    rw [(hr.tr.mul hS.inv).toM_mul, hr.tr.toM_mul, hS.toM_inv, toM_tr]
  rw [← h]; rfl

/-- What the code uses as threshold: entry `df` counted from 0, and 0 beyond the table. -/
theorem chi2inv_ok {conf : ℚ} {row : List ℤ} (h : nisTable.lookup (round (conf * 1000)) = some row) (df : ℕ) :
    chi2inv conf df = .ok (if df < row.length then row.getD df 0 else 0) := by
  unfold chi2inv
  rw [h]; simp only
  split <;> rfl

theorem table_rows : ∀ x ∈ nisTable, x.2.length = 50 ∧ (∀ i < 49, x.2.getD i 0 < x.2.getD (i + 1) 0) ∧
    0 < x.2.getD 0 0 := by decide

/-- C20, proved part: for a listed confidence the gate accepts exactly if `rᵀ S⁻¹ r` is at most the
threshold, which is the table's quantile of `dim(r) + 1`, and 0 from dimension 50 on. For a confidence ≤ 0
everything is accepted. -/
theorem c20_gate_partial {m : ℕ} (S r : Mat) (hS : S.Shape m m) (hr : r.Shape m 1) (conf : ℚ) :
    (conf ≤ 0 → checkNIS S r conf = .ok true) ∧
    (0 < conf → ∀ row, nisTable.lookup (round (conf * 1000)) = some row →
      ∃ b, checkNIS S r conf = .ok b ∧
        (b = true ↔ nisValue S r m ≤ if m < 50 then tableQuantile row (m + 1) else 0)) := by
  constructor
  · intro h; unfold checkNIS; rw [if_neg (by simpa using h)]
  · intro hc row hrow
    have hlen : row.length = 50 := by
      have : (round (conf * 1000), row) ∈ nisTable := by
        have := List.lookup_eq_some_iff.mp hrow
        obtain ⟨l1, l2, h, _⟩ := this
        rw [h]; simp
      exact (table_rows _ this).1
    unfold checkNIS
    rw [if_pos hc, nis_ok hS hr, Res.bind_ok, chi2inv_ok hrow, Res.bind_ok]
    refine ⟨_, rfl, ?_⟩
    rw [hr.1, hlen]
    unfold tableQuantile
    rw [Nat.add_sub_cancel]
    split
    · rename_i hm
      split
      · rename_i h; simp; exact h
      · rename_i h; simp; exact not_lt.mp h
    · split
      · rename_i h; simp at h ⊢; exact h
      · rename_i h; simp at h ⊢; exact h

/-- C20 fails, 1: for every listed confidence and every dimension 1…49 there is a residual above the
quantile of its dimension that is accepted. -/
theorem c20_off_by_one_fails (conf : ℚ) (hc : 0 < conf) (row : List ℤ)
    (hrow : nisTable.lookup (round (conf * 1000)) = some row) (m : ℕ) (hm1 : 1 ≤ m) (hm2 : m < 50) :
    ∃ r, r.Shape m 1 ∧ tableQuantile row m < nisValue (one m) r m ∧ checkNIS (one m) r conf = .ok true := by
  have hmem : (round (conf * 1000), row) ∈ nisTable := by
    obtain ⟨l1, l2, h, _⟩ := List.lookup_eq_some_iff.mp hrow
    rw [h]; simp
  obtain ⟨hlen, hmono, hpos⟩ := table_rows _ hmem
  simp only at hlen hmono hpos
  have hlt : row.getD (m - 1) 0 < row.getD m 0 := by
    have := hmono (m - 1) (by omega)
    rwa [show m - 1 + 1 = m by omega] at this
  have hq : tableQuantile row m < tableQuantile row (m + 1) := by
    unfold tableQuantile
    rw [Nat.add_sub_cancel]
    have : ((row.getD (m - 1) 0 : ℤ) : ℝ) < (row.getD m 0 : ℤ) := by exact_mod_cast hlt
    linarith
  have hq0 : 0 ≤ tableQuantile row (m + 1) := by
    have : ∀ i, i ≤ 49 → 0 < row.getD i 0 := by
      intro i
      induction i with
      | zero => intro _; exact hpos
      | succ i ih => intro hi; exact lt_trans (ih (by omega)) (hmono i (by omega))
    unfold tableQuantile
    rw [Nat.add_sub_cancel]
    have h2 : (0:ℝ) < (row.getD m 0 : ℤ) := by exact_mod_cast this m (by omega)
    linarith [div_pos h2 (by norm_num : (0:ℝ) < 100000)]
  set q := tableQuantile row (m + 1) with hqd
  refine ⟨of m 1 (fun i _ => if i = 0 then Real.sqrt q else 0), ⟨rfl, rfl⟩, ?_, ?_⟩
  all_goals
    have hv : nisValue (one m) (of m 1 (fun i _ => if i = 0 then Real.sqrt q else 0)) m = q := by
      unfold nisValue
      rw [toM_one, inv_one, Matrix.mul_one, Matrix.mul_apply]
      rw [Finset.sum_eq_single (⟨0, by omega⟩ : Fin m)]
      · simp only [transpose_apply, toM_apply, of_e]
        simp [show 0 < m by omega, Real.mul_self_sqrt hq0]
      · intro i _ hi
        have : (i : ℕ) ≠ 0 := fun h => hi (Fin.ext h)
        simp only [transpose_apply, toM_apply, of_e]
        simp [this]
      · intro h; simp at h
  · rw [hv]; exact hq
  · obtain ⟨b, hb, hiff⟩ := (c20_gate_partial (m := m) (one m)
      (of m 1 (fun i _ => if i = 0 then Real.sqrt q else 0)) ⟨rfl, rfl⟩ ⟨rfl, rfl⟩ conf).2 hc row hrow
    rw [hb]
    congr 1
    rw [hiff, hv, if_pos hm2]

/-- C20 fails, 2: from dimension 50 on every non-zero residual is rejected. -/
theorem c20_high_dimension_fails {m : ℕ} (hm : 50 ≤ m) (S r : Mat) (hS : S.Shape m m) (hr : r.Shape m 1)
    (pS : (S.toM m m).PosDef) (hr0 : r.toM m 1 ≠ 0) (conf : ℚ) (hc : 0 < conf) (row : List ℤ)
    (hrow : nisTable.lookup (round (conf * 1000)) = some row) : checkNIS S r conf = .ok false := by
  obtain ⟨b, hb, hiff⟩ := (c20_gate_partial S r hS hr conf).2 hc row hrow
  rw [hb]
  congr 1
  rw [if_neg (by omega)] at hiff
  have hpos : 0 < nisValue S r m := by
    have hx : (fun i => r.toM m 1 i 0) ≠ (0 : Fin m → ℝ) := by
      intro h
      apply hr0
      ext i j
      have := congrFun h i
      simp only [Pi.zero_apply] at this
      rw [Subsingleton.elim j 0]; exact this
    have h := PosDef.dotProduct_mulVec_pos pS.inv hx
    have : nisValue S r m = star (fun i => r.toM m 1 i 0) ⬝ᵥ ((S.toM m m)⁻¹ *ᵥ (fun i => r.toM m 1 i 0)) := by
      unfold nisValue
      rw [Matrix.mul_assoc, Matrix.mul_apply]
      simp only [dotProduct, mulVec, Matrix.mul_apply, transpose_apply, star_trivial]
    rw [this]; exact h
  cases b with
  | false => rfl
  | true => exact absurd (hiff.mp rfl) (not_le.mpr hpos)

/-- C20 fails, 3: an unlisted confidence dereferences the end iterator. -/
theorem c20_unlisted_fails {m : ℕ} (S r : Mat) (hS : S.Shape m m) (hr : r.Shape m 1) (conf : ℚ) (hc : 0 < conf)
    (h : round (conf * 1000) ∉ [380, 500, 680, 950, 997]) : checkNIS S r conf = .ub := by
  have hl : nisTable.lookup (round (conf * 1000)) = none := by
    rw [List.lookup_eq_none_iff]
    intro p hp
    have : p.1 ∈ ([380, 500, 680, 950, 997] : List ℤ) := by
      have := List.mem_map_of_mem (f := Prod.fst) hp
      exact this
    simp only [bne_iff_ne, ne_eq]
    intro he; rw [he] at h; exact h this
  unfold checkNIS
  rw [if_pos hc, nis_ok hS hr, Res.bind_ok]
  have : chi2inv conf r.rows = .ub := by unfold chi2inv; rw [hl]
  rw [this]; rfl

/-- Anchor of the table outside the code: with 2 degrees of freedom the chi-square distribution function is
`1 - exp(-x/2)`, so the 50 % quantile is `2 log 2`. The documented position (2) holds it to 10⁻⁴, the
position the code reads for a 2-dimensional residual does not. -/
theorem c20_two_dof_fails : ∃ row, nisTable.lookup 500 = some row ∧
    |tableQuantile row 2 - 2 * Real.log 2| < 1 / 10000 ∧
    chi2inv (1/2) 2 = .ok (row.getD 2 0) ∧ 2 * Real.log 2 + 9/10 < ((row.getD 2 0 : ℤ) : ℝ) / 100000 := by
  have h1 := Real.log_two_gt_d9
  have h2 := Real.log_two_lt_d9
  refine ⟨_, rfl, ?_, ?_, ?_⟩
  · unfold tableQuantile
    rw [abs_lt]
    norm_num
    constructor <;> linarith
  · have : round ((1/2 : ℚ) * 1000) = 500 := by norm_num
    unfold chi2inv
    rw [this]; rfl
  · norm_num
    linarith

/-- The default confidence is listed. -/
example : nisTable.lookup (round ((997/1000 : ℚ) * 1000)) ≠ none := by
  have : round ((997/1000 : ℚ) * 1000) = 997 := by norm_num
  rw [this]; decide
/-- 90 % is not. -/
example : round ((9/10 : ℚ) * 1000) ∉ [380, 500, 680, 950, 997] := by
  have : round ((9/10 : ℚ) * 1000) = 900 := by norm_num
  rw [this]; decide

end Ikf
