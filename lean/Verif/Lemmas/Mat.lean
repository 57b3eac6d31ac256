import Verif.Model.Mat
import Mathlib.Tactic.Linarith
import Mathlib.Tactic.Ring
import Mathlib.Algebra.BigOperators.Fin

/-! # Algebra of run-time sized matrices -/

namespace Ikf

namespace Res
variable {α β : Type _}
@[simp] theorem bind_ok (a : α) (f : α → Res β) : (Res.ok a >>= f) = f a := rfl
@[simp] theorem bind_throws (f : α → Res β) : ((Res.throws : Res α) >>= f) = Res.throws := rfl
@[simp] theorem bind_ub (f : α → Res β) : ((Res.ub : Res α) >>= f) = Res.ub := rfl
@[simp] theorem pure_eq (a : α) : (pure a : Res α) = Res.ok a := rfl
end Res

namespace Mat

@[simp] theorem of_rows (r c f) : (of r c f).rows = r := rfl
@[simp] theorem of_cols (r c f) : (of r c f).cols = c := rfl
theorem of_e (r c f i j) : (of r c f).e i j = if i < r ∧ j < c then f i j else 0 := rfl
@[simp] theorem tr_rows (A : Mat) : A.tr.rows = A.cols := rfl
@[simp] theorem tr_cols (A : Mat) : A.tr.cols = A.rows := rfl
@[simp] theorem tr_e (A : Mat) (i j) : A.tr.e i j = A.e j i := rfl
@[simp] theorem mul_rows (A B : Mat) : (A * B).rows = A.rows := rfl
@[simp] theorem mul_cols (A B : Mat) : (A * B).cols = B.cols := rfl
@[simp] theorem add_rows (A B : Mat) : (A + B).rows = A.rows := rfl
@[simp] theorem add_cols (A B : Mat) : (A + B).cols = A.cols := rfl
@[simp] theorem sub_rows (A B : Mat) : (A - B).rows = A.rows := rfl
@[simp] theorem sub_cols (A B : Mat) : (A - B).cols = A.cols := rfl
@[simp] theorem smul_rows (c) (A : Mat) : (smul c A).rows = A.rows := rfl
@[simp] theorem smul_cols (c) (A : Mat) : (smul c A).cols = A.cols := rfl
@[simp] theorem one_rows (n) : (one n).rows = n := rfl
@[simp] theorem one_cols (n) : (one n).cols = n := rfl
@[simp] theorem zero_rows (n m) : (zero n m).rows = n := rfl
@[simp] theorem zero_cols (n m) : (zero n m).cols = m := rfl
@[simp] theorem empty_rows : empty.rows = 0 := rfl
@[simp] theorem empty_cols : empty.cols = 0 := rfl
@[simp] theorem inv_rows (A : Mat) : A.inv.rows = A.rows := rfl
@[simp] theorem inv_cols (A : Mat) : A.inv.cols = A.rows := rfl
@[simp] theorem block_rows (A : Mat) (i j r c) : (A.block i j r c).rows = r := rfl
@[simp] theorem block_cols (A : Mat) (i j r c) : (A.block i j r c).cols = c := rfl
@[simp] theorem setBlock_rows (A : Mat) (i j B) : (A.setBlock i j B).rows = A.rows := rfl
@[simp] theorem setBlock_cols (A : Mat) (i j B) : (A.setBlock i j B).cols = A.cols := rfl
@[simp] theorem ofM_rows {n m} (M : Matrix (Fin n) (Fin m) ℝ) : (ofM M).rows = n := rfl
@[simp] theorem ofM_cols {n m} (M : Matrix (Fin n) (Fin m) ℝ) : (ofM M).cols = m := rfl

/-- Two matrices are equal iff shape and entries inside the shape agree. -/
theorem ext' {A B : Mat} (hr : A.rows = B.rows) (hc : A.cols = B.cols)
    (h : ∀ i j, i < A.rows → j < A.cols → A.e i j = B.e i j) : A = B := by
  refine Mat.ext hr hc ?_
  funext i j
  by_cases hij : i < A.rows ∧ j < A.cols
  · exact h i j hij.1 hij.2
  · rw [A.out i j (by omega), B.out i j (by omega)]

theorem toM_inj {A B : Mat} {n m : ℕ} (hr : A.rows = n) (hc : A.cols = m) (hr' : B.rows = n) (hc' : B.cols = m)
    (h : A.toM n m = B.toM n m) : A = B := by
  subst hr hc
  refine ext' hr'.symm hc'.symm ?_
  intro i j hi hj
  exact congrFun (congrFun h ⟨i, hi⟩) ⟨j, hj⟩

@[simp] theorem toM_apply (A : Mat) (n m) (i : Fin n) (j : Fin m) : A.toM n m i j = A.e i j := rfl

theorem mul_e (A B : Mat) (i j : ℕ) : (A * B).e i j = ∑ k ∈ Finset.range A.cols, A.e i k * B.e k j := by
  show (of _ _ _).e i j = _
  rw [of_e]
  split
  · rfl
  · rename_i h
    symm; apply Finset.sum_eq_zero
    intro k _
    by_cases hi : i < A.rows
    · rw [B.out k j (by omega)]; ring
    · rw [A.out i k (by omega)]; ring

theorem mul_e' (A B : Mat) (K : ℕ) (h : A.cols ≤ K ∨ B.rows ≤ K) (i j : ℕ) :
    (A * B).e i j = ∑ k ∈ Finset.range K, A.e i k * B.e k j := by
  rw [mul_e]
  -- both equal the sum up to the larger bound
  have key : ∀ L, (∀ k, L ≤ k → A.e i k * B.e k j = 0) →
      ∀ M, (∀ k, M ≤ k → A.e i k * B.e k j = 0) →
      ∑ k ∈ Finset.range L, A.e i k * B.e k j = ∑ k ∈ Finset.range M, A.e i k * B.e k j := by
    intro L hL M hM
    rcases le_total L M with hLM | hLM
    · apply Finset.sum_subset (Finset.range_mono hLM)
      intro x _ hx; exact hL x (by simpa using hx)
    · symm
      apply Finset.sum_subset (Finset.range_mono hLM)
      intro x _ hx; exact hM x (by simpa using hx)
  apply key
  · intro k hk; rw [A.out i k (Or.inr hk), zero_mul]
  · intro k hk
    rcases h with h | h
    · rw [A.out i k (Or.inr (le_trans h hk)), zero_mul]
    · rw [B.out k j (Or.inl (le_trans h hk)), mul_zero]

theorem add_e (A B : Mat) (hr : B.rows = A.rows) (hc : B.cols = A.cols) (i j) :
    (A + B).e i j = A.e i j + B.e i j := by
  show (of _ _ _).e i j = _
  rw [of_e]
  split
  · rfl
  · rw [A.out i j (by omega), B.out i j (by omega)]; ring

theorem sub_e (A B : Mat) (hr : B.rows = A.rows) (hc : B.cols = A.cols) (i j) :
    (A - B).e i j = A.e i j - B.e i j := by
  show (of _ _ _).e i j = _
  rw [of_e]
  split
  · rfl
  · rw [A.out i j (by omega), B.out i j (by omega)]; ring

theorem smul_e (c : ℝ) (A : Mat) (i j) : (smul c A).e i j = c * A.e i j := by
  show (of _ _ _).e i j = _
  rw [of_e]
  split
  · rfl
  · rw [A.out i j (by omega)]; ring

theorem one_e (n i j) : (one n).e i j = if i = j ∧ i < n then 1 else 0 := by
  show (of _ _ _).e i j = _
  rw [of_e]
  by_cases h : i = j
  · subst h; simp
  · simp [h]

theorem zero_e (n m i j) : (zero n m).e i j = 0 := by
  show (of _ _ _).e i j = _
  rw [of_e]; simp

theorem block_e (A : Mat) (i0 j0 r c i j) :
    (A.block i0 j0 r c).e i j = if i < r ∧ j < c then A.e (i0 + i) (j0 + j) else 0 := rfl

/-! ### Bridge to Mathlib matrices -/

theorem toM_mul (A B : Mat) (n k m : ℕ) (h : A.cols ≤ k ∨ B.rows ≤ k) :
    (A * B).toM n m = A.toM n k * B.toM k m := by
  ext i j
  rw [toM_apply, mul_e' A B k h, Matrix.mul_apply, Finset.sum_range]
  rfl

theorem toM_add (A B : Mat) (hr : B.rows = A.rows) (hc : B.cols = A.cols) (n m) :
    (A + B).toM n m = A.toM n m + B.toM n m := by
  ext i j; rw [toM_apply, add_e A B hr hc]; rfl

theorem toM_sub (A B : Mat) (hr : B.rows = A.rows) (hc : B.cols = A.cols) (n m) :
    (A - B).toM n m = A.toM n m - B.toM n m := by
  ext i j; rw [toM_apply, sub_e A B hr hc]; rfl

theorem toM_smul (c : ℝ) (A : Mat) (n m) : (smul c A).toM n m = c • A.toM n m := by
  ext i j; rw [toM_apply, smul_e]; rfl

@[simp] theorem toM_tr (A : Mat) (n m) : A.tr.toM n m = (A.toM m n).transpose := rfl

@[simp] theorem toM_one (n) : (one n).toM n n = 1 := by
  ext i j
  rw [toM_apply, one_e, Matrix.one_apply]
  by_cases h : i = j
  · subst h; simp
  · have : (i : ℕ) ≠ j := fun hc => h (Fin.ext hc)
    simp [h, this]

@[simp] theorem toM_zero (a b n m) : (zero a b).toM n m = 0 := by
  ext i j; rw [toM_apply, zero_e]; rfl

@[simp] theorem toM_ofM {n m} (M : Matrix (Fin n) (Fin m) ℝ) : (ofM M).toM n m = M := by
  ext i j
  rw [toM_apply, ofM, of_e]; simp

theorem ofM_toM (A : Mat) {n m} (hr : A.rows = n) (hc : A.cols = m) : ofM (A.toM n m) = A :=
  toM_inj rfl rfl hr hc (toM_ofM _)

theorem toM_inv (A : Mat) (n) (h : A.rows = n) : A.inv.toM n n = (A.toM n n)⁻¹ := by
  subst h; exact toM_ofM _

/-! ### Ring-like laws -/

theorem mul_assoc (A B C : Mat) : A * B * C = A * (B * C) := by
  refine ext' rfl rfl ?_
  intro i j _ _
  rw [mul_e, mul_e A (B * C)]
  simp only [mul_e, mul_cols, Finset.sum_mul, Finset.mul_sum]
  rw [Finset.sum_comm]
  apply Finset.sum_congr rfl; intro x _
  apply Finset.sum_congr rfl; intro y _
  ring

theorem tr_mul (A B : Mat) : (A * B).tr = B.tr * A.tr := by
  refine ext' rfl rfl ?_
  intro i j _ _
  rw [tr_e, mul_e, mul_e' B.tr A.tr A.cols (Or.inr (by simp))]
  apply Finset.sum_congr rfl; intro x _
  simp; ring

@[simp] theorem tr_tr (A : Mat) : A.tr.tr = A := rfl

theorem one_mul (A : Mat) (n) (h : A.rows = n) : one n * A = A := by
  refine ext' (by simp [h]) rfl ?_
  intro i j hi _
  rw [mul_e]
  rw [Finset.sum_eq_single i]
  · rw [one_e]; simp at hi; simp [hi]
  · intro b _ hb; rw [one_e, if_neg (fun hc => hb hc.1.symm), zero_mul]
  · intro hc; simp at hc hi; omega

@[simp] theorem tr_one (n) : (one n).tr = one n := by
  refine ext' rfl rfl ?_
  intro i j hi hj
  simp only [tr_rows, tr_cols, one_rows, one_cols] at hi hj
  rw [tr_e, one_e, one_e]
  by_cases h : i = j
  · subst h; rfl
  · simp [h, Ne.symm h]

theorem mul_one (A : Mat) (n) (h : A.cols = n) : A * one n = A := by
  have := congrArg tr (one_mul A.tr n h)
  rw [tr_mul] at this
  simpa using this

theorem mul_add (A B C : Mat) (hr : C.rows = B.rows) (hc : C.cols = B.cols) : A * (B + C) = A * B + A * C := by
  refine ext' rfl rfl ?_
  intro i j _ _
  rw [add_e (A * B) (A * C) rfl hc, mul_e, mul_e, mul_e, ← Finset.sum_add_distrib]
  apply Finset.sum_congr rfl; intro k _
  rw [add_e _ _ hr hc]; ring

theorem add_mul (A B C : Mat) (hr : B.rows = A.rows) (hc : B.cols = A.cols) : (A + B) * C = A * C + B * C := by
  refine ext' rfl rfl ?_
  intro i j _ _
  rw [add_e (A * C) (B * C) hr rfl, mul_e, mul_e, add_cols, mul_e' B C A.cols (Or.inl (by rw [hc])), ← Finset.sum_add_distrib]
  apply Finset.sum_congr rfl; intro k _
  rw [add_e _ _ hr hc]; ring

theorem sub_mul (A B C : Mat) (hr : B.rows = A.rows) (hc : B.cols = A.cols) : (A - B) * C = A * C - B * C := by
  refine ext' rfl rfl ?_
  intro i j _ _
  rw [sub_e (A * C) (B * C) hr rfl, mul_e, mul_e, sub_cols, mul_e' B C A.cols (Or.inl (by rw [hc])), ← Finset.sum_sub_distrib]
  apply Finset.sum_congr rfl; intro k _
  rw [sub_e _ _ hr hc]; ring

theorem inv_mul (A : Mat) (n) (h : A.rows = n) (h' : A.cols = n) (hu : IsUnit (A.toM n n).det) : A.inv * A = one n := by
  apply toM_inj (n := n) (m := n) (by simp [h]) (by simp [h']) rfl rfl
  rw [toM_mul _ _ n n n (Or.inl (by simp [h])), toM_inv _ _ h, Matrix.nonsing_inv_mul _ hu, toM_one]

theorem mul_inv (A : Mat) (n) (h : A.rows = n) (h' : A.cols = n) (hu : IsUnit (A.toM n n).det) : A * A.inv = one n := by
  apply toM_inj (n := n) (m := n) (by simp [h]) (by simp [h]) rfl rfl
  rw [toM_mul _ _ n n n (Or.inl (by simp [h'])), toM_inv _ _ h, Matrix.mul_nonsing_inv _ hu, toM_one]

/-! ### Checked operations -/

theorem mulC_ok {A B : Mat} (h : A.cols = B.rows) : A.mulC B = .ok (A * B) := if_pos h
theorem addC_ok {A B : Mat} (h : A.rows = B.rows) (h' : A.cols = B.cols) : A.addC B = .ok (A + B) := if_pos ⟨h, h'⟩
theorem subC_ok {A B : Mat} (h : A.rows = B.rows) (h' : A.cols = B.cols) : A.subC B = .ok (A - B) := if_pos ⟨h, h'⟩
theorem invC_ok {A : Mat} (h : A.rows = A.cols) : A.invC = .ok A.inv := if_pos h
theorem blockC_ok {A : Mat} {i j r c : ℕ} (h : i + r ≤ A.rows) (h' : j + c ≤ A.cols) :
    A.blockC i j r c = .ok (A.block i j r c) := if_pos ⟨h, h'⟩
theorem setBlockC_ok {A B : Mat} {i j r c : ℕ} (h : i + r ≤ A.rows) (h' : j + c ≤ A.cols) (hr : B.rows = r)
    (hc : B.cols = c) : A.setBlockC i j r c B = .ok (A.setBlock i j B) := if_pos ⟨h, h', hr, hc⟩

end Mat
end Ikf
