import Verif.Spec.Psd
import Verif.Lemmas.Ldlt
import Verif.Lemmas.Mat

/-! # Property C134: the test for positive semidefiniteness -/

namespace Ikf
namespace Ldlt
open Finset

theorem lower_eq (A : Mat) : Psd.lower A = toMx (mirror A.e) A.rows := by
  ext i j
  simp only [Psd.lower, toMx, Matrix.of_apply]
  split
  · rename_i h; rw [mirror_low _ h]
  · rename_i h; rw [mirror_symm, mirror_low _ (le_of_not_ge h)]

/-- A successful factorisation with a positive or zero sign is one of a positive semidefinite matrix. -/
theorem unblocked_sound {m : ℕ → ℕ → ℝ} {n : ℕ} (h : (unblocked m n).2 = true) (hs : (unblocked m n).1 = .pos ∨ (unblocked m n).1 = .zero) :
    (toMx (mirror m) n).PosSemidef := by
  unfold unblocked at h hs
  by_cases h0 : n = 0
  · subst h0
    exact psd_of_factor (m := m) (mirror_symm m) (Equiv.refl ℕ) (fun _ g => g) (fun i j _ g => absurd g (by omega)) (fun l g => absurd g (by omega))
  simp only [if_neg h0] at h hs
  by_cases h1 : n = 1
  · subst h1
    simp only [if_pos rfl] at hs
    refine psd_of_factor (m := m) (mirror_symm m) (Equiv.refl ℕ) (fun _ g => g) (fun i j g1 g2 => ?_) (fun l g => ?_)
    · obtain rfl : i = 0 := by omega
      obtain rfl : j = 0 := by omega
      simp [mirror]
    · obtain rfl : l = 0 := by omega
      by_contra c
      push Not at c
      simp [c, not_lt.mpr c.le] at hs
  simp only [if_neg h1] at h hs
  by_cases hz : pivot m n 0 0 0 = 0
  · simp only [if_pos hz, decide_eq_true_eq] at h
    obtain ⟨t, hi⟩ := (Inv.start (n := n) (m := m)).pivot (mirror_symm m) (by omega)
    have dz : ∀ i, i < n → mirror m i i = 0 := by
      intro i hi'
      have a := biggest_max m (n := n) (k := 0) (Nat.zero_le i) hi'
      have b : m (biggest m n 0) (biggest m n 0) = 0 := by
        unfold pivot at hz
        by_cases c : 0 = biggest m n 0
        · rw [if_neg (by omega)] at hz; rw [← c]; exact hz
        · rw [if_pos c] at hz
          unfold exchange at hz
          rw [if_neg (by omega), if_neg (by omega), if_neg (by omega), if_neg (by omega), if_pos ⟨rfl, rfl⟩] at hz
          exact hz
      rw [b, abs_zero] at a
      rw [mirror_low m le_rfl]
      exact abs_nonpos_iff.mp a
    refine psd_of_factor (m := fun _ _ => 0) (mirror_symm m) t hi.range (fun i j g1 g2 => ?_) (fun l g => le_rfl)
    simp only [mul_zero, sum_const_zero, ite_self, add_zero]
    rcases lt_or_eq_of_le g1 with g | rfl
    · rw [← hi.tail i j (by omega) g1 g2]; exact h j i g g2
    · exact dz _ (hi.range _ g2)
  · simp only [if_neg hz] at h hs
    obtain ⟨t, hi⟩ := Inv.run (n := n) (m := m) n le_rfl
    exact psd_of_factor (mirror_symm m) t hi.range (fun i j g1 g2 => hi.head h i j (by omega) g1 g2) (hi.sgn hs)

/-- The factorisation of a positive definite matrix succeeds, with a positive (or, for no rows, zero) sign. -/
theorem unblocked_complete {m : ℕ → ℕ → ℝ} {n : ℕ} (hp : (toMx (mirror m) n).PosDef) :
    (unblocked m n).2 = true ∧ ((unblocked m n).1 = .pos ∨ (unblocked m n).1 = .zero) := by
  unfold unblocked
  by_cases h0 : n = 0
  · simp [h0]
  simp only [if_neg h0]
  by_cases h1 : n = 1
  · subst h1
    have : 0 < m 0 0 := by
      have := hp.diag_pos (i := 0)
      simpa [toMx, mirror] using this
    simp [this]
  simp only [if_neg h1]
  -- the next pivot is positive
  have next : ∀ (s : St) (k : ℕ) (t : Equiv.Perm ℕ), k < n → Inv n (mirror m) s k t → s.ret = true → 0 < reduce (pivot s.m n k) n k k k := by
    intro s k t hk hi hr
    obtain ⟨t', h'⟩ := hi.pivot (mirror_symm m) hk
    refine pivot_pos (m := reduce (pivot s.m n k) n k) (mirror_symm m) t' h'.range hk (fun i j g1 g2 => ?_) hp
    have left : ∀ i j, j < k → reduce (pivot s.m n k) n k i j = pivot s.m n k i j := fun i j hj => by
      simp only [reduce]; rw [if_neg (by omega)]
    rcases Nat.lt_or_ge j k with hj | hj
    · rw [left i j hj, left j j hj]
      have e : ∑ l ∈ range j, reduce (pivot s.m n k) n k i l * reduce (pivot s.m n k) n k l l * reduce (pivot s.m n k) n k j l =
          ∑ l ∈ range j, pivot s.m n k i l * pivot s.m n k l l * pivot s.m n k j l := by
        apply sum_congr rfl
        intro l hl
        have := mem_range.mp hl
        rw [left i l (by omega), left l l (by omega), left j l (by omega)]
      rw [e]
      exact h'.head hr i j hj g1 (by omega)
    · obtain rfl : j = k := by omega
      obtain rfl : i = j := by omega
      have e : ∑ l ∈ range i, reduce (pivot s.m n i) n i i l * reduce (pivot s.m n i) n i l l * reduce (pivot s.m n i) n i i l =
          ∑ l ∈ range i, pivot s.m n i i l * (pivot s.m n i l l * pivot s.m n i i l) := by
        apply sum_congr rfl
        intro l hl
        have := mem_range.mp hl
        rw [left i l (by omega), left l l (by omega), mul_assoc]
      rw [e, if_pos rfl, ← h'.tail i i le_rfl le_rfl hk]
      have : reduce (pivot s.m n i) n i i i = pivot s.m n i i i - ∑ l ∈ range i, pivot s.m n i i l * (pivot s.m n i l l * pivot s.m n i i l) := by
        simp [reduce, hk]
      rw [this]; ring
  have hz : pivot m n 0 0 0 ≠ 0 := by
    have := next ⟨m, .zero, false, true⟩ 0 _ (by omega) Inv.start rfl
    simp [reduce, Nat.pos_of_ne_zero h0] at this
    exact this.ne'
  simp only [if_neg hz]
  have all : ∀ k, k ≤ n → ((List.range k).foldl (step n) ⟨m, .zero, false, true⟩).ret = true ∧
      ((List.range k).foldl (step n) ⟨m, .zero, false, true⟩).found = false ∧
      (((List.range k).foldl (step n) ⟨m, .zero, false, true⟩).sgn = .pos ∨ ((List.range k).foldl (step n) ⟨m, .zero, false, true⟩).sgn = .zero) := by
    intro k
    induction k with
    | zero => exact fun _ => ⟨rfl, rfl, Or.inr rfl⟩
    | succ k ih =>
      intro hk
      obtain ⟨a, b, c⟩ := ih (by omega)
      obtain ⟨t, hi⟩ := Inv.run (n := n) (m := m) k (by omega)
      rw [List.range_succ, List.foldl_append]
      generalize (List.range k).foldl (step n) ⟨m, .zero, false, true⟩ = s at *
      have q := next s k t (by omega) hi a
      simp only [List.foldl_cons, List.foldl_nil, step]
      generalize reduce (pivot s.m n k) n k k k = d at q
      refine ⟨?_, ?_, ?_⟩
      · simp [a, b, q.ne']
      · simp [b, q.ne']
      · unfold sign
        rcases c with c | c <;> rw [c] <;> simp [q, not_lt.mpr q.le]
  obtain ⟨a, -, c⟩ := all n le_rfl
  exact ⟨a, c⟩

theorem isSymmetric_iff (A : Mat) : isSymmetric A = .ok true ↔ Psd.NearlySymmetric A := by
  unfold isSymmetric Psd.NearlySymmetric
  by_cases h : A.rows = A.cols
  · rw [if_neg (by simpa using h)]
    have e2 : ∑ i ∈ range A.cols, ∑ j ∈ range A.rows, A.e j i ^ 2 = ∑ i ∈ range A.rows, ∑ j ∈ range A.cols, A.e i j ^ 2 := sum_comm
    rw [e2, min_self]
    rw [← h]
    have s1 : ∀ f : ℕ → ℕ → ℝ, ∑ i : Fin A.rows, ∑ j : Fin A.rows, f i j = ∑ i ∈ range A.rows, ∑ j ∈ range A.rows, f i j := by
      intro f
      rw [← Fin.sum_univ_eq_sum_range (fun i => ∑ j ∈ range A.rows, f i j)]
      exact sum_congr rfl fun i _ => Fin.sum_univ_eq_sum_range (f i) A.rows
    rw [s1 (fun i j => (A.e i j - A.e j i) ^ 2), s1 (fun i j => A.e i j ^ 2)]
    have n1 : ((1 : ℝ) / 10 ^ 12) ^ 2 = 1 / 10 ^ 24 := by norm_num
    rw [n1]
    simp
  · rw [if_pos (by simpa using h)]
    simp [h]

/-- C134. Whenever the test answers "yes", the matrix is symmetric up to the tolerance and its lower triangle is that of a positive
semidefinite matrix; the test is not defined for matrices that are not square. -/
theorem c134_sound (A : Mat) :
    (isPsd A = .ok true → Psd.NearlySymmetric A ∧ (Psd.lower A).PosSemidef) ∧ (A.rows ≠ A.cols ↔ isPsd A = .ub) := by
  constructor
  · intro h
    unfold isPsd at h
    cases hs : isSymmetric A with
    | ub => rw [hs] at h; cases h
    | throws => rw [hs] at h; cases h
    | ok b =>
      cases b with
      | false => rw [hs, Res.bind_ok] at h; simp at h
      | true =>
        rw [hs] at h
        simp only [Res.bind_ok, if_true, Res.ok.injEq, Bool.and_eq_true, Bool.or_eq_true, beq_iff_eq] at h
        refine ⟨(isSymmetric_iff A).mp hs, ?_⟩
        rw [lower_eq]
        exact unblocked_sound h.1 h.2
  · unfold isPsd isSymmetric
    by_cases h : A.rows = A.cols
    · simp only [h, ne_eq, not_true_eq_false, if_false, false_iff, Res.bind_ok]
      split <;> simp
    · simp only [ne_eq, h, not_false_eq_true, if_true, true_iff]; rfl

/-- C134. For a symmetric matrix, the answer "yes" means that it is positive semidefinite. -/
theorem c134_symmetric (A : Mat) (hs : Psd.Symmetric A) (h : isPsd A = .ok true) : (A.toM A.rows A.rows).PosSemidef := by
  have := ((c134_sound A).1 h).2
  have e : Psd.lower A = A.toM A.rows A.rows := by
    ext i j
    simp only [Psd.lower, Mat.toM, Matrix.of_apply]
    split
    · rfl
    · exact hs.2 _ _ j.2 i.2
  rwa [e] at this

theorem symmetric_nearly {A : Mat} (hs : Psd.Symmetric A) : isSymmetric A = .ok true := by
  rw [isSymmetric_iff]
  refine ⟨hs.1, ?_⟩
  have : ∑ i : Fin A.rows, ∑ j : Fin A.rows, (A.e i j - A.e j i) ^ 2 = 0 := by
    refine sum_eq_zero fun i _ => sum_eq_zero fun j _ => ?_
    rw [hs.2 i j i.2 j.2]; ring
  rw [this]
  exact mul_nonneg (by norm_num) (sum_nonneg fun i _ => sum_nonneg fun j _ => sq_nonneg _)

/-- C134. Every symmetric positive definite matrix, of any size, passes. -/
theorem c134_complete (A : Mat) (hs : Psd.Symmetric A) (hp : (A.toM A.rows A.rows).PosDef) : isPsd A = .ok true := by
  unfold isPsd
  rw [symmetric_nearly hs]
  have e : A.toM A.rows A.rows = toMx (mirror A.e) A.rows := by
    ext i j
    simp only [toMx, Mat.toM, Matrix.of_apply]
    rcases le_total (j : ℕ) i with h | h
    · rw [mirror_low _ h]
    · rw [mirror_symm, mirror_low _ h]; exact hs.2 _ _ i.2 j.2
  rw [e] at hp
  obtain ⟨a, b⟩ := unblocked_complete hp
  rcases b with b | b <;> simp [a, b, Res.bind_ok]

end Ldlt
end Ikf
