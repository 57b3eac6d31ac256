import Verif.Model.Ldlt
import Mathlib.LinearAlgebra.Matrix.PosDef
import Mathlib.LinearAlgebra.Matrix.Block
import Mathlib.Data.Real.StarOrdered
import Mathlib.Logic.Equiv.Fin.Basic
import Mathlib.Tactic.Linarith

/-! The invariant of the factorisation `L D L^T` of a permuted symmetric matrix. -/

namespace Ikf
namespace Ldlt
open Finset

theorem biggest_range (m : ℕ → ℕ → ℝ) {n k : ℕ} (h : k < n) : k ≤ biggest m n k ∧ biggest m n k < n := by
  have key : ∀ (l : List ℕ) (b : ℕ), (∀ i ∈ l, i < n - k) → k ≤ b → b < n →
      k ≤ l.foldl (fun best i => if |m best best| < |m (k + i) (k + i)| then k + i else best) b ∧
      l.foldl (fun best i => if |m best best| < |m (k + i) (k + i)| then k + i else best) b < n := by
    intro l
    induction l with
    | nil => exact fun b _ h1 h2 => ⟨h1, h2⟩
    | cons x l ih =>
      intro b hl h1 h2
      have hx := hl x (by simp)
      apply ih _ (fun i hi => hl i (by simp [hi]))
      · beta_reduce; split <;> omega
      · beta_reduce; split <;> omega
  exact key _ _ (fun i hi => List.mem_range.mp hi) le_rfl h

/-- The chosen diagonal entry is a largest one. -/
theorem biggest_max (m : ℕ → ℕ → ℝ) {n k : ℕ} {i : ℕ} (h1 : k ≤ i) (h2 : i < n) : |m i i| ≤ |m (biggest m n k) (biggest m n k)| := by
  have key : ∀ (l : List ℕ) (b : ℕ), |m b b| ≤ |m (l.foldl (fun best i => if |m best best| < |m (k + i) (k + i)| then k + i else best) b)
        (l.foldl (fun best i => if |m best best| < |m (k + i) (k + i)| then k + i else best) b)| ∧
      ∀ i ∈ l, |m (k + i) (k + i)| ≤ |m (l.foldl (fun best i => if |m best best| < |m (k + i) (k + i)| then k + i else best) b)
        (l.foldl (fun best i => if |m best best| < |m (k + i) (k + i)| then k + i else best) b)| := by
    intro l
    induction l with
    | nil => exact fun b => ⟨le_rfl, by simp⟩
    | cons x l ih =>
      intro b
      simp only [List.foldl_cons]
      obtain ⟨g1, g2⟩ := ih (if |m b b| < |m (k + x) (k + x)| then k + x else b)
      refine ⟨le_trans ?_ g1, fun i hi => ?_⟩
      · split
        · rename_i h; exact h.le
        · exact le_rfl
      · rcases List.mem_cons.mp hi with rfl | hi
        · refine le_trans ?_ g1
          split
          · exact le_rfl
          · rename_i h; exact not_lt.mp h
        · exact g2 i hi
  have := (key (List.range (n - k)) k).2 (i - k) (List.mem_range.mpr (by omega))
  have e : k + (i - k) = i := by omega
  rw [e] at this
  exact this

/-- Before step `k`: the part right of column `k` is the matrix, permuted; the part left of it is the factorisation. -/
structure Inv (n : ℕ) (A : ℕ → ℕ → ℝ) (s : St) (k : ℕ) (t : Equiv.Perm ℕ) : Prop where
  range : ∀ i, i < n → t i < n
  tail : ∀ i j, k ≤ j → j ≤ i → i < n → s.m i j = A (t i) (t j)
  head : s.ret = true → ∀ i j, j < k → j ≤ i → i < n →
    A (t i) (t j) = ∑ l ∈ Finset.range j, s.m i l * s.m l l * s.m j l + (if i = j then s.m j j else s.m i j * s.m j j)
  sgn : s.sgn = .pos ∨ s.sgn = .zero → ∀ l, l < k → 0 ≤ s.m l l

theorem exchange_left {m : ℕ → ℕ → ℝ} {k p i j : ℕ} (hp : k < p) (hj : j < k) : exchange m k p i j = m (Equiv.swap k p i) j := by
  unfold exchange
  rcases eq_or_ne i k with rfl | h1
  · rw [if_pos ⟨rfl, hj⟩, Equiv.swap_apply_left]
  · rcases eq_or_ne i p with rfl | h2
    · rw [if_neg (by omega), if_pos ⟨rfl, hj⟩, Equiv.swap_apply_right]
    · rw [Equiv.swap_apply_of_ne_of_ne h1 h2]
      simp only [h1, h2, false_and, if_false]
      have a : j ≠ k := by omega
      have b : j ≠ p := by omega
      simp [a, b]

theorem exchange_right {m A : ℕ → ℕ → ℝ} {n k p i j : ℕ} {t : ℕ → ℕ} (hA : ∀ a b, A a b = A b a) (hp : k < p) (hpn : p < n) (hj : k ≤ j) (hij : j ≤ i)
    (hi : i < n) (h : ∀ i j, k ≤ j → j ≤ i → i < n → m i j = A (t i) (t j)) :
    exchange m k p i j = A (t (Equiv.swap k p i)) (t (Equiv.swap k p j)) := by
  unfold exchange
  rw [if_neg (by omega), if_neg (by omega)]
  rcases eq_or_ne j k with rfl | j1
  · rw [Equiv.swap_apply_left]
    rcases eq_or_ne i j with rfl | i1
    · rw [if_neg (by omega), if_neg (by omega), if_pos ⟨rfl, rfl⟩, Equiv.swap_apply_left]
      exact h _ _ (by omega) le_rfl hpn
    · rcases eq_or_ne i p with rfl | i2
      · rw [if_neg (by omega), if_neg (by omega), if_neg (by omega), if_neg (by omega), if_neg (by omega), if_neg (by omega), Equiv.swap_apply_right,
          h _ _ le_rfl hij hi, hA]
      · rw [Equiv.swap_apply_of_ne_of_ne i1 i2]
        by_cases c : p < i
        · rw [if_pos ⟨rfl, c⟩]; exact h _ _ (by omega) (by omega) hi
        · rw [if_neg (by omega), if_neg (by omega), if_neg (by omega), if_neg (by omega), if_pos ⟨rfl, by omega, by omega⟩,
            h _ _ (by omega) (by omega) hpn, hA]
  · rcases eq_or_ne j p with rfl | j2
    · rw [Equiv.swap_apply_right]
      rcases eq_or_ne i j with rfl | i2
      · rw [if_neg (by omega), if_neg (by omega), if_neg (by omega), if_pos ⟨rfl, rfl⟩, Equiv.swap_apply_right]
        exact h _ _ le_rfl le_rfl (by omega)
      · rw [if_neg (by omega), if_pos ⟨rfl, by omega⟩, Equiv.swap_apply_of_ne_of_ne (by omega) i2]
        exact h _ _ le_rfl (by omega) hi
    · rw [Equiv.swap_apply_of_ne_of_ne j1 j2]
      rcases eq_or_ne i p with rfl | i2
      · rw [if_neg (by omega), if_neg (by omega), if_neg (by omega), if_neg (by omega), if_neg (by omega), if_pos ⟨rfl, by omega, by omega⟩,
          Equiv.swap_apply_right, h _ _ le_rfl hj (by omega), hA]
      · rw [if_neg (by omega), if_neg (by omega), if_neg (by omega), if_neg (by omega), if_neg (by omega), if_neg (by omega),
          Equiv.swap_apply_of_ne_of_ne (by omega) i2]
        exact h _ _ hj hij hi

/-- The exchange keeps the invariant, for another permutation. -/
theorem Inv.pivot {n : ℕ} {A : ℕ → ℕ → ℝ} {s : St} {k : ℕ} {t : Equiv.Perm ℕ} (hA : ∀ a b, A a b = A b a) (hk : k < n) (h : Inv n A s k t) :
    ∃ t', Inv n A { s with m := Ldlt.pivot s.m n k } k t' := by
  obtain ⟨p1, p2⟩ := biggest_range s.m hk
  unfold Ldlt.pivot
  by_cases c : k = biggest s.m n k
  · rw [if_neg (by omega)]; exact ⟨t, h⟩
  rw [if_pos c]
  generalize biggest s.m n k = p at *
  have hp : k < p := by omega
  have low : ∀ i j, j < k → exchange s.m k p i j = s.m (Equiv.swap k p i) j := fun i j hj => exchange_left hp hj
  have fixd : ∀ l, l < k → Equiv.swap k p l = l := fun l hl => Equiv.swap_apply_of_ne_of_ne (by omega) (by omega)
  have rng : ∀ i, i < n → Equiv.swap k p i < n := by
    intro i hi
    rcases eq_or_ne i k with rfl | h1
    · rw [Equiv.swap_apply_left]; exact p2
    · rcases eq_or_ne i p with rfl | h2
      · rw [Equiv.swap_apply_right]; exact hk
      · rw [Equiv.swap_apply_of_ne_of_ne h1 h2]; exact hi
  have ge : ∀ i, k ≤ i → k ≤ Equiv.swap k p i := by
    intro i hi
    rcases eq_or_ne i k with rfl | h1
    · rw [Equiv.swap_apply_left]; omega
    · rcases eq_or_ne i p with rfl | h2
      · rw [Equiv.swap_apply_right]
      · rw [Equiv.swap_apply_of_ne_of_ne h1 h2]; exact hi
  refine ⟨(Equiv.swap k p).trans t, ⟨fun i hi => h.range _ (rng i hi), fun i j h1 h2 h3 => ?_, fun hr i j h1 h2 h3 => ?_, fun hs l hl => ?_⟩⟩
  · exact exchange_right (t := t) hA hp p2 h1 h2 h3 h.tail
  · simp only [Equiv.trans_apply]
    rw [fixd j h1, low i j h1, low j j h1, fixd j h1]
    have e : ∑ l ∈ Finset.range j, exchange s.m k p i l * exchange s.m k p l l * exchange s.m k p j l =
        ∑ l ∈ Finset.range j, s.m (Equiv.swap k p i) l * s.m l l * s.m j l := by
      apply Finset.sum_congr rfl
      intro l hl
      have := Finset.mem_range.mp hl
      rw [low i l (by omega), low l l (by omega), low j l (by omega), fixd l (by omega), fixd j h1]
    rw [e]
    by_cases hi : i < k
    · rw [fixd i hi]; exact h.head hr i j h1 h2 h3
    · have := ge i (by omega)
      have := h.head hr (Equiv.swap k p i) j h1 (by omega) (rng i h3)
      rw [this, if_neg (by omega), if_neg (by omega)]
  · show 0 ≤ exchange s.m k p l l
    rw [low l l hl, fixd l hl]
    exact h.sgn hs l hl

theorem sign_ok {s : Sgn} {a : ℝ} (h : sign s a = .pos ∨ sign s a = .zero) : (s = .pos ∨ s = .zero) ∧ 0 ≤ a := by
  unfold sign at h
  cases s <;> simp only at h
  · split at h
    · simp at h
    · rename_i g; exact ⟨Or.inl rfl, not_lt.mp g⟩
  · split at h <;> simp at h
  · split at h
    · rename_i g; exact ⟨Or.inr rfl, g.le⟩
    · split at h
      · simp at h
      · rename_i g; exact ⟨Or.inr rfl, not_lt.mp g⟩
  · simp at h

/-- A step keeps the invariant. -/
theorem Inv.step {n : ℕ} {A : ℕ → ℕ → ℝ} {s : St} {k : ℕ} {t : Equiv.Perm ℕ} (hA : ∀ a b, A a b = A b a) (hk : k < n) (h : Inv n A s k t) :
    ∃ t', Inv n A (Ldlt.step n s k) (k + 1) t' := by
  obtain ⟨t', h'⟩ := h.pivot hA hk
  refine ⟨t', h'.range, ?_, ?_, ?_⟩
  · intro i j h1 h2 h3
    rw [← h'.tail i j (by omega) h2 h3]
    simp only [Ldlt.step, scale, reduce]
    rw [if_neg (by omega), if_neg (by omega)]
  · intro hr
    have ht := h'.tail
    have hh := h'.head
    simp only [Ldlt.step] at hr ⊢
    simp only at ht hh
    generalize hm : Ldlt.pivot s.m n k = m at *
    have hret : s.ret = true ∧ (reduce m n k k k = 0 → ∀ i, k < i → i < n → reduce m n k i k = 0) := by
      by_cases c : reduce m n k k k = 0
      · simp [c] at hr
        exact ⟨hr.1, fun _ => hr.2⟩
      · simp [c] at hr
        exact ⟨hr.2, fun g => absurd g c⟩
    have left : ∀ i j, j < k → scale (reduce m n k) n k i j = m i j := fun i j hj => by
      simp only [scale, reduce]; rw [if_neg (by omega), if_neg (by omega)]
    have diag : scale (reduce m n k) n k k k = m k k - ∑ l ∈ Finset.range k, m k l * (m l l * m k l) := by
      simp only [scale, reduce]; rw [if_neg (by omega)]; simp [hk]
    intro i j h1 h2 h3
    rcases Nat.lt_succ_iff_lt_or_eq.mp h1 with hj | rfl
    · rw [left j j hj, left i j hj]
      have e : ∑ l ∈ Finset.range j, scale (reduce m n k) n k i l * scale (reduce m n k) n k l l * scale (reduce m n k) n k j l =
          ∑ l ∈ Finset.range j, m i l * m l l * m j l := by
        apply Finset.sum_congr rfl
        intro l hl
        have := Finset.mem_range.mp hl
        rw [left i l (by omega), left l l (by omega), left j l (by omega)]
      rw [e]
      exact hh hret.1 i j hj h2 h3
    · have e : ∑ l ∈ Finset.range j, scale (reduce m n j) n j i l * scale (reduce m n j) n j l l * scale (reduce m n j) n j j l =
          ∑ l ∈ Finset.range j, m i l * (m l l * m j l) := by
        apply Finset.sum_congr rfl
        intro l hl
        have := Finset.mem_range.mp hl
        rw [left i l (by omega), left l l (by omega), left j l (by omega), mul_assoc]
      rw [e, ← ht i j le_rfl h2 h3]
      by_cases hij : i = j
      · subst hij
        rw [if_pos rfl, diag]; ring
      · rw [if_neg hij]
        have r1 : reduce m n j i j = m i j - ∑ l ∈ Finset.range j, m i l * (m l l * m j l) := by
          simp only [reduce]; simp [h2, h3]
        have r2 : scale (reduce m n j) n j j j = reduce m n j j j := by
          simp only [scale]; rw [if_neg (by omega)]
        rw [r2]
        by_cases c : reduce m n j j j = 0
        · have z := hret.2 c i (by omega) h3
          rw [c]; rw [r1] at z; linarith
        · have : scale (reduce m n j) n j i j = reduce m n j i j / reduce m n j j j := by
            simp only [scale]; rw [if_pos ⟨trivial, by omega, h3, c⟩]
          rw [this, div_mul_cancel₀ _ c, r1]; ring
  · intro hs l hl
    simp only [Ldlt.step] at hs ⊢
    obtain ⟨g1, g2⟩ := sign_ok hs
    rcases Nat.lt_succ_iff_lt_or_eq.mp hl with hl | rfl
    · have := h'.sgn g1 l hl
      simp only [scale, reduce]
      rw [if_neg (by omega), if_neg (by omega)]
      exact this
    · simp only [scale]
      rw [if_neg (by omega)]
      exact g2

/-- The symmetric matrix with the lower triangle of `m`. -/
def mirror (m : ℕ → ℕ → ℝ) : ℕ → ℕ → ℝ := fun i j => m (max i j) (min i j)

theorem mirror_symm (m : ℕ → ℕ → ℝ) (a b : ℕ) : mirror m a b = mirror m b a := by unfold mirror; rw [max_comm, min_comm]

theorem mirror_low (m : ℕ → ℕ → ℝ) {i j : ℕ} (h : j ≤ i) : mirror m i j = m i j := by unfold mirror; rw [max_eq_left h, min_eq_right h]

theorem Inv.start {n : ℕ} {m : ℕ → ℕ → ℝ} : Inv n (mirror m) ⟨m, .zero, false, true⟩ 0 (Equiv.refl ℕ) :=
  ⟨fun _ h => h, fun _ _ _ h _ => (mirror_low m h).symm, fun _ _ _ h => absurd h (by omega), fun _ _ h => absurd h (by omega)⟩

theorem Inv.run {n : ℕ} {m : ℕ → ℕ → ℝ} (k : ℕ) (hk : k ≤ n) :
    ∃ t, Inv n (mirror m) ((List.range k).foldl (Ldlt.step n) ⟨m, .zero, false, true⟩) k t := by
  induction k with
  | zero => exact ⟨_, Inv.start⟩
  | succ k ih =>
    obtain ⟨t, h⟩ := ih (by omega)
    rw [List.range_succ, List.foldl_append]
    exact h.step (mirror_symm m) (by omega)

/-! ## The factorisation as matrices -/

open Matrix

/-- The unit lower triangular factor. -/
def lowN (m : ℕ → ℕ → ℝ) (i l : ℕ) : ℝ := if l < i then m i l else if l = i then 1 else 0

def low (m : ℕ → ℕ → ℝ) (K : ℕ) : Matrix (Fin K) (Fin K) ℝ := Matrix.of fun i l => lowN m i l

theorem factor {K : ℕ} {m B : ℕ → ℕ → ℝ} (hB : ∀ a b, B a b = B b a)
    (h : ∀ i j, j ≤ i → i < K → B i j = ∑ l ∈ Finset.range j, m i l * m l l * m j l + (if i = j then m j j else m i j * m j j)) :
    (Matrix.of fun i j : Fin K => B i j) = low m K * Matrix.diagonal (fun l : Fin K => m l l) * (low m K)ᵀ := by
  have key : ∀ i j, j ≤ i → i < K → B i j = ∑ l : Fin K, lowN m i l * m l l * lowN m j l := by
    intro i j hij hi
    rw [Fin.sum_univ_eq_sum_range (fun l => lowN m i l * m l l * lowN m j l) K, h i j hij hi]
    have sub : Finset.range (j + 1) ⊆ Finset.range K := fun x hx => by
      have := Finset.mem_range.mp hx
      exact Finset.mem_range.mpr (by omega)
    rw [← Finset.sum_subset sub (fun x _ hx => by
      have : ¬ x < j + 1 := fun g => hx (Finset.mem_range.mpr g)
      have z : lowN m j x = 0 := by unfold lowN; rw [if_neg (by omega), if_neg (by omega)]
      rw [z, mul_zero]), Finset.sum_range_succ]
    congr 1
    · apply Finset.sum_congr rfl
      intro l hl
      have := Finset.mem_range.mp hl
      unfold lowN
      rw [if_pos (by omega), if_pos this]
    · have e : lowN m j j = 1 := by unfold lowN; simp
      rw [e, mul_one]
      by_cases c : i = j
      · subst c; rw [if_pos rfl, e, one_mul]
      · rw [if_neg c]
        unfold lowN
        rw [if_pos (by omega)]
  ext i j
  rw [Matrix.mul_apply]
  simp only [Matrix.mul_diagonal, Matrix.transpose_apply, low, Matrix.of_apply]
  rcases le_total (j : ℕ) i with hij | hij
  · exact key i j hij i.2
  · rw [hB, key j i hij j.2]
    exact Finset.sum_congr rfl fun l _ => by ring

/-- The matrix of the first `n` rows and columns. -/
def toMx (A : ℕ → ℕ → ℝ) (n : ℕ) : Matrix (Fin n) (Fin n) ℝ := Matrix.of fun i j => A i j

def permF {n : ℕ} (t : Equiv.Perm ℕ) (ht : ∀ i, i < n → t i < n) : Fin n → Fin n := fun i => ⟨t i, ht i i.2⟩

theorem permF_inj {n : ℕ} (t : Equiv.Perm ℕ) (ht : ∀ i, i < n → t i < n) : Function.Injective (permF t ht) := by
  intro a b h
  have : t a = t b := congrArg Fin.val h
  exact Fin.ext (t.injective this)

theorem psd_of_factor {n : ℕ} {m A : ℕ → ℕ → ℝ} (hA : ∀ a b, A a b = A b a) (t : Equiv.Perm ℕ) (ht : ∀ i, i < n → t i < n)
    (h : ∀ i j, j ≤ i → i < n → A (t i) (t j) = ∑ l ∈ Finset.range j, m i l * m l l * m j l + (if i = j then m j j else m i j * m j j))
    (hd : ∀ l, l < n → 0 ≤ m l l) : (toMx A n).PosSemidef := by
  have f := factor (B := fun i j => A (t i) (t j)) (fun a b => hA _ _) h
  have p : (Matrix.diagonal (fun l : Fin n => m l l)).PosSemidef := Matrix.PosSemidef.diagonal (fun l => hd l l.2)
  have q := p.mul_mul_conjTranspose_same (low m n)
  rw [Matrix.conjTranspose_eq_transpose_of_trivial, ← f] at q
  let e : Fin n ≃ Fin n := Equiv.ofBijective (permF t ht) (Finite.injective_iff_bijective.mp (permF_inj t ht))
  have s : (Matrix.of fun i j : Fin n => A (t i) (t j)) = (toMx A n).submatrix e e := rfl
  rw [s, Matrix.posSemidef_submatrix_equiv] at q
  exact q

theorem low_unit (m : ℕ → ℕ → ℝ) (K : ℕ) : IsUnit (low m K) := by
  rw [Matrix.isUnit_iff_isUnit_det, Matrix.det_of_isLowerTriangular]
  · simp [low, lowN]
  · intro i j hij
    have : (i : ℕ) < j := hij
    simp only [low, lowN, Matrix.of_apply]
    rw [if_neg (by omega), if_neg (by omega)]

/-- The pivots of a positive definite matrix are positive. -/
theorem pivot_pos {n k : ℕ} {m A : ℕ → ℕ → ℝ} (hA : ∀ a b, A a b = A b a) (t : Equiv.Perm ℕ) (ht : ∀ i, i < n → t i < n) (hk : k < n)
    (h : ∀ i j, j ≤ i → i < k + 1 → A (t i) (t j) = ∑ l ∈ Finset.range j, m i l * m l l * m j l + (if i = j then m j j else m i j * m j j))
    (hp : (toMx A n).PosDef) : 0 < m k k := by
  have f := factor (B := fun i j => A (t i) (t j)) (fun a b => hA _ _) h
  have inj : Function.Injective (fun i : Fin (k + 1) => permF t ht ⟨i, by omega⟩) := by
    intro a b hab
    have := permF_inj t ht hab
    exact Fin.ext (Fin.mk.inj this)
  have s : (Matrix.of fun i j : Fin (k + 1) => A (t i) (t j)) =
      (toMx A n).submatrix (fun i : Fin (k + 1) => permF t ht ⟨i, by omega⟩) (fun i : Fin (k + 1) => permF t ht ⟨i, by omega⟩) := rfl
  have q := hp.submatrix inj
  rw [← s, f] at q
  have hU := low_unit m (k + 1)
  have := (Matrix.IsUnit.posDef_star_right_conjugate_iff hU (x := Matrix.diagonal (fun l : Fin (k + 1) => m l l))).mp (by
    rw [Matrix.star_eq_conjTranspose, Matrix.conjTranspose_eq_transpose_of_trivial]; exact q)
  have d := this.diag_pos (i := Fin.last k)
  simpa using d

end Ldlt
end Ikf
