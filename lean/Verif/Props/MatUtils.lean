import Verif.Model.MatUtils
import Verif.Lemmas.Mat
import Mathlib.LinearAlgebra.Lagrange
import Mathlib.LinearAlgebra.Matrix.PosDef
import Mathlib.Data.Real.StarOrdered
import Mathlib.Tactic.Linarith

/-!
# C50 (matrix concatenation and block helpers), C60 (nearest covariance)
-/

namespace Ikf
namespace MatU
open Mat

/-- `A` is the block of `C` that starts at row `i`, column `j`. -/
structure Blk (C : Mat) (i j : ℕ) (A : Mat) : Prop where
  hr : i + A.rows ≤ C.rows
  hc : j + A.cols ≤ C.cols
  he : ∀ a b, a < A.rows → b < A.cols → C.e (i + a) (j + b) = A.e a b

theorem set_ok {C B C' : Mat} {i j r c : ℕ} (h : C.setBlockC i j r c B = .ok C') :
    C'.rows = C.rows ∧ C'.cols = C.cols ∧ Blk C' i j B ∧
    ∀ i' j' A, Blk C i' j' A → (i' + A.rows ≤ i ∨ i + B.rows ≤ i' ∨ j' + A.cols ≤ j ∨ j + B.cols ≤ j') → Blk C' i' j' A := by
  unfold setBlockC at h
  split at h
  · rename_i hh
    obtain ⟨h1, h2, h3, h4⟩ := hh
    cases h
    refine ⟨rfl, rfl, ⟨by simpa [h3] using h1, by simpa [h4] using h2, fun a b ha hb => ?_⟩, fun i' j' A hA hd =>
      ⟨by simpa using hA.hr, by simpa using hA.hc, fun a b ha hb => ?_⟩⟩
    · simp only [setBlock, of_e]
      rw [if_pos (by omega), if_pos (by omega)]; congr 1 <;> omega
    · have hr := hA.hr
      have hc := hA.hc
      simp only [setBlock, of_e]
      rw [if_pos (by omega), if_neg (by omega), hA.he a b ha hb]
  · cases h

theorem set_total {C B : Mat} {i j r c : ℕ} (h1 : i + r ≤ C.rows) (h2 : j + c ≤ C.cols) (h3 : B.rows = r) (h4 : B.cols = c) :
    ∃ C', C.setBlockC i j r c B = .ok C' := ⟨_, if_pos ⟨h1, h2, h3, h4⟩⟩

theorem size_ne {A : Mat} (h : A.size ≠ 0) : 0 < A.rows ∧ 0 < A.cols := by
  unfold size at h
  exact ⟨Nat.pos_of_ne_zero fun e => h (by simp [e]), Nat.pos_of_ne_zero fun e => h (by simp [e])⟩

theorem next_same {s : Comma} {B x : Mat} (h1 : s.col < s.xpr.cols) (h2 : s.cur = B.rows)
    (h : s.xpr.setBlockC s.row s.col B.rows B.cols B = .ok x) : s.next B = .ok { s with xpr := x, col := s.col + B.cols } := by
  have : s.adv B = s := by unfold Comma.adv; rw [if_neg (by omega)]
  rw [Comma.next, this, Comma.put, if_neg (by omega), h]; rfl

theorem next_row {s : Comma} {B x : Mat} (h1 : s.col = s.xpr.cols) (h2 : B.cols ≠ 0)
    (h : s.xpr.setBlockC (s.row + s.cur) 0 B.rows B.cols B = .ok x) :
    s.next B = .ok { xpr := x, row := s.row + s.cur, col := B.cols, cur := B.rows } := by
  have : s.adv B = { s with row := s.row + s.cur, col := 0, cur := B.rows } := by
    unfold Comma.adv; rw [if_pos ⟨h1, Or.inl h2⟩]
  rw [Comma.next, this, Comma.put]
  simp only [ne_eq, not_true_eq_false, if_false, h, Res.bind_ok, Nat.zero_add]

theorem brC_ok {A : Mat} {r c : ℕ} (h1 : r ≤ A.rows) (h2 : c ≤ A.cols) : brC A r c = .ok (A.block (A.rows - r) (A.cols - c) r c) := by
  rw [brC, if_pos ⟨h1, h2⟩, blockC_ok (by omega) (by omega)]

theorem trC_ok {A : Mat} {r c : ℕ} (h1 : r ≤ A.rows) (h2 : c ≤ A.cols) : trC A r c = .ok (A.block 0 (A.cols - c) r c) := by
  rw [trC, if_pos ⟨h1, h2⟩, blockC_ok (by omega) (by omega)]

/-! ## C50: concatenation -/

/-- C50. `horcat(A, B)` of non-empty matrices of any sizes: side by side, with no entry left uninitialised, if the row
counts agree, an exception otherwise; an empty operand is neutral. -/
theorem c50_horcat (g : ℕ → ℕ → ℝ) (A B : Mat) :
    (A.size = 0 → horcat g A B = .ok B) ∧ (A.size ≠ 0 → B.size = 0 → horcat g A B = .ok A) ∧
    (A.size ≠ 0 → B.size ≠ 0 →
      (A.rows ≠ B.rows → horcat g A B = .throws) ∧
      (A.rows = B.rows → ∃ C, horcat g A B = .ok C ∧ C.rows = A.rows ∧ C.cols = A.cols + B.cols ∧ Blk C 0 0 A ∧
        Blk C 0 A.cols B)) := by
  refine ⟨fun h => by simp [horcat, h], fun h h' => by simp [horcat, h, h'], fun h h' => ⟨fun hr => by simp [horcat, h, h', hr], fun hr => ?_⟩⟩
  simp only [horcat, if_neg h, if_neg h', if_pos hr]
  obtain ⟨C1, e1⟩ := set_total (C := of A.rows (A.cols + B.cols) g) (B := A) (i := 0) (j := 0)
    (r := A.rows) (c := A.cols) (by simp) (by simp) rfl rfl
  obtain ⟨r1, c1, b1, -⟩ := set_ok e1
  simp only [of_rows, of_cols] at r1 c1
  obtain ⟨C2, e2⟩ := set_total (C := C1) (B := B) (i := 0) (j := C1.cols - B.cols) (r := C1.rows) (c := B.cols)
    (by omega) (by omega) (by omega) rfl
  obtain ⟨r2, c2, b2, k2⟩ := set_ok e2
  refine ⟨C2, ?_, by omega, by omega, k2 _ _ _ b1 (by omega), ?_⟩
  · show (((of A.rows (A.cols + B.cols) g).setBlockC 0 0 A.rows A.cols A) >>= _) = _
    rw [e1]; exact e2
  · have : C1.cols - B.cols = A.cols := by omega
    rwa [this] at b2

/-- C50. `vertcat(A, B)`: on top of each other. -/
theorem c50_vertcat (g : ℕ → ℕ → ℝ) (A B : Mat) :
    (A.size = 0 → vertcat g A B = .ok B) ∧ (A.size ≠ 0 → B.size = 0 → vertcat g A B = .ok A) ∧
    (A.size ≠ 0 → B.size ≠ 0 →
      (A.cols ≠ B.cols → vertcat g A B = .throws) ∧
      (A.cols = B.cols → ∃ C, vertcat g A B = .ok C ∧ C.rows = A.rows + B.rows ∧ C.cols = A.cols ∧ Blk C 0 0 A ∧
        Blk C A.rows 0 B)) := by
  refine ⟨fun h => by simp [vertcat, h], fun h h' => by simp [vertcat, h, h'], fun h h' => ⟨fun hr => by simp [vertcat, h, h', hr], fun hr => ?_⟩⟩
  simp only [vertcat, if_neg h, if_neg h', if_pos hr, comma1]
  have hB := size_ne h'
  obtain ⟨C1, e1⟩ := set_total (C := of (A.rows + B.rows) B.cols g) (B := A) (i := 0) (j := 0)
    (r := A.rows) (c := A.cols) (by simp) (by simp [hr]) rfl rfl
  obtain ⟨r1, c1, b1, -⟩ := set_ok e1
  simp only [of_rows, of_cols] at r1 c1
  obtain ⟨C2, e2⟩ := set_total (C := C1) (B := B) (i := A.rows) (j := 0) (r := B.rows) (c := B.cols)
    (by omega) (by omega) rfl rfl
  obtain ⟨r2, c2, b2, k2⟩ := set_ok e2
  refine ⟨C2, ?_, by omega, by omega, k2 _ _ _ b1 (by omega), b2⟩
  rw [e1, Res.bind_ok, Res.bind_ok, next_row (s := ⟨C1, 0, A.cols, A.rows⟩) (by show A.cols = C1.cols; omega) (by omega)
    (x := C2) (by simpa using e2), Res.bind_ok]
  simp only [Comma.fin]
  rw [if_pos ⟨Or.inl (by omega), by omega⟩]

/-- C50. ... and the three-block `vertcat` (blocks with at least one column). -/
theorem c50_vertcat3 (g : ℕ → ℕ → ℝ) (A B D : Mat) :
    (¬ (A.cols = B.cols ∧ A.cols = D.cols) → vertcat3 g A B D = .throws) ∧
    (0 < A.cols → A.cols = B.cols → A.cols = D.cols → ∃ C, vertcat3 g A B D = .ok C ∧ C.rows = A.rows + B.rows + D.rows ∧
      C.cols = A.cols ∧ Blk C 0 0 A ∧ Blk C A.rows 0 B ∧ Blk C (A.rows + B.rows) 0 D) := by
  refine ⟨fun h => by rw [vertcat3, if_neg h], fun h0 h1 h2 => ?_⟩
  rw [vertcat3, if_pos ⟨h1, h2⟩]
  simp only [comma1]
  obtain ⟨C1, e1⟩ := set_total (C := of (A.rows + B.rows + D.rows) B.cols g) (B := A) (i := 0) (j := 0)
    (r := A.rows) (c := A.cols) (by simp; omega) (by simp [h1]) rfl rfl
  obtain ⟨r1, c1, b1, -⟩ := set_ok e1
  simp only [of_rows, of_cols] at r1 c1
  obtain ⟨C2, e2⟩ := set_total (C := C1) (B := B) (i := A.rows) (j := 0) (r := B.rows) (c := B.cols)
    (by omega) (by omega) rfl rfl
  obtain ⟨r2, c2, b2, k2⟩ := set_ok e2
  obtain ⟨C3, e3⟩ := set_total (C := C2) (B := D) (i := A.rows + B.rows) (j := 0) (r := D.rows) (c := D.cols)
    (by omega) (by omega) rfl rfl
  obtain ⟨r3, c3, b3, k3⟩ := set_ok e3
  refine ⟨C3, ?_, by omega, by omega, k3 _ _ _ (k2 _ _ _ b1 (by omega)) (by omega), k3 _ _ _ b2 (by omega), b3⟩
  rw [e1, Res.bind_ok, Res.bind_ok, next_row (s := ⟨C1, 0, A.cols, A.rows⟩) (by show A.cols = C1.cols; omega) (by omega)
    (x := C2) (by simpa using e2), Res.bind_ok]
  rw [next_row (s := ⟨C2, 0 + A.rows, B.cols, B.rows⟩) (by show B.cols = C2.cols; omega) (by omega)
    (x := C3) (by simpa using e3), Res.bind_ok]
  simp only [Comma.fin]
  rw [if_pos ⟨Or.inl (by omega), by omega⟩]

/-- C50. The three- and four-block `horcat` likewise (also with blocks of zero columns)... -/
theorem c50_horcat3 (g : ℕ → ℕ → ℝ) (A B D : Mat) :
    (¬ (A.rows = B.rows ∧ A.rows = D.rows) → horcat3 g A B D = .throws) ∧
    (A.rows = B.rows → A.rows = D.rows → ∃ C, horcat3 g A B D = .ok C ∧ C.rows = A.rows ∧
      C.cols = A.cols + B.cols + D.cols ∧ Blk C 0 0 A ∧ Blk C 0 A.cols B ∧ Blk C 0 (A.cols + B.cols) D) := by
  refine ⟨fun h => by rw [horcat3, if_neg h], fun h1 h2 => ?_⟩
  rw [horcat3, if_pos ⟨h1, h2⟩]
  obtain ⟨C1, e1⟩ := set_total (C := of A.rows (A.cols + B.cols + D.cols) g) (B := A) (i := 0) (j := 0)
    (r := A.rows) (c := A.cols) (by simp) (by simp; omega) rfl rfl
  obtain ⟨r1, c1, b1, -⟩ := set_ok e1
  simp only [of_rows, of_cols] at r1 c1
  obtain ⟨C2, e2⟩ := set_total (C := C1) (B := B) (i := 0) (j := A.cols) (r := C1.rows) (c := B.cols)
    (by omega) (by omega) (by omega) rfl
  obtain ⟨r2, c2, b2, k2⟩ := set_ok e2
  obtain ⟨C3, e3⟩ := set_total (C := C2) (B := D) (i := 0) (j := C2.cols - D.cols) (r := C2.rows) (c := D.cols)
    (by omega) (by omega) (by omega) rfl
  obtain ⟨r3, c3, b3, k3⟩ := set_ok e3
  have hk : C2.cols - D.cols = A.cols + B.cols := by omega
  refine ⟨C3, ?_, by omega, by omega, k3 _ _ _ (k2 _ _ _ b1 (by omega)) (by omega), k3 _ _ _ b2 (by omega), by rwa [hk] at b3⟩
  show (((of A.rows (A.cols + B.cols + D.cols) g).setBlockC 0 0 A.rows A.cols A) >>= _) = _
  rw [e1]; simp only [Res.bind_ok]; rw [e2]; exact e3

/-- ... -/
theorem c50_horcat4 (g : ℕ → ℕ → ℝ) (A B D E : Mat) :
    (¬ (A.rows = B.rows ∧ A.rows = D.rows ∧ A.rows = E.rows) → horcat4 g A B D E = .throws) ∧
    (A.rows = B.rows → A.rows = D.rows → A.rows = E.rows → ∃ C, horcat4 g A B D E = .ok C ∧ C.rows = A.rows ∧
      C.cols = A.cols + B.cols + D.cols + E.cols ∧ Blk C 0 0 A ∧ Blk C 0 A.cols B ∧ Blk C 0 (A.cols + B.cols) D ∧
      Blk C 0 (A.cols + B.cols + D.cols) E) := by
  refine ⟨fun h => by rw [horcat4, if_neg h], fun h1 h2 h3 => ?_⟩
  rw [horcat4, if_pos ⟨h1, h2, h3⟩]
  obtain ⟨C1, e1⟩ := set_total (C := of A.rows (A.cols + B.cols + D.cols + E.cols) g) (B := A) (i := 0) (j := 0)
    (r := A.rows) (c := A.cols) (by simp) (by simp; omega) rfl rfl
  obtain ⟨r1, c1, b1, -⟩ := set_ok e1
  simp only [of_rows, of_cols] at r1 c1
  obtain ⟨C2, e2⟩ := set_total (C := C1) (B := B) (i := 0) (j := A.cols) (r := C1.rows) (c := B.cols)
    (by omega) (by omega) (by omega) rfl
  obtain ⟨r2, c2, b2, k2⟩ := set_ok e2
  obtain ⟨C3, e3⟩ := set_total (C := C2) (B := D) (i := 0) (j := A.cols + B.cols) (r := C2.rows) (c := D.cols)
    (by omega) (by omega) (by omega) rfl
  obtain ⟨r3, c3, b3, k3⟩ := set_ok e3
  obtain ⟨C4, e4⟩ := set_total (C := C3) (B := E) (i := 0) (j := C3.cols - E.cols) (r := C3.rows) (c := E.cols)
    (by omega) (by omega) (by omega) rfl
  obtain ⟨r4, c4, b4, k4⟩ := set_ok e4
  have hk : C3.cols - E.cols = A.cols + B.cols + D.cols := by omega
  refine ⟨C4, ?_, by omega, by omega, k4 _ _ _ (k3 _ _ _ (k2 _ _ _ b1 (by omega)) (by omega)) (by omega),
    k4 _ _ _ (k3 _ _ _ b2 (by omega)) (by omega), k4 _ _ _ b3 (by omega), by rwa [hk] at b4⟩
  show (((of A.rows (A.cols + B.cols + D.cols + E.cols) g).setBlockC 0 0 A.rows A.cols A) >>= _) = _
  rw [e1]; simp only [Res.bind_ok]; rw [e2]; simp only [Res.bind_ok]; rw [e3]; exact e4

/-- C50, finding. With three operands an empty one is not neutral: any non-empty `A` next to it throws. -/
theorem c50_horcat3_empty_fails (g : ℕ → ℕ → ℝ) (A : Mat) (hA : A.size ≠ 0) :
    horcat3 g A A Mat.empty = .throws ∧ horcat g (Mat.empty) A = .ok A := by
  have := size_ne hA
  refine ⟨(c50_horcat3 g A A Mat.empty).1 (by simp; omega), (c50_horcat g Mat.empty A).1 rfl⟩

/-- C50, finding. `horcat_vec` of two non-empty vectors of the same size is undefined behaviour for every size. -/
theorem c50_horcat_vec_fails (v w : Mat) (hv : v.cols = 1) (hw : w.cols = 1) (h : v.rows = w.rows) (h0 : 0 < v.rows) :
    horcatVec v w = .ub := by
  have h1 : v.size ≠ 0 := by simp [size, hv]; omega
  have h2 : w.size ≠ 0 := by simp [size, hw]; omega
  simp [horcatVec, h1, h2, h, hv, hw]

/-- C50. `blkdiag(A, B)` is right when `A` and `B` have the same number of columns (in particular for square blocks of
the same size) ... -/
theorem c50_blkdiag_partial (A B : Mat) (h : A.cols = B.cols) :
    ∃ C, blkdiag A B = .ok C ∧ C.rows = A.rows + B.rows ∧ C.cols = A.cols + B.cols ∧ Blk C 0 0 A ∧ Blk C A.rows A.cols B ∧
      Blk C 0 A.cols (Mat.zero A.rows B.cols) ∧ Blk C A.rows 0 (Mat.zero B.rows A.cols) := by
  obtain ⟨C1, e1⟩ := set_total (C := zero (A.rows + B.rows) (A.cols + B.cols)) (B := A) (i := 0) (j := 0)
    (r := A.rows) (c := B.cols) (by simp) (by simp) rfl h
  obtain ⟨r1, c1, b1, k1⟩ := set_ok e1
  simp only [zero_rows, zero_cols] at r1 c1
  obtain ⟨C2, e2⟩ := set_total (C := C1) (B := B) (i := A.rows) (j := B.cols) (r := B.rows) (c := B.cols)
    (by omega) (by omega) rfl rfl
  obtain ⟨r2, c2, b2, k2⟩ := set_ok e2
  have z1 : Blk (zero (A.rows + B.rows) (A.cols + B.cols)) 0 A.cols (zero A.rows B.cols) :=
    ⟨by simp, by simp, fun a b _ _ => by simp [zero_e]⟩
  have z2 : Blk (zero (A.rows + B.rows) (A.cols + B.cols)) A.rows 0 (zero B.rows A.cols) :=
    ⟨by simp, by simp, fun a b _ _ => by simp [zero_e]⟩
  refine ⟨C2, ?_, by omega, by omega, k2 _ _ _ b1 (by omega), by rwa [← h] at b2,
    k2 _ _ _ (k1 _ _ _ z1 (by omega)) (by simp), k2 _ _ _ (k1 _ _ _ z2 (by omega)) (by simp; omega)⟩
  show (((zero (A.rows + B.rows) (A.cols + B.cols)).setBlockC 0 0 A.rows B.cols A) >>= _) = _
  rw [e1]; exact e2

/-- ... and C50, finding: undefined behaviour in every other case. -/
theorem c50_blkdiag_fails (A B : Mat) (h : A.cols ≠ B.cols) : blkdiag A B = .ub := by
  unfold blkdiag setBlockC
  simp [h]

/-! ## C50: stacking and splitting -/

/-- C50. `stack_Sigma` of square `Sigma_II`, `Sigma_JJ` and a non-empty fitting `Sigma_IJ` is the symmetric arrangement
of the blocks; it throws exactly if `Sigma_IJ` is empty or does not fit. -/
theorem c50_stack_sigma (g : ℕ → ℕ → ℝ) (SII SJJ SIJ : Mat) (hI : SII.rows = SII.cols) (hJ : SJJ.rows = SJJ.cols) :
    (stackSigma2 g SII SJJ SIJ = .throws ↔ SIJ.size = 0 ∨ SIJ.rows ≠ SII.rows ∨ SIJ.cols ≠ SJJ.cols) ∧
    (SIJ.size ≠ 0 → SIJ.rows = SII.rows → SIJ.cols = SJJ.cols →
      ∃ C, stackSigma2 g SII SJJ SIJ = .ok C ∧ C.rows = SII.rows + SJJ.rows ∧ C.cols = SII.rows + SJJ.rows ∧
        Blk C 0 0 SII ∧ Blk C 0 SII.rows SIJ ∧ Blk C SII.rows 0 SIJ.tr ∧ Blk C SII.rows SII.rows SJJ) := by
  have main : SIJ.size ≠ 0 → SIJ.rows = SII.rows → SIJ.cols = SJJ.cols →
      ∃ C, stackSigma2 g SII SJJ SIJ = .ok C ∧ C.rows = SII.rows + SJJ.rows ∧ C.cols = SII.rows + SJJ.rows ∧
        Blk C 0 0 SII ∧ Blk C 0 SII.rows SIJ ∧ Blk C SII.rows 0 SIJ.tr ∧ Blk C SII.rows SII.rows SJJ := by
    intro h0 hr hc
    have hp := size_ne h0
    simp only [stackSigma2, if_neg h0, if_pos (And.intro hr.symm hc), comma1]
    obtain ⟨C1, e1⟩ := set_total (C := of (SII.rows + SJJ.rows) (SII.cols + SJJ.cols) g) (B := SII) (i := 0) (j := 0)
      (r := SII.rows) (c := SII.cols) (by simp) (by simp) rfl rfl
    obtain ⟨r1, c1, b1, -⟩ := set_ok e1
    simp only [of_rows, of_cols] at r1 c1
    obtain ⟨C2, e2⟩ := set_total (C := C1) (B := SIJ) (i := 0) (j := SII.cols) (r := SIJ.rows) (c := SIJ.cols)
      (by omega) (by omega) rfl rfl
    obtain ⟨r2, c2, b2, k2⟩ := set_ok e2
    obtain ⟨C3, e3⟩ := set_total (C := C2) (B := SIJ.tr) (i := SII.rows) (j := 0) (r := SIJ.tr.rows) (c := SIJ.tr.cols)
      (by simp; omega) (by simp; omega) rfl rfl
    obtain ⟨r3, c3, b3, k3⟩ := set_ok e3
    obtain ⟨C4, e4⟩ := set_total (C := C3) (B := SJJ) (i := SII.rows) (j := SIJ.rows) (r := SJJ.rows) (c := SJJ.cols)
      (by omega) (by omega) rfl rfl
    obtain ⟨r4, c4, b4, k4⟩ := set_ok e4
    simp only [tr_rows, tr_cols] at k3
    refine ⟨C4, ?_, by omega, by omega, k4 _ _ _ (k3 _ _ _ (k2 _ _ _ b1 (by omega)) (by omega)) (by omega),
      k4 _ _ _ (k3 _ _ _ (by rw [← hI] at b2; exact b2) (by omega)) (by omega), k4 _ _ _ b3 (by simp), by rw [hr] at b4; exact b4⟩
    rw [e1, Res.bind_ok, Res.bind_ok, next_same (s := ⟨C1, 0, SII.cols, SII.rows⟩) (by show SII.cols < C1.cols; omega) hr.symm e2, Res.bind_ok,
      next_row (s := ⟨C2, 0, SII.cols + SIJ.cols, SII.rows⟩) (by show SII.cols + SIJ.cols = C2.cols; omega)
        (by show SIJ.rows ≠ 0; omega) (x := C3) (by simpa using e3), Res.bind_ok]
    simp only [tr_rows, tr_cols]
    rw [next_same (s := ⟨C3, 0 + SII.rows, SIJ.rows, SIJ.cols⟩) (by show SIJ.rows < C3.cols; omega)
        (by show SIJ.cols = SJJ.rows; omega) (x := C4) (by simpa using e4), Res.bind_ok]
    simp only [Comma.fin]
    rw [if_pos ⟨Or.inl (by omega), by omega⟩]
  refine ⟨⟨fun h => ?_, fun h => ?_⟩, main⟩
  · by_contra hc
    push Not at hc
    obtain ⟨C, hC, -⟩ := main hc.1 hc.2.1 hc.2.2
    rw [hC] at h; cases h
  · by_cases h0 : SIJ.size = 0
    · simp [stackSigma2, h0]
    · rw [stackSigma2, if_neg h0, if_neg]
      rcases h with h | h | h
      · exact absurd h h0
      · exact fun hc => h hc.1.symm
      · exact fun hc => h hc.2

theorem blk_eq {C A : Mat} {i j : ℕ} (h : Blk C i j A) : C.block i j A.rows A.cols = A := by
  refine Mat.ext' rfl rfl ?_
  intro a b ha hb
  simp only [block_rows, block_cols] at ha hb
  rw [block_e, if_pos ⟨ha, hb⟩, h.he a b ha hb]

/-- C50. Splitting undoes stacking: for square non-empty blocks and a fitting cross-covariance. -/
theorem c50_split_stack (g : ℕ → ℕ → ℝ) (SII SJJ SIJ C : Mat) (hI : SII.rows = SII.cols) (hJ : SJJ.rows = SJJ.cols)
    (h : stackSigma2 g SII SJJ SIJ = .ok C) : splitSigma2 C SII.rows SJJ.rows = .ok (SII, SJJ, SIJ) := by
  obtain ⟨ht, hm⟩ := c50_stack_sigma g SII SJJ SIJ hI hJ
  have hn : ¬ (SIJ.size = 0 ∨ SIJ.rows ≠ SII.rows ∨ SIJ.cols ≠ SJJ.cols) := fun hc => by
    rw [ht.mpr hc] at h; cases h
  push Not at hn
  obtain ⟨C', hC', hr, hc, b1, b2, -, b4⟩ := hm hn.1 hn.2.1 hn.2.2
  rw [hC'] at h; cases h
  have hp := size_ne hn.1
  rw [splitSigma2, if_neg (by omega), if_pos ⟨hr, hc⟩, blockC_ok (by omega) (by omega), brC_ok (by omega) (by omega), trC_ok (by omega) (by omega)]
  simp only [Res.bind_ok]
  have e1 := blk_eq b1
  have e2 := blk_eq b2
  have e4 := blk_eq b4
  rw [← hI] at e1
  rw [← hJ] at e4
  rw [hn.2.1, hn.2.2, ← hJ] at e2
  have x1 : C.rows - SJJ.rows = SII.rows := by omega
  have x2 : C.cols - SJJ.rows = SII.rows := by omega
  rw [x1, x2, e1, e2, e4]

/-- C50. The split blocks are the entries they claim to be, and the call throws exactly on a zero or wrong size. -/
theorem c50_split (S : Mat) (i j : ℕ) :
    (splitSigma2 S i j = .throws ↔ i = 0 ∨ j = 0 ∨ S.rows ≠ i + j ∨ S.cols ≠ i + j) ∧
    (0 < i → 0 < j → S.rows = i + j → S.cols = i + j → ∃ II JJ IJ, splitSigma2 S i j = .ok (II, JJ, IJ) ∧
      II.rows = i ∧ II.cols = i ∧ JJ.rows = j ∧ JJ.cols = j ∧ IJ.rows = i ∧ IJ.cols = j ∧
      Blk S 0 0 II ∧ Blk S i i JJ ∧ Blk S 0 i IJ) := by
  have main : 0 < i → 0 < j → S.rows = i + j → S.cols = i + j → ∃ II JJ IJ, splitSigma2 S i j = .ok (II, JJ, IJ) ∧
      II.rows = i ∧ II.cols = i ∧ JJ.rows = j ∧ JJ.cols = j ∧ IJ.rows = i ∧ IJ.cols = j ∧
      Blk S 0 0 II ∧ Blk S i i JJ ∧ Blk S 0 i IJ := by
    intro h1 h2 h3 h4
    refine ⟨S.block 0 0 i i, S.block i i j j, S.block 0 i i j, ?_, rfl, rfl, rfl, rfl, rfl, rfl, ?_, ?_, ?_⟩
    · rw [splitSigma2, if_neg (by omega), if_pos ⟨h3, h4⟩, blockC_ok (by omega) (by omega), brC_ok (by omega) (by omega),
        trC_ok (by omega) (by omega)]
      have x1 : S.rows - j = i := by omega
      have x2 : S.cols - j = i := by omega
      simp only [Res.bind_ok, x1, x2]
    all_goals
      refine ⟨by simp; try omega, by simp; try omega, fun a b ha hb => ?_⟩
      simp only [block_rows, block_cols] at ha hb
      rw [block_e, if_pos ⟨ha, hb⟩]
  refine ⟨⟨fun h => ?_, fun h => ?_⟩, main⟩
  · by_contra hc
    push Not at hc
    obtain ⟨II, JJ, IJ, he, -⟩ := main (by omega) (by omega) hc.2.2.1 hc.2.2.2
    rw [he] at h; cases h
  · rw [splitSigma2]
    split
    · rfl
    · rw [if_neg (by omega)]

/-- C50. The three-block split: all six blocks, for all positive sizes. -/
theorem c50_split3 (S : Mat) (i j k : ℕ) (hi : 0 < i) (hj : 0 < j) (hk : 0 < k) (hr : S.rows = i + j + k) (hc : S.cols = i + j + k) :
    splitSigma3 S i j k = .ok (S.block 0 0 i i, S.block i i j j, S.block (i + j) (i + j) k k, S.block 0 i i j,
      S.block 0 (i + j) i k, S.block i (i + j) j k) := by
  have x1 : S.rows - k = i + j := by omega
  have x2 : S.cols - k = i + j := by omega
  rw [splitSigma3, if_neg (by omega), if_pos ⟨hr, hc⟩, brC_ok (by omega) (by omega), trC_ok (by omega) (by omega)]
  rw [blockC_ok (by omega) (by omega), blockC_ok (by omega) (by omega), blockC_ok (by omega) (by omega), blockC_ok (by omega) (by omega)]
  simp only [Res.bind_ok, x1, x2]

/-- C50. The four-block split: right for every covariance of the stated total size ... -/
theorem c50_split4 (S : Mat) (i j k l : ℕ) (hr : S.rows = i + j + k + l) (hc : S.cols = i + j + k + l) :
    splitSigma4 S i j k l = .ok (S.block 0 0 i i, S.block i i j j, S.block (i + j) (i + j) k k,
      S.block (i + j + k) (i + j + k) l l, S.block 0 i i j, S.block 0 (i + j) i k, S.block i (i + j) j k,
      S.block 0 (i + j + k) i l, S.block i (i + j + k) j l, S.block (i + j) (i + j + k) k l) := by
  have x1 : S.rows - l = i + j + k := by omega
  have x2 : S.cols - l = i + j + k := by omega
  rw [splitSigma4, brC_ok (by omega) (by omega), trC_ok (by omega) (by omega)]
  rw [blockC_ok (by omega) (by omega), blockC_ok (by omega) (by omega), blockC_ok (by omega) (by omega), blockC_ok (by omega) (by omega),
    blockC_ok (by omega) (by omega), blockC_ok (by omega) (by omega), blockC_ok (by omega) (by omega), blockC_ok (by omega) (by omega)]
  simp only [Res.bind_ok, x1, x2]

/-- ... but, finding, it does not check the size: for a matrix that is too large it returns a "last" block that is not
adjacent to the others. -/
theorem c50_split4_fails (S : Mat) (hr : S.rows = 5) (hc : S.cols = 5) :
    ∃ a b c d e f x y z w, splitSigma4 S 1 1 1 1 = .ok (a, b, c, d, e, f, x, y, z, w) ∧ d.e 0 0 = S.e 4 4 ∧ w.e 0 0 = S.e 2 3 := by
  have h : splitSigma4 S 1 1 1 1 = .ok (S.block 0 0 1 1, S.block 1 1 1 1, S.block 2 2 1 1, S.block 4 4 1 1, S.block 0 1 1 1,
      S.block 0 2 1 1, S.block 1 2 1 1, S.block 0 4 1 1, S.block 1 3 1 1, S.block 2 3 1 1) := by
    rw [splitSigma4, brC_ok (by omega) (by omega), trC_ok (by omega) (by omega)]
    rw [blockC_ok (by omega) (by omega), blockC_ok (by omega) (by omega), blockC_ok (by omega) (by omega), blockC_ok (by omega) (by omega),
      blockC_ok (by omega) (by omega), blockC_ok (by omega) (by omega), blockC_ok (by omega) (by omega), blockC_ok (by omega) (by omega)]
    simp only [Res.bind_ok, hr, hc]
  exact ⟨_, _, _, _, _, _, _, _, _, _, h, by simp [block_e], by simp [block_e]⟩

/-- Non-trivial instances: blocks of different sizes. -/
example (g : ℕ → ℕ → ℝ) (a b : Mat) (ha : a.rows = 2 ∧ a.cols = 3) (hb : b.rows = 2 ∧ b.cols = 1) :
    ∃ C, horcat g a b = .ok C ∧ C.cols = 4 := by
  obtain ⟨C, h, -, hc, -⟩ := ((c50_horcat g a b).2.2 (by simp [size, ha]) (by simp [size, hb])).2 (by omega)
  exact ⟨C, h, by omega⟩

/-! ## C60: nearest covariance -/

section nearest
variable {n : ℕ}

open Polynomial in
/-- A polynomial of `V diag(D) V⁻¹`. -/
theorem aeval_conj (V : Matrix (Fin n) (Fin n) ℝ) (hV : IsUnit V.det) (D : Fin n → ℝ) (p : ℝ[X]) :
    aeval (V * Matrix.diagonal D * V⁻¹) p = V * Matrix.diagonal (fun k => p.eval (D k)) * V⁻¹ := by
  have h1 : V * V⁻¹ = 1 := Matrix.mul_nonsing_inv V hV
  have h2 : V⁻¹ * V = 1 := Matrix.nonsing_inv_mul V hV
  induction p using Polynomial.induction_on' with
  | add p q hp hq =>
    rw [map_add, hp, hq, ← Matrix.add_mul, ← Matrix.mul_add, Matrix.diagonal_add]
    congr 3; funext k; simp
  | monomial m a =>
    have hpow : ∀ m : ℕ, (V * Matrix.diagonal D * V⁻¹) ^ m = V * Matrix.diagonal (fun k => D k ^ m) * V⁻¹ := by
      intro m
      induction m with
      | zero => simp [h1]
      | succ m ih =>
        rw [pow_succ, ih]
        calc V * Matrix.diagonal (fun k => D k ^ m) * V⁻¹ * (V * Matrix.diagonal D * V⁻¹)
            = V * Matrix.diagonal (fun k => D k ^ m) * (V⁻¹ * V) * Matrix.diagonal D * V⁻¹ := by
              simp only [Matrix.mul_assoc]
          _ = V * (Matrix.diagonal (fun k => D k ^ m) * Matrix.diagonal D) * V⁻¹ := by
              rw [h2, Matrix.mul_one, Matrix.mul_assoc V]
          _ = _ := by rw [Matrix.diagonal_mul_diagonal]; congr 3
    rw [aeval_monomial, hpow, Algebra.algebraMap_eq_smul_one, Matrix.smul_mul, Matrix.one_mul]
    have : Matrix.diagonal (fun k => eval (D k) ((monomial m) a)) = a • Matrix.diagonal (fun k => D k ^ m) := by
      rw [← Matrix.diagonal_smul]; congr 1; funext k; simp
    rw [this, Matrix.mul_smul, Matrix.smul_mul]

/-- A function of a symmetric diagonalisable matrix is symmetric, whatever (possibly not orthogonal) eigenvectors
are used. -/
theorem fun_symm (V : Matrix (Fin n) (Fin n) ℝ) (hV : IsUnit V.det) (D : Fin n → ℝ)
    (hS : (V * Matrix.diagonal D * V⁻¹).transpose = V * Matrix.diagonal D * V⁻¹) (f : ℝ → ℝ) :
    (V * Matrix.diagonal (fun k => f (D k)) * V⁻¹).transpose = V * Matrix.diagonal (fun k => f (D k)) * V⁻¹ := by
  classical
  set p := Lagrange.interpolate (Finset.univ.image D) id f with hp
  have hev : ∀ k, p.eval (D k) = f (D k) := fun k =>
    Lagrange.eval_interpolate_at_node (v := id) f (fun _ _ _ _ h => h) (Finset.mem_image_of_mem D (Finset.mem_univ k))
  have e := aeval_conj V hV D p
  simp only [hev] at e
  rw [← e, Polynomial.aeval_eq_sum_range, Matrix.transpose_sum]
  apply Finset.sum_congr rfl
  intro i _
  rw [Matrix.transpose_smul, Matrix.transpose_pow, hS]

/-- ... and positive semidefinite when the function is non-negative. -/
theorem fun_psd (V : Matrix (Fin n) (Fin n) ℝ) (hV : IsUnit V.det) (D : Fin n → ℝ)
    (hS : (V * Matrix.diagonal D * V⁻¹).transpose = V * Matrix.diagonal D * V⁻¹) (f : ℝ → ℝ) (hf : ∀ k, 0 ≤ f (D k)) :
    (V * Matrix.diagonal (fun k => f (D k)) * V⁻¹).PosSemidef := by
  have h2 : V⁻¹ * V = 1 := Matrix.nonsing_inv_mul V hV
  have hs := fun_symm V hV D hS (fun x => Real.sqrt (f x))
  have : V * Matrix.diagonal (fun k => f (D k)) * V⁻¹ =
      (V * Matrix.diagonal (fun k => Real.sqrt (f (D k))) * V⁻¹).conjTranspose * (V * Matrix.diagonal (fun k => Real.sqrt (f (D k))) * V⁻¹) := by
    rw [Matrix.conjTranspose_eq_transpose_of_trivial, hs]
    calc V * Matrix.diagonal (fun k => f (D k)) * V⁻¹
        = V * (Matrix.diagonal (fun k => Real.sqrt (f (D k))) * Matrix.diagonal (fun k => Real.sqrt (f (D k)))) * V⁻¹ := by
          rw [Matrix.diagonal_mul_diagonal]; congr 3; funext k; exact (Real.mul_self_sqrt (hf k)).symm
      _ = V * Matrix.diagonal (fun k => Real.sqrt (f (D k))) * (V⁻¹ * V) * Matrix.diagonal (fun k => Real.sqrt (f (D k))) * V⁻¹ := by
          rw [h2, Matrix.mul_one, ← Matrix.mul_assoc V]
      _ = _ := by simp only [Matrix.mul_assoc]
  rw [this]
  exact Matrix.posSemidef_conjTranspose_mul_self _

/-- `nearest_covariance` is given an eigenvalue decomposition of the symmetrised matrix: invertible `V` (the eigenvectors
need not be orthogonal: `Eigen::EigenSolver` is the general solver) with `sym(S) = V diag(D) V⁻¹`. -/
structure EigenDec (V : Matrix (Fin n) (Fin n) ℝ) (D : Fin n → ℝ) (S : Matrix (Fin n) (Fin n) ℝ) : Prop where
  unit : IsUnit V.det
  dec : (1 / 2 : ℝ) • (S + S.transpose) = V * Matrix.diagonal D * V⁻¹

/-- C60. For every square matrix with a negative eigenvalue (of its symmetric part) and every `eps ≥ 0`,
`nearest_covariance` returns a symmetric positive semidefinite matrix, not below the symmetric part, and not above it by
more than needed on non-negative eigenvectors: it agrees with it on every eigenvector of a non-negative eigenvalue. -/
theorem c60_nearest (V : Matrix (Fin n) (Fin n) ℝ) (D : Fin n → ℝ) (S : Matrix (Fin n) (Fin n) ℝ) (eps : ℝ) (he : 0 ≤ eps)
    (h : EigenDec V D S) (hneg : ∃ k, D k < 0) :
    (nearestCov V D S eps).PosSemidef ∧ (nearestCov V D S eps - (1 / 2 : ℝ) • (S + S.transpose)).PosSemidef ∧
    ∀ (x : Fin n → ℝ) (a : ℝ), 0 ≤ a → ((1 / 2 : ℝ) • (S + S.transpose)).mulVec x = a • x →
      (nearestCov V D S eps).mulVec x = a • x := by
  have hS : (V * Matrix.diagonal D * V⁻¹).transpose = V * Matrix.diagonal D * V⁻¹ := by
    rw [← h.dec, Matrix.transpose_smul, Matrix.transpose_add, Matrix.transpose_transpose, add_comm]
  unfold nearestCov
  rw [if_pos hneg, h.dec]
  refine ⟨?_, ?_, ?_⟩
  · refine fun_psd V h.unit D hS (fun x => if x < 0 then eps else x) fun k => ?_
    show 0 ≤ if D k < 0 then eps else D k
    split
    · exact he
    · linarith
  · have e : V * Matrix.diagonal (fun k => if D k < 0 then eps else D k) * V⁻¹ - V * Matrix.diagonal D * V⁻¹ =
        V * Matrix.diagonal (fun k => (fun x => (if x < 0 then eps else x) - x) (D k)) * V⁻¹ := by
      rw [← Matrix.sub_mul, ← Matrix.mul_sub, Matrix.diagonal_sub]
    rw [e]
    refine fun_psd V h.unit D hS (fun x => (if x < 0 then eps else x) - x) fun k => ?_
    show 0 ≤ (if D k < 0 then eps else D k) - D k
    split <;> linarith
  · intro x a ha hx
    have h1 : V * V⁻¹ = 1 := Matrix.mul_nonsing_inv V h.unit
    have h2 : V⁻¹ * V = 1 := Matrix.nonsing_inv_mul V h.unit
    -- coordinates of x in the eigenvectors
    have hy : (Matrix.diagonal D).mulVec (V⁻¹.mulVec x) = a • V⁻¹.mulVec x := by
      have := congrArg (fun y => V⁻¹.mulVec y) hx
      simp only [Matrix.mulVec_smul, Matrix.mulVec_mulVec] at this
      rw [← this, Matrix.mulVec_mulVec]
      congr 1
      rw [← Matrix.mul_assoc, ← Matrix.mul_assoc, h2, Matrix.one_mul]
    have hy' : (Matrix.diagonal (fun k => if D k < 0 then eps else D k)).mulVec (V⁻¹.mulVec x) = a • V⁻¹.mulVec x := by
      funext k
      have hk := congrFun hy k
      simp only [Matrix.mulVec_diagonal, Pi.smul_apply, smul_eq_mul] at hk ⊢
      split
      · rename_i hlt
        have h0 : (V⁻¹.mulVec x) k = 0 := by
          by_contra hc
          have : D k = a := mul_right_cancel₀ hc hk
          linarith
        rw [h0]; ring
      · exact hk
    rw [← Matrix.mulVec_mulVec, ← Matrix.mulVec_mulVec, hy', Matrix.mulVec_smul, Matrix.mulVec_mulVec, h1, Matrix.one_mulVec]

/-- C60. Without negative eigenvalues the argument itself is returned: a covariance is never changed ... -/
theorem c60_unchanged (V : Matrix (Fin n) (Fin n) ℝ) (D : Fin n → ℝ) (S : Matrix (Fin n) (Fin n) ℝ) (eps : ℝ)
    (h : EigenDec V D S) :
    (nearestCov V D S eps = S ∧ ((1 / 2 : ℝ) • (S + S.transpose)).PosSemidef) ∨ ∃ k, D k < 0 := by
  by_cases hneg : ∃ k, D k < 0
  · exact Or.inr hneg
  · left
    refine ⟨by rw [nearestCov, if_neg hneg], ?_⟩
    push Not at hneg
    rw [h.dec]
    have hS : (V * Matrix.diagonal D * V⁻¹).transpose = V * Matrix.diagonal D * V⁻¹ := by
      rw [← h.dec, Matrix.transpose_smul, Matrix.transpose_add, Matrix.transpose_transpose, add_comm]
    exact fun_psd V h.unit D hS id hneg

/-- C60. The result is always a covariance (symmetric positive semidefinite) for a symmetric argument. -/
theorem c60_covariance (V : Matrix (Fin n) (Fin n) ℝ) (D : Fin n → ℝ) (S : Matrix (Fin n) (Fin n) ℝ) (eps : ℝ) (he : 0 ≤ eps)
    (h : EigenDec V D S) (hs : S.transpose = S) : (nearestCov V D S eps).PosSemidef := by
  rcases c60_unchanged V D S eps h with ⟨h1, h2⟩ | hneg
  · rw [h1]
    rw [hs, ← two_smul ℝ S, smul_smul] at h2
    norm_num at h2
    exact h2
  · exact (c60_nearest V D S eps he h hneg).1

/-- C60, finding. ... but neither is an asymmetric argument whose symmetric part is positive semidefinite: what comes
back is then no covariance. (2 x 2 identity plus a skew part.) -/
theorem c60_asymmetric_fails :
    ∃ (V : Matrix (Fin 2) (Fin 2) ℝ) (D : Fin 2 → ℝ) (S : Matrix (Fin 2) (Fin 2) ℝ), EigenDec V D S ∧
      ∀ eps, nearestCov V D S eps = S ∧ S.transpose ≠ S := by
  refine ⟨1, fun _ => 1, !![1, 1; -1, 1], ⟨by simp, ?_⟩, fun eps => ⟨?_, ?_⟩⟩
  · ext i j; fin_cases i <;> fin_cases j <;> simp [Matrix.diagonal] <;> norm_num
  · rw [nearestCov, if_neg (by simp)]
  · intro h
    have := congrFun (congrFun h 0) 1
    simp at this
    linarith

/-- C60. `negative_diag` finds exactly a negative diagonal entry; so it never flags a covariance, and a flagged square
matrix is none. -/
theorem c60_negative_diag (A : Mat) :
    (negativeDiag A = true ↔ ∃ i, i < A.rows ∧ i < A.cols ∧ A.e i i < 0) ∧
    (∀ k, A.rows = k → A.cols = k → (A.toM k k).PosSemidef → negativeDiag A = false) := by
  have h : negativeDiag A = true ↔ ∃ i, i < A.rows ∧ i < A.cols ∧ A.e i i < 0 := by
    unfold negativeDiag
    rw [decide_eq_true_iff]
    constructor
    · rintro ⟨i, hi, hn⟩; exact ⟨i, by omega, by omega, hn⟩
    · rintro ⟨i, h1, h2, hn⟩; exact ⟨i, by omega, hn⟩
  refine ⟨h, fun k hr hc hp => ?_⟩
  by_contra hc'
  obtain ⟨i, h1, h2, hn⟩ := h.mp (by simpa using hc')
  have hik : i < k := by omega
  have := hp.diag_nonneg (i := (⟨i, hik⟩ : Fin k))
  rw [toM_apply] at this
  exact absurd hn (not_lt.mpr this)

/-- A concrete indefinite matrix with its decomposition. -/
example : EigenDec (1 : Matrix (Fin 2) (Fin 2) ℝ) ![1, -1] !![1, 0; 0, -1] ∧ ∃ k, (![1, -1] : Fin 2 → ℝ) k < 0 := by
  refine ⟨⟨by simp, ?_⟩, 1, by simp⟩
  ext i j; fin_cases i <;> fin_cases j <;> simp [Matrix.diagonal] <;> norm_num

end nearest
end MatU
end Ikf
