import Verif.Model.VertCat
import Verif.Props.MatUtils

/-! # C50: the four-block `vertcat` and the three-vector concatenations -/

namespace Ikf
namespace MatU
open Mat

/-- C50. The four-block `vertcat` (blocks with at least one column): the blocks one below the other, in the order of the arguments. -/
theorem c50_vertcat4 (g : ℕ → ℕ → ℝ) (A B D E : Mat) :
    (¬ (A.cols = B.cols ∧ A.cols = D.cols ∧ A.cols = E.cols) → vertcat4 g A B D E = .throws) ∧
    (0 < A.cols → A.cols = B.cols → A.cols = D.cols → A.cols = E.cols → ∃ C, vertcat4 g A B D E = .ok C ∧
      C.rows = A.rows + B.rows + D.rows + E.rows ∧ C.cols = A.cols ∧ Blk C 0 0 A ∧ Blk C A.rows 0 B ∧ Blk C (A.rows + B.rows) 0 D ∧
      Blk C (A.rows + B.rows + D.rows) 0 E) := by
  refine ⟨fun h => by rw [vertcat4, if_neg h], fun h0 h1 h2 h3 => ?_⟩
  rw [vertcat4, if_pos ⟨h1, h2, h3⟩]
  simp only [comma1]
  obtain ⟨C1, e1⟩ := set_total (C := of (A.rows + B.rows + D.rows + E.rows) B.cols g) (B := A) (i := 0) (j := 0)
    (r := A.rows) (c := A.cols) (by simp; omega) (by simp [h1]) rfl rfl
  obtain ⟨r1, c1, b1, -⟩ := set_ok e1
  simp only [of_rows, of_cols] at r1 c1
  obtain ⟨C2, e2⟩ := set_total (C := C1) (B := B) (i := A.rows) (j := 0) (r := B.rows) (c := B.cols)
    (by omega) (by omega) rfl rfl
  obtain ⟨r2, c2, b2, k2⟩ := set_ok e2
  obtain ⟨C3, e3⟩ := set_total (C := C2) (B := D) (i := A.rows + B.rows) (j := 0) (r := D.rows) (c := D.cols)
    (by omega) (by omega) rfl rfl
  obtain ⟨r3, c3, b3, k3⟩ := set_ok e3
  obtain ⟨C4, e4⟩ := set_total (C := C3) (B := E) (i := A.rows + B.rows + D.rows) (j := 0) (r := E.rows) (c := E.cols)
    (by omega) (by omega) rfl rfl
  obtain ⟨r4, c4, b4, k4⟩ := set_ok e4
  refine ⟨C4, ?_, by omega, by omega, k4 _ _ _ (k3 _ _ _ (k2 _ _ _ b1 (by omega)) (by omega)) (by omega),
    k4 _ _ _ (k3 _ _ _ b2 (by omega)) (by omega), k4 _ _ _ b3 (by omega), b4⟩
  rw [e1, Res.bind_ok, Res.bind_ok, next_row (s := ⟨C1, 0, A.cols, A.rows⟩) (by show A.cols = C1.cols; omega) (by omega)
    (x := C2) (by simpa using e2), Res.bind_ok]
  rw [next_row (s := ⟨C2, 0 + A.rows, B.cols, B.rows⟩) (by show B.cols = C2.cols; omega) (by omega)
    (x := C3) (by simpa using e3), Res.bind_ok]
  rw [next_row (s := ⟨C3, 0 + A.rows + B.rows, D.cols, D.rows⟩) (by show D.cols = C3.cols; omega) (by omega)
    (x := C4) (by simpa using e4), Res.bind_ok]
  simp only [Comma.fin]
  rw [if_pos ⟨Or.inl (by omega), by omega⟩]

/-- C50. The three-vector `vertcat_vec` appends the vectors, empty ones included. -/
theorem c50_vertcat_vec3 (g : ℕ → ℕ → ℝ) (u v w : Mat) (hu : u.cols = 1) (hv : v.cols = 1) (hw : w.cols = 1) :
    ∃ C, vertcatVec3 g u v w = .ok C ∧ C.rows = u.rows + v.rows + w.rows ∧ C.cols = 1 ∧ Blk C 0 0 u ∧ Blk C u.rows 0 v ∧
      Blk C (u.rows + v.rows) 0 w := by
  obtain ⟨C, e, r, c, b⟩ := (c50_vertcat3 g u v w).2 (by omega) (by omega) (by omega)
  refine ⟨C, ?_, r, by omega, b⟩
  rw [vertcat3, if_pos ⟨by omega, by omega⟩] at e
  rw [vertcatVec3, if_pos (by omega), if_pos (by omega)]
  exact e

/-- C50, finding. The three-vector `horcat_vec` never yields anything: an exception if the sizes differ, undefined behaviour otherwise. -/
theorem c50_horcat_vec3_fails (u v w : Mat) (hu : u.cols = 1) (hv : v.cols = 1) (hw : w.cols = 1) :
    horcatVec3 u v w = (if u.rows = v.rows ∧ u.rows = w.rows then .ub else .throws) := by
  unfold horcatVec3
  rw [hu, hv, hw]
  by_cases h1 : u.rows = v.rows <;> by_cases h2 : u.rows = w.rows <;> simp [h1, h2]
  all_goals (try (rw [h1] at h2; simp [h2]))

/-- A 1x2 matrix on top of a 2x2, an empty one and a 1x2 matrix. -/
example (g : ℕ → ℕ → ℝ) : ∃ C, vertcat4 g (of 1 2 fun _ j => j) (of 2 2 fun i j => i + j) (Mat.zero 0 2) (of 1 2 fun _ _ => 7) = .ok C ∧
    C.rows = 4 ∧ C.e 2 1 = 2 ∧ C.e 3 0 = 7 := by
  obtain ⟨C, e, r, c, b1, b2, b3, b4⟩ := (c50_vertcat4 g (of 1 2 fun _ j => j) (of 2 2 fun i j => i + j) (Mat.zero 0 2) (of 1 2 fun _ _ => 7)).2
    (by simp) rfl rfl rfl
  refine ⟨C, e, r, ?_, ?_⟩
  · have := b2.he 1 1 (by simp) (by simp)
    simp [of_e] at this
    rw [this]; norm_num
  · have := b4.he 0 0 (by simp) (by simp)
    simpa [of_e] using this

end MatU
end Ikf
