import Verif.Model.Convert
import Verif.Lemmas.Mat
import Mathlib.Data.List.GetD

/-! # Property C113: conversions between Eigen's and the standard containers keep every element -/

namespace Ikf
namespace Conv
open Quaternion

/-! ## Specification -/

/-- The matrix `M` and the nested vector `rows` (all rows `n` long) hold the same numbers. -/
structure SameTable (M : Mat) (rows : List (List ℝ)) (n : ℕ) : Prop where
  height : rows.length = M.rows
  width : M.cols = n
  len : ∀ r ∈ rows, r.length = n
  entry : ∀ i j (hi : i < rows.length) (hj : j < rows[i].length), M.e i j = rows[i][j]

/-! ## Loops -/

theorem loop_inv {σ : Type _} {body : ℕ → σ → Res σ} (I : ℕ → σ → Prop) {n : ℕ} {s : σ} (h0 : I 0 s)
    (hs : ∀ i s, i < n → I i s → ∃ s', body i s = .ok s' ∧ I (i + 1) s') : ∃ s', loop body n s = .ok s' ∧ I n s' := by
  induction n with
  | zero => exact ⟨s, rfl, h0⟩
  | succ n ih =>
    obtain ⟨s1, h1, i1⟩ := ih (fun i s hi => hs i s (by omega))
    obtain ⟨s2, h2, i2⟩ := hs n s1 (by omega) i1
    exact ⟨s2, by simp only [loop, h1, Res.bind_ok, h2], i2⟩

theorem loop_throws {σ : Type _} {body : ℕ → σ → Res σ} (I : σ → Prop) {n k : ℕ} {s : σ} (h0 : I s)
    (hs : ∀ i s, i < n → I s → body i s = .throws ∨ ∃ s', body i s = .ok s' ∧ I s') (hk : k < n) (ht : ∀ s, I s → body k s = .throws) :
    loop body n s = .throws := by
  have hall : ∀ m, m ≤ n → loop body m s = .throws ∨ ∃ s', loop body m s = .ok s' ∧ I s' := by
    intro m
    induction m with
    | zero => exact fun _ => Or.inr ⟨s, rfl, h0⟩
    | succ m ih =>
      intro hm
      rcases ih (by omega) with h | ⟨s1, h, i1⟩
      · exact Or.inl (by simp only [loop, h, Res.bind_throws])
      · simp only [loop, h, Res.bind_ok]
        exact hs m s1 (by omega) i1
  have hlate : ∀ m, k < m → m ≤ n → loop body m s = .throws := by
    intro m hm
    induction m with
    | zero => omega
    | succ m ih =>
      intro hmn
      by_cases hkm : k = m
      · subst hkm
        rcases hall k (by omega) with h | ⟨s1, h, i1⟩
        · simp only [loop, h, Res.bind_throws]
        · simp only [loop, h, Res.bind_ok, ht s1 i1]
      · simp only [loop, ih (by omega) (by omega), Res.bind_throws]
  exact hlate n hk (le_refl n)

theorem vat_ok {α : Type _} {v : List α} {i : ℕ} (h : i < v.length) : vat v i = .ok v[i] := by
  unfold vat; rw [List.getElem?_eq_getElem h]

theorem vat_throws {α : Type _} {v : List α} {i : ℕ} (h : v.length ≤ i) : vat v i = .throws := by
  unfold vat; rw [List.getElem?_eq_none h]

/-- What a loop over a vector leaves. -/
theorem fill {α : Type _} (f : ℕ → α) (body : ℕ → List α → Res (List α)) {n : ℕ} {v : List α} (hv : v.length = n)
    (hb : ∀ i w, i < n → w.length = n → body i w = .ok (w.set i (f i))) :
    loop body n v = .ok ((List.range n).map f) := by
  obtain ⟨w, hw, h1, h2⟩ := loop_inv (body := body) (n := n) (s := v)
    (fun k w => w.length = n ∧ ∀ i, i < k → w[i]? = some (f i)) ⟨hv, fun i hi => absurd hi (by omega)⟩
    (fun i w hi ⟨h1, h2⟩ => ⟨_, hb i w hi h1, by simpa using h1, fun j hj => by
      rw [List.getElem?_set]
      by_cases hij : i = j
      · subst hij; simp [h1, hi]
      · rw [if_neg hij]; exact h2 j (by omega)⟩)
  rw [hw]
  congr 1
  refine List.ext_getElem? fun i => ?_
  by_cases hi : i < n
  · rw [h2 i hi]; simp [hi]
  · rw [List.getElem?_eq_none (by omega), List.getElem?_eq_none (by simpa using Nat.le_of_not_lt hi)]

theorem toVectorCol_eq {α : Type _} [Inhabited α] (cast : ℝ → α) (v : Mat) (hc : v.cols = 1) :
    toVectorCol cast v = .ok ((List.range v.rows).map fun i => cast (v.e i 0)) := by
  refine fill _ _ (by simp) fun i w hi hw => ?_
  simp only [eget, hi, hc, Nat.lt_one_iff, and_self, if_true, Res.bind_ok, vput, hw]

theorem toVectorRow_eq {α : Type _} [Inhabited α] (cast : ℝ → α) (v : Mat) (hc : v.rows = 1) :
    toVectorRow cast v = .ok ((List.range v.cols).map fun i => cast (v.e 0 i)) := by
  refine fill _ _ (by simp) fun i w hi hw => ?_
  simp only [eget, hi, hc, Nat.lt_one_iff, and_self, if_true, Res.bind_ok, vput, hw]

theorem fromVector_eq (g : ℕ → ℕ → ℝ) (v : List ℝ) : fromVector g v = .ok (Mat.of v.length 1 fun i _ => v.getD i 0) := by
  obtain ⟨w, hw, h1, h2, h3⟩ := loop_inv (body := fun i w => do eput w i 0 (← vat v i)) (n := v.length) (s := Mat.of v.length 1 g)
    (fun k w => w.rows = v.length ∧ w.cols = 1 ∧ ∀ i, i < k → w.e i 0 = v.getD i 0) ⟨rfl, rfl, fun i hi => absurd hi (by omega)⟩
    (fun i w hi ⟨h1, h2, h3⟩ => by
      refine ⟨Mat.of w.rows w.cols fun a b => if a = i ∧ b = 0 then v[i] else w.e a b, ?_, h1, h2, fun j hj => ?_⟩
      · simp only [vat_ok hi, Res.bind_ok, eput, h1, h2, hi, Nat.lt_one_iff, and_self, if_true]
      · rw [Mat.of_e, if_pos (by omega)]
        by_cases hij : j = i
        · subst hij; rw [if_pos ⟨rfl, rfl⟩, List.getD_eq_getElem _ _ hi]
        · rw [if_neg (fun h => hij h.1)]; exact h3 j (by omega))
  refine hw.trans ?_
  congr 1
  refine Mat.ext' h1 h2 fun i j hi hj => ?_
  obtain rfl : j = 0 := by omega
  rw [h3 i (by omega), Mat.of_e, if_pos (by omega)]

/-- A table filled row by row. -/
theorem table_row (f : ℕ → ℕ → ℝ) {M : Mat} {r cols : ℕ} (hr : r < M.rows) (hc : cols ≤ M.cols) (x : ℕ → Res ℝ)
    (hx : ∀ c, c < cols → x c = .ok (f r c)) :
    ∃ M', loop (fun c m => do eput m r c (← x c)) cols M = .ok M' ∧ M'.rows = M.rows ∧ M'.cols = M.cols ∧
      (∀ c, c < cols → M'.e r c = f r c) ∧ ∀ a b, a ≠ r → M'.e a b = M.e a b := by
  obtain ⟨w, hw, h1, h2, h3, h4⟩ := loop_inv (body := fun c m => do eput m r c (← x c)) (n := cols) (s := M)
    (fun k w => w.rows = M.rows ∧ w.cols = M.cols ∧ (∀ c, c < k → w.e r c = f r c) ∧ ∀ a b, a ≠ r → w.e a b = M.e a b)
    ⟨rfl, rfl, fun i hi => absurd hi (by omega), fun _ _ _ => rfl⟩
    (fun i w hi ⟨h1, h2, h3, h4⟩ => by
      refine ⟨Mat.of w.rows w.cols fun a b => if a = r ∧ b = i then f r i else w.e a b, ?_, h1, h2, fun j hj => ?_, fun a b ha => ?_⟩
      · simp only [hx i hi, Res.bind_ok, eput, h1, h2]
        rw [if_pos ⟨hr, by omega⟩]
      · rw [Mat.of_e, if_pos (by omega)]
        by_cases hij : j = i
        · subst hij; rw [if_pos ⟨rfl, rfl⟩]
        · rw [if_neg (fun h => hij h.2)]; exact h3 j (by omega)
      · rw [Mat.of_e]
        by_cases hin : a < w.rows ∧ b < w.cols
        · rw [if_pos hin, if_neg (fun h => ha h.1), h4 a b ha]
        · rw [if_neg hin, ← h4 a b ha]; exact (w.out a b (by omega)).symm)
  exact ⟨w, hw, h1, h2, h3, h4⟩

/-- The number of columns `toEigenMatrix` chooses. -/
theorem toEigenMatrix_ok (g : ℕ → ℕ → ℝ) (r0 : List ℝ) (rest : List (List ℝ))
    (hl : ∀ r ∈ rest, r0.length ≤ r.length) :
    toEigenMatrix g (r0 :: rest) = .ok (Mat.of (rest.length + 1) r0.length fun i j => ((r0 :: rest).getD i []).getD j 0) := by
  set mat := r0 :: rest with hmat
  have hlen : mat.length = rest.length + 1 := by simp [hmat]
  have hrow : ∀ r (h : r < mat.length), r0.length ≤ mat[r].length := by
    intro r h
    have hm : mat[r] ∈ mat := List.getElem_mem h
    rcases List.mem_cons.mp hm with he | he
    · rw [he]
    · exact hl _ he
  obtain ⟨w, hw, h1, h2, h3⟩ := loop_inv
    (body := fun r m => loop (fun c m => do eput m r c (← vat (← vat mat r) c)) r0.length m) (n := mat.length)
    (s := Mat.of mat.length r0.length g)
    (fun k w => w.rows = mat.length ∧ w.cols = r0.length ∧ ∀ i j, i < k → j < r0.length → w.e i j = (mat.getD i []).getD j 0)
    ⟨rfl, rfl, fun i _ hi => absurd hi (by omega)⟩
    (fun i w hi ⟨h1, h2, h3⟩ => by
      obtain ⟨w', e1, e2, e3, e4, e5⟩ := table_row (fun i j => (mat.getD i []).getD j 0) (M := w) (r := i) (cols := r0.length)
        (by omega) (by omega) (fun c => do vat (← vat mat i) c) (fun c hc => by
          have := hrow i hi
          simp only [vat_ok hi, Res.bind_ok]
          rw [vat_ok (by omega), List.getD_eq_getElem _ _ hi, List.getD_eq_getElem _ _ (by omega)])
      refine ⟨w', ?_, by omega, by omega, fun a b ha hb => ?_⟩
      · rw [← e1]
        simp only [vat_ok hi, Res.bind_ok]
      · by_cases hai : a = i
        · subst hai; exact e4 b hb
        · rw [e5 a b hai]; exact h3 a b (by omega) hb)
  refine (show toEigenMatrix g mat = _ from hw).trans ?_
  congr 1
  refine Mat.ext' (by rw [h1, hlen]; rfl) h2 fun i j hi hj => ?_
  rw [h3 i j (by omega) (by omega), Mat.of_e, if_pos (by omega)]

theorem fromEigenMatrix_eq (M : Mat) :
    fromEigenMatrix M = .ok ((List.range M.rows).map fun i => (List.range M.cols).map fun j => M.e i j) := by
  unfold fromEigenMatrix
  obtain ⟨w, hw, h1, h2, h3⟩ := loop_inv (n := M.rows) (s := List.replicate M.rows (List.replicate M.cols (0 : ℝ)))
    (body := fun i m => loop (fun j m => do
      let x ← eget M i j
      let row ← vat m i
      vput m i (← vput row j x)) (m.headD []).length m)
    (fun k w => w.length = M.rows ∧ (∀ r ∈ w, r.length = M.cols) ∧
      ∀ i, i < k → w[i]? = some ((List.range M.cols).map fun j => M.e i j))
    ⟨by simp, fun r hr => by rw [(List.mem_replicate.mp hr).2]; simp, fun i hi => absurd hi (by omega)⟩
    (fun i w hi ⟨h1, h2, h3⟩ => by
      have hhd : (w.headD []).length = M.cols := by
        cases w with
        | nil => simp at h1; omega
        | cons r w => exact h2 r (by simp)
      rw [hhd]
      obtain ⟨w', e1, e2, e3, e4, e5⟩ := loop_inv (n := M.cols) (s := w)
        (body := fun j m => do
          let x ← eget M i j
          let row ← vat m i
          vput m i (← vput row j x))
        (fun k u => u.length = M.rows ∧ (∀ r ∈ u, r.length = M.cols) ∧ (∀ a, a ≠ i → u[a]? = w[a]?) ∧
          ∀ r, u[i]? = some r → ∀ j, j < k → r[j]? = some (M.e i j))
        ⟨h1, h2, fun _ _ => rfl, fun r _ j hj => absurd hj (by omega)⟩
        (fun j u hj ⟨u1, u2, u3, u4⟩ => by
          have hiu : i < u.length := by omega
          have hrl : u[i].length = M.cols := u2 _ (List.getElem_mem hiu)
          refine ⟨u.set i (u[i].set j (M.e i j)), ?_, by simpa using u1, fun r hr => ?_, fun a ha => ?_, fun r hr b hb => ?_⟩
          · simp only [eget, hi, hj, and_self, if_true, Res.bind_ok, vat_ok hiu, vput, hiu, hrl]
          · rcases List.mem_or_eq_of_mem_set hr with h | h
            · exact u2 r h
            · rw [h]; simpa using hrl
          · rw [List.getElem?_set_ne (Ne.symm ha)]; exact u3 a ha
          · rw [List.getElem?_set_self hiu] at hr
            obtain rfl := Option.some.inj hr
            rw [List.getElem?_set]
            by_cases hjb : j = b
            · subst hjb; simp [hrl, hj]
            · rw [if_neg hjb]; exact u4 _ (List.getElem?_eq_getElem hiu) b (by omega))
      refine ⟨w', e1, e2, e3, fun a ha => ?_⟩
      by_cases hai : a = i
      · subst hai
        have haw : a < w'.length := by omega
        rw [List.getElem?_eq_getElem haw]
        congr 1
        have hrl : w'[a].length = M.cols := e3 _ (List.getElem_mem haw)
        refine List.ext_getElem? fun j => ?_
        by_cases hj : j < M.cols
        · rw [e5 _ (List.getElem?_eq_getElem haw) j hj]; simp [hj]
        · rw [List.getElem?_eq_none (by omega), List.getElem?_eq_none (by simpa using Nat.le_of_not_lt hj)]
      · rw [e4 a hai]; exact h3 a (by omega))
  rw [hw]
  congr 1
  refine List.ext_getElem? fun i => ?_
  by_cases hi : i < M.rows
  · rw [h3 i hi]; simp [hi]
  · rw [List.getElem?_eq_none (by omega), List.getElem?_eq_none (by simpa using Nat.le_of_not_lt hi)]

theorem toEigenColMatrix_eq (g : ℕ → ℕ → ℝ) (dim : ℕ) (vs : List Mat) :
    toEigenColMatrix g dim vs = .ok (Mat.of dim vs.length fun i j => (vs.getD j Mat.empty).e i 0) := by
  obtain ⟨w, hw, h1, h2, h3⟩ := loop_inv (body := fun c M => do putCol M c (← vat vs c)) (n := vs.length) (s := Mat.of dim vs.length g)
    (fun k w => w.rows = dim ∧ w.cols = vs.length ∧ ∀ i j, i < dim → j < k → w.e i j = (vs.getD j Mat.empty).e i 0)
    ⟨rfl, rfl, fun _ i _ hi => absurd hi (by omega)⟩
    (fun i w hi ⟨h1, h2, h3⟩ => by
      refine ⟨Mat.of w.rows w.cols fun a b => if b = i then vs[i].e a 0 else w.e a b, ?_, h1, h2, fun a b ha hb => ?_⟩
      · simp only [vat_ok hi, Res.bind_ok, putCol]
        rw [if_pos (by omega)]
      · rw [Mat.of_e, if_pos (by omega)]
        by_cases hij : b = i
        · subst hij; rw [if_pos rfl, List.getD_eq_getElem _ _ hi]
        · rw [if_neg hij]; exact h3 a b ha (by omega))
  refine hw.trans ?_
  congr 1
  refine Mat.ext' h1 h2 fun i j hi hj => ?_
  rw [h3 i j (by omega) (by omega), Mat.of_e, if_pos (by omega)]

theorem toEigenRowMatrix_ok (g : ℕ → ℕ → ℝ) (dim : ℕ) (vs : List Mat) (h : dim ≤ vs.length) :
    toEigenRowMatrix g dim vs =
      .ok (Mat.of vs.length dim fun i j => if i < dim then (vs.getD i Mat.empty).e j 0 else g i j) := by
  obtain ⟨w, hw, h1, h2, h3⟩ := loop_inv (body := fun c M => do putRow M c (← vat vs c)) (n := dim) (s := Mat.of vs.length dim g)
    (fun k w => w.rows = vs.length ∧ w.cols = dim ∧
      ∀ i j, i < vs.length → j < dim → w.e i j = if i < k then (vs.getD i Mat.empty).e j 0 else g i j)
    ⟨rfl, rfl, fun i j hi hj => by rw [Mat.of_e, if_pos ⟨hi, hj⟩, if_neg (by omega)]⟩
    (fun i w hi ⟨h1, h2, h3⟩ => by
      have hi' : i < vs.length := by omega
      refine ⟨Mat.of w.rows w.cols fun a b => if a = i then vs[i].e b 0 else w.e a b, ?_, h1, h2, fun a b ha hb => ?_⟩
      · simp only [vat_ok hi', Res.bind_ok, putRow]
        rw [if_pos (by omega)]
      · rw [Mat.of_e, if_pos (by omega)]
        by_cases hij : a = i
        · subst hij; rw [if_pos rfl, if_pos (by omega), List.getD_eq_getElem _ _ hi']
        · rw [if_neg hij, h3 a b ha hb]
          by_cases hk : a < i
          · rw [if_pos hk, if_pos (by omega)]
          · rw [if_neg hk, if_neg (by omega)])
  refine hw.trans ?_
  congr 1
  refine Mat.ext' h1 h2 fun i j hi hj => ?_
  have hi' : i < vs.length := by omega
  have hj' : j < dim := by omega
  rw [h3 i j hi' hj', Mat.of_e, if_pos (⟨hi', hj'⟩ : i < vs.length ∧ j < dim)]

/-! ## C113 -/

/-- C113: a vector of Eigen, a column or a row, and the `std::vector` made from it have the same elements in the same order, and converting there
and back, in either direction, changes nothing. -/
theorem c113_vectors (g : ℕ → ℕ → ℝ) :
    (∀ v : Mat, v.cols = 1 → ∃ l, toVectorCol id v = .ok l ∧ l.length = v.rows ∧ (∀ i (h : i < l.length), l[i] = v.e i 0) ∧
        fromVector g l = .ok v) ∧
    (∀ v : Mat, v.rows = 1 → ∃ l, toVectorRow id v = .ok l ∧ l.length = v.cols ∧ (∀ i (h : i < l.length), l[i] = v.e 0 i) ∧
        fromVector g l = .ok v.tr) ∧
    ∀ l : List ℝ, ∃ v, fromVector g l = .ok v ∧ v.rows = l.length ∧ v.cols = 1 ∧ (∀ i (h : i < l.length), v.e i 0 = l[i]) ∧
        toVectorCol id v = .ok l := by
  refine ⟨fun v hv => ⟨_, toVectorCol_eq id v hv, by simp, by simp, ?_⟩, fun v hv => ⟨_, toVectorRow_eq id v hv, by simp, by simp, ?_⟩,
    fun l => ⟨_, fromVector_eq g l, rfl, rfl, fun i hi => ?_, ?_⟩⟩
  · rw [fromVector_eq]
    congr 1
    refine Mat.ext' (by simp) hv.symm fun i j hi hj => ?_
    obtain rfl : j = 0 := by simpa using hj
    have hi' : i < v.rows := by simpa using hi
    rw [Mat.of_e, if_pos ⟨hi, hj⟩, List.getD_eq_getElem _ _ hi]; simp
  · rw [fromVector_eq]
    congr 1
    refine Mat.ext' (by simp) hv.symm fun i j hi hj => ?_
    obtain rfl : j = 0 := by simpa using hj
    rw [Mat.of_e, if_pos ⟨hi, hj⟩, List.getD_eq_getElem _ _ hi]; simp
  · rw [Mat.of_e, if_pos ⟨hi, Nat.zero_lt_one⟩, List.getD_eq_getElem _ _ hi]
  · rw [toVectorCol_eq id _ rfl]
    congr 1
    refine List.ext_getElem (by simp) fun i h1 h2 => ?_
    simp only [List.getElem_map, List.getElem_range, id, Mat.of_rows]
    rw [Mat.of_e, if_pos ⟨h2, Nat.zero_lt_one⟩, List.getD_eq_getElem _ _ h2]

/-- C113: a matrix and the nested vector made from it hold the same numbers, and so do a nested vector with at least one row and rows of equal
length and the matrix made from it; converting there and back changes nothing. -/
theorem c113_nested (g : ℕ → ℕ → ℝ) :
    (∀ M : Mat, ∃ l, fromEigenMatrix M = .ok l ∧ SameTable M l M.cols ∧ (0 < M.rows → toEigenMatrix g l = .ok M)) ∧
    ∀ (l : List (List ℝ)) (n : ℕ), l ≠ [] → (∀ r ∈ l, r.length = n) →
      ∃ M, toEigenMatrix g l = .ok M ∧ SameTable M l n ∧ fromEigenMatrix M = .ok l := by
  refine ⟨fun M => ⟨_, fromEigenMatrix_eq M, ⟨by simp, rfl, ?_, by simp⟩, fun hM => ?_⟩, fun l n hl hn => ?_⟩
  · intro r hr
    obtain ⟨i, _, rfl⟩ := List.mem_map.mp hr
    simp
  · obtain ⟨k, hk⟩ : ∃ k, M.rows = k + 1 := ⟨M.rows - 1, by omega⟩
    rw [hk, List.range_succ_eq_map, List.map_cons, toEigenMatrix_ok _ _ _ (by
      intro r hr
      simp only [List.map_map, List.mem_map] at hr
      obtain ⟨i, _, rfl⟩ := hr
      simp)]
    congr 1
    refine Mat.ext' (by simp [hk]) (by simp) fun i j hi hj => ?_
    rw [Mat.of_e, if_pos ⟨hi, hj⟩, ← List.map_cons (f := fun i => (List.range M.cols).map fun j => M.e i j), ← List.range_succ_eq_map]
    have hi' : i < k + 1 := by simpa using hi
    have hj' : j < M.cols := by simpa using hj
    have hi2 : i < ((List.range (k + 1)).map fun i => (List.range M.cols).map fun j => M.e i j).length := by simpa using hi'
    rw [List.getD_eq_getElem _ [] hi2, List.getD_eq_getElem _ 0 (by simpa using hj')]
    simp
  · cases l with
    | nil => exact absurd rfl hl
    | cons r0 rest =>
      have h0 : r0.length = n := hn r0 (by simp)
      have ht : SameTable (Mat.of (rest.length + 1) r0.length fun i j => ((r0 :: rest).getD i []).getD j 0) (r0 :: rest) n := by
        refine ⟨rfl, h0, hn, fun i j hi hj => ?_⟩
        have hjn : j < n := by rw [← hn _ (List.getElem_mem hi)]; exact hj
        rw [Mat.of_e, if_pos ⟨hi, by omega⟩, List.getD_eq_getElem _ _ hi, List.getD_eq_getElem _ _ hj]
      refine ⟨_, toEigenMatrix_ok g r0 rest (fun r hr => by rw [h0, hn r (by simp [hr])]), ht, ?_⟩
      rw [fromEigenMatrix_eq]
      congr 1
      refine List.ext_getElem (by simp) fun i h1 h2 => ?_
      simp only [List.getElem_map, List.getElem_range]
      have hl' := hn _ (List.getElem_mem h2)
      refine List.ext_getElem (by simp [h0, hl']) fun j h3 h4 => ?_
      simp only [List.getElem_map, List.getElem_range]
      exact ht.entry i j h2 h4

/-- One row of `toEigenMatrix`. -/
theorem row_cases (mat : List (List ℝ)) (cols r : ℕ) (hr : r < mat.length) {M : Mat} (h1 : M.rows = mat.length) (h2 : M.cols = cols) :
    loop (fun c m => do eput m r c (← vat (← vat mat r) c)) cols M = .throws ∨
      ∃ M', loop (fun c m => do eput m r c (← vat (← vat mat r) c)) cols M = .ok M' ∧ M'.rows = mat.length ∧ M'.cols = cols := by
  by_cases hl : cols ≤ mat[r].length
  · obtain ⟨w, e1, e2, e3, -, -⟩ := table_row (fun i j => (mat.getD i []).getD j 0) (M := M) (r := r) (cols := cols)
      (by omega) (by omega) (fun c => do vat (← vat mat r) c) (fun c hc => by
        simp only [vat_ok hr, Res.bind_ok]
        rw [vat_ok (by omega), List.getD_eq_getElem _ _ hr, List.getD_eq_getElem _ _ (by omega)])
    refine Or.inr ⟨w, ?_, by omega, by omega⟩
    rw [← e1]
    simp only [vat_ok hr, Res.bind_ok]
  · refine Or.inl (loop_throws (k := mat[r].length) (fun w => w.rows = mat.length ∧ w.cols = cols) ⟨h1, h2⟩ (fun c w hc hw => ?_) (by omega)
      (fun w _ => ?_))
    · simp only [vat_ok hr, Res.bind_ok]
      by_cases hcr : c < mat[r].length
      · refine Or.inr ⟨Mat.of w.rows w.cols fun a b => if a = r ∧ b = c then mat[r][c] else w.e a b, ?_, hw.1, hw.2⟩
        rw [vat_ok hcr, Res.bind_ok, eput, if_pos (by omega)]
      · refine Or.inl ?_
        rw [vat_throws (by omega), Res.bind_throws]
    · simp only [vat_ok hr, Res.bind_ok, vat_throws (le_refl mat[r].length), Res.bind_throws]

/-- C113: when a row is shorter than the first one the conversion of a nested vector throws. -/
theorem c113_short (g : ℕ → ℕ → ℝ) (r0 : List ℝ) (rest : List (List ℝ)) (h : ∃ r ∈ rest, r.length < r0.length) :
    toEigenMatrix g (r0 :: rest) = .throws := by
  obtain ⟨r, hr, hl⟩ := h
  obtain ⟨k, hk, rfl⟩ := List.getElem_of_mem (List.mem_cons_of_mem r0 hr)
  refine loop_throws (k := k) (fun w => w.rows = (r0 :: rest).length ∧ w.cols = r0.length) ⟨rfl, rfl⟩
    (fun i w hi hw => row_cases (r0 :: rest) r0.length i hi hw.1 hw.2) hk (fun w hw => ?_)
  refine loop_throws (k := (r0 :: rest)[k].length) (fun w => w.rows = (r0 :: rest).length ∧ w.cols = r0.length) hw (fun c w hc hw => ?_) hl
    (fun w _ => ?_)
  · simp only [vat_ok hk, Res.bind_ok]
    by_cases hcr : c < (r0 :: rest)[k].length
    · refine Or.inr ⟨Mat.of w.rows w.cols fun a b => if a = k ∧ b = c then (r0 :: rest)[k][c] else w.e a b, ?_, hw.1, hw.2⟩
      rw [vat_ok hcr, Res.bind_ok, eput, if_pos (by omega)]
    · refine Or.inl ?_
      rw [vat_throws (by omega), Res.bind_throws]
  · simp only [vat_ok hk, Res.bind_ok, vat_throws (le_refl (r0 :: rest)[k].length), Res.bind_throws]

/-- C113: what is not kept: the elements of a row beyond the length of the first row are dropped without a sign, and a matrix without rows comes
back with one column whatever it had. -/
theorem c113_nested_fails (g : ℕ → ℕ → ℝ) (a b c d : ℝ) :
    (∀ M, toEigenMatrix g [[a], [b, c]] = .ok M → toEigenMatrix g [[a], [b, d]] = .ok M) ∧
    (∃ M, toEigenMatrix g [[a], [b, c]] = .ok M) ∧
    fromEigenMatrix (Mat.zero 0 3) = .ok [] ∧ ∃ M, toEigenMatrix g [] = .ok M ∧ M.cols = 1 := by
  have e1 := toEigenMatrix_ok g [a] [[b, c]] (by simp)
  have e2 := toEigenMatrix_ok g [a] [[b, d]] (by simp)
  refine ⟨fun M hM => ?_, ⟨_, e1⟩, rfl, _, rfl, rfl⟩
  rw [e1] at hM
  rw [e2, ← hM]
  congr 1
  refine Mat.ext' rfl rfl fun i j hi hj => ?_
  have hi' : i < 2 := hi
  obtain rfl : j = 0 := by simpa using hj
  interval_cases i <;> simp [Mat.of_e]

/-- C113: the columns of the matrix made from a list of vectors are the vectors, in this order. -/
theorem c113_columns (g : ℕ → ℕ → ℝ) (dim : ℕ) (vs : List Mat) :
    ∃ M, toEigenColMatrix g dim vs = .ok M ∧ M.rows = dim ∧ M.cols = vs.length ∧
      ∀ i j (hj : j < vs.length), i < dim → M.e i j = vs[j].e i 0 := by
  refine ⟨_, toEigenColMatrix_eq g dim vs, rfl, rfl, fun i j hj hi => ?_⟩
  rw [Mat.of_e, if_pos ⟨hi, hj⟩, List.getD_eq_getElem _ _ hj]

/-- C113: the rows of the matrix made from a list of vectors are the vectors, in this order, if there are as many vectors as a vector has
elements. -/
theorem c113_rows_partial (g : ℕ → ℕ → ℝ) (dim : ℕ) (vs : List Mat) (hN : vs.length = dim) :
    ∃ M, toEigenRowMatrix g dim vs = .ok M ∧ M.rows = vs.length ∧ M.cols = dim ∧
      ∀ i j (hi : i < vs.length), j < dim → M.e i j = vs[i].e j 0 := by
  refine ⟨_, toEigenRowMatrix_ok g dim vs (by omega), rfl, rfl, fun i j hi hj => ?_⟩
  rw [Mat.of_e, if_pos ⟨hi, hj⟩, if_pos (by omega), List.getD_eq_getElem _ _ hi]

/-- C113: with any other number of vectors they are not: with fewer the call throws, with more (of at least one element) the last row has whatever
was in the memory before. -/
theorem c113_rows_fails (dim : ℕ) (vs : List Mat) :
    (vs.length < dim → ∀ g, toEigenRowMatrix g dim vs = .throws) ∧
    (dim < vs.length → 0 < dim → ∀ x : ℝ, ∃ g M, toEigenRowMatrix g dim vs = .ok M ∧ M.e (vs.length - 1) 0 = x) := by
  refine ⟨fun h g => ?_, fun h h0 x => ⟨fun _ _ => x, _, toEigenRowMatrix_ok _ dim vs (by omega), ?_⟩⟩
  · refine loop_throws (k := vs.length) (fun w => w.rows = vs.length) rfl (fun i w hi hw => ?_) h (fun w _ => ?_)
    · by_cases hv : i < vs.length
      · refine Or.inr ⟨Mat.of w.rows w.cols fun a b => if a = i then vs[i].e b 0 else w.e a b, ?_, hw⟩
        simp only [vat_ok hv, Res.bind_ok, putRow]
        rw [if_pos (by omega)]
      · exact Or.inl (by simp only [vat_throws (Nat.le_of_not_lt hv), Res.bind_throws])
    · simp only [vat_throws (le_refl vs.length), Res.bind_throws]
  · rw [Mat.of_e, if_pos (by omega), if_neg (by omega)]

/-- C113: a quaternion and the vector (w, x, y, z) made from it convert into each other without change. -/
theorem c113_quat (q₀ q : ℍ[ℝ]) (v : Mat) :
    ((fromEigenQuat q).rows = 4 ∧ (fromEigenQuat q).cols = 1 ∧
      (fromEigenQuat q).e 0 0 = q.re ∧ (fromEigenQuat q).e 1 0 = q.imI ∧ (fromEigenQuat q).e 2 0 = q.imJ ∧ (fromEigenQuat q).e 3 0 = q.imK) ∧
    toEigenQuat q₀ (fromEigenQuat q) = q ∧
    (v.rows = 4 → v.cols = 1 → fromEigenQuat (toEigenQuat q₀ v) = v) := by
  refine ⟨⟨rfl, rfl, ?_, ?_, ?_, ?_⟩, ?_, fun h1 h2 => ?_⟩
  · simp [fromEigenQuat, Mat.of_e]
  · simp [fromEigenQuat, Mat.of_e]
  · simp [fromEigenQuat, Mat.of_e]
  · simp [fromEigenQuat, Mat.of_e]
  · rw [toEigenQuat, if_pos ⟨rfl, rfl⟩]
    simp only [fromEigenQuat, Mat.of_e]
    norm_num
    rfl
  · rw [toEigenQuat, if_pos ⟨h1, h2⟩]
    refine Mat.ext' h1.symm h2.symm fun i j hi hj => ?_
    have hi' : i < 4 := hi
    obtain rfl : j = 0 := by simpa [fromEigenQuat] using hj
    interval_cases i <;> simp [fromEigenQuat, Mat.of_e, Quat.mk]

/-- C113: a matrix of any other shape yields a quaternion that has nothing to do with it (and may have any value). -/
theorem c113_quat_fails (q₀ : ℍ[ℝ]) (v : Mat) (h : v.rows ≠ 4 ∨ v.cols ≠ 1) : toEigenQuat q₀ v = q₀ := by
  rw [toEigenQuat, if_neg (by omega)]

/-! ## Examples -/

/-- A vector of three elements; a table of two rows and three columns; vectors as columns and as rows. -/
example : (∃ v, fromVector (fun _ _ => 7) [1, 2, 3] = .ok v ∧ v.e 2 0 = 3 ∧ toVectorCol id v = .ok [1, 2, 3]) ∧
    (∃ M, toEigenMatrix (fun _ _ => 7) [[1, 2, 3], [4, 5, 6]] = .ok M ∧ M.e 1 0 = 4 ∧ fromEigenMatrix M = .ok [[1, 2, 3], [4, 5, 6]]) ∧
    (∃ M, toEigenColMatrix (fun _ _ => 7) 2 [Mat.of 2 1 (fun i _ => i), Mat.of 2 1 (fun i _ => 5 + i), Mat.zero 2 1] = .ok M ∧ M.e 1 1 = 6) ∧
    ∃ M, toEigenRowMatrix (fun _ _ => 7) 2 [Mat.of 2 1 (fun i _ => i), Mat.of 2 1 (fun i _ => 5 + i)] = .ok M ∧ M.e 1 0 = 5 := by
  refine ⟨?_, ?_, ?_, ?_⟩
  · obtain ⟨v, h1, -, -, h2, h3⟩ := (c113_vectors fun _ _ => 7).2.2 [1, 2, 3]
    exact ⟨v, h1, by simpa using h2 2 (by simp), h3⟩
  · obtain ⟨M, h1, h2, h3⟩ := (c113_nested fun _ _ => 7).2 [[1, 2, 3], [4, 5, 6]] 3 (by simp) (by simp)
    exact ⟨M, h1, by simpa using h2.entry 1 0 (by simp) (by simp), h3⟩
  · obtain ⟨M, h1, -, -, h4⟩ := c113_columns (fun _ _ => 7) 2 [Mat.of 2 1 (fun i _ => i), Mat.of 2 1 (fun i _ => 5 + i), Mat.zero 2 1]
    refine ⟨M, h1, ?_⟩
    rw [h4 1 1 (by simp) (by omega)]
    simp [Mat.of_e]; norm_num
  · obtain ⟨M, h1, -, -, h4⟩ := c113_rows_partial (fun _ _ => 7) 2 [Mat.of 2 1 (fun i _ => i), Mat.of 2 1 (fun i _ => 5 + i)] rfl
    refine ⟨M, h1, ?_⟩
    rw [h4 1 0 (by simp) (by omega)]
    simp [Mat.of_e]

end Conv
end Ikf
