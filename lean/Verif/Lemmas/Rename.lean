import Verif.Lemmas.Stack
import Verif.Lemmas.Kalman
import Verif.Model.MatUtils

/-!
# Lemmas for C130: the stack in another order
-/

namespace Ikf
open Mat

namespace Rename

/-- The blocks of one stack found in another, in which they have other names and another order. -/
theorem index {σ : ℕ → ℕ} {bs bs' : List (ℕ × ℕ)} (hn : (bs.map (·.1)).Nodup) (hn' : (bs'.map (·.1)).Nodup)
    (hp : bs'.Perm (bs.map fun b => (σ b.1, b.2))) :
    tot bs' = tot bs ∧ ∃ e : Fin (tot bs) ≃ Fin (tot bs), ∀ p ∈ bs, ∀ i < p.2, ∀ k : Fin (tot bs), (k : ℕ) = off bs p.1 + i → (e k : ℕ) = off bs' (σ p.1) + i := by
  have ht : tot bs' = tot bs := by
    have key : ∀ l : List (ℕ × ℕ), tot l = (l.map (·.2)).sum := by
      intro l
      induction l with
      | nil => rfl
      | cons b r ih => rw [tot, ih, List.map_cons, List.sum_cons]
    rw [key, key, (hp.map (·.2)).sum_eq, List.map_map]
    rfl
  refine ⟨ht, ?_⟩
  have hmem : ∀ p ∈ bs, (σ p.1, p.2) ∈ bs' := fun p hpm => hp.mem_iff.mpr (List.mem_map.mpr ⟨p, hpm, rfl⟩)
  have hc : ∀ k : Fin (tot bs), ∃ x : (ℕ × ℕ) × ℕ, x.1 ∈ bs ∧ x.2 < x.1.2 ∧ (k : ℕ) = off bs x.1.1 + x.2 := by
    intro k
    obtain ⟨p, hpm, i, hi, e⟩ := off_cover hn k.2
    exact ⟨(p, i), hpm, hi, e⟩
  choose x hx1 hx2 hx3 using hc
  have hlt : ∀ k, off bs' (σ (x k).1.1) + (x k).2 < tot bs := by
    intro k
    have h1 : off bs' (σ (x k).1.1) + (x k).1.2 ≤ tot bs' := off_add_le hn' (hmem _ (hx1 k))
    have := hx2 k
    omega
  let f : Fin (tot bs) → Fin (tot bs) := fun k => ⟨off bs' (σ (x k).1.1) + (x k).2, hlt k⟩
  have hspec : ∀ p ∈ bs, ∀ i < p.2, ∀ k : Fin (tot bs), (k : ℕ) = off bs p.1 + i → (f k : ℕ) = off bs' (σ p.1) + i := by
    intro p hpm i hi k hk
    obtain ⟨e1, e2⟩ := off_disjoint hn (hx1 k) hpm (hx2 k) hi ((hx3 k).symm.trans hk)
    show off bs' (σ (x k).1.1) + (x k).2 = _
    rw [e1, e2]
  -- two blocks with the same new name are the same block
  have hinj1 : ∀ p ∈ bs, ∀ q ∈ bs, σ p.1 = σ q.1 → p = q := by
    have hn2 : ((bs.map fun b => (σ b.1, b.2)).map (·.1)).Nodup := (hp.map (·.1)).nodup_iff.mp hn'
    rw [List.map_map] at hn2
    intro p hpm q hqm e
    exact List.inj_on_of_nodup_map hn2 hpm hqm e
  have hinj : Function.Injective f := by
    intro k l hkl
    have hkl' : off bs' (σ (x k).1.1) + (x k).2 = off bs' (σ (x l).1.1) + (x l).2 := congrArg Fin.val hkl
    obtain ⟨e1, e2⟩ := off_disjoint hn' (hmem _ (hx1 k)) (hmem _ (hx1 l)) (hx2 k) (hx2 l) hkl'
    have e3 := hinj1 _ (hx1 k) _ (hx1 l) (congrArg Prod.fst e1)
    apply Fin.ext
    rw [hx3 k, hx3 l, e3, e2]
  exact ⟨Equiv.ofBijective f (Finite.injective_iff_bijective.mp hinj), hspec⟩

section alg
variable {H R r S H' S' : Mat} {n m : ℕ} (e : Fin n ≃ Fin n)

theorem toM_postM (h : ObsShape H R r S n m) (cfg : Cfg) :
    (postM H R S cfg).toM n n = (1 / 2 : ℝ) • ((if cfg.stab then (1 / 2 : ℝ) • ((post0 H R S cfg).toM n n + ((post0 H R S cfg).toM n n).transpose) + cfg.eps • 1
        else (post0 H R S cfg).toM n n) +
      (if cfg.stab then (1 / 2 : ℝ) • ((post0 H R S cfg).toM n n + ((post0 H R S cfg).toM n n).transpose) + cfg.eps • 1
        else (post0 H R S cfg).toM n n).transpose) := by
  have hP := post0_shape h cfg
  unfold postM
  split
  · rw [toM_symM (hP.stabM _), toM_stabM hP]
  · rw [toM_symM hP]

theorem toM_gain (h : ObsShape H R r S n m) (eps : ℝ) :
    (gainM H R S eps).toM n m = S.toM n n * (H.toM m n).transpose * ((innov H R S eps).toM m m)⁻¹ := by
  unfold gainM
  rw [(h.S.mul h.H.tr).toM_mul, h.S.toM_mul, toM_tr, toM_inv _ _ (innov_shape h eps).1]

theorem toM_upd (h : ObsShape H R r S n m) (eps : ℝ) : (updM H R S eps).toM n n = 1 - (gainM H R S eps).toM n m * H.toM m n := by
  unfold updM
  rw [h.S.1, Shape.toM_sub (Shape.one n) ((gainM_shape h eps).mul h.H), toM_one, (gainM_shape h eps).toM_mul]

theorem toM_post0 (h : ObsShape H R r S n m) (cfg : Cfg) :
    (post0 H R S cfg).toM n n = if cfg.joseph then (updM H R S cfg.eps).toM n n * S.toM n n * ((updM H R S cfg.eps).toM n n).transpose +
        (gainM H R S cfg.eps).toM n m * R.toM m m * ((gainM H R S cfg.eps).toM n m).transpose
      else (updM H R S cfg.eps).toM n n * S.toM n n := by
  have hU := updM_shape h cfg.eps
  have hK := gainM_shape h cfg.eps
  unfold post0
  split
  · rw [((hU.mul h.S).mul hU.tr).toM_add ((hK.mul h.R).mul hK.tr), (hU.mul h.S).toM_mul, hU.toM_mul, (hK.mul h.R).toM_mul, hK.toM_mul, toM_tr, toM_tr]
  · rw [hU.toM_mul]

theorem stab_perm (hS : S.Shape n n) (hS' : S'.Shape n n) (eS : (S'.toM n n).submatrix e e = S.toM n n) (eps : ℝ) :
    ((stabM S' eps).toM n n).submatrix e e = (stabM S eps).toM n n := by
  rw [toM_stabM hS, toM_stabM hS', ← eS]
  ext i j
  simp [Matrix.one_apply]

variable (h : ObsShape H R r S n m) (h' : ObsShape H' R r S' n m) (eH : (H'.toM m n).submatrix id e = H.toM m n)
  (eS : (S'.toM n n).submatrix e e = S.toM n n)
include h h' eH eS

theorem innov_perm (eps : ℝ) : innov H' R S' eps = innov H R S eps := by
  have : innov0 H' R S' = innov0 H R S := by
    refine toM_inj (innov0_shape h').1 (innov0_shape h').2 (innov0_shape h).1 (innov0_shape h).2 ?_
    rw [toM_innov0 h, toM_innov0 h', ← eH, ← eS, Matrix.submatrix_mul_equiv, Matrix.transpose_submatrix, Matrix.submatrix_mul_equiv, Matrix.submatrix_id_id]
  unfold innov
  rw [this]

theorem gain_perm (eps : ℝ) : ((gainM H' R S' eps).toM n m).submatrix e id = (gainM H R S eps).toM n m := by
  rw [toM_gain h, toM_gain h', innov_perm e h h' eH eS, ← eH, ← eS, Matrix.transpose_submatrix, Matrix.submatrix_mul_equiv]
  rw [show ((innov H R S eps).toM m m)⁻¹ = (((innov H R S eps).toM m m)⁻¹).submatrix (Equiv.refl (Fin m)) id from rfl,
    show (S'.toM n n * (H'.toM m n).transpose).submatrix (e : Fin n → Fin n) (id : Fin m → Fin m) =
      (S'.toM n n * (H'.toM m n).transpose).submatrix e (Equiv.refl (Fin m)) from rfl, Matrix.submatrix_mul_equiv]
  rfl

theorem upd_perm (eps : ℝ) : ((updM H' R S' eps).toM n n).submatrix e e = (updM H R S eps).toM n n := by
  rw [toM_upd h, toM_upd h', ← gain_perm e h h' eH eS, ← eH]
  ext i j
  simp [Matrix.one_apply, Matrix.mul_apply]

theorem post_perm (cfg : Cfg) : ((postM H' R S' cfg).toM n n).submatrix e e = (postM H R S cfg).toM n n := by
  have h0 : ((post0 H' R S' cfg).toM n n).submatrix e e = (post0 H R S cfg).toM n n := by
    rw [toM_post0 h, toM_post0 h', ← gain_perm e h h' eH eS, ← upd_perm e h h' eH eS, ← eS]
    split
    · rw [Matrix.submatrix_add, Pi.add_apply, Pi.add_apply, Matrix.transpose_submatrix, Matrix.transpose_submatrix, Matrix.submatrix_mul_equiv, Matrix.submatrix_mul_equiv]
      congr 1
    · rw [Matrix.submatrix_mul_equiv]
  rw [toM_postM h, toM_postM h', ← h0]
  ext i j
  by_cases hij : i = j
  · subst hij; split <;> simp <;> ring
  · split <;> simp [hij] <;> ring

omit eS in
/-- The correction of the mean. -/
theorem dx_perm (eS : (S'.toM n n).submatrix e e = S.toM n n) (eps : ℝ) (k : Fin n) :
    (gainM H' R S' eps * r).e (e k) 0 = (gainM H R S eps * r).e k 0 := by
  have hK := gainM_shape h eps
  have hK' := gainM_shape h' eps
  have e1 : ((gainM H' R S' eps * r).toM n 1).submatrix e id = (gainM H R S eps * r).toM n 1 := by
    rw [hK.toM_mul, hK'.toM_mul, ← gain_perm e h h' eH eS]
    ext i j
    simp [Matrix.mul_apply]
  exact congrFun (congrFun e1 k) 0

end alg

/-! ## The repair of a covariance -/

section near
variable {n : ℕ}

/-- A function of a matrix does not depend on how the matrix was diagonalised. -/
theorem eigen_fun {V W : Matrix (Fin n) (Fin n) ℝ} {D E : Fin n → ℝ} (hV : IsUnit V.det) (hW : IsUnit W.det)
    (h : V * Matrix.diagonal D * V⁻¹ = W * Matrix.diagonal E * W⁻¹) (f : ℝ → ℝ) :
    V * Matrix.diagonal (fun k => f (D k)) * V⁻¹ = W * Matrix.diagonal (fun k => f (E k)) * W⁻¹ := by
  have hX : (W⁻¹ * V) * Matrix.diagonal D = Matrix.diagonal E * (W⁻¹ * V) := by
    calc _ = W⁻¹ * (V * Matrix.diagonal D * V⁻¹) * V := by
          rw [Matrix.mul_assoc, Matrix.mul_assoc, Matrix.mul_assoc, Matrix.mul_assoc, Matrix.nonsing_inv_mul _ hV, Matrix.mul_one]
      _ = (W⁻¹ * W) * (Matrix.diagonal E * (W⁻¹ * V)) := by rw [h]; simp only [Matrix.mul_assoc]
      _ = _ := by rw [Matrix.nonsing_inv_mul _ hW, Matrix.one_mul]
  have hY : (W⁻¹ * V) * Matrix.diagonal (fun k => f (D k)) = Matrix.diagonal (fun k => f (E k)) * (W⁻¹ * V) := by
    ext i j
    have := congrFun (congrFun hX i) j
    rw [Matrix.mul_diagonal, Matrix.diagonal_mul] at this ⊢
    by_cases h0 : (W⁻¹ * V) i j = 0
    · rw [h0]; ring
    · rw [mul_comm (E i)] at this
      rw [mul_left_cancel₀ h0 this, mul_comm]
  calc _ = (W * W⁻¹) * V * Matrix.diagonal (fun k => f (D k)) * V⁻¹ := by rw [Matrix.mul_nonsing_inv _ hW, Matrix.one_mul]
    _ = W * ((W⁻¹ * V) * Matrix.diagonal (fun k => f (D k))) * V⁻¹ := by simp only [Matrix.mul_assoc]
    _ = W * Matrix.diagonal (fun k => f (E k)) * W⁻¹ * (V * V⁻¹) := by rw [hY]; simp only [Matrix.mul_assoc]
    _ = _ := by rw [Matrix.mul_nonsing_inv _ hV, Matrix.mul_one]

end near
end Rename
end Ikf
