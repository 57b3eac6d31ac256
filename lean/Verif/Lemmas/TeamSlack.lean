import Verif.Lemmas.Team

/-!
# Covariances of several instances with a margin (C106)

The variance of a combination is at least `δ p` times the squared length of the part of `p`, summed over the instances.
-/

namespace Ikf
open Mat

/-- Squared length of the first `n` entries. -/
def sqn (n : ℕ) (x : ℕ → ℝ) : ℝ := ∑ i ∈ Finset.range n, x i * x i

theorem sqn_nonneg (n : ℕ) (x : ℕ → ℝ) : 0 ≤ sqn n x := Finset.sum_nonneg fun i _ => mul_self_nonneg _

/-- The covariances `C` taken together are a covariance with margin `δ`. -/
def TeamSlack (dim : ℕ → ℕ) (ids : Finset ℕ) (δ : ℕ → ℝ) (C : ℕ → ℕ → Mat) : Prop :=
  ∀ x : ℕ → ℕ → ℝ, ∑ p ∈ ids, δ p * sqn (dim p) (x p) ≤ ∑ p ∈ ids, ∑ q ∈ ids, bil (C p q) (dim p) (dim q) (x p) (x q)

section team
variable {dim : ℕ → ℕ} {ids : Finset ℕ} {c : Central} {δ : ℕ → ℝ}

theorem TeamSlack.cov {C : ℕ → ℕ → Mat} (h : TeamSlack dim ids δ C) (hd : ∀ p ∈ ids, 0 ≤ δ p) : TeamCov dim ids C :=
  fun x => (Finset.sum_nonneg fun p hp => mul_nonneg (hd p hp) (sqn_nonneg _ _)).trans (h x)

theorem TeamSlack.mono {δ' : ℕ → ℝ} {C : ℕ → ℕ → Mat} (hs : TeamSlack dim ids δ C) (hd : ∀ p ∈ ids, δ' p ≤ δ p) : TeamSlack dim ids δ' C :=
  fun x => (Finset.sum_le_sum fun p hp => mul_le_mul_of_nonneg_right (hd p hp) (sqn_nonneg _ _)).trans (hs x)

theorem TeamSlack.transform (h : TeamSlack dim ids δ c.cov) (hs : ∀ p ∈ ids, ∀ q ∈ ids, (c.cov p q).Shape (dim p) (dim q)) {id : ℕ} {F m P : Mat} {t : Int} {fx : Bool} {d : ℝ}
    (hP : id ∈ ids → ∀ x : ℕ → ℝ, d * sqn (dim id) x + bil (F * c.cov id id * F.tr) (dim id) (dim id) x x ≤
      bil P (dim id) (dim id) x x + δ id * sqn (dim id) (pull F (dim id) x)) :
    TeamSlack dim ids (fun p => if p = id then d else δ p) (c.transform id F m P t fx).cov := by
  intro x
  let y : ℕ → ℕ → ℝ := fun p => if p = id then pull F (dim id) (x id) else x p
  have hy := h y
  have e : ∀ p ∈ ids, ∀ q ∈ ids, bil ((c.transform id F m P t fx).cov p q) (dim p) (dim q) (x p) (x q) = bil (c.cov p q) (dim p) (dim q) (y p) (y q) +
      if p = id then if q = id then bil P (dim id) (dim id) (x id) (x id) - bil (F * c.cov id id * F.tr) (dim id) (dim id) (x id) (x id) else 0 else 0 := by
    intro p hp q hq
    simp only [Central.transform, y]
    by_cases h1 : p = id
    · subst h1
      by_cases h2 : q = p
      · subst h2
        rw [if_pos ⟨rfl, rfl⟩]
        simp only [if_true]
        have : bil (F * c.cov q q * F.tr) (dim q) (dim q) (x q) (x q) = bil (c.cov q q) (dim q) (dim q) (pull F (dim q) (x q)) (pull F (dim q) (x q)) := by
          rw [Mat.mul_assoc, bil_mul_left _ _ _ _ (by rw [mul_rows, (hs q hq q hq).1]), bil_mul_right _ _ _ _ (by rw [(hs q hq q hq).2])]
        rw [this]; ring
      · simp only [if_true, if_neg h2, h2, and_false, if_false]
        rw [bil_mul_left _ _ _ _ (by rw [(hs p hp q hq).1]), add_zero]
    · by_cases h2 : q = id
      · subst h2
        simp only [if_true, h1, false_and, if_false]
        rw [bil_mul_right _ _ _ _ (by rw [(hs p hp q hq).2]), add_zero]
      · simp only [if_neg h1, if_neg h2, if_neg (fun e : p = id ∧ q = id => h1 e.1), add_zero]
  have e' : ∑ p ∈ ids, ∑ q ∈ ids, bil ((c.transform id F m P t fx).cov p q) (dim p) (dim q) (x p) (x q) =
      ∑ p ∈ ids, ∑ q ∈ ids, bil (c.cov p q) (dim p) (dim q) (y p) (y q) +
        if id ∈ ids then bil P (dim id) (dim id) (x id) (x id) - bil (F * c.cov id id * F.tr) (dim id) (dim id) (x id) (x id) else 0 := by
    rw [Finset.sum_congr rfl fun p hp => Finset.sum_congr rfl fun q hq => e p hp q hq]
    simp only [Finset.sum_add_distrib]
    congr 1
    by_cases hid : id ∈ ids
    · rw [if_pos hid, Finset.sum_eq_single_of_mem id hid (fun p _ hp => by simp [hp]), Finset.sum_eq_single_of_mem id hid (fun q _ hq => by simp [hq])]
      simp
    · rw [if_neg hid]
      refine Finset.sum_eq_zero fun p hp => Finset.sum_eq_zero fun q _ => ?_
      have : p ≠ id := fun e => hid (by rw [← e]; exact hp)
      rw [if_neg this]
  rw [e']
  by_cases hid : id ∈ ids
  · rw [if_pos hid]
    have h1 := hP hid (x id)
    have s1 : ∀ f : ℕ → ℝ, ∑ p ∈ ids, f p = f id + ∑ p ∈ ids.erase id, f p := fun f => (Finset.add_sum_erase ids f hid).symm
    rw [s1] at hy ⊢
    have s2 : ∑ p ∈ ids.erase id, (if p = id then d else δ p) * sqn (dim p) (x p) = ∑ p ∈ ids.erase id, δ p * sqn (dim p) (y p) := by
      refine Finset.sum_congr rfl fun p hp => ?_
      have := Finset.ne_of_mem_erase hp
      simp only [y, if_neg this]
    rw [s2]
    simp only [y, if_true] at hy ⊢
    linarith
  · rw [if_neg hid, add_zero]
    refine le_trans (le_of_eq (Finset.sum_congr rfl fun p hp => ?_)) hy
    have : p ≠ id := fun e => hid (e ▸ hp)
    simp only [y, if_neg this]

theorem TeamSlack.joint (h : TeamSlack dim ids δ c.cov) {bs : List (ℕ × ℕ)} (hb : ∀ b ∈ bs, b.2 = dim b.1) (hn : (bs.map (·.1)).Nodup)
    {P dx : Mat} {e : ℝ} (hP : ∀ x, e * sqn (tot bs) x ≤ bil P (tot bs) (tot bs) x x)
    (hz : ∀ p ∈ ids, ∀ q ∈ ids, p ∈ bs.map (·.1) → q ∉ bs.map (·.1) → ∀ i j, (c.cov p q).e i j = 0 ∧ (c.cov q p).e i j = 0) :
    TeamSlack dim ids (fun p => if p ∈ bs.map (·.1) then e else δ p) (c.joint bs P dx).cov := by
  intro x
  rw [joint_form hb hn hz]
  have h1 := hP (stackV bs fun p i => if p ∈ ids then x p i else 0)
  have h2 := h fun p i => if p ∈ (bs.map (·.1)).toFinset then 0 else x p i
  have e1 : sqn (tot bs) (stackV bs fun p i => if p ∈ ids then x p i else 0) = ∑ p ∈ ids, if p ∈ bs.map (·.1) then sqn (dim p) (x p) else 0 := by
    unfold sqn
    rw [sum_stack bs hn _ (fun _ v => v * v),
      map_sum_toFinset hb hn fun a n => ∑ i ∈ Finset.range n, (if a ∈ ids then x a i else 0) * (if a ∈ ids then x a i else 0)]
    have l : ∀ a, (∑ i ∈ Finset.range (dim a), (if a ∈ ids then x a i else 0) * (if a ∈ ids then x a i else 0)) = if a ∈ ids then ∑ i ∈ Finset.range (dim a), x a i * x a i else 0 := by
      intro a; by_cases ha : a ∈ ids <;> simp [ha]
    rw [Finset.sum_congr rfl fun a _ => l a, ← Finset.sum_filter, ← Finset.sum_filter]
    refine Finset.sum_congr ?_ fun _ _ => rfl
    ext p
    simp only [Finset.mem_filter, List.mem_toFinset]
    tauto
  have e2 : ∑ p ∈ ids, (if p ∈ bs.map (·.1) then e else δ p) * sqn (dim p) (x p) =
      e * (∑ p ∈ ids, if p ∈ bs.map (·.1) then sqn (dim p) (x p) else 0) +
        ∑ p ∈ ids, δ p * sqn (dim p) (fun i => if p ∈ (bs.map (·.1)).toFinset then 0 else x p i) := by
    rw [Finset.mul_sum, ← Finset.sum_add_distrib]
    refine Finset.sum_congr rfl fun p _ => ?_
    by_cases hp : p ∈ bs.map (·.1)
    · have : sqn (dim p) (fun i => if p ∈ (bs.map (·.1)).toFinset then 0 else x p i) = 0 := by
        unfold sqn
        exact Finset.sum_eq_zero fun i _ => by simp only [if_pos (List.mem_toFinset.mpr hp), mul_zero]
      rw [if_pos hp, if_pos hp, this]; ring
    · have hp' : p ∉ (bs.map (·.1)).toFinset := fun h => hp (List.mem_toFinset.mp h)
      simp only [if_neg hp, if_neg hp']; ring
  rw [e2, ← e1]
  exact add_le_add h1 h2

end team

/-! ## Private observation with the factor posterior times inverse prior -/

theorem std_alg {n : ℕ} {S P : Matrix (Fin n) (Fin n) ℝ} {d : ℝ} (hS : S.PosDef) (hP : P.PosSemidef) (hg : ∀ u, u ⬝ᵥ P.mulVec u ≤ u ⬝ᵥ S.mulVec u + d * (u ⬝ᵥ u)) (x : Fin n → ℝ) :
    ((S⁻¹ * P).mulVec x) ⬝ᵥ S.mulVec ((S⁻¹ * P).mulVec x) ≤ x ⬝ᵥ P.mulVec x + d * (((S⁻¹ * P).mulVec x) ⬝ᵥ ((S⁻¹ * P).mulVec x)) := by
  set w := (S⁻¹ * P).mulVec x with hw
  have e2 : P.mulVec x = S.mulVec w := by
    rw [hw, Matrix.mulVec_mulVec, ← Matrix.mul_assoc, Matrix.mul_nonsing_inv _ ((Matrix.isUnit_iff_isUnit_det _).mp hS.isUnit), Matrix.one_mul]
  have h1 := hP.dotProduct_mulVec_nonneg (x - w)
  simp only [star_trivial] at h1
  have h2 : x ⬝ᵥ P.mulVec w = w ⬝ᵥ P.mulVec x := by
    rw [Matrix.dotProduct_mulVec, ← Matrix.mulVec_transpose, Alg.psd_symm hP, dotProduct_comm]
  rw [Matrix.mulVec_sub, dotProduct_sub, sub_dotProduct, sub_dotProduct, h2, e2] at h1
  have h4 := hg w
  rw [e2]
  linarith

end Ikf
