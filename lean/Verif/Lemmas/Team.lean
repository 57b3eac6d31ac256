import Verif.Spec.Team
import Verif.Lemmas.Covariance

/-!
# Lemmas for C106
-/

namespace Ikf
open Mat

theorem bil_tr (C : Mat) (n m : ℕ) (u v : ℕ → ℝ) : bil C.tr n m u v = bil C m n v u := by
  unfold bil
  rw [Finset.sum_comm]
  refine Finset.sum_congr rfl fun i _ => Finset.sum_congr rfl fun j _ => ?_
  rw [tr_e]; ring

/-- The combination of states that `u` is after the states were multiplied by `F`. -/
def pull (F : Mat) (n : ℕ) (u : ℕ → ℝ) (k : ℕ) : ℝ := ∑ i ∈ Finset.range n, u i * F.e i k

theorem bil_mul_left (F C : Mat) (n m : ℕ) (hC : C.rows ≤ n) (u v : ℕ → ℝ) : bil (F * C) n m u v = bil C n m (pull F n u) v := by
  unfold bil pull
  have : ∀ i j, (F * C).e i j = ∑ k ∈ Finset.range n, F.e i k * C.e k j := fun i j => mul_e' F C n (Or.inr hC) i j
  simp only [this, Finset.mul_sum, Finset.sum_mul]
  calc _ = ∑ i ∈ Finset.range n, ∑ k ∈ Finset.range n, ∑ j ∈ Finset.range m, u i * (F.e i k * C.e k j) * v j :=
        Finset.sum_congr rfl fun i _ => Finset.sum_comm
    _ = ∑ k ∈ Finset.range n, ∑ i ∈ Finset.range n, ∑ j ∈ Finset.range m, u i * (F.e i k * C.e k j) * v j := Finset.sum_comm
    _ = _ := by
      refine Finset.sum_congr rfl fun k _ => ?_
      rw [Finset.sum_comm]
      refine Finset.sum_congr rfl fun j _ => Finset.sum_congr rfl fun i _ => ?_
      ring

theorem bil_mul_right (F C : Mat) (n m : ℕ) (hC : C.cols ≤ m) (u v : ℕ → ℝ) : bil (C * F.tr) n m u v = bil C n m u (pull F m v) := by
  have : C * F.tr = (F * C.tr).tr := by rw [tr_mul, tr_tr]
  rw [this, bil_tr, bil_mul_left F C.tr m n (by rw [tr_rows]; exact hC), bil_tr]

theorem bil_zero {C : Mat} (h : ∀ i j, C.e i j = 0) (n m : ℕ) (u v : ℕ → ℝ) : bil C n m u v = 0 := by
  unfold bil
  exact Finset.sum_eq_zero fun i _ => Finset.sum_eq_zero fun j _ => by rw [h]; ring

theorem bil_zero_left (C : Mat) (n m : ℕ) {u : ℕ → ℝ} (hu : ∀ i, u i = 0) (v : ℕ → ℝ) : bil C n m u v = 0 := by
  unfold bil
  exact Finset.sum_eq_zero fun i _ => Finset.sum_eq_zero fun j _ => by rw [hu]; ring

theorem bil_zero_right (C : Mat) (n m : ℕ) (u : ℕ → ℝ) {v : ℕ → ℝ} (hv : ∀ i, v i = 0) : bil C n m u v = 0 := by
  unfold bil
  exact Finset.sum_eq_zero fun i _ => Finset.sum_eq_zero fun j _ => by rw [hv]; ring

theorem bil_congr {C D : Mat} {n m : ℕ} (h : ∀ i < n, ∀ j < m, C.e i j = D.e i j) (u v : ℕ → ℝ) : bil C n m u v = bil D n m u v := by
  unfold bil
  refine Finset.sum_congr rfl fun i hi => Finset.sum_congr rfl fun j hj => ?_
  rw [h i (Finset.mem_range.mp hi) j (Finset.mem_range.mp hj)]

/-- A covariance has no negative variances, whichever part of it is looked at. -/
theorem IsCovMat.bil {Q : Mat} (h : IsCovMat Q) (n : ℕ) (u : ℕ → ℝ) : 0 ≤ bil Q n n u u := by
  have key : Ikf.bil Q n n u u = ∑ i ∈ Finset.range Q.rows, ∑ j ∈ Finset.range Q.rows,
      (if i < n then u i else 0) * Q.e i j * (if j < n then u j else 0) := by
    have hz : ∀ i j, Q.rows ≤ i ∨ Q.rows ≤ j → Q.e i j = 0 := fun i j hij => Q.out i j (by rw [← h.1]; omega)
    have full : ∀ m, n ≤ m → Q.rows ≤ m → Ikf.bil Q n n u u = ∑ i ∈ Finset.range m, ∑ j ∈ Finset.range m,
        (if i < n then u i else 0) * Q.e i j * (if j < n then u j else 0) := by
      intro m hm _
      unfold Ikf.bil
      have h1 : Finset.range n ⊆ Finset.range m := Finset.range_subset_range.mpr hm
      refine (Finset.sum_congr rfl fun i hi => ?_).trans (Finset.sum_subset h1 fun i _ hi => ?_)
      · rw [if_pos (Finset.mem_range.mp hi)]
        refine (Finset.sum_congr rfl fun j hj => ?_).trans (Finset.sum_subset h1 fun j _ hj => ?_)
        · rw [if_pos (Finset.mem_range.mp hj)]
        · rw [if_neg (by simpa using hj), mul_zero]
      · exact Finset.sum_eq_zero fun j _ => by rw [if_neg (by simpa using hi)]; ring
    rw [full (n + Q.rows) (by omega) (by omega)]
    have h1 : Finset.range Q.rows ⊆ Finset.range (n + Q.rows) := Finset.range_subset_range.mpr (by omega)
    symm
    refine (Finset.sum_congr rfl fun i hi => ?_).trans (Finset.sum_subset h1 fun i _ hi => ?_)
    · refine Finset.sum_subset h1 fun j _ hj => ?_
      rw [hz i j (Or.inr (by simpa using hj))]; ring
    · exact Finset.sum_eq_zero fun j _ => by rw [hz i j (Or.inl (by simpa using hi))]; ring
  rw [key]
  exact h.2.2 fun i => if i < n then u i else 0

section team
variable {dim : ℕ → ℕ} {ids : Finset ℕ} {c : Central}

theorem TeamCov.subset {C : ℕ → ℕ → Mat} (h : TeamCov dim ids C) {sub : Finset ℕ} (hs : sub ⊆ ids) : TeamCov dim sub C := by
  intro x
  have := h fun p i => if p ∈ sub then x p i else 0
  refine this.trans (le_of_eq ?_)
  symm
  refine (Finset.sum_congr rfl fun p hp => ?_).trans (Finset.sum_subset hs fun p _ hp => ?_)
  · refine (Finset.sum_congr rfl fun q hq => ?_).trans (Finset.sum_subset hs fun q _ hq => ?_)
    · simp only [if_pos hp, if_pos hq]
    · exact bil_zero_right _ _ _ _ fun i => by rw [if_neg hq]
  · exact Finset.sum_eq_zero fun q _ => bil_zero_left _ _ _ (fun i => by rw [if_neg hp]) _

theorem TeamCov.congr {C D : ℕ → ℕ → Mat} (h : TeamCov dim ids C) (hc : ∀ p ∈ ids, ∀ q ∈ ids, D p q = C p q) : TeamCov dim ids D := by
  intro x
  refine (h x).trans (le_of_eq ?_)
  exact Finset.sum_congr rfl fun p hp => Finset.sum_congr rfl fun q hq => by rw [hc p hp q hq]

/-- Multiplying the error of one instance and adding independent noise keeps the team's covariance a covariance. -/
theorem TeamCov.transform (h : TeamCov dim ids c.cov) (hs : ∀ p ∈ ids, ∀ q ∈ ids, (c.cov p q).Shape (dim p) (dim q)) {id : ℕ} {F m P : Mat} {t : Int} {fx : Bool}
    (hP : id ∈ ids → ∀ x : ℕ → ℝ, bil (F * c.cov id id * F.tr) (dim id) (dim id) x x ≤ bil P (dim id) (dim id) x x) :
    TeamCov dim ids (c.transform id F m P t fx).cov := by
  intro x
  let y : ℕ → ℕ → ℝ := fun p => if p = id then pull F (dim id) (x id) else x p
  refine (h y).trans ?_
  refine Finset.sum_le_sum fun p hp => Finset.sum_le_sum fun q hq => ?_
  simp only [Central.transform, y]
  by_cases h1 : p = id
  · subst h1
    by_cases h2 : q = p
    · subst h2
      rw [if_pos rfl, if_pos ⟨rfl, rfl⟩]
      refine le_trans (le_of_eq ?_) (hP hq (x q))
      rw [Mat.mul_assoc, bil_mul_left _ _ _ _ (by rw [mul_rows, (hs q hq q hq).1]), bil_mul_right _ _ _ _ (by rw [(hs q hq q hq).2])]
    · rw [if_pos rfl, if_neg h2, if_neg (fun e => h2 e.2), if_pos rfl, bil_mul_left _ _ _ _ (by rw [(hs p hp q hq).1])]
  · by_cases h2 : q = id
    · subst h2
      rw [if_neg h1, if_pos rfl, if_neg (fun e => h1 e.1), if_neg h1, if_pos rfl, bil_mul_right _ _ _ _ (by rw [(hs p hp q hq).2])]
    · rw [if_neg h1, if_neg h2, if_neg (fun e => h1 e.1), if_neg h1, if_neg h2]

/-! ## Stacks -/

/-- The combination of the stacked states that takes `x p` of the block of `p`. -/
def stackV : List (ℕ × ℕ) → (ℕ → ℕ → ℝ) → ℕ → ℝ
  | [], _, _ => 0
  | b :: r, x, k => if k < b.2 then x b.1 k else stackV r x (k - b.2)

theorem sum_stack (bs : List (ℕ × ℕ)) (hn : (bs.map (·.1)).Nodup) (x : ℕ → ℕ → ℝ) (f : ℕ → ℝ → ℝ) :
    ∑ k ∈ Finset.range (tot bs), f k (stackV bs x k) = (bs.map fun b => ∑ i ∈ Finset.range b.2, f (off bs b.1 + i) (x b.1 i)).sum := by
  induction bs generalizing f with
  | nil => rfl
  | cons b r ih =>
    rw [List.map_cons, List.nodup_cons] at hn
    rw [List.map_cons, List.sum_cons, tot, Finset.sum_range_add]
    congr 1
    · refine Finset.sum_congr rfl fun i hi => ?_
      rw [stackV, if_pos (Finset.mem_range.mp hi), off, if_pos rfl, Nat.zero_add]
    · have e : ∀ k, stackV (b :: r) x (b.2 + k) = stackV r x k := by
        intro k
        rw [stackV, if_neg (by omega)]; congr 1; omega
      simp only [e]
      rw [ih hn.2 (fun k v => f (b.2 + k) v)]
      congr 1
      refine List.map_congr_left fun d hd => Finset.sum_congr rfl fun i _ => ?_
      have hne : b.1 ≠ d.1 := fun e => hn.1 (by rw [e]; exact List.mem_map.mpr ⟨d, hd, rfl⟩)
      rw [off, if_neg hne, Nat.add_assoc]

/-- The variance of a combination of stacked states, block by block. -/
theorem bil_stack (bs : List (ℕ × ℕ)) (hn : (bs.map (·.1)).Nodup) (x : ℕ → ℕ → ℝ) (P : Mat) :
    bil P (tot bs) (tot bs) (stackV bs x) (stackV bs x) =
      (bs.map fun b => (bs.map fun d => bil (P.block (off bs b.1) (off bs d.1) b.2 d.2) b.2 d.2 (x b.1) (x d.1)).sum).sum := by
  have inner : ∀ k (v : ℝ), ∑ l ∈ Finset.range (tot bs), v * P.e k l * stackV bs x l =
      (bs.map fun d => ∑ j ∈ Finset.range d.2, v * P.e k (off bs d.1 + j) * x d.1 j).sum :=
    fun k v => sum_stack bs hn x fun l w => v * P.e k l * w
  unfold bil
  rw [sum_stack bs hn x (fun k v => ∑ l ∈ Finset.range (tot bs), v * P.e k l * stackV bs x l)]
  congr 1
  refine List.map_congr_left fun b _ => ?_
  simp only [inner]
  have swap : ∀ (g : ℕ → ℕ × ℕ → ℝ) (n : ℕ), ∑ i ∈ Finset.range n, (bs.map fun d => g i d).sum = (bs.map fun d => ∑ i ∈ Finset.range n, g i d).sum := by
    intro g n
    induction n with
    | zero => simp
    | succ n ih => simp only [Finset.sum_range_succ, ih, List.sum_map_add]
  rw [swap fun i d => ∑ j ∈ Finset.range d.2, x b.1 i * P.e (off bs b.1 + i) (off bs d.1 + j) * x d.1 j]
  congr 1
  refine List.map_congr_left fun d _ => Finset.sum_congr rfl fun i hi => Finset.sum_congr rfl fun j hj => ?_
  rw [block_e, if_pos ⟨Finset.mem_range.mp hi, Finset.mem_range.mp hj⟩]

theorem map_sum_toFinset {l : List (ℕ × ℕ)} (hb : ∀ b ∈ l, b.2 = dim b.1) (hn : (l.map (·.1)).Nodup) (f : ℕ → ℕ → ℝ) :
    (l.map fun b => f b.1 b.2).sum = ∑ p ∈ (l.map (·.1)).toFinset, f p (dim p) := by
  rw [List.sum_toFinset _ hn, List.map_map]
  congr 1
  exact List.map_congr_left fun b hb' => by simp [hb b hb']

theorem bil_stack' {bs : List (ℕ × ℕ)} (hb : ∀ b ∈ bs, b.2 = dim b.1) (hn : (bs.map (·.1)).Nodup) (x : ℕ → ℕ → ℝ) (P : Mat) :
    bil P (tot bs) (tot bs) (stackV bs x) (stackV bs x) =
      ∑ p ∈ (bs.map (·.1)).toFinset, ∑ q ∈ (bs.map (·.1)).toFinset, bil (P.block (off bs p) (off bs q) (dim p) (dim q)) (dim p) (dim q) (x p) (x q) := by
  rw [bil_stack bs hn, ← map_sum_toFinset hb hn fun p n => ∑ q ∈ (bs.map (·.1)).toFinset, bil (P.block (off bs p) (off bs q) n (dim q)) n (dim q) (x p) (x q)]
  congr 1
  refine List.map_congr_left fun b _ => ?_
  rw [← map_sum_toFinset hb hn fun q m => bil (P.block (off bs b.1) (off bs q) b.2 m) b.2 m (x b.1) (x q)]

/-- The variance of a combination after a joint observation of instances that are not correlated with the rest: that of the part of the
participants under the posterior plus that of the rest. -/
theorem joint_form {bs : List (ℕ × ℕ)} (hb : ∀ b ∈ bs, b.2 = dim b.1) (hn : (bs.map (·.1)).Nodup)
    {P dx : Mat} (hz : ∀ p ∈ ids, ∀ q ∈ ids, p ∈ bs.map (·.1) → q ∉ bs.map (·.1) → ∀ i j, (c.cov p q).e i j = 0 ∧ (c.cov q p).e i j = 0) (x : ℕ → ℕ → ℝ) :
    ∑ p ∈ ids, ∑ q ∈ ids, bil ((c.joint bs P dx).cov p q) (dim p) (dim q) (x p) (x q) =
      bil P (tot bs) (tot bs) (stackV bs fun p i => if p ∈ ids then x p i else 0) (stackV bs fun p i => if p ∈ ids then x p i else 0) +
        ∑ p ∈ ids, ∑ q ∈ ids, bil (c.cov p q) (dim p) (dim q) (fun i => if p ∈ (bs.map (·.1)).toFinset then 0 else x p i)
          (fun i => if q ∈ (bs.map (·.1)).toFinset then 0 else x q i) := by
  classical
  let B := (bs.map (·.1)).toFinset
  have hlk : ∀ p ∈ bs.map (·.1), (bs.lookup p).getD 0 = dim p := by
    intro p hp
    obtain ⟨b, hbm, rfl⟩ := List.mem_map.mp hp
    rw [lookup_of_mem hn hbm, ← hb b hbm]; rfl
  let x1 : ℕ → ℕ → ℝ := fun p i => if p ∈ ids then x p i else 0
  let x2 : ℕ → ℕ → ℝ := fun p i => if p ∈ B then 0 else x p i
  have e : ∀ p ∈ ids, ∀ q ∈ ids, bil ((c.joint bs P dx).cov p q) (dim p) (dim q) (x p) (x q) =
      (if p ∈ B ∧ q ∈ B then bil (P.block (off bs p) (off bs q) (dim p) (dim q)) (dim p) (dim q) (x1 p) (x1 q) else 0) +
        bil (c.cov p q) (dim p) (dim q) (x2 p) (x2 q) := by
    intro p hp q hq
    simp only [Central.joint, x1, x2, if_pos hp, if_pos hq]
    by_cases h1 : p ∈ bs.map (·.1)
    · have h1' : p ∈ B := List.mem_toFinset.mpr h1
      by_cases h2 : q ∈ bs.map (·.1)
      · have h2' : q ∈ B := List.mem_toFinset.mpr h2
        rw [if_pos ⟨h1, h2⟩, if_pos ⟨h1', h2'⟩, hlk p h1, hlk q h2, bil_zero_left _ _ _ (fun i => if_pos h1'), add_zero]
      · have h2' : q ∉ B := fun e => h2 (List.mem_toFinset.mp e)
        rw [if_neg (fun e => h2 e.2), if_pos h1, if_neg (fun e => h2' e.2), bil_zero_left _ _ _ (fun i => if_pos h1'), add_zero]
        refine bil_zero (fun i j => ?_) _ _ _ _
        rw [mul_e]
        exact Finset.sum_eq_zero fun k _ => by rw [(hz p hp q hq h1 h2 k j).1, mul_zero]
    · have h1' : p ∉ B := fun e => h1 (List.mem_toFinset.mp e)
      have h3 : ¬ (p ∈ B ∧ q ∈ B) := fun e => h1' e.1
      rw [if_neg h3, zero_add, if_neg (fun e => h1 e.1), if_neg h1]
      simp only [if_neg h1']
      by_cases h2 : q ∈ bs.map (·.1)
      · have h2' : q ∈ B := List.mem_toFinset.mpr h2
        rw [if_pos h2, bil_zero_right (c.cov p q) _ _ _ (fun i => if_pos h2')]
        refine bil_zero (fun i j => ?_) _ _ _ _
        rw [mul_e]
        exact Finset.sum_eq_zero fun k _ => by rw [(hz q hq p hp h2 h1 i k).2, zero_mul]
      · have h2' : q ∉ B := fun e => h2 (List.mem_toFinset.mp e)
        rw [if_neg h2]
        simp only [if_neg h2']
  have tot1 : ∑ p ∈ ids, ∑ q ∈ ids, bil ((c.joint bs P dx).cov p q) (dim p) (dim q) (x p) (x q) =
      (∑ p ∈ ids, ∑ q ∈ ids, (if p ∈ B ∧ q ∈ B then bil (P.block (off bs p) (off bs q) (dim p) (dim q)) (dim p) (dim q) (x1 p) (x1 q) else 0)) +
        ∑ p ∈ ids, ∑ q ∈ ids, bil (c.cov p q) (dim p) (dim q) (x2 p) (x2 q) := by
    rw [← Finset.sum_add_distrib]
    refine Finset.sum_congr rfl fun p hp => ?_
    rw [← Finset.sum_add_distrib]
    exact Finset.sum_congr rfl fun q hq => e p hp q hq
  have e1 : (∑ p ∈ ids, ∑ q ∈ ids, (if p ∈ B ∧ q ∈ B then bil (P.block (off bs p) (off bs q) (dim p) (dim q)) (dim p) (dim q) (x1 p) (x1 q) else 0)) =
      bil P (tot bs) (tot bs) (stackV bs x1) (stackV bs x1) := by
    rw [bil_stack' hb hn]
    have h0 : ∀ p, p ∉ ids → ∀ i, x1 p i = 0 := fun p hp i => if_neg hp
    calc _ = ∑ p ∈ ids ∪ B, ∑ q ∈ ids ∪ B, (if p ∈ B ∧ q ∈ B then bil (P.block (off bs p) (off bs q) (dim p) (dim q)) (dim p) (dim q) (x1 p) (x1 q) else 0) := by
          refine (Finset.sum_congr rfl fun p _ => ?_).trans (Finset.sum_subset Finset.subset_union_left fun p _ hp => ?_)
          · refine Finset.sum_subset Finset.subset_union_left fun q _ hq => ?_
            rw [bil_zero_right _ _ _ _ (h0 q hq), ite_self]
          · exact Finset.sum_eq_zero fun q _ => by rw [bil_zero_left _ _ _ (h0 p hp), ite_self]
      _ = _ := by
          symm
          refine (Finset.sum_congr rfl fun p hp => ?_).trans (Finset.sum_subset Finset.subset_union_right fun p _ hp => ?_)
          · refine (Finset.sum_congr rfl fun q hq => ?_).trans (Finset.sum_subset Finset.subset_union_right fun q _ hq => ?_)
            · rw [if_pos ⟨hp, hq⟩]
            · rw [if_neg (fun e => hq e.2)]
          · exact Finset.sum_eq_zero fun q _ => by rw [if_neg (fun e => hp e.1)]
  rw [tot1, e1]

/-- A joint observation of instances that are not correlated with the rest keeps the team's covariance a covariance. -/
theorem TeamCov.joint (h : TeamCov dim ids c.cov) {bs : List (ℕ × ℕ)} (hb : ∀ b ∈ bs, b.2 = dim b.1) (hn : (bs.map (·.1)).Nodup)
    {P dx : Mat} (hP : IsCovMat P) (hz : ∀ p ∈ ids, ∀ q ∈ ids, p ∈ bs.map (·.1) → q ∉ bs.map (·.1) → ∀ i j, (c.cov p q).e i j = 0 ∧ (c.cov q p).e i j = 0) :
    TeamCov dim ids (c.joint bs P dx).cov := by
  intro x
  rw [joint_form hb hn hz]
  exact add_nonneg (hP.bil _ _) (h _)

end team
end Ikf

namespace Ikf
open Mat
section steps
variable {dim : ℕ → ℕ} {ids : Finset ℕ}

theorem bil_le_of_psd {A B : Mat} {n : ℕ} (h : (B.toM n n - A.toM n n).PosSemidef) (x : ℕ → ℝ) : bil A n n x x ≤ bil B n n x x := by
  unfold bil
  rw [quad_toM, quad_toM]
  have := h.dotProduct_mulVec_nonneg (fun i : Fin n => x i)
  rw [Matrix.sub_mulVec, dotProduct_sub] at this
  simpa using this

theorem TeamCov.own {C : ℕ → ℕ → Mat} (h : TeamCov dim ids C) {p : ℕ} (hp : p ∈ ids) (hs : (C p p).Shape (dim p) (dim p)) (ht : C p p = (C p p).tr) :
    IsCovMat (C p p) := by
  refine ⟨by rw [hs.1, hs.2], fun i j => congrArg (fun M => M.e i j) ht, fun x => ?_⟩
  have := (h.subset (Finset.singleton_subset_iff.mpr hp)) fun _ => x
  rw [Finset.sum_singleton, Finset.sum_singleton] at this
  rw [hs.1]
  exact this

/-- A private observation: posterior = multiplied prior + the share of the noise. -/
theorem priv_grow {H R r S : Mat} {n m : ℕ} {cfg : Cfg} {res : CorrRes} (hO : ObsShape H R r S n m) (hS : IsCovMat S) (hR : NoiseOk R cfg)
    (h : correctionStep H R r S cfg = .ok res) (x : ℕ → ℝ) :
    bil ((one n - gainM H R S cfg.eps * H) * S * (one n - gainM H R S cfg.eps * H).tr) n n x x ≤ bil res.Sapos n n x x := by
  obtain ⟨-, pS⟩ := hS.psd hO.S.1
  obtain ⟨pR, he, pRe⟩ := hR.pd hO.R.1
  obtain ⟨-, -, -, -, -, a6, a7, -, -, -, -, -⟩ := c18_kalman_update H R r S cfg hO pS pR he pRe res h
  have hU : (one n - gainM H R S cfg.eps * H).toM n n = 1 - Alg.gain (S.toM n n) (H.toM m n) (R.toM m m + cfg.eps • 1) * H.toM m n := by
    rw [← Hdl.updM_eq hO.S, toM_updM hO pS pR]
  have hUs : (one n - gainM H R S cfg.eps * H).Shape n n := ⟨rfl, rfl⟩
  apply bil_le_of_psd
  rw [(hUs.mul hO.S).toM_mul, hUs.toM_mul, toM_tr, hU, a6]
  set K := Alg.gain (S.toM n n) (H.toM m n) (R.toM m m + cfg.eps • 1)
  have hK : S.toM n n * (H.toM m n).transpose * (H.toM m n * S.toM n n * (H.toM m n).transpose + (R.toM m m + cfg.eps • 1))⁻¹ = K := rfl
  rw [hK] at a7 ⊢
  have h1 : (K * R.toM m m * K.transpose).PosSemidef := Alg.psd_congr pR K
  have h2 : (cfg.eps • (K * K.transpose)).PosSemidef := by
    have := Alg.psd_congr (Matrix.PosSemidef.one (n := Fin m) (R := ℝ)) K
    rw [Matrix.mul_one] at this
    exact this.smul he
  have h3 : (if cfg.stab then cfg.eps • (1 : Matrix (Fin n) (Fin n) ℝ) else 0).PosSemidef := by
    split
    · exact Alg.smul_one_psd he
    · exact Matrix.PosSemidef.zero
  split
  · rw [add_assoc, add_sub_cancel_left]; exact h1.add h3
  · nth_rewrite 1 [a7]
    rw [add_assoc, add_assoc, add_sub_cancel_left]; exact h1.add (h2.add h3)

end steps
end Ikf
