import Verif.Lemmas.Normal

/-! # Property C93: samples of a multivariate normal distribution -/

namespace Ikf
open Mat

namespace Normal
open MeasureTheory ProbabilityTheory Matrix WithLp

/-! ## Specification -/

/-- What is assumed of Eigen's decompositions: the eigenvectors are orthonormal and with the eigenvalues give the matrix back; the Cholesky
factor gives the matrix back and exists exactly for positive definite matrices. -/
structure Solver.Good (E : Solver) : Prop where
  eig : ∀ n S, Mat.Shape S n n → ∃ V lam, E.eig S = some (V, lam) ∧ V.Shape n n ∧ lam.Shape n 1 ∧ V.toM n n * (V.toM n n)ᵀ = 1 ∧
    (lower S).toM n n = V.toM n n * Matrix.diagonal (fun i : Fin n => lam.e i 0) * (V.toM n n)ᵀ
  chol : ∀ n S, Mat.Shape S n n → ((lower S).toM n n).PosDef → ∃ L, E.chol S = some L ∧ L.Shape n n ∧ L.toM n n * (L.toM n n)ᵀ = (lower S).toM n n
  notPD : ∀ n S, Mat.Shape S n n → ¬ ((lower S).toM n n).PosDef → E.chol S = none

/-- A column as a vector. -/
noncomputable def column (n : ℕ) (A : Mat) (j : ℕ) : EuclideanSpace ℝ (Fin n) := toLp 2 fun i => A.e i j

/-- Independent standard normal numbers, one for each entry of an `n × nn` matrix. -/
noncomputable def noise (n nn : ℕ) : Measure (Fin nn → Fin n → ℝ) := Measure.pi fun _ => Measure.pi fun _ => gaussianReal 0 1

/-- The same as a table. -/
def table {n nn : ℕ} (z : Fin nn → Fin n → ℝ) (i j : ℕ) : ℝ := if h : i < n ∧ j < nn then z ⟨j, h.2⟩ ⟨i, h.1⟩ else 0

/-- The samples an object delivers are independent, each Gaussian with mean `mean` and covariance `S`. -/
def Samples (o : Obj) (n : ℕ) (mean : Mat) (S : Matrix (Fin n) (Fin n) ℝ) : Prop :=
  ∀ nn, ∃ X : (Fin nn → Fin n → ℝ) → Mat, (∀ z, samples o nn (table z) = .ok (X z) ∧ (X z).Shape n nn) ∧
    (noise n nn).map (fun z (j : Fin nn) => column n (X z) j) = Measure.pi fun _ => multivariateGaussian (column n mean 0) S

/-! ## Proofs -/

theorem samples_of {o : Obj} {n : ℕ} (hS : o.Sigma.rows = n) (hT : o.Tf.Shape n n) (hm : o.mean.Shape n 1) :
    Samples o n o.mean (o.Tf.toM n n * (o.Tf.toM n n)ᵀ) := by
  intro nn
  refine ⟨fun z => of n nn fun i j => (o.Tf * of n nn (table z)).e i j + o.mean.e i 0, ?_, ?_⟩
  · intro z
    refine ⟨?_, rfl, rfl⟩
    unfold samples
    rw [hS]
    show Res.bind (mulC _ _) _ = _
    unfold mulC
    rw [if_pos (show o.Tf.cols = (of n nn (table z)).rows from hT.2)]
    show (if _ then _ else _) = _
    rw [if_pos ⟨hm.1.trans hT.1.symm, hm.2⟩]
    show Res.ok (of o.Tf.rows nn _) = _
    rw [hT.1]
  · have hcol : ∀ z : Fin nn → Fin n → ℝ, (fun j : Fin nn => column n (of n nn fun i j => (o.Tf * of n nn (table z)).e i j + o.mean.e i 0) j) =
        fun j => column n o.mean 0 + toEuclideanCLM (𝕜 := ℝ) (o.Tf.toM n n) (toLp 2 (z j)) := by
      intro z
      funext j
      unfold column
      rw [toEuclideanCLM_toLp, ← toLp_add]
      congr 1
      funext i
      show (of n nn fun i j => (o.Tf * of n nn (table z)).e i j + o.mean.e i 0).e i j = o.mean.e i 0 + (o.Tf.toM n n *ᵥ z j) i
      rw [of_e, if_pos ⟨i.2, j.2⟩, add_comm, mul_e, hT.2, Finset.sum_range]
      congr 1
      refine Finset.sum_congr rfl fun k _ => ?_
      rw [of_e, if_pos ⟨k.2, j.2⟩]
      unfold table
      rw [dif_pos ⟨k.2, j.2⟩]
      rfl
    refine (congrArg (fun f => Measure.map f (noise n nn)) (funext hcol)).trans ?_
    unfold noise
    rw [Measure.pi_map_pi (f := fun _ (x : Fin n → ℝ) => column n o.mean 0 + toEuclideanCLM (𝕜 := ℝ) (o.Tf.toM n n) (toLp 2 x)) (fun _ => by fun_prop)]
    congr 1
    funext j
    rw [← affine_law, ← map_pi_eq_stdGaussian, Measure.map_map (by fun_prop) (by fun_prop)]
    rfl

/-- What the class does with any covariance matrix: it samples from the Gaussian whose covariance is the lower triangle with the negative
eigenvalues set to zero. -/
theorem eig_samples {E : Solver} (hE : E.Good) {n : ℕ} {mean S : Mat} (hm : mean.Shape n 1) (hS : S.Shape n n) :
    ∃ o V lam, create E mean S false = .ok o ∧ getCovar o = S ∧ o.mean = mean ∧ E.eig S = some (V, lam) ∧
      Samples o n mean (V.toM n n * Matrix.diagonal (fun i : Fin n => max (lam.e i 0) 0) * (V.toM n n)ᵀ) := by
  obtain ⟨V, lam, he, hV, hl, hVV, hd⟩ := hE.eig n S hS
  have hs : (scale lam).Shape n n := ⟨hl.1, hl.1⟩
  refine ⟨⟨S, V * scale lam, mean⟩, V, lam, ?_, rfl, rfl, he, ?_⟩
  · unfold create setCovar
    rw [if_neg (by rw [hS.1, hS.2]; simp), he]
    simp only [Bool.false_eq_true, if_false]
    rw [hV.mulC hs]
    rfl
  · have := samples_of (o := ⟨S, V * scale lam, mean⟩) (n := n) hS.1 (hV.mul hs) hm
    convert this using 1
    show _ = (V * scale lam).toM n n * ((V * scale lam).toM n n)ᵀ
    rw [hV.toM_mul n, transpose_mul]
    have e : (scale lam).toM n n = Matrix.diagonal fun i : Fin n => Real.sqrt (max (lam.e i 0) 0) := by
      ext i j
      rw [toM_apply, Matrix.diagonal_apply]
      unfold scale
      rw [of_e, if_pos ⟨by rw [hl.1]; exact i.2, by rw [hl.1]; exact j.2⟩]
      by_cases h : i = j
      · simp [h]
      · rw [if_neg h, if_neg (fun x => h (Fin.ext x))]
    rw [e, Matrix.diagonal_transpose]
    have e2 : Matrix.diagonal (fun i : Fin n => max (lam.e i 0) 0) =
        Matrix.diagonal (fun i : Fin n => Real.sqrt (max (lam.e i 0) 0)) * Matrix.diagonal (fun i : Fin n => Real.sqrt (max (lam.e i 0) 0)) := by
      rw [Matrix.diagonal_mul_diagonal]
      congr 1
      funext i
      rw [Real.mul_self_sqrt (le_max_right _ _)]
    rw [e2]
    simp only [Matrix.mul_assoc]

theorem lower_symm {S : Mat} {n : ℕ} (hS : S.Shape n n) (hsym : S.tr = S) : lower S = S := by
  refine Mat.ext' rfl (by rw [hS.2]; exact hS.1) ?_
  intro i j hi hj
  unfold lower
  rw [of_e, if_pos ⟨hi, hj⟩]
  split
  · rfl
  · rw [← tr_e, hsym]

/-- C93. For a covariance matrix (symmetric and positive semidefinite), both ways of decomposing it, the constructor delivers an object with
that covariance whose samples are independent Gaussian vectors with the given mean and covariance; for Cholesky the matrix has to be
positive definite. -/
theorem c93_law_partial {E : Solver} (hE : E.Good) {n : ℕ} {mean S : Mat} (hm : mean.Shape n 1) (hS : S.Shape n n)
    (hp : (S.toM n n).PosSemidef) (useChol : Bool) (hc : useChol = true → (S.toM n n).PosDef) :
    ∃ o, create E mean S useChol = .ok o ∧ getCovar o = S ∧ Samples o n mean (S.toM n n) := by
  have hsym : S.tr = S := by
    refine toM_inj (n := n) (m := n) hS.2 hS.1 hS.1 hS.2 ?_
    rw [toM_tr]
    exact hp.1
  have hlow := lower_symm hS hsym
  cases useChol with
  | true =>
    obtain ⟨L, h1, h2, h3⟩ := hE.chol n S hS (by rw [hlow]; exact hc rfl)
    refine ⟨⟨S, L, mean⟩, ?_, rfl, ?_⟩
    · unfold create setCovar
      rw [if_neg (by rw [hS.1, hS.2]; simp), h1]
      rfl
    · have := samples_of (o := ⟨S, L, mean⟩) (n := n) hS.1 h2 hm
      rw [h3, hlow] at this
      exact this
  | false =>
    obtain ⟨o, V, lam, h1, h2, -, he, h4⟩ := eig_samples hE hm hS
    refine ⟨o, h1, h2, ?_⟩
    obtain ⟨V', lam', he', hV, hl, hVV, hd⟩ := hE.eig n S hS
    rw [he] at he'
    obtain ⟨rfl, rfl⟩ := Prod.mk.inj (Option.some.inj he')
    rw [hlow] at hd
    have hnn : ∀ i : Fin n, 0 ≤ lam.e i 0 := by
      intro i
      have hq : ((V.toM n n)ᵀ * S.toM n n * V.toM n n).PosSemidef := by
        have := hp.conjTranspose_mul_mul_same (V.toM n n)
        rwa [conjTranspose_eq_transpose_of_trivial] at this
      have hVV' : (V.toM n n)ᵀ * V.toM n n = 1 := mul_eq_one_comm.mp hVV
      have e : (V.toM n n)ᵀ * S.toM n n * V.toM n n = Matrix.diagonal fun i : Fin n => lam.e i 0 := by
        rw [hd]
        calc (V.toM n n)ᵀ * (V.toM n n * diagonal (fun i : Fin n => lam.e i 0) * (V.toM n n)ᵀ) * V.toM n n
            = ((V.toM n n)ᵀ * V.toM n n) * diagonal (fun i : Fin n => lam.e i 0) * ((V.toM n n)ᵀ * V.toM n n) := by
              simp only [Matrix.mul_assoc]
          _ = _ := by rw [hVV', Matrix.one_mul, Matrix.mul_one]
      rw [e] at hq
      have := hq.diag_nonneg (i := i)
      simpa using this
    have e : (fun i : Fin n => max (lam.e i 0) 0) = fun i : Fin n => lam.e i 0 := by
      funext i
      exact max_eq_left (hnn i)
    rw [e, ← hd] at h4
    exact h4

/-- C93. Cholesky of a matrix that is not positive definite: an exception. -/
theorem c93_cholesky {E : Solver} (hE : E.Good) {n : ℕ} {mean S : Mat} (hS : S.Shape n n) (hp : ¬ ((lower S).toM n n).PosDef) :
    create E mean S true = .throws := by
  unfold create setCovar
  rw [if_neg (by rw [hS.1, hS.2]; simp), hE.notPD n S hS hp]
  rfl

/-! ## What is not true -/

theorem diag_lam {n : ℕ} {V S : Matrix (Fin n) (Fin n) ℝ} {d : Fin n → ℝ} (hV : V * Vᵀ = 1) (h : S = V * Matrix.diagonal d * Vᵀ) :
    Vᵀ * S * V = Matrix.diagonal d := by
  have hV' : Vᵀ * V = 1 := mul_eq_one_comm.mp hV
  rw [h]
  calc Vᵀ * (V * diagonal d * Vᵀ) * V = (Vᵀ * V) * diagonal d * (Vᵀ * V) := by simp only [Matrix.mul_assoc]
    _ = _ := by rw [hV', Matrix.one_mul, Matrix.mul_one]

/-- C93 in full is false: the covariance reported need not be the one of the samples. A negative variance is accepted, all samples are then
equal; of a matrix that is not symmetric one half is ignored. -/
theorem c93_accepted_fails {E : Solver} (hE : E.Good) :
    (∃ o, create E (Mat.zero 1 1) (Mat.smul (-1) (one 1)) false = .ok o ∧ getCovar o = Mat.smul (-1) (one 1) ∧ Samples o 1 (Mat.zero 1 1) 0) ∧
    (∃ S o, Mat.Shape S 2 2 ∧ S.e 0 1 = 5 ∧ create E (Mat.zero 2 1) S true = .ok o ∧ getCovar o = S ∧ Samples o 2 (Mat.zero 2 1) 1) := by
  constructor
  · have hS : (Mat.smul (-1) (one 1)).Shape 1 1 := ⟨rfl, rfl⟩
    obtain ⟨o, V, lam, h1, h2, -, he, h4⟩ := eig_samples hE (n := 1) (mean := Mat.zero 1 1) ⟨rfl, rfl⟩ hS
    refine ⟨o, h1, h2, ?_⟩
    obtain ⟨V', lam', he', hV, hl, hVV, hd⟩ := hE.eig 1 _ hS
    rw [he] at he'
    obtain ⟨rfl, rfl⟩ := Prod.mk.inj (Option.some.inj he')
    have hlow := lower_symm hS (toM_inj (n := 1) (m := 1) rfl rfl rfl rfl (by rw [toM_tr, toM_smul, toM_one]; simp))
    rw [hlow, toM_smul, toM_one] at hd
    have hdd := diag_lam hVV hd
    have e : (Matrix.diagonal fun i : Fin 1 => lam.e i 0) = (-1 : ℝ) • (1 : Matrix (Fin 1) (Fin 1) ℝ) := by
      rw [← hdd]
      simp only [Matrix.mul_smul, Matrix.smul_mul, Matrix.mul_one]
      rw [mul_eq_one_comm.mp hVV]
    have e0 : lam.e 0 0 = -1 := by
      have := congrFun (congrFun e 0) 0
      simpa using this
    have e1 : (fun i : Fin 1 => max (lam.e i 0) 0) = fun _ => 0 := by
      funext i
      have : (i : ℕ) = 0 := by omega
      rw [this, e0]
      norm_num
    rw [e1] at h4
    simpa using h4
  · set S : Mat := Mat.of 2 2 (fun i j => if i = j then 1 else if i = 0 then 5 else 0) with hSdef
    have hS : S.Shape 2 2 := ⟨rfl, rfl⟩
    have hlow : (lower S).toM 2 2 = 1 := by
      ext i j
      rw [toM_apply]
      fin_cases i <;> fin_cases j <;> simp [lower, hSdef, Mat.of]
    obtain ⟨L, h1, h2, h3⟩ := hE.chol 2 S hS (by rw [hlow]; exact Matrix.PosDef.one)
    refine ⟨S, ⟨S, L, Mat.zero 2 1⟩, hS, by simp [hSdef, Mat.of], ?_, rfl, ?_⟩
    · unfold create setCovar
      rw [if_neg (by rw [hS.1, hS.2]; simp), h1]
      rfl
    · have := samples_of (o := ⟨S, L, Mat.zero 2 1⟩) (n := 2) hS.1 h2 ⟨rfl, rfl⟩
      rw [h3, hlow] at this
      exact this

/-- C93. After an exception in `setCovar` an existing object reports the new covariance and goes on sampling with the old one; if the sizes
differ, sampling is undefined behaviour. -/
theorem c93_exception_fails {E : Solver} (hE : E.Good) {n k : ℕ} {mean S S' : Mat} (hm : mean.Shape n 1) (hS : S.Shape n n)
    (hp : (S.toM n n).PosDef) (hS' : S'.Shape k k) (hp' : ¬ ((lower S').toM k k).PosDef) :
    ∃ o o', create E mean S true = .ok o ∧ Samples o n mean (S.toM n n) ∧ setCovar E o S' true = .ok (o', true) ∧ getCovar o' = S' ∧
      (k = n → Samples o' n mean (S.toM n n)) ∧ (k ≠ n → ∀ nn z, samples o' nn z = .ub) := by
  have hsym : S.tr = S := by
    refine toM_inj (n := n) (m := n) hS.2 hS.1 hS.1 hS.2 ?_
    rw [toM_tr]
    exact hp.1
  have hlow := lower_symm hS hsym
  obtain ⟨L, h1, h2, h3⟩ := hE.chol n S hS (by rw [hlow]; exact hp)
  refine ⟨⟨S, L, mean⟩, ⟨S', L, mean⟩, ?_, ?_, ?_, rfl, ?_, ?_⟩
  · unfold create setCovar
    rw [if_neg (by rw [hS.1, hS.2]; simp), h1]
    rfl
  · have := samples_of (o := ⟨S, L, mean⟩) (n := n) hS.1 h2 hm
    rw [h3, hlow] at this
    exact this
  · unfold setCovar
    rw [if_neg (by rw [hS'.1, hS'.2]; simp), hE.notPD k S' hS' hp']
    rfl
  · intro hk
    have := samples_of (o := ⟨S', L, mean⟩) (n := n) (hS'.1.trans hk) h2 hm
    rw [h3, hlow] at this
    exact this
  · intro hk nn z
    unfold samples
    show Res.bind (mulC _ _) _ = _
    unfold mulC
    rw [if_neg (show ¬ L.cols = (of S'.rows nn z).rows from fun h => hk (by rw [h2.2] at h; exact (h.trans hS'.1).symm))]
    rfl

/-! ## The premises -/

open Classical in
open scoped MatrixOrder in
/-- Decompositions as assumed exist. -/
theorem good_exists : ∃ E : Solver, E.Good := by
  have hsym : ∀ (n : ℕ) (S : Mat), S.Shape n n → ((lower S).toM n n).IsHermitian := by
    intro n S hS
    ext i j
    simp only [conjTranspose_apply, star_trivial, toM_apply, lower]
    rw [of_e, of_e, hS.1, if_pos (⟨j.2, i.2⟩ : (j : ℕ) < n ∧ (i : ℕ) < n), if_pos (⟨i.2, j.2⟩ : (i : ℕ) < n ∧ (j : ℕ) < n)]
    rcases lt_trichotomy (i : ℕ) (j : ℕ) with h | h | h
    · rw [if_pos h.le, if_neg (by omega)]
    · rw [h]
    · rw [if_neg (by omega), if_pos h.le]
  have h1 : ∀ S : Mat, ∃ r : Option (Mat × Mat), ∀ n, S.Shape n n → ∃ V lam, r = some (V, lam) ∧ V.Shape n n ∧ lam.Shape n 1 ∧
      V.toM n n * (V.toM n n)ᵀ = 1 ∧ (lower S).toM n n = V.toM n n * Matrix.diagonal (fun i : Fin n => lam.e i 0) * (V.toM n n)ᵀ := by
    intro S
    by_cases hq : S.rows = S.cols
    · have hS : S.Shape S.rows S.rows := ⟨rfl, hq.symm⟩
      have hh := hsym _ S hS
      set U : Matrix (Fin S.rows) (Fin S.rows) ℝ := hh.eigenvectorUnitary.1 with hU
      refine ⟨some (ofM U, of S.rows 1 fun i _ => if h : i < S.rows then hh.eigenvalues ⟨i, h⟩ else 0), ?_⟩
      intro n hn
      obtain rfl : S.rows = n := hn.1
      refine ⟨_, _, rfl, ⟨rfl, rfl⟩, ⟨rfl, rfl⟩, ?_, ?_⟩
      · rw [toM_ofM]
        have := (Matrix.mem_unitaryGroup_iff (A := U)).mp hh.eigenvectorUnitary.2
        rwa [star_eq_conjTranspose, conjTranspose_eq_transpose_of_trivial] at this
      · rw [toM_ofM]
        have := hh.spectral_theorem
        rw [Unitary.conjStarAlgAut_apply] at this
        rw [star_eq_conjTranspose, conjTranspose_eq_transpose_of_trivial] at this
        refine this.trans ?_
        congr 3
        funext i
        simp [Mat.of]
    · exact ⟨none, fun n hn => absurd (hn.1.trans hn.2.symm) hq⟩
  have h2 : ∀ S : Mat, ∃ r : Option Mat, (∀ n, S.Shape n n → ((lower S).toM n n).PosDef → ∃ L, r = some L ∧ L.Shape n n ∧
      L.toM n n * (L.toM n n)ᵀ = (lower S).toM n n) ∧ (∀ n, S.Shape n n → ¬ ((lower S).toM n n).PosDef → r = none) := by
    intro S
    by_cases hq : ((lower S).toM S.rows S.rows).PosDef
    · have hS0 : 0 ≤ (lower S).toM S.rows S.rows := hq.posSemidef.nonneg
      set Q := CFC.sqrt ((lower S).toM S.rows S.rows) with hQ
      have hQQ : Q * Q = (lower S).toM S.rows S.rows := CFC.sqrt_mul_sqrt_self _ hS0
      have hQt : Qᵀ = Q := (Matrix.nonneg_iff_posSemidef.mp (CFC.sqrt_nonneg _)).1
      refine ⟨some (ofM Q), ?_, ?_⟩
      · intro n hn _
        obtain rfl : S.rows = n := hn.1
        refine ⟨_, rfl, ⟨rfl, rfl⟩, ?_⟩
        rw [toM_ofM, hQt, hQQ]
      · intro n hn hp
        obtain rfl : S.rows = n := hn.1
        exact absurd hq hp
    · refine ⟨none, ?_, ?_⟩
      · intro n hn hp
        obtain rfl : S.rows = n := hn.1
        exact absurd hp hq
      · intro _ _ _; rfl
  choose e he using h1
  choose c hc using h2
  exact ⟨⟨c, e⟩, fun n S hS => he S n hS, fun n S hS hp => (hc S).1 n hS hp, fun n S hS hp => (hc S).2 n hS hp⟩

/-- A covariance matrix with correlated entries meets the premises of C93. -/
example : ∃ S : Mat, S.Shape 2 2 ∧ S.e 0 1 = 1 ∧ (S.toM 2 2).PosDef := by
  refine ⟨Mat.of 2 2 fun i j => if i = j then 2 else 1, ⟨rfl, rfl⟩, by simp [Mat.of], ?_⟩
  refine Matrix.PosDef.of_dotProduct_mulVec_pos ?_ ?_
  · ext i j
    fin_cases i <;> fin_cases j <;> simp [Mat.of, Mat.toM]
  · intro x hx
    simp only [star_trivial, dotProduct, mulVec, Fin.sum_univ_two, toM_apply, Mat.of]
    norm_num
    have h : x 0 ≠ 0 ∨ x 1 ≠ 0 := by
      by_contra h
      push Not at h
      exact hx (funext fun i => by fin_cases i <;> simp [h.1, h.2])
    rcases h with h | h
    · nlinarith [sq_pos_of_ne_zero h, sq_nonneg (x 1), sq_nonneg (x 0 + x 1)]
    · nlinarith [sq_pos_of_ne_zero h, sq_nonneg (x 0), sq_nonneg (x 0 + x 1)]

end Normal
end Ikf
