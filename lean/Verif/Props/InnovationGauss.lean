import Verif.Props.Innovation

/-! # Property C140: the outlier test on a Gaussian model -/

namespace Ikf
namespace Honest
open MeasureTheory Matrix SKF ProbabilityTheory WithLp Chi2

variable {Ω : Type} [MeasurableSpace Ω] {P : Measure Ω} {n m k l : ℕ}

/-- The error at the end is a linear function of the first error and the noises. -/
theorem err_lin (l : List (Stp Ω n)) (V : Submodule ℝ (Ω → ℝ)) (x : Ω → Vec n) (g : (Ω → Vec n) × Matrix (Fin n) (Fin n) ℝ)
    (h0 : Comp V (err x g.1)) (hl : ∀ s ∈ l, Comp V s.noise.2) : Comp V (err (truth l x) (final l x g).1) := by
  induction l generalizing x g with
  | nil => exact h0
  | cons s r ih =>
    obtain ⟨A, B, hAB⟩ := err_step s x g
    refine ih _ _ ?_ fun s' h' => hl s' (List.mem_cons_of_mem _ h')
    rw [hAB]
    exact (h0.mul A).add ((hl s List.mem_cons_self).mul B)

/-- A random column as a random point of the Euclidean space. -/
noncomputable def point (r : Ω → Vec m) : Ω → EuclideanSpace ℝ (Fin m) := fun ω => toLp 2 fun i => r ω i 0

/-- The law of a vector all of whose linear combinations are centred Gaussian. -/
theorem gauss_law {r : Ω → Vec m} (hr : Comp (sq2 P) r) (hg : ∀ u : Fin m → ℝ, ∃ var, P.map (fun ω => ∑ i, u i * r ω i 0) = gaussianReal 0 var) :
    AEMeasurable (point r) P ∧ P.map (point r) = multivariateGaussian 0 (mom P r r) := by
  have hm : AEMeasurable (point r) P :=
    (PiLp.continuous_toLp 2 _).measurable.comp_aemeasurable (aemeasurable_pi_lambda _ fun i => (hr i).aestronglyMeasurable.aemeasurable)
  have hpsd := mom_psd hr
  refine ⟨hm, ?_⟩
  have hP : IsFiniteMeasure P := by
    obtain ⟨var, hv⟩ := hg 0
    have : IsProbabilityMeasure (P.map fun ω => ∑ i, (0 : Fin m → ℝ) i * r ω i 0) := by rw [hv]; infer_instance
    have : IsProbabilityMeasure P := Measure.isProbabilityMeasure_of_map fun ω => ∑ i, (0 : Fin m → ℝ) i * r ω i 0
    infer_instance
  refine Measure.ext_of_charFun ?_
  funext t
  rw [charFun_multivariateGaussian hpsd]
  obtain ⟨var, hv⟩ := hg fun i => t i
  have hs : (fun ω => ∑ i, t i * r ω i 0) ∈ sq2 P := Comp.lin hr fun i => t i
  have ha : AEMeasurable (fun ω => ∑ i, t i * r ω i 0) P := MemLp.aestronglyMeasurable hs |>.aemeasurable
  have hvar : (var : ℝ) = ofLp t ⬝ᵥ mom P r r *ᵥ ofLp t := by
    rw [quad hr]
    have h1 := integral_map ha (f := fun z : ℝ => z ^ 2) (by fun_prop)
    rw [hv] at h1
    have h2 := variance_fun_id_gaussianReal (μ := 0) (v := var)
    rw [variance_eq_integral (by fun_prop), integral_id_gaussianReal] at h2
    simp only [sub_zero] at h2
    rw [← h2, h1]
  have hc : charFun (P.map (point r)) t = charFun (P.map fun ω => ∑ i, t i * r ω i 0) 1 := by
    rw [charFun_apply, charFun_apply_real, integral_map hm (by fun_prop), integral_map ha (by fun_prop)]
    refine integral_congr_ae (Filter.Eventually.of_forall fun ω => ?_)
    simp [point, PiLp.inner_apply]
  rw [hc, hv, charFun_gaussianReal, ← hvar]
  simp

variable (P) in
/-- C140. The outlier test on a Gaussian model: if moreover the noises are exactly what the filter was told and jointly Gaussian with the error of the first
estimate, the probability that a measurement of 1 to 49 components is accepted is the chi-square distribution function at the threshold in use; this is at least the
confidence asked for. -/
theorem c140_gaussian (l : List (Stp Ω n)) (hv : ∀ s ∈ l, s.Valid P) (hE : ∀ s ∈ l, s.Exact P) (x : Ω → Vec n) (t : Int)
    (h : Ω → Buf Belief) (ho : ∀ ω, Ok n (h ω)) (e : Ω → Vec n) (S : Matrix (Fin n) (Fin n) ℝ) (he : ∀ ω, estimates n (h ω) t = some ⟨e ω, S⟩)
    (hL : L2 P fun ω => x ω - e ω) (hS : S = mom P (fun ω => x ω - e ω) fun ω => x ω - e ω)
    (H R : Mat) (cfg : Cfg) (v : Ω → Vec m) (hs : Sensor P n H R cfg v) (heps : cfg.eps = 0) (hR : R.toM m m = mom P v v)
    (hu : Uncorrelated P (fun ω => x ω - e ω) (l ++ [.meas m H R cfg v]))
    (hG : JointGaussian P (fun ω => x ω - e ω) (l ++ [.meas m H R cfg v]))
    (hg : cfg.outlier = true) (hc : 0 < cfg.conf) (row : List ℤ) (hrow : nisTable.lookup (round (cfg.conf * 1000)) = some row)
    (hm1 : 1 ≤ m) (hm : m < 50) :
    ∃ answer : Ω → Bool,
      (∀ ω, ∃ h', calls (h ω) (script l t x ω ++ [.priv H R (Mat.ofM (H.toM m n * truth l x ω + v ω)) (time l t) cfg]) =
        .ok (h', List.replicate l.length true ++ [answer ω])) ∧
      P.real {ω | answer ω = true} = cdf (chi2 m) (tableQuantile row (m + 1)) ∧
      (round (cfg.conf * 1000) : ℝ) / 1000 ≤ P.real {ω | answer ω = true} := by
  have hd : (S - mom P (fun ω => x ω - e ω) fun ω => x ω - e ω).PosSemidef := by rw [hS, sub_self]; exact Matrix.PosSemidef.zero
  choose h1 hr using fun ω => run l hv x t ω (h ω) (ho ω) (e, S) (he ω)
  obtain ⟨_, r1, r2, _, r4⟩ := resid_run l hv x (e, S) hL hd H R cfg v hs hu
  have r4 := r4 hE hS heps hR
  have hRp : (R.toM m m).PosSemidef := psd_of_sub hs.2.2.2.2.2 (mom_psd hs.2.2.2.2.1)
  choose h2 a hh ha using fun ω => gate_answer (hr ω).2.1 (hr ω).2.2 (z := Mat.ofM (H.toM m n * truth l x ω + v ω)) hs.1 hs.2.1 hRp ⟨rfl, rfl⟩ hg hc hrow hm
  -- all components of the residual are linear combinations of the noises
  set V := Submodule.span ℝ (noises (fun ω => x ω - e ω) (l ++ [Stp.meas m H R cfg v])) with hV
  have hcomp : Comp V (resid H v (truth l x) (final l x (e, S)).1) := by
    have hV1 : ∀ b ∈ (⟨n, fun ω => x ω - e ω⟩ :: (l ++ [Stp.meas m H R cfg v]).map Stp.noise : List ((j : ℕ) × (Ω → Vec j))), Comp V b.2 :=
      fun b hb i => Submodule.subset_span ⟨b, hb, i, rfl⟩
    rw [resid_eq]
    refine ((err_lin l V x (e, S) (hV1 _ List.mem_cons_self) fun s hs' => hV1 _ (List.mem_cons_of_mem _ (List.mem_map_of_mem ?_))).mul _).add
      (hV1 ⟨m, v⟩ (List.mem_cons_of_mem _ ?_))
    · exact List.mem_append_left _ hs'
    · rw [List.map_append]
      exact List.mem_append_right _ (List.mem_singleton.mpr rfl)
  obtain ⟨g1, g2⟩ := gauss_law r1 fun u => hG _ (hcomp.lin u)
  rw [← r4] at g2
  have hcdf : P.real {ω | a ω = true} = cdf (chi2 m) (tableQuantile row (m + 1)) := by
    have := chi2_prob hm1
    rw [cdf_eq_real, ← nis_law hm1 r2, map_measureReal_apply (by fun_prop) measurableSet_Iic, ← g2,
      map_measureReal_apply_of_aemeasurable g1 (measurableSet_Iic.preimage (by fun_prop))]
    congr 1
    ext ω
    rw [Set.mem_ofPred_eq, ha ω, Mat.toM_ofM]
    show surprise _ (resid H v (truth l x) (final l x (e, S)).1 ω) ≤ _ ↔
      ofLp (point (resid H v (truth l x) (final l x (e, S)).1) ω) ⬝ᵥ (expected H R cfg (final l x (e, S)).2)⁻¹ *ᵥ
        ofLp (point (resid H v (truth l x) (final l x (e, S)).1) ω) ≤ _
    rw [surprise_sum]
    simp only [point, dotProduct, mulVec, Finset.mul_sum]
    refine Eq.to_iff (congrArg (· ≤ _) (Finset.sum_congr rfl fun i _ => Finset.sum_congr rfl fun j _ => by ring))
  refine ⟨a, fun ω => ⟨h2 ω, ?_⟩, hcdf, ?_⟩
  · rw [calls_append (hr ω).1]
    simp only [calls, hh ω, Res.bind_ok]
  · have hsh : (Mat.ofM (expected H R cfg (final l x (e, S)).2 : Matrix (Fin m) (Fin m) ℝ)).Shape m m := ⟨rfl, rfl⟩
    have hpd := r2
    rw [← Mat.toM_ofM (expected H R cfg (final l x (e, S)).2 : Matrix (Fin m) (Fin m) ℝ)] at hpd
    have h3 := c20_at_least_nominal hm1 hm hsh hpd hc hrow
    rw [c20_acceptance hm1 hsh hpd hc hrow, if_pos hm] at h3
    rw [hcdf]
    exact h3

/-! ## Example -/

/-- The three numbers are jointly Gaussian. -/
theorem demo_gaussian (R : Mat) (cfg : Cfg) : JointGaussian gauss3 (draw 0) (demo.take 1 ++ [.meas 1 (Mat.ofM (1 : Matrix (Fin 1) (Fin 1) ℝ)) R cfg (draw 2)]) := by
  intro s hs
  have : ∃ L : StrongDual ℝ (EuclideanSpace ℝ (Fin 3)), s = fun ω => L (toLp 2 ω) := by
    induction hs using Submodule.span_induction with
    | mem s h =>
      have hk : ∃ k : Fin 3, s = fun ω => ω k := by
        obtain ⟨a, ha, i, rfl⟩ := h
        simp only [demo, List.take_succ_cons, List.take_zero, List.cons_append, List.nil_append, List.map_cons, List.map_nil, List.mem_cons,
          List.not_mem_nil, or_false] at ha
        rcases ha with rfl | rfl | rfl
        · exact ⟨0, rfl⟩
        · exact ⟨1, rfl⟩
        · exact ⟨2, rfl⟩
      obtain ⟨k, rfl⟩ := hk
      exact ⟨EuclideanSpace.proj k, rfl⟩
    | zero => exact ⟨0, rfl⟩
    | add s1 s2 _ _ h1 h2 =>
      obtain ⟨L1, rfl⟩ := h1
      obtain ⟨L2, rfl⟩ := h2
      exact ⟨L1 + L2, rfl⟩
    | smul c s _ h =>
      obtain ⟨L, rfl⟩ := h
      exact ⟨c • L, rfl⟩
  obtain ⟨L, rfl⟩ := this
  have h1 := IsGaussian.map_eq_gaussianReal (μ := stdGaussian (EuclideanSpace ℝ (Fin 3))) L
  rw [integral_strongDual_stdGaussian, ← map_pi_eq_stdGaussian, Measure.map_map (by fun_prop) (by fun_prop)] at h1
  exact ⟨_, h1⟩

/-- The system of C115 without regularisation: the measurement of the state at time 10 is accepted with probability at least 0.997. -/
example : ∃ answer : (Fin 3 → ℝ) → Bool,
    (∀ ω, ∃ h', calls startH (script (demo.take 1) 0 start ω ++ [.priv (Mat.ofM (1 : Matrix (Fin 1) (Fin 1) ℝ)) (Mat.ofM (1 : Matrix (Fin 1) (Fin 1) ℝ))
      (Mat.ofM ((Mat.ofM (1 : Matrix (Fin 1) (Fin 1) ℝ)).toM 1 1 * truth (demo.take 1) start ω + draw 2 ω)) 10 { eps := 0 }]) = .ok (h', [true, answer ω])) ∧
    0.997 ≤ gauss3.real {ω | answer ω = true} := by
  have hO0 : Ok 1 ([] : Buf Belief) := ⟨List.Pairwise.nil, by simp⟩
  have ho : Ok 1 startH := hO0.set 0 ⟨rfl, rfl⟩ ⟨rfl, rfl⟩ (by rw [Mat.toM_ofM]; exact Matrix.PosSemidef.one)
  have he : estimates 1 startH 0 = some ⟨seven, 1⟩ := by
    rw [startH, estimates_set hO0, Function.update_self]
    simp only [Mat.toM_ofM]
  have hx : (fun ω => start ω - seven) = draw 0 := by
    funext ω
    simp only [start, add_sub_cancel_right]
  obtain ⟨a, h1, _, h2⟩ := c140_gaussian gauss3 (m := 1) (demo.take 1) (fun s hs => demo_valid.1 s (List.mem_of_mem_take hs))
    (fun s hs => demo_valid.2 s (List.mem_of_mem_take hs)) start 0 (fun _ => startH) (fun _ => ho)
    (fun _ => seven) 1 (fun _ => he) (by rw [hx]; exact (gauss3_facts 0).1) (by rw [hx, (gauss3_facts 0).2.2.1])
    (Mat.ofM (1 : Matrix (Fin 1) (Fin 1) ℝ)) (Mat.ofM (1 : Matrix (Fin 1) (Fin 1) ℝ)) { eps := 0 } (draw 2)
    ⟨⟨rfl, rfl⟩, ⟨rfl, rfl⟩, le_refl _, by
        rw [Mat.toM_ofM, zero_smul, add_zero]
        exact Matrix.PosDef.one, (gauss3_facts 2).1, by
        rw [Mat.toM_ofM, (gauss3_facts 2).2.2.1, sub_self]
        exact Matrix.PosSemidef.zero⟩ rfl (by rw [Mat.toM_ofM, (gauss3_facts 2).2.2.1])
    (by rw [hx]; exact demo_uncorrelated) (by rw [hx]; exact demo_gaussian _ _) rfl (by norm_num) _ (by norm_num [round_eq]; rfl) (le_refl 1) (by norm_num)
  refine ⟨a, h1, le_trans ?_ h2⟩
  norm_num [round_eq]

end Honest
end Ikf
