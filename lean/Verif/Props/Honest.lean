import Verif.Spec.Honest
import Verif.Props.StandaloneMath
import Mathlib.Probability.Distributions.Gaussian.Real
import Mathlib.Probability.Independence.Basic

/-! # Property C115: the covariance a filter reports is that of its error, and no linear estimate is better -/

namespace Ikf
namespace Honest
open MeasureTheory Matrix SKF

variable {Ω : Type} [MeasurableSpace Ω] {P : Measure Ω} {n k l : ℕ}

/-! ## Second moments -/

/-- The random variables with finite second moment. -/
def sq2 (P : Measure Ω) : Submodule ℝ (Ω → ℝ) where
  carrier := {s | MemLp s 2 P}
  add_mem' h1 h2 := h1.add h2
  zero_mem' := MemLp.zero
  smul_mem' c _ h := h.const_mul c

/-- All components of `X` are in `V`. -/
def Comp (V : Submodule ℝ (Ω → ℝ)) (X : Ω → Vec k) : Prop := ∀ i, (fun ω => X ω i 0) ∈ V

theorem Comp.mono {V W : Submodule ℝ (Ω → ℝ)} (h : V ≤ W) {X : Ω → Vec k} (hX : Comp V X) : Comp W X := fun i => h (hX i)

theorem Comp.mul {V : Submodule ℝ (Ω → ℝ)} {X : Ω → Vec k} (hX : Comp V X) (A : Matrix (Fin l) (Fin k) ℝ) : Comp V fun ω => A * X ω := by
  intro i
  have : (fun ω => (A * X ω) i 0) = ∑ j, A i j • fun ω => X ω j 0 := by
    funext ω
    simp [Matrix.mul_apply]
  rw [this]
  exact V.sum_mem fun j _ => V.smul_mem _ (hX j)

theorem Comp.add {V : Submodule ℝ (Ω → ℝ)} {X Y : Ω → Vec k} (hX : Comp V X) (hY : Comp V Y) : Comp V fun ω => X ω + Y ω :=
  fun i => V.add_mem (hX i) (hY i)

theorem Comp.sub {V : Submodule ℝ (Ω → ℝ)} {X Y : Ω → Vec k} (hX : Comp V X) (hY : Comp V Y) : Comp V fun ω => X ω - Y ω :=
  fun i => V.sub_mem (hX i) (hY i)

theorem Comp.lin {V : Submodule ℝ (Ω → ℝ)} {X : Ω → Vec k} (hX : Comp V X) (u : Fin k → ℝ) : (fun ω => ∑ i, u i * X ω i 0) ∈ V := by
  have : (fun ω => ∑ i, u i * X ω i 0) = ∑ j, u j • fun ω => X ω j 0 := by
    funext ω
    simp
  rw [this]
  exact V.sum_mem fun j _ => V.smul_mem _ (hX j)

theorem l2_int {a b : Ω → ℝ} (ha : a ∈ sq2 P) (hb : b ∈ sq2 P) : Integrable (fun ω => a ω * b ω) P := MemLp.integrable_mul ha hb

/-- The random variables that are uncorrelated with all components of `X`. -/
def perp (P : Measure Ω) (X : Ω → Vec k) (hX : Comp (sq2 P) X) : Submodule ℝ (Ω → ℝ) where
  carrier := {s | s ∈ sq2 P ∧ ∀ i, ∫ ω, X ω i 0 * s ω ∂P = 0}
  add_mem' {a b} h1 h2 := by
    refine ⟨(sq2 P).add_mem h1.1 h2.1, fun i => ?_⟩
    have : (fun ω => X ω i 0 * (a + b) ω) = fun ω => X ω i 0 * a ω + X ω i 0 * b ω := by funext ω; simp [mul_add]
    rw [this, integral_add (l2_int (hX i) h1.1) (l2_int (hX i) h2.1), h1.2 i, h2.2 i, add_zero]
  zero_mem' := ⟨(sq2 P).zero_mem, fun i => by simp⟩
  smul_mem' c a h := by
    refine ⟨(sq2 P).smul_mem c h.1, fun i => ?_⟩
    have : (fun ω => X ω i 0 * (c • a) ω) = fun ω => c * (X ω i 0 * a ω) := by funext ω; simp; ring
    rw [this, integral_const_mul, h.2 i, mul_zero]

theorem mom_tr (X : Ω → Vec k) (Y : Ω → Vec l) : (mom P X Y)ᵀ = mom P Y X := by
  ext i j
  simp only [mom, Matrix.transpose_apply, Matrix.of_apply]
  exact integral_congr_ae (Filter.Eventually.of_forall fun ω => mul_comm _ _)

theorem mom_mul_left {X : Ω → Vec k} {Y : Ω → Vec l} (hX : Comp (sq2 P) X) (hY : Comp (sq2 P) Y) {j : ℕ} (A : Matrix (Fin j) (Fin k) ℝ) :
    mom P (fun ω => A * X ω) Y = A * mom P X Y := by
  ext a b
  simp only [mom, Matrix.of_apply, Matrix.mul_apply]
  rw [← Finset.sum_congr rfl (fun c _ => integral_const_mul (A a c) fun ω => X ω c 0 * Y ω b 0),
    ← integral_finsetSum _ (fun c _ => (l2_int (hX c) (hY b)).const_mul _)]
  refine integral_congr_ae (Filter.Eventually.of_forall fun ω => ?_)
  simp only [Finset.sum_mul]
  exact Finset.sum_congr rfl fun c _ => by ring

theorem mom_add_left {X X' : Ω → Vec k} {Y : Ω → Vec l} (hX : Comp (sq2 P) X) (hX' : Comp (sq2 P) X') (hY : Comp (sq2 P) Y) :
    mom P (fun ω => X ω + X' ω) Y = mom P X Y + mom P X' Y := by
  ext a b
  simp only [mom, Matrix.of_apply, Matrix.add_apply]
  rw [← integral_add (l2_int (hX a) (hY b)) (l2_int (hX' a) (hY b))]
  exact integral_congr_ae (Filter.Eventually.of_forall fun ω => by simp only [add_mul])

theorem mom_mul_right {X : Ω → Vec k} {Y : Ω → Vec l} (hX : Comp (sq2 P) X) (hY : Comp (sq2 P) Y) {j : ℕ} (A : Matrix (Fin j) (Fin l) ℝ) :
    mom P X (fun ω => A * Y ω) = mom P X Y * Aᵀ := by
  rw [← mom_tr, mom_mul_left hY hX, Matrix.transpose_mul, mom_tr]

theorem mom_add_right {X : Ω → Vec k} {Y Y' : Ω → Vec l} (hX : Comp (sq2 P) X) (hY : Comp (sq2 P) Y) (hY' : Comp (sq2 P) Y') :
    mom P X (fun ω => Y ω + Y' ω) = mom P X Y + mom P X Y' := by
  rw [← mom_tr, mom_add_left hY hY' hX, Matrix.transpose_add, mom_tr, mom_tr]

theorem quad {X : Ω → Vec k} (hX : Comp (sq2 P) X) (u : Fin k → ℝ) : u ⬝ᵥ mom P X X *ᵥ u = ∫ ω, (∑ i, u i * X ω i 0) ^ 2 ∂P := by
  have h1 : ∀ ω, (∑ i, u i * X ω i 0) ^ 2 = ∑ i, ∑ j, u i * (u j * (X ω i 0 * X ω j 0)) := by
    intro ω
    rw [sq, Finset.sum_mul_sum]
    exact Finset.sum_congr rfl fun i _ => Finset.sum_congr rfl fun j _ => by ring
  rw [integral_congr_ae (Filter.Eventually.of_forall h1), integral_finsetSum _ (fun i _ => integrable_finsetSum _ fun j _ =>
    ((l2_int (hX i) (hX j)).const_mul _).const_mul _)]
  simp only [dotProduct, mulVec, mom, Matrix.of_apply, Finset.mul_sum]
  refine Finset.sum_congr rfl fun i _ => ?_
  rw [integral_finsetSum _ (fun j _ => ((l2_int (hX i) (hX j)).const_mul _).const_mul _)]
  refine Finset.sum_congr rfl fun j _ => ?_
  rw [integral_const_mul, integral_const_mul]
  ring

theorem mom_psd {X : Ω → Vec k} (hX : Comp (sq2 P) X) : (mom P X X).PosSemidef := by
  refine Matrix.PosSemidef.of_dotProduct_mulVec_nonneg ?_ fun u => ?_
  · rw [Matrix.IsHermitian, Matrix.conjTranspose_eq_transpose_of_trivial, mom_tr]
  · rw [star_trivial, quad hX]
    exact integral_nonneg fun ω => sq_nonneg _

theorem perp_mom {X : Ω → Vec k} (hX : Comp (sq2 P) X) {Y : Ω → Vec l} (h : Comp (perp P X hX) Y) : mom P X Y = 0 := by
  ext i j
  exact (h j).2 i

theorem mom_perp {X : Ω → Vec k} (hX : Comp (sq2 P) X) {Y : Ω → Vec l} (hY : Comp (sq2 P) Y) (h : mom P X Y = 0) : Comp (perp P X hX) Y :=
  fun j => ⟨hY j, fun i => congrFun (congrFun h i) j⟩

theorem psd_of_sub {A B : Matrix (Fin k) (Fin k) ℝ} (h : (A - B).PosSemidef) (hB : B.PosSemidef) : A.PosSemidef := by
  have := h.add hB
  rwa [sub_add_cancel] at this

/-! ## The run of the textbook filter -/

/-- The estimate after a step: the mean depends on chance, the covariance does not. -/
noncomputable def post : Stp Ω n → (Ω → Vec n) → (Ω → Vec n) × Matrix (Fin n) (Fin n) ℝ → (Ω → Vec n) × Matrix (Fin n) (Fin n) ℝ
  | .move F Q _ _, _, g => (fun ω => F.toM n n * g.1 ω, F.toM n n * g.2 * (F.toM n n)ᵀ + Q.toM n n)
  | .meas m H R cfg v, x, g =>
    (fun ω => g.1 ω + Alg.gain g.2 (H.toM m n) (R.toM m m + cfg.eps • 1) * (H.toM m n * x ω + v ω - H.toM m n * g.1 ω),
      (1 - Alg.gain g.2 (H.toM m n) (R.toM m m + cfg.eps • 1) * H.toM m n) * g.2 -
        (if cfg.joseph then cfg.eps • (Alg.gain g.2 (H.toM m n) (R.toM m m + cfg.eps • 1) * (Alg.gain g.2 (H.toM m n) (R.toM m m + cfg.eps • 1))ᵀ) else 0) +
        (if cfg.stab then cfg.eps • 1 else 0))

/-- The estimate at the end. -/
noncomputable def final : List (Stp Ω n) → (Ω → Vec n) → (Ω → Vec n) × Matrix (Fin n) (Fin n) ℝ → (Ω → Vec n) × Matrix (Fin n) (Fin n) ℝ
  | [], _, g => g
  | s :: r, x, g => final r (s.truth x) (post s x g)

/-- The filter takes every call and its estimate is that of the textbook filter. -/
theorem step_run (s : Stp Ω n) (hv : s.Valid P) (x : Ω → Vec n) (t : Int) (ω : Ω) (h : Buf Belief) (ho : Ok n h)
    (g : (Ω → Vec n) × Matrix (Fin n) (Fin n) ℝ) (he : estimates n h t = some ⟨g.1 ω, g.2⟩) :
    ∃ h', call h (s.call t x ω) = .ok (h', true) ∧ Ok n h' ∧ estimates n h' (s.time t) = some ⟨(post s x g).1 ω, (post s x g).2⟩ := by
  obtain ⟨b, hb, _⟩ := Option.map_eq_some_iff.mp he
  cases s with
  | move F Q tb w =>
    obtain ⟨hF, hQ, hL, hP⟩ := hv
    obtain ⟨h', hc⟩ := (c100_defined (m := 0) h ho t b hb).1 F Q tb hF.1 hF.2 hQ.1 hQ.2
    obtain ⟨hT, ho'⟩ := call_true ho (.prop F Q t tb) (psd_of_sub hP (mom_psd hL)) hc
    refine ⟨h', hc, ho', ?_⟩
    generalize hest : estimates n h' = f at hT
    cases hT with
    | prop _ _ _ _ g' hg =>
      rw [he] at hg
      cases hg
      simp only [Stp.time, Function.update_self]
      rfl
  | meas m H R cfg v =>
    obtain ⟨hH, hR, hg, heps, hRe, hL, hP⟩ := hv
    obtain ⟨h', a, hc, ha⟩ := ((c100_defined (m := m) h ho t b hb).2.2 H R (Mat.ofM (H.toM m n * x ω + v ω)) cfg hH.1 hH.2 hR.1 hR.2 rfl rfl
      (Or.inl hg)).1
    rw [ha hg] at hc
    obtain ⟨hT, ho'⟩ := call_true ho (.priv H R (Mat.ofM (H.toM m n * x ω + v ω)) t cfg) ⟨heps, psd_of_sub hP (mom_psd hL), hRe⟩ hc
    refine ⟨h', hc, ho', ?_⟩
    generalize hest : estimates n h' = f at hT
    cases hT with
    | priv _ _ _ _ _ g' hg =>
      rw [he] at hg
      cases hg
      simp only [Stp.time, Function.update_self]
      congr 1
      refine Gauss.ext ?_ rfl
      show g.1 ω + Alg.gain g.2 (H.toM m n) (R.toM m m + cfg.eps • 1) * ((Mat.ofM (H.toM m n * x ω + v ω)).toM m 1 - H.toM m n * g.1 ω) = _
      rw [Mat.toM_ofM]
      rfl

theorem run (l : List (Stp Ω n)) (hv : ∀ s ∈ l, s.Valid P) (x : Ω → Vec n) (t : Int) (ω : Ω) (h : Buf Belief) (ho : Ok n h)
    (g : (Ω → Vec n) × Matrix (Fin n) (Fin n) ℝ) (he : estimates n h t = some ⟨g.1 ω, g.2⟩) :
    ∃ h', calls h (script l t x ω) = .ok (h', List.replicate l.length true) ∧ Ok n h' ∧
      estimates n h' (time l t) = some ⟨(final l x g).1 ω, (final l x g).2⟩ := by
  induction l generalizing x t h g with
  | nil => exact ⟨h, rfl, ho, he⟩
  | cons s r ih =>
    obtain ⟨h1, hc, ho1, he1⟩ := step_run s (hv s List.mem_cons_self) x t ω h ho g he
    obtain ⟨h2, hc2, ho2, he2⟩ := ih (fun s' hs' => hv s' (List.mem_cons_of_mem _ hs')) (s.truth x) (s.time t) h1 ho1 (post s x g) he1
    refine ⟨h2, ?_, ho2, he2⟩
    simp only [script, calls, hc, Res.bind_ok, hc2, List.length_cons, List.replicate_succ]

/-! ## The error -/

/-- The error of an estimate. -/
abbrev err (x m : Ω → Vec n) : Ω → Vec n := fun ω => x ω - m ω

theorem err_move (F Q : Mat) (tb : Int) (w x : Ω → Vec n) (g : (Ω → Vec n) × Matrix (Fin n) (Fin n) ℝ) :
    err ((Stp.move F Q tb w).truth x) (post (.move F Q tb w) x g).1 = fun ω => F.toM n n * err x g.1 ω + w ω := by
  funext ω
  simp only [err, Stp.truth, post, Matrix.mul_sub]
  abel

theorem err_meas (m : ℕ) (H R : Mat) (cfg : Cfg) (v : Ω → Vec m) (x : Ω → Vec n) (g : (Ω → Vec n) × Matrix (Fin n) (Fin n) ℝ) :
    err ((Stp.meas m H R cfg v).truth x) (post (.meas m H R cfg v) x g).1 =
      fun ω => (1 - Alg.gain g.2 (H.toM m n) (R.toM m m + cfg.eps • 1) * H.toM m n) * err x g.1 ω +
        (-Alg.gain g.2 (H.toM m n) (R.toM m m + cfg.eps • 1)) * v ω := by
  funext ω
  simp only [err, Stp.truth, post, Matrix.mul_sub, Matrix.mul_add, Matrix.sub_mul, Matrix.one_mul, Matrix.neg_mul, Matrix.mul_assoc]
  abel

/-- The new error is a linear function of the old error and the noise. -/
theorem err_step (s : Stp Ω n) (x : Ω → Vec n) (g : (Ω → Vec n) × Matrix (Fin n) (Fin n) ℝ) :
    ∃ (A : Matrix (Fin n) (Fin n) ℝ) (B : Matrix (Fin n) (Fin s.noise.1) ℝ),
      err (s.truth x) (post s x g).1 = fun ω => A * err x g.1 ω + B * s.noise.2 ω := by
  cases s with
  | move F Q tb w => exact ⟨F.toM n n, (1 : Matrix (Fin n) (Fin n) ℝ), by rw [err_move]; funext ω; exact congrArg (_ + ·) (Matrix.one_mul (w ω)).symm⟩
  | meas m H R cfg v => exact ⟨_, _, err_meas m H R cfg v x g⟩

theorem mom_lin {X : Ω → Vec k} {Y : Ω → Vec l} (hX : Comp (sq2 P) X) (hY : Comp (sq2 P) Y) (h0 : mom P X Y = 0) {j : ℕ}
    (A : Matrix (Fin j) (Fin k) ℝ) (B : Matrix (Fin j) (Fin l) ℝ) :
    mom P (fun ω => A * X ω + B * Y ω) (fun ω => A * X ω + B * Y ω) = A * mom P X X * Aᵀ + B * mom P Y Y * Bᵀ := by
  have hA := hX.mul A
  have hB := hY.mul B
  have h1 : mom P Y X = 0 := by rw [← mom_tr, h0, Matrix.transpose_zero]
  rw [mom_add_left hA hB (hA.add hB), mom_add_right hA hA hB, mom_add_right hB hA hB,
    mom_mul_left hX hA, mom_mul_left hX hB, mom_mul_left hY hA, mom_mul_left hY hB,
    mom_mul_right hX hX, mom_mul_right hX hY, mom_mul_right hY hX, mom_mul_right hY hY, h0, h1]
  simp [Matrix.mul_assoc]

theorem Stp.Valid.noise_l2 {s : Stp Ω n} (hv : s.Valid P) : Comp (sq2 P) s.noise.2 := by
  cases s with
  | move F Q tb w => exact hv.2.2.1
  | meas m H R cfg v => exact hv.2.2.2.2.2.1

/-- The textbook covariance for the system with the noise the filter was told, and what regularisation adds to it. -/
theorem post_cov (m : ℕ) (H R : Mat) (cfg : Cfg) (v : Ω → Vec m) (hv : (Stp.meas m H R cfg v : Stp Ω n).Valid P) (x : Ω → Vec n)
    (g : (Ω → Vec n) × Matrix (Fin n) (Fin n) ℝ) (hS : g.2.PosSemidef) :
    ∃ D : Matrix (Fin n) (Fin n) ℝ, D.PosSemidef ∧ (cfg.eps = 0 → D = 0) ∧
      (post (.meas m H R cfg v) x g).2 = Alg.joseph g.2 (H.toM m n) (R.toM m m) (Alg.gain g.2 (H.toM m n) (R.toM m m + cfg.eps • 1)) + D := by
  obtain ⟨_, _, _, heps, hRe, _, _⟩ := hv
  set K := Alg.gain g.2 (H.toM m n) (R.toM m m + cfg.eps • 1) with hK
  have hj := Alg.joseph_gain hS (H.toM m n) (Alg.innov_pd hS (H.toM m n) hRe)
  rw [← hK] at hj
  have hj' : (1 - K * H.toM m n) * g.2 = Alg.joseph g.2 (H.toM m n) (R.toM m m) K + cfg.eps • (K * Kᵀ) := by
    rw [← hj]
    simp only [Alg.joseph, Matrix.mul_add, Matrix.add_mul, Matrix.mul_smul, Matrix.smul_mul, Matrix.mul_one]
    abel
  have hKK : (cfg.eps • (K * Kᵀ)).PosSemidef := by
    have := Alg.psd_congr (Alg.smul_one_psd (n := Fin m) heps) K
    simpa only [Matrix.mul_smul, Matrix.smul_mul, Matrix.mul_one] using this
  have h1 : (cfg.eps • (1 : Matrix (Fin n) (Fin n) ℝ)).PosSemidef := Alg.smul_one_psd heps
  refine ⟨(if cfg.joseph then 0 else cfg.eps • (K * Kᵀ)) + (if cfg.stab then cfg.eps • 1 else 0), ?_, ?_, ?_⟩
  · refine Matrix.PosSemidef.add ?_ ?_
    · split
      · exact Matrix.PosSemidef.zero
      · exact hKK
    · split
      · exact h1
      · exact Matrix.PosSemidef.zero
  · intro h0
    simp [h0]
  · simp only [post]
    rw [← hK, hj']
    split <;> simp only [add_sub_cancel_right, sub_zero, zero_add, add_assoc]

/-- One step keeps the covariance at least that of the error; and equal to it, if the noise is what the filter was told and nothing is regularised. -/
theorem cov_step (s : Stp Ω n) (hv : s.Valid P) (x : Ω → Vec n) (g : (Ω → Vec n) × Matrix (Fin n) (Fin n) ℝ) (hL : Comp (sq2 P) (err x g.1))
    (hd : (g.2 - mom P (err x g.1) (err x g.1)).PosSemidef) (hu : mom P (err x g.1) s.noise.2 = 0) :
    Comp (sq2 P) (err (s.truth x) (post s x g).1) ∧
    ((post s x g).2 - mom P (err (s.truth x) (post s x g).1) (err (s.truth x) (post s x g).1)).PosSemidef ∧
    (s.Exact P → g.2 = mom P (err x g.1) (err x g.1) →
      (post s x g).2 = mom P (err (s.truth x) (post s x g).1) (err (s.truth x) (post s x g).1)) := by
  have hS := psd_of_sub hd (mom_psd hL)
  have hN := hv.noise_l2
  cases s with
  | move F Q tb w =>
    have hw : mom P (err x g.1) w = 0 := hu
    have hN : Comp (sq2 P) w := hN
    have hm := mom_lin hL hN hw (F.toM n n) 1
    simp only [Matrix.one_mul, Matrix.transpose_one, Matrix.mul_one] at hm
    rw [err_move]
    refine ⟨(hL.mul _).add hN, ?_, fun hE h0 => ?_⟩
    · rw [hm]
      have h1 : (post (.move F Q tb w) x g).2 - (F.toM n n * mom P (err x g.1) (err x g.1) * (F.toM n n)ᵀ + mom P w w) =
          F.toM n n * (g.2 - mom P (err x g.1) (err x g.1)) * (F.toM n n)ᵀ + (Q.toM n n - mom P w w) := by
        simp only [post, Matrix.mul_sub, Matrix.sub_mul]
        abel
      rw [h1]
      exact (Alg.psd_congr hd _).add hv.2.2.2
    · rw [hm, ← h0, ← hE.1]
      rfl
  | meas m H R cfg v =>
    have hw : mom P (err x g.1) v = 0 := hu
    have hN : Comp (sq2 P) v := hN
    have hm := mom_lin hL hN hw (1 - Alg.gain g.2 (H.toM m n) (R.toM m m + cfg.eps • 1) * H.toM m n)
      (-Alg.gain g.2 (H.toM m n) (R.toM m m + cfg.eps • 1))
    obtain ⟨D, hD, hD0, hc⟩ := post_cov m H R cfg v hv x g hS
    rw [err_meas, hc]
    set K := Alg.gain g.2 (H.toM m n) (R.toM m m + cfg.eps • 1) with hK
    have hm' : mom P (fun ω => (1 - K * H.toM m n) * err x g.1 ω + -K * v ω) (fun ω => (1 - K * H.toM m n) * err x g.1 ω + -K * v ω) =
        Alg.joseph (mom P (err x g.1) (err x g.1)) (H.toM m n) (mom P v v) K := by
      rw [Alg.joseph]
      simpa only [Matrix.neg_mul, Matrix.mul_neg, Matrix.transpose_neg, neg_neg] using hm
    rw [hm']
    refine ⟨(hL.mul _).add (hN.mul _), ?_, fun hE h0 => ?_⟩
    · have h1 : Alg.joseph g.2 (H.toM m n) (R.toM m m) K + D - Alg.joseph (mom P (err x g.1) (err x g.1)) (H.toM m n) (mom P v v) K =
          Alg.joseph (g.2 - mom P (err x g.1) (err x g.1)) (H.toM m n) (R.toM m m - mom P v v) K + D := by
        simp only [Alg.joseph, Matrix.mul_sub, Matrix.sub_mul]
        abel
      rw [h1]
      exact (Alg.joseph_psd hd _ hv.2.2.2.2.2.2 _).add hD
    · rw [hD0 hE.1, ← h0, ← hE.2.1, add_zero]

theorem Uncorrelated.step {s : Stp Ω n} {r : List (Stp Ω n)} {x : Ω → Vec n} {g : (Ω → Vec n) × Matrix (Fin n) (Fin n) ℝ}
    (hv : ∀ s' ∈ s :: r, s'.Valid P) (hL : Comp (sq2 P) (err x g.1)) (hu : Uncorrelated P (err x g.1) (s :: r)) :
    Uncorrelated P (err (s.truth x) (post s x g).1) r := by
  obtain ⟨A, B, hAB⟩ := err_step s x g
  unfold Uncorrelated at hu ⊢
  rw [List.map_cons, List.pairwise_cons, List.pairwise_cons] at hu
  rw [List.pairwise_cons]
  refine ⟨fun a ha => ?_, hu.2.2⟩
  have hN := (hv s List.mem_cons_self).noise_l2
  obtain ⟨s', hs', rfl⟩ := List.mem_map.mp ha
  have hN' := (hv s' (List.mem_cons_of_mem _ hs')).noise_l2
  have h1 : mom P (err x g.1) s'.noise.2 = 0 := hu.1 _ (List.mem_cons_of_mem _ ha)
  have h2 : mom P s.noise.2 s'.noise.2 = 0 := hu.2.1 _ ha
  show mom P (err (s.truth x) (post s x g).1) s'.noise.2 = 0
  rw [hAB, mom_add_left (hL.mul A) (hN.mul B) hN', mom_mul_left hL hN', mom_mul_left hN hN', h1, h2]
  simp

theorem cov_run (l : List (Stp Ω n)) (hv : ∀ s ∈ l, s.Valid P) (x : Ω → Vec n) (g : (Ω → Vec n) × Matrix (Fin n) (Fin n) ℝ)
    (hL : Comp (sq2 P) (err x g.1)) (hd : (g.2 - mom P (err x g.1) (err x g.1)).PosSemidef) (hu : Uncorrelated P (err x g.1) l) :
    Comp (sq2 P) (err (truth l x) (final l x g).1) ∧
    ((final l x g).2 - mom P (err (truth l x) (final l x g).1) (err (truth l x) (final l x g).1)).PosSemidef ∧
    ((∀ s ∈ l, s.Exact P) → g.2 = mom P (err x g.1) (err x g.1) →
      (final l x g).2 = mom P (err (truth l x) (final l x g).1) (err (truth l x) (final l x g).1)) := by
  induction l generalizing x g with
  | nil => exact ⟨hL, hd, fun _ h => h⟩
  | cons s r ih =>
    have hs : mom P (err x g.1) s.noise.2 = 0 := by
      unfold Uncorrelated at hu
      rw [List.map_cons, List.pairwise_cons] at hu
      exact hu.1 _ List.mem_cons_self
    obtain ⟨h1, h2, h3⟩ := cov_step s (hv s List.mem_cons_self) x g hL hd hs
    obtain ⟨i1, i2, i3⟩ := ih (fun s' hs' => hv s' (List.mem_cons_of_mem _ hs')) (s.truth x) (post s x g) h1 h2 (hu.step hv hL)
    exact ⟨i1, i2, fun hE h0 => i3 (fun s' hs' => hE s' (List.mem_cons_of_mem _ hs')) (h3 (hE s List.mem_cons_self) h0)⟩

/-! ## Uncorrelated with the data -/

/-- The number `s` as a vector. -/
def vec1 (s : Ω → ℝ) : Ω → Vec 1 := fun ω _ _ => s ω

theorem mem_perp {X : Ω → Vec k} (hX : Comp (sq2 P) X) (s : Ω → ℝ) : s ∈ perp P X hX ↔ Comp (sq2 P) (vec1 s) ∧ mom P X (vec1 s) = 0 := by
  constructor
  · rintro ⟨h1, h2⟩
    exact ⟨fun _ => h1, by ext i j; exact h2 i⟩
  · rintro ⟨h1, h2⟩
    exact ⟨h1 0, fun i => congrFun (congrFun h2 i) 0⟩

theorem perp_lin {X : Ω → Vec k} {Y : Ω → Vec l} (hX : Comp (sq2 P) X) (hY : Comp (sq2 P) Y) {j : ℕ} (A : Matrix (Fin j) (Fin k) ℝ)
    (B : Matrix (Fin j) (Fin l) ℝ) {Z : Ω → Vec j} (hZ : Comp (sq2 P) Z) (h : Z = fun ω => A * X ω + B * Y ω) {s : Ω → ℝ}
    (h1 : s ∈ perp P X hX) (h2 : s ∈ perp P Y hY) : s ∈ perp P Z hZ := by
  rw [mem_perp] at *
  refine ⟨h1.1, ?_⟩
  rw [h, mom_add_left (hX.mul A) (hY.mul B) h1.1, mom_mul_left hX h1.1, mom_mul_left hY h2.1, h1.2, h2.2]
  simp

/-- A step of the best linear estimate: the estimate is a linear function of the data, and the error uncorrelated with them. -/
theorem opt_step (s : Stp Ω n) (hv : s.Valid P) (hE : s.Exact P) (x : Ω → Vec n) (g : (Ω → Vec n) × Matrix (Fin n) (Fin n) ℝ)
    (hL : Comp (sq2 P) (err x g.1)) (hS : g.2 = mom P (err x g.1) (err x g.1)) (hu : mom P (err x g.1) s.noise.2 = 0)
    (V : Submodule ℝ (Ω → ℝ)) (hm : Comp V g.1) (hVe : V ≤ perp P (err x g.1) hL) (hVn : V ≤ perp P s.noise.2 hv.noise_l2)
    (hL' : Comp (sq2 P) (err (s.truth x) (post s x g).1)) :
    Comp (V ⊔ Submodule.span ℝ (s.data x)) (post s x g).1 ∧
    V ⊔ Submodule.span ℝ (s.data x) ≤ perp P (err (s.truth x) (post s x g).1) hL' ∧
    ∀ (j : ℕ) (ν : Ω → Vec j) (hν : Comp (sq2 P) ν), V ≤ perp P ν hν → mom P (err x g.1) ν = 0 → mom P s.noise.2 ν = 0 →
      V ⊔ Submodule.span ℝ (s.data x) ≤ perp P ν hν := by
  have hVe' : V ≤ perp P (err (s.truth x) (post s x g).1) hL' := by
    obtain ⟨A, B, hAB⟩ := err_step s x g
    exact fun a ha => perp_lin hL hv.noise_l2 A B hL' hAB (hVe ha) (hVn ha)
  cases s with
  | move F Q tb w =>
    simp only [Stp.data, Submodule.span_empty, sup_bot_eq]
    exact ⟨hm.mul _, hVe', fun _ _ _ h _ _ => h⟩
  | meas m H R cfg v =>
    have hw : mom P (err x g.1) v = 0 := hu
    have hN : Comp (sq2 P) v := hv.noise_l2
    have hw' : mom P v (err x g.1) = 0 := by rw [← mom_tr, hw, Matrix.transpose_zero]
    set K := Alg.gain g.2 (H.toM m n) (R.toM m m + cfg.eps • 1) with hK
    set z : Ω → Vec m := fun ω => H.toM m n * x ω + v ω with hz
    have hze : z = fun ω => (H.toM m n * err x g.1 ω + v ω) + H.toM m n * g.1 ω := by
      funext ω
      simp only [hz, err, Matrix.mul_sub]
      abel
    have hHe := hL.mul (H.toM m n)
    have hHev := hHe.add hN
    have hmV := hm.mul (H.toM m n)
    have hHm : Comp (sq2 P) fun ω => H.toM m n * g.1 ω := hmV.mono fun a ha => (hVe ha).1
    have hzL : Comp (sq2 P) z := by rw [hze]; exact hHev.add hHm
    have hzs : Comp (Submodule.span ℝ (Set.range fun (i : Fin m) ω => z ω i 0)) z := fun i => Submodule.subset_span ⟨i, rfl⟩
    refine ⟨?_, sup_le hVe' (Submodule.span_le.mpr ?_), fun j ν hν h1 h2 h3 => sup_le h1 (Submodule.span_le.mpr ?_)⟩
    · have hz' : Comp (V ⊔ Submodule.span ℝ (Set.range fun (i : Fin m) ω => z ω i 0)) z := hzs.mono le_sup_right
      have hm' := hm.mono (le_sup_left (a := V) (b := Submodule.span ℝ (Set.range fun (i : Fin m) ω => z ω i 0)))
      exact hm'.add ((hz'.sub (hm'.mul (H.toM m n))).mul K)
    · have h0 : mom P (err ((Stp.meas m H R cfg v).truth x) (post (.meas m H R cfg v) x g).1) z = 0 := by
        rw [hze, mom_add_right hL' hHev hHm, perp_mom hL' (hmV.mono hVe'), err_meas, ← hK,
          mom_add_left (hL.mul _) (hN.mul _) hHev, mom_mul_left hL hHev, mom_mul_left hN hHev,
          mom_add_right hL hHe hN, mom_add_right hN hHe hN, mom_mul_right hL hL, mom_mul_right hN hL, hw, hw', ← hS, ← hE.2.1]
        have h1 : K * (H.toM m n * g.2 * (H.toM m n)ᵀ + (R.toM m m + cfg.eps • 1)) = g.2 * (H.toM m n)ᵀ :=
          Alg.gain_mul _ (Alg.innov_pd (hS ▸ mom_psd hL) _ hv.2.2.2.2.1)
        rw [hE.1, zero_smul, add_zero, Matrix.mul_add] at h1
        simp only [add_zero, Matrix.zero_mul, zero_add, Matrix.sub_mul, Matrix.one_mul, Matrix.neg_mul]
        simp only [Matrix.mul_assoc] at h1 ⊢
        rw [sub_add_eq_add_sub, ← sub_eq_add_neg, sub_sub, add_comm (K * _), h1, sub_self]
      rintro _ ⟨i, rfl⟩
      exact mom_perp hL' hzL h0 i
    · have h3 : mom P ν v = 0 := by rw [← mom_tr]; exact congrArg Matrix.transpose h3
      have h2 : mom P ν (err x g.1) = 0 := by rw [← mom_tr, h2, Matrix.transpose_zero]
      have h0 : mom P ν z = 0 := by
        rw [hze, mom_add_right hν hHev hHm, perp_mom hν (hmV.mono h1), mom_add_right hν hHe hN, mom_mul_right hν hL, h2, h3]
        simp
      rintro _ ⟨i, rfl⟩
      exact mom_perp hν hzL h0 i

theorem opt_run (l : List (Stp Ω n)) (hv : ∀ s ∈ l, s.Valid P) (hE : ∀ s ∈ l, s.Exact P) (x : Ω → Vec n)
    (g : (Ω → Vec n) × Matrix (Fin n) (Fin n) ℝ) (hL : Comp (sq2 P) (err x g.1)) (hS : g.2 = mom P (err x g.1) (err x g.1))
    (hu : Uncorrelated P (err x g.1) l) (V : Submodule ℝ (Ω → ℝ)) (h1 : (fun _ => 1) ∈ V) (hm : Comp V g.1) (hVe : V ≤ perp P (err x g.1) hL)
    (hVn : ∀ s ∈ l, ∀ h : Comp (sq2 P) s.noise.2, V ≤ perp P s.noise.2 h) (hL' : Comp (sq2 P) (err (truth l x) (final l x g).1)) :
    Comp (V ⊔ Submodule.span ℝ (data l x)) (final l x g).1 ∧
    V ⊔ Submodule.span ℝ (data l x) ≤ perp P (err (truth l x) (final l x g).1) hL' := by
  induction l generalizing x g V with
  | nil =>
    have : V ⊔ Submodule.span ℝ (data ([] : List (Stp Ω n)) x) = V := sup_eq_left.mpr (Submodule.span_le.mpr (by rintro _ rfl; exact h1))
    rw [this]
    exact ⟨hm, hVe⟩
  | cons s r ih =>
    have hd : (g.2 - mom P (err x g.1) (err x g.1)).PosSemidef := by rw [hS, sub_self]; exact Matrix.PosSemidef.zero
    have hu' := hu
    unfold Uncorrelated at hu'
    rw [List.map_cons, List.pairwise_cons, List.pairwise_cons] at hu'
    have hs : mom P (err x g.1) s.noise.2 = 0 := hu'.1 _ List.mem_cons_self
    obtain ⟨k1, _, k3⟩ := cov_step s (hv s List.mem_cons_self) x g hL hd hs
    obtain ⟨o1, o2, o3⟩ := opt_step s (hv s List.mem_cons_self) (hE s List.mem_cons_self) x g hL hS hs V hm hVe
      (hVn s List.mem_cons_self _) k1
    have := ih (fun s' hs' => hv s' (List.mem_cons_of_mem _ hs')) (fun s' hs' => hE s' (List.mem_cons_of_mem _ hs')) (s.truth x) (post s x g) k1
      (k3 (hE s List.mem_cons_self) hS) (hu.step hv hL) (V ⊔ Submodule.span ℝ (s.data x)) (Submodule.mem_sup_left h1) o1 o2
      (fun s' hs' h' => o3 _ _ h' (hVn s' (List.mem_cons_of_mem _ hs') h') (hu'.1 _ (List.mem_cons_of_mem _ (List.mem_map_of_mem hs')))
        (hu'.2.1 _ (List.mem_map_of_mem hs'))) hL'
    rw [sup_assoc, ← Submodule.span_union] at this
    exact this

/-! ## The theorems -/

variable (P) in
/-- C115. A filter whose noises are at most what it was told, and whose first covariance is at least that of its first error, reports covariances that are at
least those of its errors: in every direction, at every time, for all systems and all lengths of the run; the covariance does not depend on chance. -/
theorem c115_consistent (l : List (Stp Ω n)) (hv : ∀ s ∈ l, s.Valid P) (x : Ω → Vec n) (t : Int) (h : Ω → Buf Belief)
    (ho : ∀ ω, Ok n (h ω)) (m : Ω → Vec n) (S : Matrix (Fin n) (Fin n) ℝ) (he : ∀ ω, estimates n (h ω) t = some ⟨m ω, S⟩)
    (hL : L2 P fun ω => x ω - m ω) (hS : (S - mom P (fun ω => x ω - m ω) fun ω => x ω - m ω).PosSemidef)
    (hu : Uncorrelated P (fun ω => x ω - m ω) l) :
    ∃ (h' : Ω → Buf Belief) (m' : Ω → Vec n) (S' : Matrix (Fin n) (Fin n) ℝ),
      (∀ ω, calls (h ω) (script l t x ω) = .ok (h' ω, List.replicate l.length true) ∧ estimates n (h' ω) (time l t) = some ⟨m' ω, S'⟩) ∧
      L2 P (fun ω => truth l x ω - m' ω) ∧
      (S' - mom P (fun ω => truth l x ω - m' ω) fun ω => truth l x ω - m' ω).PosSemidef ∧
      ((∀ s ∈ l, s.Exact P) → S = mom P (fun ω => x ω - m ω) (fun ω => x ω - m ω) →
        S' = mom P (fun ω => truth l x ω - m' ω) fun ω => truth l x ω - m' ω) := by
  choose h' hr using fun ω => run l hv x t ω (h ω) (ho ω) (m, S) (he ω)
  obtain ⟨c1, c2, c3⟩ := cov_run l hv x (m, S) hL hS hu
  exact ⟨h', _, _, fun ω => ⟨(hr ω).1, (hr ω).2.2⟩, c1, c2, c3⟩

variable (P) in
/-- C115. The estimate is unbiased: if the first error and the noises have mean zero, so has the error at the end. -/
theorem c115_unbiased [IsProbabilityMeasure P] (l : List (Stp Ω n)) (hv : ∀ s ∈ l, s.Valid P) (x : Ω → Vec n) (t : Int) (h : Ω → Buf Belief)
    (ho : ∀ ω, Ok n (h ω)) (m : Ω → Vec n) (S : Matrix (Fin n) (Fin n) ℝ) (he : ∀ ω, estimates n (h ω) t = some ⟨m ω, S⟩)
    (hL : L2 P fun ω => x ω - m ω) (h0 : ∀ i, ∫ ω, (x ω - m ω) i 0 ∂P = 0) (hn : ∀ s ∈ l, ∀ i, ∫ ω, s.noise.2 ω i 0 ∂P = 0) :
    ∃ (h' : Ω → Buf Belief) (m' : Ω → Vec n) (S' : Matrix (Fin n) (Fin n) ℝ),
      (∀ ω, calls (h ω) (script l t x ω) = .ok (h' ω, List.replicate l.length true) ∧ estimates n (h' ω) (time l t) = some ⟨m' ω, S'⟩) ∧
      L2 P (fun ω => truth l x ω - m' ω) ∧ ∀ i, ∫ ω, (truth l x ω - m' ω) i 0 ∂P = 0 := by
  choose h' hr using fun ω => run l hv x t ω (h ω) (ho ω) (m, S) (he ω)
  have key : ∀ (l : List (Stp Ω n)) (x : Ω → Vec n) (g : (Ω → Vec n) × Matrix (Fin n) (Fin n) ℝ), (∀ s ∈ l, s.Valid P) →
      (∀ s ∈ l, ∀ i, ∫ ω, s.noise.2 ω i 0 ∂P = 0) → Comp (sq2 P) (err x g.1) → (∀ i, ∫ ω, err x g.1 ω i 0 ∂P = 0) →
      Comp (sq2 P) (err (truth l x) (final l x g).1) ∧ ∀ i, ∫ ω, err (truth l x) (final l x g).1 ω i 0 ∂P = 0 := by
    intro l
    induction l with
    | nil => exact fun x g _ _ h1 h2 => ⟨h1, h2⟩
    | cons s r ih =>
      intro x g hv hn h1 h2
      obtain ⟨A, B, hAB⟩ := err_step s x g
      have hN := (hv s List.mem_cons_self).noise_l2
      have hL1 : Comp (sq2 P) (err (s.truth x) (post s x g).1) := by rw [hAB]; exact (h1.mul A).add (hN.mul B)
      refine ih _ _ (fun s' hs' => hv s' (List.mem_cons_of_mem _ hs')) (fun s' hs' => hn s' (List.mem_cons_of_mem _ hs')) hL1 ?_
      have one2 : (fun _ => 1 : Ω → ℝ) ∈ sq2 P := memLp_const 1
      have hone : (fun _ => 1 : Ω → ℝ) ∈ perp P _ hL1 :=
        perp_lin h1 hN A B hL1 hAB ⟨one2, fun i => by simpa using h2 i⟩ ⟨one2, fun i => by simpa using hn s List.mem_cons_self i⟩
      exact fun i => by simpa using hone.2 i
  obtain ⟨k1, k2⟩ := key l x (m, S) hv hn hL h0
  exact ⟨h', _, _, fun ω => ⟨(hr ω).1, (hr ω).2.2⟩, k1, k2⟩

variable (P) in
/-- C115. No linear estimate is better: if the noises are exactly what the filter was told, then for every weighting `u` of the states, the reported covariance is
the mean squared error of the filter's estimate of `u·x`, this estimate is a linear function of the measurements seen, and every other one has at least this
mean squared error. -/
theorem c115_optimal [IsProbabilityMeasure P] (l : List (Stp Ω n)) (hv : ∀ s ∈ l, s.Valid P) (hE : ∀ s ∈ l, s.Exact P) (x : Ω → Vec n) (t : Int)
    (h : Buf Belief) (ho : Ok n h) (m : Vec n) (S : Matrix (Fin n) (Fin n) ℝ) (he : estimates n h t = some ⟨m, S⟩)
    (hL : L2 P fun ω => x ω - m) (hS : S = mom P (fun ω => x ω - m) fun ω => x ω - m) (h0 : ∀ i, ∫ ω, (x ω - m) i 0 ∂P = 0)
    (hu : Uncorrelated P (fun ω => x ω - m) l) :
    ∃ (h' : Ω → Buf Belief) (m' : Ω → Vec n) (S' : Matrix (Fin n) (Fin n) ℝ),
      (∀ ω, calls h (script l t x ω) = .ok (h' ω, List.replicate l.length true) ∧ estimates n (h' ω) (time l t) = some ⟨m' ω, S'⟩) ∧
      ∀ u : Fin n → ℝ,
        u ⬝ᵥ S' *ᵥ u = ∫ ω, (∑ i, u i * truth l x ω i 0 - ∑ i, u i * m' ω i 0) ^ 2 ∂P ∧
        (fun ω => ∑ i, u i * m' ω i 0) ∈ Submodule.span ℝ (data l x) ∧
        ∀ s ∈ Submodule.span ℝ (data l x),
          ∫ ω, (∑ i, u i * truth l x ω i 0 - ∑ i, u i * m' ω i 0) ^ 2 ∂P ≤ ∫ ω, (∑ i, u i * truth l x ω i 0 - s ω) ^ 2 ∂P := by
  choose h' hr using fun ω => run l hv x t ω h ho (fun _ => m, S) he
  have hd : (S - mom P (fun ω => x ω - m) fun ω => x ω - m).PosSemidef := by rw [hS, sub_self]; exact Matrix.PosSemidef.zero
  obtain ⟨c1, _, c3⟩ := cov_run l hv x (fun _ => m, S) hL hd hu
  have c4 := c3 hE hS
  have one2 : (fun _ => 1 : Ω → ℝ) ∈ sq2 P := memLp_const 1
  have h1 : ∀ (l' : List (Stp Ω n)) (x' : Ω → Vec n), (fun _ => 1 : Ω → ℝ) ∈ Submodule.span ℝ (data l' x') := by
    intro l'
    induction l' with
    | nil => exact fun _ => Submodule.subset_span rfl
    | cons s r ih => exact fun x' => Submodule.span_mono Set.subset_union_right (ih _)
  have hsp : Submodule.span ℝ {fun _ => 1} ⊔ Submodule.span ℝ (data l x) = Submodule.span ℝ (data l x) :=
    sup_eq_right.mpr (Submodule.span_le.mpr (by rintro _ rfl; exact h1 l x))
  have hle : ∀ (j : ℕ) (X : Ω → Vec j) (hX : Comp (sq2 P) X), (∀ i, ∫ ω, X ω i 0 ∂P = 0) → Submodule.span ℝ {fun _ => 1} ≤ perp P X hX := by
    intro j X hX hz
    refine Submodule.span_le.mpr ?_
    rintro _ rfl
    exact ⟨one2, fun i => by simpa using hz i⟩
  obtain ⟨o1, o2⟩ := opt_run l hv hE x (fun _ => m, S) hL hS hu (Submodule.span ℝ {fun _ => 1}) (Submodule.subset_span rfl)
    (fun i => by
      have : (fun _ : Ω => m i 0) = m i 0 • fun _ : Ω => (1 : ℝ) := by funext ω; simp
      rw [this]
      exact Submodule.smul_mem _ _ (Submodule.subset_span rfl))
    (hle n _ hL h0)
    (fun s hs h' => hle _ _ h' (by
      have := hE s hs
      cases s with
      | move F Q tb w => exact this.2
      | meas m H R cfg v => exact this.2.2)) c1
  rw [hsp] at o1 o2
  refine ⟨h', _, _, fun ω => ⟨(hr ω).1, (hr ω).2.2⟩, fun u => ?_⟩
  set m' := (final l x (fun _ => m, S)).1 with hm'
  have hue : (fun ω => ∑ i, u i * err (truth l x) m' ω i 0) ∈ sq2 P := c1.lin u
  have hum := o1.lin u
  have hsq : ∀ ω, ∑ i, u i * truth l x ω i 0 - ∑ i, u i * m' ω i 0 = ∑ i, u i * err (truth l x) m' ω i 0 := by
    intro ω
    rw [← Finset.sum_sub_distrib]
    exact Finset.sum_congr rfl fun i _ => by simp only [err, Matrix.sub_apply]; ring
  refine ⟨?_, hum, fun s hs => ?_⟩
  · rw [c4]
    simp only [hsq]
    exact quad c1 u
  · have hr' : (fun ω => ∑ i, u i * m' ω i 0 - s ω) ∈ perp P _ c1 := o2 ((Submodule.span ℝ (data l x)).sub_mem hum hs)
    have hc : ∫ ω, (∑ i, u i * err (truth l x) m' ω i 0) * (∑ i, u i * m' ω i 0 - s ω) ∂P = 0 := by
      have h2 : ∀ ω, (∑ i, u i * err (truth l x) m' ω i 0) * (∑ i, u i * m' ω i 0 - s ω) =
          ∑ i, u i * (err (truth l x) m' ω i 0 * (∑ i, u i * m' ω i 0 - s ω)) := by
        intro ω
        rw [Finset.sum_mul]
        exact Finset.sum_congr rfl fun i _ => by ring
      rw [integral_congr_ae (Filter.Eventually.of_forall h2), integral_finsetSum _ (fun i _ => (l2_int (c1 i) hr'.1).const_mul _)]
      refine Finset.sum_eq_zero fun i _ => ?_
      rw [integral_const_mul]
      exact mul_eq_zero_of_right _ (hr'.2 i)
    have i1 := l2_int hue hue
    have i2 := (l2_int hue hr'.1).const_mul 2
    have i3 := l2_int hr'.1 hr'.1
    have i23 : Integrable (fun ω => 2 * ((∑ i, u i * err (truth l x) m' ω i 0) * (∑ i, u i * m' ω i 0 - s ω)) +
          (∑ i, u i * m' ω i 0 - s ω) * (∑ i, u i * m' ω i 0 - s ω)) P := i2.add i3
    have h3 : ∀ ω, (∑ i, u i * truth l x ω i 0 - s ω) ^ 2 =
        (∑ i, u i * err (truth l x) m' ω i 0) * (∑ i, u i * err (truth l x) m' ω i 0) +
        (2 * ((∑ i, u i * err (truth l x) m' ω i 0) * (∑ i, u i * m' ω i 0 - s ω)) +
          (∑ i, u i * m' ω i 0 - s ω) * (∑ i, u i * m' ω i 0 - s ω)) := by
      intro ω
      rw [← hsq]
      ring
    rw [integral_congr_ae (Filter.Eventually.of_forall h3), integral_add i1 i23, integral_add i2 i3,
      integral_const_mul, hc]
    simp only [hsq, sq]
    have h4 : 0 ≤ ∫ ω, (∑ i, u i * m' ω i 0 - s ω) * (∑ i, u i * m' ω i 0 - s ω) ∂P := integral_nonneg fun ω => mul_self_nonneg _
    linarith

/-! ## Example: a random state that doubles, is disturbed, and is measured -/

open ProbabilityTheory in
/-- Three independent standard Gaussian numbers. -/
noncomputable def gauss3 : Measure (Fin 3 → ℝ) := Measure.pi fun _ => gaussianReal 0 1

noncomputable instance : IsProbabilityMeasure gauss3 := by unfold gauss3; infer_instance

/-- The number `k` of them as a vector. -/
def draw (k : Fin 3) : (Fin 3 → ℝ) → Vec 1 := fun ω _ _ => ω k

open ProbabilityTheory in
theorem gauss3_facts (k : Fin 3) : L2 gauss3 (draw k) ∧ (∀ i, ∫ ω, draw k ω i 0 ∂gauss3 = 0) ∧ mom gauss3 (draw k) (draw k) = 1 ∧
    ∀ j, j ≠ k → mom gauss3 (draw k) (draw j) = 0 := by
  have hp : ∀ k : Fin 3, MeasurePreserving (Function.eval k) gauss3 (gaussianReal 0 1) := fun k =>
    measurePreserving_eval (fun _ : Fin 3 => gaussianReal 0 1) k
  have hi : iIndepFun (fun (i : Fin 3) (ω : Fin 3 → ℝ) => (fun z : ℝ => z) (ω i)) gauss3 := iIndepFun_pi (X := fun _ z => z) (fun i => by fun_prop)
  have h0 : ∀ k : Fin 3, ∫ ω, ω k ∂gauss3 = 0 := by
    intro k
    have := integral_map (μ := gauss3) (hp k).measurable.aemeasurable (f := fun x : ℝ => x) (by fun_prop)
    rw [(hp k).map_eq, integral_id_gaussianReal] at this
    exact this.symm
  refine ⟨fun i => (memLp_id_gaussianReal (μ := 0) (v := 1) 2).comp_measurePreserving (hp k), fun i => h0 k, ?_, ?_⟩
  · have := integral_map (μ := gauss3) (hp k).measurable.aemeasurable (f := fun x : ℝ => x * x) (by fun_prop)
    rw [(hp k).map_eq] at this
    have hv := variance_fun_id_gaussianReal (μ := 0) (v := 1)
    rw [variance_eq_integral (by fun_prop), integral_id_gaussianReal] at hv
    ext i j
    have hij : i = j := Subsingleton.elim _ _
    rw [hij, Matrix.one_apply_eq]
    refine this.symm.trans (Eq.trans ?_ (hv.trans (by simp)))
    exact integral_congr_ae (Filter.Eventually.of_forall fun x => by simp [sq])
  · intro j hj
    ext a b
    have := (hi.indepFun (fun h => hj h.symm) : IndepFun (fun ω : Fin 3 → ℝ => ω k) (fun ω => ω j) gauss3).integral_fun_mul_eq_mul_integral
      (measurable_pi_apply k).aestronglyMeasurable (measurable_pi_apply j).aestronglyMeasurable
    show ∫ ω : Fin 3 → ℝ, ω k * ω j ∂gauss3 = 0
    rw [this, h0, zero_mul]

/-- The steps: the state doubles and is disturbed by the second number, then it is measured with the third number as error. -/
noncomputable def demo : List (Stp (Fin 3 → ℝ) 1) :=
  [.move (Mat.ofM (Matrix.of fun _ _ => 2 : Matrix (Fin 1) (Fin 1) ℝ)) (Mat.ofM (1 : Matrix (Fin 1) (Fin 1) ℝ)) 10 (draw 1),
   .meas 1 (Mat.ofM (1 : Matrix (Fin 1) (Fin 1) ℝ)) (Mat.ofM (1 : Matrix (Fin 1) (Fin 1) ℝ)) { outlier := false, eps := 0 } (draw 2)]

theorem demo_valid : (∀ s ∈ demo, s.Valid gauss3) ∧ ∀ s ∈ demo, s.Exact gauss3 := by
  constructor
  · intro s hs
    simp only [demo, List.mem_cons, List.not_mem_nil, or_false] at hs
    rcases hs with rfl | rfl
    · refine ⟨⟨rfl, rfl⟩, ⟨rfl, rfl⟩, (gauss3_facts 1).1, ?_⟩
      rw [Mat.toM_ofM, (gauss3_facts 1).2.2.1, sub_self]
      exact Matrix.PosSemidef.zero
    · refine ⟨⟨rfl, rfl⟩, ⟨rfl, rfl⟩, rfl, le_refl _, ?_, (gauss3_facts 2).1, ?_⟩
      · rw [Mat.toM_ofM, zero_smul, add_zero]
        exact Matrix.PosDef.one
      · rw [Mat.toM_ofM, (gauss3_facts 2).2.2.1, sub_self]
        exact Matrix.PosSemidef.zero
  · intro s hs
    simp only [demo, List.mem_cons, List.not_mem_nil, or_false] at hs
    rcases hs with rfl | rfl
    · exact ⟨by rw [Mat.toM_ofM, (gauss3_facts 1).2.2.1], (gauss3_facts 1).2.1⟩
    · exact ⟨rfl, by rw [Mat.toM_ofM, (gauss3_facts 2).2.2.1], (gauss3_facts 2).2.1⟩

theorem demo_uncorrelated : Uncorrelated gauss3 (draw 0) demo := by
  unfold Uncorrelated demo
  refine List.pairwise_cons.mpr ⟨?_, List.pairwise_cons.mpr ⟨?_, List.pairwise_singleton _ _⟩⟩
  · intro a ha
    simp only [List.map_cons, List.map_nil, List.mem_cons, List.not_mem_nil, or_false] at ha
    rcases ha with rfl | rfl
    · exact (gauss3_facts 0).2.2.2 1 (by decide)
    · exact (gauss3_facts 0).2.2.2 2 (by decide)
  · intro a ha
    simp only [List.map_cons, List.map_nil, List.mem_cons, List.not_mem_nil, or_false] at ha
    subst ha
    exact (gauss3_facts 1).2.2.2 2 (by decide)

/-- The first estimate. -/
def seven : Vec 1 := Matrix.of fun _ _ => 7

/-- The first state. -/
noncomputable def start : (Fin 3 → ℝ) → Vec 1 := fun ω => draw 0 ω + seven

/-- The filter's history at the start. -/
noncomputable def startH : Buf Belief := setBelief [] { mean := Mat.ofM seven, Sigma := Mat.ofM (1 : Matrix (Fin 1) (Fin 1) ℝ), stamp := 0 } 0

/-- The filter starts with estimate 7 for a state that is 7 plus the first number, and no linear estimate of the state at time 10 from the measurement is better. -/
example : ∃ (h' : (Fin 3 → ℝ) → Buf Belief) (m' : (Fin 3 → ℝ) → Vec 1) (S' : Matrix (Fin 1) (Fin 1) ℝ),
    (∀ ω, calls startH (script demo 0 start ω) = .ok (h' ω, [true, true]) ∧ estimates 1 (h' ω) 10 = some ⟨m' ω, S'⟩) ∧
    ∀ s ∈ Submodule.span ℝ (data demo start), S' 0 0 ≤ ∫ ω, (2 * (ω 0 + 7) + ω 1 - s ω) ^ 2 ∂gauss3 := by
  have hO0 : Ok 1 ([] : Buf Belief) := ⟨List.Pairwise.nil, by simp⟩
  have ho : Ok 1 startH := hO0.set 0 ⟨rfl, rfl⟩ ⟨rfl, rfl⟩ (by rw [Mat.toM_ofM]; exact Matrix.PosSemidef.one)
  have he : estimates 1 startH 0 = some ⟨seven, 1⟩ := by
    rw [startH, estimates_set hO0, Function.update_self]
    simp only [Mat.toM_ofM]
  have hx : (fun ω => start ω - seven) = draw 0 := by
    funext ω
    simp only [start, add_sub_cancel_right]
  have hx0 : ∀ i, ∫ ω, (start ω - seven) i 0 ∂gauss3 = 0 := by
    simp only [start, add_sub_cancel_right]
    exact (gauss3_facts 0).2.1
  obtain ⟨h', m', S', h1, h2⟩ := c115_optimal gauss3 demo demo_valid.1 demo_valid.2 start 0 startH ho seven 1 he
    (by rw [hx]; exact (gauss3_facts 0).1) (by rw [hx]; exact (gauss3_facts 0).2.2.1.symm) hx0 (by rw [hx]; exact demo_uncorrelated)
  refine ⟨h', m', S', h1, fun s hs => ?_⟩
  obtain ⟨h3, _, h4⟩ := h2 fun _ => 1
  have h5 := h4 s hs
  rw [← h3] at h5
  simpa [dotProduct, mulVec, truth, demo, Stp.truth, Mat.toM_ofM, Matrix.mul_apply, draw, start, seven] using h5

end Honest
end Ikf
