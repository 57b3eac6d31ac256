import Verif.Lemmas.Covariance
import Verif.Props.IsolatedExamples
import Verif.Props.MatUtils

/-!
# C104: every covariance an instance stores is a covariance, whatever the calls and their order
-/

namespace Ikf
open Mat
namespace Hdl

/-- Execution of one call (`Call`, Spec/Covariance.lean). `pj` is `plus_jacobian`, `pred` the user's `predict_to`, `near` is
`nearest_covariance`. `add`/`del` are IDICOHandler.cpp:28-56 for an instance without history. -/
noncomputable def exec (fp : FP) (near : Mat → Mat) (pj : Belief → Mat → Mat) (pred : ℕ → Inst → Int → Inst × Bool) (h : Hdl) : Call → Res Hdl
  | .add id hor => .ok (SMap.emplace h id ⟨[], [], hor⟩)
  | .del id => .ok (SMap.erase h id)
  | .init id b t => do
    let i ← get h id
    .ok (SMap.set h id (i.doInit b t))
  | .setBel id b t => do
    let i ← get h id
    .ok (SMap.set h id (i.setBelief b t))
  | .remAfter t => .ok (removeBeliefsAfter h t)
  | .remFrom t => .ok (removeBeliefsFrom h t)
  | .ev e => do
    let r ← run fp near pred h e
    .ok r.1
  | .jointI hf R z t ids cfg => do
    let r ← applyObsI near pj pred hf h R z t ids cfg
    .ok r.1
  | .decR dH R r t cfg => do
    let x ← applyObsRD near pred h dH R r t cfg
    .ok x.1
  | .decZ dH z R t cfg => do
    let x ← applyObsZD near pred h dH z R t cfg
    .ok x.1
  | .decI hf R z t ids cfg => do
    let r ← applyObsID near pj pred hf h R z t ids cfg
    .ok r.1
  | .schR dH R r t cfg => do
    let x ← applyObsSR near pred h dH R r t cfg
    .ok x.1
  | .schZ dH z R t cfg => do
    let x ← applyObsSZ near pred h dH z R t cfg
    .ok x.1
  | .schH hf R z t ids cfg => do
    let r ← applyObsSH near pred hf h R z t ids cfg
    .ok r.1

/-- A sequence of calls, none of which throws or runs into undefined behaviour. -/
noncomputable def execAll (fp : FP) (near : Mat → Mat) (pj : Belief → Mat → Mat) (pred : ℕ → Inst → Int → Inst × Bool) (h : Hdl) : List Call → Res Hdl
  | [] => .ok h
  | c :: r => do
    let h1 ← exec fp near pj pred h c
    execAll fp near pj pred h1 r

section
variable {fp : FP} {near : Mat → Mat} {pj : Belief → Mat → Mat} {pred : ℕ → Inst → Int → Inst × Bool} {h h' : Hdl}

theorem Covs.run (hn : NearCov near) (hp : PredCov pred) (hc : h.Covs) {e : Ev} (ho : Call.Ok (.ev e)) {r : Hdl × Bool}
    (hr : Hdl.run fp near pred h e = .ok r) : r.1.Covs := by
  cases e with
  | propKF id Phi Q ta tb =>
    obtain ⟨i, hi, hr⟩ := bind_eq_ok hr
    obtain ⟨x, hx, hr⟩ := bind_eq_ok hr
    rw [← Res.ok.inj hr]
    exact hc.set ((hc.get hi).propKF fp ho hx) id
  | propEKF id mb Phi Q ta tb =>
    obtain ⟨i, hi, hr⟩ := bind_eq_ok hr
    split at hr
    · rename_i ba hba
      obtain ⟨x, hx, hr⟩ := bind_eq_ok hr
      rw [← Res.ok.inj hr]
      exact hc.set ((hc.get hi).propEKF fp ((hc.get hi).beliefAt hba) ho hx) id
    · rw [← Res.ok.inj hr]; exact hc
  | propBel id bb Phi ta tb =>
    obtain ⟨i, hi, hr⟩ := bind_eq_ok hr
    obtain ⟨x, hx, hr⟩ := bind_eq_ok hr
    rw [← Res.ok.inj hr]
    exact hc.set ((hc.get hi).propBel fp ho hx) id
  | privKF id H R z t cfg =>
    obtain ⟨i, hi, hr⟩ := bind_eq_ok hr
    obtain ⟨x, hx, hr⟩ := bind_eq_ok hr
    rw [← Res.ok.inj hr]
    exact hc.set ((hc.get hi).privKF ho hx) id
  | privEKF id H R rr t cfg =>
    obtain ⟨i, hi, hr⟩ := bind_eq_ok hr
    split at hr
    · rename_i b hb
      obtain ⟨x, hx, hr⟩ := bind_eq_ok hr
      rw [← Res.ok.inj hr]
      exact hc.set ((hc.get hi).privEKF ((hc.get hi).beliefAt hb) ho hx) id
    · rw [← Res.ok.inj hr]; exact hc
  | setCov a b S t =>
    obtain ⟨x, hx, hr⟩ := bind_eq_ok hr
    rw [← Res.ok.inj hr]
    exact hc.setSigma hx
  | jointR dH R rr t cfg => exact hc.applyObsR hn hp hr
  | jointZ dH z R t cfg => exact hc.applyObsZ hn hp hr

theorem Covs.mapV (hc : h.Covs) {f : Inst → Inst} (hf : ∀ i, i.Covs → (f i).Covs) : Hdl.Covs (SMap.mapV f h) := by
  intro x hx
  obtain ⟨y, hy, rfl⟩ := List.mem_map.mp hx
  exact hf _ (hc y hy)

theorem Covs.exec (hn : NearCov near) (hp : PredCov pred) (hc : h.Covs) {c : Call} (ho : c.Ok) (hx : Hdl.exec fp near pj pred h c = .ok h') : h'.Covs := by
  cases c with
  | add id hor =>
    rw [← Res.ok.inj hx]
    intro x hx
    rcases SMap.mem_emplace_sub hx with hx | hx
    · rw [hx]; intro e he; simp at he
    · exact hc x hx
  | del id =>
    rw [← Res.ok.inj hx]
    intro x hx
    exact hc x (List.mem_filter.mp hx).1
  | init id b t =>
    obtain ⟨i, hi, hx⟩ := bind_eq_ok hx
    rw [← Res.ok.inj hx]
    exact hc.set (Inst.Covs.doInit i ho t) id
  | setBel id b t =>
    obtain ⟨i, hi, hx⟩ := bind_eq_ok hx
    rw [← Res.ok.inj hx]
    exact hc.set ((hc.get hi).setBelief ho t) id
  | remAfter t =>
    rw [← Res.ok.inj hx]
    refine hc.mapV fun i hi => ?_
    split
    · exact hi.removeAfter t
    · exact hi
  | remFrom t =>
    rw [← Res.ok.inj hx]
    refine hc.mapV fun i hi => ?_
    split
    · exact hi.removeFrom t
    · exact hi
  | ev e =>
    obtain ⟨r, hr, hx⟩ := bind_eq_ok hx
    rw [← Res.ok.inj hx]
    exact hc.run hn hp ho hr
  | jointI hf R z t ids cfg =>
    obtain ⟨r, hr, hx⟩ := bind_eq_ok hx
    rw [← Res.ok.inj hx]
    exact hc.applyObsI hn hp (tr_of_symm ho.1 ho.2) hr
  | decR dH R rr t cfg =>
    obtain ⟨r, hr, hx⟩ := bind_eq_ok hx
    rw [← Res.ok.inj hx]
    exact hc.applyObsRD hn hp hr
  | decZ dH z R t cfg =>
    obtain ⟨r, hr, hx⟩ := bind_eq_ok hx
    rw [← Res.ok.inj hx]
    exact hc.applyObsZD hn hp hr
  | decI hf R z t ids cfg =>
    obtain ⟨r, hr, hx⟩ := bind_eq_ok hx
    rw [← Res.ok.inj hx]
    exact hc.applyObsID hn hp (tr_of_symm ho.1 ho.2) hr
  | schR dH R rr t cfg =>
    obtain ⟨r, hr, hx⟩ := bind_eq_ok hx
    rw [← Res.ok.inj hx]
    exact hc.applyObsSR hn hp hr
  | schZ dH z R t cfg =>
    obtain ⟨r, hr, hx⟩ := bind_eq_ok hx
    rw [← Res.ok.inj hx]
    exact hc.applyObsSZ hn hp hr
  | schH hf R z t ids cfg =>
    obtain ⟨r, hr, hx⟩ := bind_eq_ok hx
    rw [← Res.ok.inj hx]
    exact hc.applyObsSH hn hp hr

/-- C104. Start without instances and make any calls, in any order and at any times: every belief that any instance stores
has a covariance matrix. -/
theorem c104_stored_covariances (hn : NearCov near) (hp : PredCov pred) (l : List Call) (hl : ∀ c ∈ l, c.Ok)
    (hx : execAll fp near pj pred [] l = .ok h') : h'.Covs := by
  have key : ∀ (l : List Call) (h : Hdl), h.Covs → (∀ c ∈ l, c.Ok) → execAll fp near pj pred h l = .ok h' → h'.Covs := by
    intro l
    induction l with
    | nil => intro h hc _ hx; rw [← Res.ok.inj hx]; exact hc
    | cons c r ih =>
      intro h hc hl hx
      rw [execAll] at hx
      obtain ⟨h1, e1, hx⟩ := bind_eq_ok hx
      exact ih h1 (hc.exec hn hp (hl c List.mem_cons_self) e1) (fun c hc => hl c (List.mem_cons_of_mem _ hc)) hx
  exact key l [] (fun x hx => by simp at hx) hl hx

/-- C104, what a user reads off: standard deviations are real numbers and correlations lie between -1 and 1, at every
stored time of every instance. -/
theorem c104_variances (hn : NearCov near) (hp : PredCov pred) (l : List Call) (hl : ∀ c ∈ l, c.Ok)
    (hx : execAll fp near pj pred [] l = .ok h') (id : ℕ) (i : Inst) (hi : h'.find id = some i) (t : Int) (b : Belief) (hb : i.beliefAt t = some b) (j k : ℕ) :
    0 ≤ b.Sigma.e j j ∧ b.Sigma.e j k = b.Sigma.e k j ∧ b.Sigma.e j k ^ 2 ≤ b.Sigma.e j j * b.Sigma.e k k := by
  have hc : IsCovMat b.Sigma := (c104_stored_covariances hn hp l hl hx _ (SMap.mem_of_find hi)).beliefAt hb
  obtain ⟨hs, hp⟩ := hc.psd rfl
  have quad : ∀ (j k : ℕ) (u v : ℝ), 0 ≤ u * u * b.Sigma.e j j + 2 * (u * v) * b.Sigma.e j k + v * v * b.Sigma.e k k := by
    intro j k u v
    by_cases hj : j < b.Sigma.rows
    · by_cases hk : k < b.Sigma.rows
      · have := hp.dotProduct_mulVec_nonneg (Pi.single (⟨j, hj⟩ : Fin b.Sigma.rows) u + Pi.single (⟨k, hk⟩ : Fin b.Sigma.rows) v)
        simp only [star_trivial, add_dotProduct, Matrix.mulVec_add, dotProduct_add, Matrix.mulVec_single, single_dotProduct, Pi.smul_apply,
          Matrix.col_apply, toM_apply] at this
        rw [hc.2.1 k j] at this
        simp at this
        nlinarith [this]
      · rw [b.Sigma.out j k (by rw [hs.2]; omega), b.Sigma.out k k (by omega)]
        have := hp.dotProduct_mulVec_nonneg (Pi.single (⟨j, hj⟩ : Fin b.Sigma.rows) u)
        simp only [star_trivial, Matrix.mulVec_single, single_dotProduct, Pi.smul_apply, Matrix.col_apply, toM_apply] at this
        simp at this
        nlinarith [this]
    · rw [b.Sigma.out j j (by omega), b.Sigma.out j k (by omega)]
      by_cases hk : k < b.Sigma.rows
      · have := hp.dotProduct_mulVec_nonneg (Pi.single (⟨k, hk⟩ : Fin b.Sigma.rows) v)
        simp only [star_trivial, Matrix.mulVec_single, single_dotProduct, Pi.smul_apply, Matrix.col_apply, toM_apply] at this
        simp at this
        nlinarith [this]
      · rw [b.Sigma.out k k (by omega)]; simp
  have d : ∀ j, 0 ≤ b.Sigma.e j j := fun j => by have := quad j j 1 0; linarith
  refine ⟨d j, hc.2.1 j k, ?_⟩
  have := discrim_le_zero (a := b.Sigma.e j j) (b := 2 * b.Sigma.e j k) (c := b.Sigma.e k k) fun x => by
    have := quad j k x 1; linarith
  unfold discrim at this
  linarith

/-- C104. `nearest_covariance` as modelled (`nearestCov`, C60) meets the condition on `near`, for every eigenvalue solver. -/
theorem c104_near (eig : (n : ℕ) → Matrix (Fin n) (Fin n) ℝ → Matrix (Fin n) (Fin n) ℝ × (Fin n → ℝ))
    (he : ∀ n S, S.transpose = S → MatU.EigenDec (eig n S).1 (eig n S).2 S) (eps : ℝ) (h0 : 0 ≤ eps) :
    NearCov (fun P => Mat.ofM (MatU.nearestCov (eig P.rows (P.toM P.rows P.rows)).1 (eig P.rows (P.toM P.rows P.rows)).2 (P.toM P.rows P.rows) eps)) := by
  intro P hsq hs
  have hsym : (P.toM P.rows P.rows).transpose = P.toM P.rows P.rows := (toM_symm_iff ⟨rfl, hsq.symm⟩).mpr hs
  refine ⟨rfl, isCov_of (n := P.rows) ⟨rfl, rfl⟩ ?_⟩
  rw [toM_ofM]
  exact MatU.c60_covariance _ _ _ eps h0 (he _ _ hsym) hsym

/-- C24, C57 and the others that assume `NearOk`: `nearest_covariance` as modelled meets it, for every eigenvalue solver. -/
theorem c24_near (eig : (n : ℕ) → Matrix (Fin n) (Fin n) ℝ → Matrix (Fin n) (Fin n) ℝ × (Fin n → ℝ))
    (he : ∀ n S, S.transpose = S → MatU.EigenDec (eig n S).1 (eig n S).2 S) (eps : ℝ) (h0 : 0 ≤ eps) :
    NearOk (fun P => Mat.ofM (MatU.nearestCov (eig P.rows (P.toM P.rows P.rows)).1 (eig P.rows (P.toM P.rows P.rows)).2 (P.toM P.rows P.rows) eps)) := by
  intro n P hP hs
  have hsq : P.rows = P.cols := by rw [hP.1, hP.2]
  obtain ⟨h1, h2, h3, -⟩ := c104_near eig he eps h0 P hsq (fun i j => congrArg (fun A => A.e j i) hs)
  refine ⟨⟨by rw [h1, hP.1], by rw [← h2, h1, hP.1]⟩, ?_⟩
  refine Mat.ext' ?_ ?_ fun i j _ _ => ?_
  · rw [tr_rows, h2]
  · rw [tr_cols, h2]
  · rw [tr_e]; exact h3 j i

/-- ... and there is an exact eigenvalue solver (the spectral theorem). -/
theorem c104_solver : ∃ eig : (n : ℕ) → Matrix (Fin n) (Fin n) ℝ → Matrix (Fin n) (Fin n) ℝ × (Fin n → ℝ),
    ∀ n S, S.transpose = S → MatU.EigenDec (eig n S).1 (eig n S).2 S := by
  have : ∀ (n : ℕ) (S : Matrix (Fin n) (Fin n) ℝ), ∃ x : Matrix (Fin n) (Fin n) ℝ × (Fin n → ℝ), S.transpose = S → MatU.EigenDec x.1 x.2 S := by
    intro n S
    by_cases hS : S.transpose = S
    · have hH : S.IsHermitian := by rw [Matrix.IsHermitian, Matrix.conjTranspose_eq_transpose_of_trivial]; exact hS
      refine ⟨((hH.eigenvectorUnitary : Matrix (Fin n) (Fin n) ℝ), hH.eigenvalues), fun _ => ⟨?_, ?_⟩⟩
      · have h1 : (hH.eigenvectorUnitary : Matrix (Fin n) (Fin n) ℝ) * star (hH.eigenvectorUnitary : Matrix (Fin n) (Fin n) ℝ) = 1 :=
          Unitary.coe_mul_star_self _
        exact Matrix.isUnit_det_of_right_inverse h1
      · have h1 : (hH.eigenvectorUnitary : Matrix (Fin n) (Fin n) ℝ) * star (hH.eigenvectorUnitary : Matrix (Fin n) (Fin n) ℝ) = 1 :=
          Unitary.coe_mul_star_self _
        rw [Alg.sym_half _ hS, Matrix.inv_eq_right_inv h1]
        have := hH.spectral_theorem
        exact this
    · exact ⟨(0, 0), fun h => absurd h hS⟩
  choose eig he using this
  exact ⟨eig, he⟩

end

namespace Example

theorem cov_s {x : ℝ} (hx : 0 ≤ x) : IsCovMat (s x) := by
  refine ⟨rfl, fun i j => ?_, fun v => ?_⟩
  · exact congrArg (fun A => A.e j i) (s_tr x)
  · show 0 ≤ ∑ i ∈ Finset.range 1, ∑ j ∈ Finset.range 1, v i * (s x).e i j * v j
    simp only [Finset.sum_range_one]
    have : (s x).e 0 0 = x := rfl
    rw [this]
    nlinarith [mul_nonneg hx (mul_self_nonneg (v 0))]

theorem noise_s : NoiseOk (s 1) cfg := by
  refine ⟨cov_s (by norm_num), by norm_num [cfg], fun v hv => ?_⟩
  obtain ⟨i, hi, hv⟩ := hv
  have h0 : i = 0 := by change i < 1 at hi; omega
  subst h0
  show 0 < (∑ i ∈ Finset.range 1, ∑ j ∈ Finset.range 1, v i * (s 1).e i j * v j) + cfg.eps * ∑ i ∈ Finset.range 1, v i * v i
  simp only [Finset.sum_range_one]
  have e1 : (s 1).e 0 0 = 1 := rfl
  have e2 : cfg.eps = 1 / 10^16 := rfl
  rw [e1, e2]
  have := mul_self_pos.mpr hv
  nlinarith

theorem near_cov : NearCov near := by
  intro P _ _
  refine ⟨rfl, ⟨rfl, fun i j => ?_, fun v => ?_⟩⟩
  · rw [near, zero_e, zero_e]
  · simp only [near, zero_e]; simp

theorem pred_cov : PredCov pred := fun _ i _ hi => (show i.Covs from hi)

/-- C104 is not about an empty set of runs: two instances are registered and initialised, observed jointly, propagated, and
the first one gets a private observation; all calls meet the conditions, and a belief is stored. -/
theorem c104_example : ∃ l h4, (∀ c ∈ l, Call.Ok c) ∧ l.length = 8 ∧ execAll FP.exact near linJac pred [] l = .ok h4 ∧
    h4.Covs ∧ ∃ i, h4.find 1 = some i ∧ i.bel ≠ [] := by
  obtain ⟨h1, h2, h3, h4, e1, q1, -, -, r3, e2, n1, n2, q3, e4⟩ := whole_run
  cases r3 with
  | step w a r =>
    cases r with
    | step w' a' r' =>
      cases r'
      rename_i hA
      have hall : ∀ c ∈ [.add 1 10, .init 1 b0 0, .add 2 10, .init 2 b0 0, .ev (.jointR dH (s 1) (s 5) 0 cfg), .ev (.propKF 1 (s 2) (s 1) 0 7),
          .ev (.propKF 2 (s 3) (s 1) 0 7), .ev (.privKF 1 (s 1) (s 1) (s 4) 7 cfg)], Call.Ok c := by
        intro c hc
        simp only [List.mem_cons, List.not_mem_nil, or_false] at hc
        rcases hc with rfl | rfl | rfl | rfl | rfl | rfl | rfl | rfl
        · trivial
        · exact cov_s (by norm_num)
        · trivial
        · exact cov_s (by norm_num)
        · trivial
        · exact cov_s (by norm_num)
        · exact cov_s (by norm_num)
        · exact noise_s
      have hrun : execAll FP.exact near linJac pred [] [.add 1 10, .init 1 b0 0, .add 2 10, .init 2 b0 0, .ev (.jointR dH (s 1) (s 5) 0 cfg),
          .ev (.propKF 1 (s 2) (s 1) 0 7), .ev (.propKF 2 (s 3) (s 1) 0 7), .ev (.privKF 1 (s 1) (s 1) (s 4) 7 cfg)] = .ok h4 := by
        have hs : ∀ l, execAll FP.exact near linJac pred [] (.add 1 10 :: .init 1 b0 0 :: .add 2 10 :: .init 2 b0 0 :: l) =
            execAll FP.exact near linJac pred h0 l := fun l => rfl
        rw [hs]
        simp only [execAll, exec, e1, a, a', e4, Res.bind_ok]
      refine ⟨_, h4, hall, rfl, hrun, c104_stored_covariances near_cov pred_cov _ hall hrun, ?_⟩
      unfold run at e4
      obtain ⟨i, hi, e4⟩ := bind_eq_ok e4
      obtain ⟨x, hx, e4⟩ := bind_eq_ok e4
      have hp := Prod.mk.inj (Res.ok.inj e4)
      refine ⟨x.1, by rw [← hp.1]; exact SMap.find_set_self _ _ _, ?_⟩
      unfold Inst.privKF at hx
      split at hx
      · obtain ⟨_, _, hx⟩ := bind_eq_ok hx
        obtain ⟨_, _, hx⟩ := bind_eq_ok hx
        unfold Inst.privEKF at hx
        obtain ⟨_, _, hx⟩ := bind_eq_ok hx
        split at hx
        · obtain ⟨j, _, hx⟩ := bind_eq_ok hx
          obtain ⟨b', _, hx⟩ := bind_eq_ok hx
          rw [← Res.ok.inj hx]
          show j.bel.insertMap 7 b' ≠ []
          cases j.bel with
          | nil => simp [Buf.insertMap]
          | cons a r =>
            rw [Buf.insertMap]
            split
            · simp
            · split <;> simp
        · rw [← Res.ok.inj hx] at hp; simp at hp
      · rw [← Res.ok.inj hx] at hp; simp at hp
end Example

end Hdl
end Ikf
