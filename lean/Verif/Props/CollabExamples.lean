import Verif.Props.CollabLinks
import Verif.Props.SchmidtExamples

/-!
# Two agents with one instance each: concrete cases for C69 - C72
-/

namespace Ikf
open Mat
namespace Collab.Example
open Hdl.Example

/-- Instance 1 is held by agent 1, instance 2 by agent 2. -/
def T : Agents.Tables := ⟨[], [(1, 1), (2, 2)]⟩

noncomputable def i0 : Inst := Inst.doInit ⟨[], [], 10⟩ b0 0

noncomputable def n0 : Net := fun x => if x = 1 then [(1, i0)] else if x = 2 then [(2, i0)] else []

theorem own1 : Agents.agentOf T 1 = 1 := rfl
theorem own2 : Agents.agentOf T 2 = 2 := rfl
theorem own_ne {p : ℕ} (h1 : p ≠ 1) (h2 : p ≠ 2) : Agents.agentOf T p = 0 := by
  simp [Agents.agentOf, T, SMap.find, Ne.symm h1, Ne.symm h2]

theorem dist : Dist T n0 h0 := by
  intro x p
  by_cases hp1 : p = 1
  · subst hp1
    rw [own1]
    by_cases hx : x = 1
    · subst hx; simp [n0, h0, SMap.find, i0]
    · rw [if_neg (Ne.symm hx)]
      by_cases hx2 : x = 2
      · subst hx2; simp [n0, SMap.find]
      · simp [n0, hx, hx2, SMap.find]
  · by_cases hp2 : p = 2
    · subst hp2
      rw [own2]
      by_cases hx : x = 2
      · subst hx; simp [n0, h0, SMap.find, i0]
      · rw [if_neg (Ne.symm hx)]
        by_cases hx2 : x = 1
        · subst hx2; simp [n0, SMap.find]
        · simp [n0, hx, hx2, SMap.find]
    · have e : (h0.find p) = none := by simp [h0, SMap.find, Ne.symm hp1, Ne.symm hp2]
      rw [e, ite_self]
      unfold n0
      split
      · simp [SMap.find, Ne.symm hp1]
      · split
        · simp [SMap.find, Ne.symm hp2]
        · rfl

theorem reach : NReach T FP.exact near pred dim n0 := ⟨n0, h0, c0, [], dist, init, NRuns.nil _⟩

theorem one_other : OneOther (Agents.agentOf T) 1 dH := by
  refine ⟨2, by decide, ⟨2, by simp [dH, SMap.keys], rfl⟩, ?_⟩
  intro p hp
  rcases keys hp with rfl | rfl
  · exact Or.inl rfl
  · exact Or.inr rfl

theorem has_local : ∃ p ∈ dH.keys, Agents.agentOf T p = 1 := ⟨1, by simp [dH, SMap.keys], rfl⟩

theorem newest {p : ℕ} (hp : p = 1 ∨ p = 2) : NewestAt T n0 p 0 := by
  refine ⟨i0, (0, b0), ?_, rfl, rfl⟩
  rcases hp with rfl | rfl <;> simp [Agents.agentOf, T, n0, SMap.find]

theorem free {p : ℕ} (hp : p = 1 ∨ p = 2) : Free T n0 p := by
  intro i e hi he
  have hi0 : i = i0 := by
    rcases hp with rfl | rfl <;> (simp [Agents.agentOf, T, n0, SMap.find] at hi; exact hi.symm)
  subst hi0
  have : e = (0, b0) := by
    have h1 : i0.bel.getLast? = some (0, b0) := rfl
    rw [h1] at he; exact (Option.some.inj he).symm
  rw [this]; rfl

theorem wf (R r : Mat) (cf : Cfg) : Net.Wf T dim n0 1 (.jointR dH R r 0 cf) :=
  ⟨dH_sorted, fun _ hp => newest (keys hp), fun _ _ hp => free (keys hp)⟩

theorem fits (R r : Mat) (hR : R.Shape 1 1) (hr : r.Shape 1 1) {cf : Cfg} (hg : GateOk cf) : Net.Fits T dim n0 1 (.jointR dH R r 0 cf) := by
  refine ⟨by simp [dH], ⟨1, ?_, hR, hr⟩, hg⟩
  intro e he
  have he' : e = (1, s 1) ∨ e = (2, s (-1)) := by simpa [dH] using he
  rcases he' with rfl | rfl
  · exact ⟨s_shape 1, rfl⟩
  · exact ⟨s_shape (-1), rfl⟩

/-- The premises of C69 - C71 hold: the joint observation across the two agents is accepted. -/
theorem joint_run (r : ℝ) : ∃ n1, Net.run T FP.exact near pred {} n0 1 (.jointR dH (s 1) (s r) 0 cfg) = .ok (n1, true) ∧
    NRuns T FP.exact near pred dim n0 [(1, .jointR dH (s 1) (s r) 0 cfg, true)] n1 := by
  obtain ⟨n1, ans, e, hu⟩ := c70_agents_progress (pred := pred) (fp := FP.exact) nearOk reach _ (wf (s 1) (s r) cfg)
    (fits (s 1) (s r) (s_shape 1) (s_shape r) gate)
  have := c72_one_other_always_true nearOk reach (wf (s 1) (s r) cfg) one_other has_local e
  subst this
  exact ⟨n1, e, NRuns.step (wf _ _ _) e (NRuns.nil _)⟩

/-! ## Numbers -/

theorem sz : participants dim c0 dH = [(1, 1), (2, 1)] := by
  simp [participants, dH, SMap.keys, c0, dim]

/-- The stacked prior covariance. -/
theorem prior {S : Mat} (hS : StackedCov (participants dim c0 dH) c0.cov S) : S = smul 2 (one 2) := by
  rw [sz] at hS
  obtain ⟨hs, he⟩ := hS
  have hs2 : S.Shape 2 2 := hs
  refine Mat.ext' hs2.1 hs2.2 ?_
  intro i j hi hj
  rw [hs2.1] at hi
  rw [hs2.2] at hj
  have e11 : S.e 0 0 = (c0.cov 1 1).e 0 0 := he (1, 1) (by simp) (1, 1) (by simp) 0 (by simp) 0 (by simp)
  have e12 : S.e 0 1 = (c0.cov 1 2).e 0 0 := he (1, 1) (by simp) (2, 1) (by simp) 0 (by simp) 0 (by simp)
  have e21 : S.e 1 0 = (c0.cov 2 1).e 0 0 := he (2, 1) (by simp) (1, 1) (by simp) 0 (by simp) 0 (by simp)
  have e22 : S.e 1 1 = (c0.cov 2 2).e 0 0 := he (2, 1) (by simp) (2, 1) (by simp) 0 (by simp) 0 (by simp)
  interval_cases i <;> interval_cases j
  · rw [e11]; simp [c0, s, of, smul, one]
  · rw [e12]; simp [c0, smul, one, Mat.zero, of]
  · rw [e21]; simp [c0, smul, one, Mat.zero, of]
  · rw [e22]; simp [c0, s, of, smul, one]

theorem prior_stab (eps : ℝ) : stabM (smul 2 (one 2)) eps = smul (2 + eps) (one 2) := by
  have hs : (smul 2 (one 2)).Shape 2 2 := ⟨rfl, rfl⟩
  apply toM_inj (n := 2) (m := 2) (hs.stabM eps).1 (hs.stabM eps).2 rfl rfl
  rw [toM_stabM hs]
  ext i j
  fin_cases i <;> fin_cases j <;> simp [toM, smul, one, of] <;> ring

theorem prior_fix {k : ℝ} (hk : 0 ≤ k) : Hdl.fixPsd near (smul k (one 2)) = smul k (one 2) := by
  unfold Hdl.fixPsd
  rw [if_pos]
  refine ⟨rfl, ?_⟩
  show ((smul k (one 2)).toM 2 2).PosSemidef
  rw [toM_smul, toM_one]
  exact Matrix.PosSemidef.one.smul hk

/-- The stacked Jacobian. -/
def H2 : Mat := of 1 2 (fun _ j => if j = 0 then 1 else -1)

theorem stackH2 : Hdl.stackH dH = .ok H2 := by
  obtain ⟨H, hH, hs⟩ := Hdl.stackH_ok dH 1 (by
    intro e he
    have he' : e = (1, s 1) ∨ e = (2, s (-1)) := by simpa [dH] using he
    rcases he' with rfl | rfl <;> rfl) (by simp [dH])
  have hs' : H.Shape 1 2 := hs
  have hsp := (Hdl.stackH_spec dH dH_sorted H hH).2
  rw [hH]
  congr 1
  refine Mat.ext' hs'.1 hs'.2 ?_
  intro i j hi hj
  rw [hs'.1] at hi
  rw [hs'.2] at hj
  have e1 := (hsp (1, s 1) (by simp [dH])).2
  have e2 := (hsp (2, s (-1)) (by simp [dH])).2
  interval_cases i
  interval_cases j
  · have := e1 0 0 (by decide)
    simpa [H2, of, s, off, dH] using this
  · have := e2 0 0 (by decide)
    simpa [H2, of, s, off, dH] using this

theorem H2_shape : H2.Shape 1 2 := ⟨rfl, rfl⟩

theorem innov2 (k eps : ℝ) : innov H2 (s 1) (smul k (one 2)) eps = s (2 * k + 1 + eps) := by
  have hs : (smul k (one 2)).Shape 2 2 := ⟨rfl, rfl⟩
  have h1 : H2 * smul k (one 2) * H2.tr = s (2 * k) := by
    rw [e1x1 ((H2_shape.mul hs).mul H2_shape.tr)]
    congr 1
    rw [mul_e]
    simp [H2, of, smul, one, tr, Finset.sum_range_succ, mul_e]
    ring
  unfold innov innov0 stabM
  rw [h1, s_add, s_tr, s_add, s_smul]
  have : (s (2 * k + 1)).rows = 1 := rfl
  rw [this, s_one, s_smul, s_add]
  congr 1
  ring

/-- The gate rejects a residual of 1000. -/
theorem nis_reject {x : ℝ} (h0 : 0 < x) (h1 : x ≤ 10) : checkNIS (s x) (s 1000) (997 / 1000) = .ok false := by
  unfold checkNIS
  rw [if_pos (by norm_num)]
  have e1 : nis (s x) (s 1000) = .ok (1000 * x⁻¹ * 1000) := by
    unfold nis
    rw [if_pos (by rfl), (s_shape x).invC, Res.bind_ok, s_inv, s_tr, (s_shape 1000).mulC (s_shape x⁻¹), Res.bind_ok, s_mul,
      (s_shape _).mulC (s_shape 1000), Res.bind_ok, s_mul]
    rfl
  have e2 : chi2inv (997 / 1000) (s 1000).rows = .ok 1161830 := by
    unfold chi2inv
    have : round ((997 / 1000 : ℚ) * 1000) = 997 := by norm_num
    rw [this]
    rfl
  rw [e1, Res.bind_ok, e2, Res.bind_ok]
  rw [if_pos]
  have : (10:ℝ)⁻¹ ≤ x⁻¹ := inv_anti₀ h0 h1
  push_cast
  nlinarith

theorem shape2 (k : ℝ) (r : ℝ) : ObsShape H2 (s 1) (s r) (smul k (one 2)) 2 1 := ⟨H2_shape, s_shape 1, s_shape r, ⟨rfl, rfl⟩⟩

theorem step_reject {k : ℝ} (h0 : 2 ≤ k) (h1 : k ≤ 3) :
    ∃ res, correctionStep H2 (s 1) (s 1000) (smul k (one 2)) {} = .ok res ∧ res.rejected = true := by
  rw [correctionStep_eq (shape2 k 1000), innov2, if_pos rfl]
  rw [nis_reject (by norm_num; linarith) (by norm_num; linarith), Res.bind_ok]
  exact ⟨_, rfl, rfl⟩

/-- Without gate: the correction of the first state is not zero. -/
theorem step_accept {k : ℝ} (h0 : 2 ≤ k) :
    ∃ res, correctionStep H2 (s 1) (s 5) (smul k (one 2)) cfg = .ok res ∧ res.rejected = false ∧ 0 < res.dx.e 0 0 := by
  rw [correctionStep_eq (shape2 k 5), if_neg (by simp [cfg])]
  refine ⟨_, rfl, rfl, ?_⟩
  dsimp only
  unfold gainM
  rw [innov2, s_inv, mul_e]
  have : 0 < (2 * k + 1 + cfg.eps)⁻¹ := by
    have : (cfg.eps : ℝ) = 1 / 10^16 := rfl
    rw [this]
    apply inv_pos.mpr
    norm_num; linarith
  simp [H2, of, smul, one, tr, s, Finset.sum_range_succ, mul_e]
  positivity

theorem eps_le : (2:ℝ) ≤ 2 + 1 / 10^12 ∧ (2:ℝ) + 1 / 10^12 ≤ 3 ∧ (0:ℝ) ≤ 2 + 1 / 10^12 := by norm_num

theorem sbs {H : Mat} (hH : SideBySide dH H) : H = H2 := by
  have h2 := Hdl.stackH_spec dH dH_sorted H2 stackH2
  have hr1 : H.rows = 1 := ((hH.2 (1, s 1) (by simp [dH])).1).symm
  refine Mat.ext' hr1 (by rw [hH.1, ← h2.1]) ?_
  intro i j hi hj
  rw [hr1] at hi
  have hc : H.cols = 2 := hH.1
  rw [hc] at hj
  have a1 := (hH.2 (1, s 1) (by simp [dH])).2 i 0 (by decide)
  have a2 := (hH.2 (2, s (-1)) (by simp [dH])).2 i 0 (by decide)
  have b1 := (h2.2 (1, s 1) (by simp [dH])).2 i 0 (by decide)
  have b2 := (h2.2 (2, s (-1)) (by simp [dH])).2 i 0 (by decide)
  interval_cases j
  · exact a1.trans b1.symm
  · exact a2.trans b2.symm

/-- C71. The answer `false` although the calling agent has changed: the posterior is lost on its way to agent 2, agent 1
has corrected its instance, agent 2 has not. -/
theorem c71_lost_posterior_fails : NReach T FP.exact near pred dim n0 ∧ Net.Wf T dim n0 1 (.jointR dH (s 1) (s 5) 0 cfg) ∧
    ∃ n1, Net.run T FP.exact near pred { send := false } n0 1 (.jointR dH (s 1) (s 5) 0 cfg) = .ok (n1, false) ∧ n1 2 = n0 2 ∧
      ∃ i b j c, (n1 1).find 1 = some i ∧ i.beliefAt 0 = some b ∧ (n0 1).find 1 = some j ∧ j.beliefAt 0 = some c ∧ b.mean ≠ c.mean := by
  refine ⟨reach, wf _ _ _, ?_⟩
  obtain ⟨n', e, -⟩ := joint_run 5
  obtain ⟨h', c', hstep, hd', -, hr', -⟩ := step_sim nearOk dist init.rel _ (wf (s 1) (s 5) cfg) e
  have hmu : c'.mu 1 ≠ s 3 := by
    cases hstep with
    | accept hl _ =>
      have := hl dH (s 1) (s 5) 0 cfg (Or.inl rfl) 2 (by simp [dH, SMap.keys])
      rw [own2] at this; simp at this
    | obsR _ _ _ _ _ H S res _ _ hH hS hres hrej =>
      obtain ⟨res', e1, -, e3⟩ := step_accept eps_le.1
      have hH2 := sbs hH
      rw [hH2, prior hS, prior_stab, prior_fix eps_le.2.2, e1] at hres
      rw [← Res.ok.inj hres]
      intro hmu
      have h1 := congrArg (fun M : Mat => M.e 0 0) hmu
      have hin : 1 ∈ (participants dim c0 dH).map (·.1) := by rw [sz]; simp
      simp only [Central.joint, hin, if_true] at h1
      rw [add_e _ _ (by rw [sz]; rfl) (by rw [sz]; rfl), sz] at h1
      have hb : (res'.dx.block (off [(1, 1), (2, 1)] 1) 0 (([(1, 1), (2, 1)].lookup 1).getD 0) 1).e 0 0 = res'.dx.e 0 0 := by
        simp [Mat.block, of, off]
      rw [hb] at h1
      simp [c0, s, of] at h1
      linarith
    | rejR _ _ _ _ _ H S res _ _ hH hS hres hrej _ =>
      exfalso
      obtain ⟨res', e1, e2, -⟩ := step_accept eps_le.1
      rw [sbs hH, prior hS, prior_stab, prior_fix eps_le.2.2, e1] at hres
      rw [← Res.ok.inj hres, e2] at hrej
      simp at hrej
  have hf : ∃ i b, (n' 1).find 1 = some i ∧ i.beliefAt 0 = some b ∧ b.mean ≠ s 3 := by
    have hdom := c69_agents_centralised (fp := FP.exact) (pred := pred) nearOk dist init (NRuns.step (wf (s 1) (s 5) cfg) e (NRuns.nil _))
    obtain ⟨-, -, hsome, -⟩ := hdom
    have h1 : ((n' 1).find 1).isSome := by rw [hsome]; simp [n0, SMap.find]
    obtain ⟨i, hi⟩ := Option.isSome_iff_exists.mp h1
    have hh : h'.find 1 = some i := by rw [← hd'.own, own1, hi]
    obtain ⟨b, hb, hm, -⟩ := hr'.bel 1 (by rw [hh]; rfl)
    have ht : c'.tm 1 = 0 := by cases hstep with
      | accept hl _ =>
        have := hl dH (s 1) (s 5) 0 cfg (Or.inl rfl) 2 (by simp [dH, SMap.keys])
        rw [own2] at this; simp at this
      | obsR => rfl
      | rejR => rfl
    rw [ht, Hdl.bl_of_find hh] at hb
    exact ⟨i, b, hi, hb, by rw [hm]; exact hmu⟩
  obtain ⟨i, b, hi, hb, hne⟩ := hf
  have hj : (n0 1).find 1 = some i0 := by simp [n0, SMap.find]
  rcases c71_lost_posterior nearOk reach (wf (s 1) (s 5) cfg) one_other has_local e with g | ⟨g, -⟩
  · refine ⟨_, g, by rw [Function.update_of_ne (by decide)], i, b, i0, b0, ?_, hb, hj, rfl, hne⟩
    rw [Function.update_self, hi]
  · exfalso
    rw [g, hj] at hi
    rw [← Option.some.inj hi] at hb
    have : i0.beliefAt 0 = some b0 := rfl
    rw [this] at hb
    exact hne (by rw [← Option.some.inj hb]; rfl)

/-- C72. An outlier (residual 1000 at a confidence of 99.7 percent) across the two agents is answered `true` although
nothing changes. One handler that holds both instances answers `false`. -/
theorem c72_outlier_fails : NReach T FP.exact near pred dim n0 ∧ Net.Wf T dim n0 1 (.jointR dH (s 1) (s 1000) 0 {}) ∧
    Net.run T FP.exact near pred {} n0 1 (.jointR dH (s 1) (s 1000) 0 {}) = .ok (n0, true) ∧
    Hdl.run FP.exact near pred h0 (.jointR dH (s 1) (s 1000) 0 {}) = .ok (h0, false) := by
  refine ⟨reach, wf _ _ _, ?_, ?_⟩
  · obtain ⟨n1, ans, e, -⟩ := c70_agents_progress (pred := pred) (fp := FP.exact) nearOk reach _ (wf (s 1) (s 1000) {})
      (fits (s 1) (s 1000) (s_shape 1) (s_shape 1000) GateOk.default)
    obtain ⟨b, hba, h2, hp, hfix, hrun⟩ := inter_case dist init.rel (wf (s 1) (s 1000) {}) one_other has_local
    rw [hrun] at e ⊢
    obtain ⟨x, hx, e⟩ := Hdl.bind_eq_ok e
    obtain ⟨H, S, res, hH, hSC, hres, hrej, -⟩ := interR_spec init.rel hp dist hfix h2 nearOk {} rfl (s 1) (s 1000) {} hx
    obtain ⟨res', e1, e2⟩ := step_reject eps_le.1 eps_le.2.1
    rw [stackH2] at hH
    rw [← Res.ok.inj hH, prior hSC, prior_stab, prior_fix eps_le.2.2, e1] at hres
    rw [Res.ok.inj hres] at e2
    rw [hx, Res.bind_ok, hrej e2]
    simp only [Function.update_eq_self]
  · obtain ⟨w, f⟩ := joint_fits (s 1000) (s_shape 1000)
    have f' : Hdl.Fits dim h0 (.jointR dH (s 1) (s 1000) 0 {}) := ⟨f.1, f.2.1, GateOk.default⟩
    obtain ⟨h', ans, e, -⟩ := Hdl.progress_rel (fp := FP.exact) (pred := pred) nearOk init.rel (.jointR dH (s 1) (s 1000) 0 {}) w f'
    cases ans with
    | false => rw [e, Hdl.rejected init.rel (.jointR dH (s 1) (s 1000) 0 {}) w e]
    | true =>
      exfalso
      obtain ⟨c', hs, -⟩ := Hdl.accepted nearOk init.rel (.jointR dH (s 1) (s 1000) 0 {}) w e
      cases hs with
      | jointR _ _ _ _ _ H S res hH hS hres hrej =>
        obtain ⟨res', e1, e2⟩ := step_reject eps_le.1 eps_le.2.1
        rw [sbs hH, prior hS, prior_stab, e1] at hres
        rw [Res.ok.inj hres, hrej] at e2
        simp at e2

end Collab.Example
end Ikf
