import Verif.Props.Iterated
import Verif.Props.IsolatedExamples

/-! # The iterated joint observation: reachable states and a concrete case (C56, C64) -/

namespace Ikf
open Mat
namespace Hdl

section
variable {fp : FP} {near : Mat → Mat} {pred : ℕ → Inst → Int → Inst × Bool} {dim : ℕ → ℕ} {h : Hdl}

/-- The premises of C56 and C64 about the handler follow from the invariant. -/
theorem premises_rel {c : Central} (hr : Rel dim h c) {ids : List ℕ} (hids : ids.Pairwise (· < ·)) (hne : ids ≠ [])
    {t : Int} (hN : ∀ p ∈ ids, Newest h p t) :
    ∃ d S0 m0, getDictBel pred h ids t [] = .ok (h, d) ∧ d.keys = ids ∧ d ≠ [] ∧ SMap.Sorted h ∧ MeanOk d ∧ stackSigma h d t = .ok S0 ∧
      stackMean d = .ok m0 ∧ (∀ e ∈ d, e.2.fixed = fixedAt h t e.1 ∧ e.2.dim = dim e.1) := by
  set dH : SMap Mat := ids.map (fun p => (p, Mat.empty)) with hdH
  have hkeys : dH.keys = ids := by rw [hdH]; unfold SMap.keys; rw [List.map_map]; exact List.map_id ids
  have hp : Parts dim h c dH t := by
    refine ⟨(SMap.sorted_iff_keys dH).mpr (by rw [hkeys]; exact hids), ?_, ?_⟩
    · intro p hpm; rw [hkeys] at hpm; exact ((hN p hpm).rel hr).1
    · intro p hpm; rw [hkeys] at hpm; exact ((hN p hpm).rel hr).2
  have hD := getDictBel_rel pred hr hp
  rw [hkeys] at hD
  obtain ⟨S0, hS0, -⟩ := stackSigma_spec (dict h dH t) (dict_sorted (h := h) hp) (covOf hr hp)
  have hm : MeanOk (dict h dH t) := fun e he => (mem_dict hr hp (mem_unfixed.mp he).1).2.2.2.2.2.2.2.2.2.1
  obtain ⟨m0, hm0, -⟩ := stackMean_ok hm
  have hk : (dict h dH t).keys = ids := by
    unfold dict SMap.keys
    rw [List.map_map]
    show (List.map _ dH.keys) = ids
    rw [hkeys]
    exact List.map_id ids
  refine ⟨dict h dH t, S0, m0, hD, hk, ?_, hr.ok.sorted, hm, hS0, hm0, ?_⟩
  · intro h0
    rw [h0] at hk
    exact hne hk.symm
  · intro e he
    have hme := mem_dict hr hp he
    refine ⟨?_, hme.2.2.2.2.2.2.2.2.1⟩
    unfold fixedAt
    rw [show belief h e.1 t = some e.2 from hme.2.2.2.1]

/-- C56, C64: in every reachable state, with participants whose newest beliefs are at `t`, the premises about the handler hold. -/
theorem c56_premises_reachable (hnear : NearOk near) (hreach : Reach fp near pred dim h) {ids : List ℕ} (hids : ids.Pairwise (· < ·)) (hne : ids ≠ [])
    {t : Int} (hN : ∀ p ∈ ids, Newest h p t) :
    ∃ d S0 m0, getDictBel pred h ids t [] = .ok (h, d) ∧ d.keys = ids ∧ d ≠ [] ∧ SMap.Sorted h ∧ MeanOk d ∧ stackSigma h d t = .ok S0 ∧
      stackMean d = .ok m0 ∧ (∀ e ∈ d, e.2.fixed = fixedAt h t e.1 ∧ e.2.dim = dim e.1) := by
  obtain ⟨c, hr⟩ := hreach.rel hnear
  exact premises_rel hr hids hne hN

end

namespace Example

/-- The difference of the two states, with its Jacobians: an affine function. -/
noncomputable def hdiff : SMap Belief → List ℕ → Mat → SMap Mat × Mat := fun b _ z =>
  match stackH dH, stackMean b with
  | .ok H, .ok m => (dH, z - H * m)
  | _, _ => ([], z)

/-- The stacked Jacobian of the example. -/
theorem dH_stack : ∃ H, stackH dH = .ok H ∧ H.Shape 1 2 := by
  obtain ⟨H, h1, h2⟩ := stackH_ok dH 1 (by intro e he; have : e = (1, s 1) ∨ e = (2, s (-1)) := by simpa [dH] using he
                                           rcases this with rfl | rfl <;> rfl) (by simp [dH])
  exact ⟨H, h1, h2⟩

theorem c64_example_affine {d : SMap Belief} (hd : ∀ e ∈ d, e.2.fixed = false) {H z : Mat} (hH : stackH dH = .ok H) :
    AffineAt hdiff [1, 2] z d dH H z := by
  have he : eraseFixed d dH = dH := by
    unfold eraseFixed
    induction d with
    | nil => rfl
    | cons e q ih =>
      rw [List.foldl_cons, hd e List.mem_cons_self]
      simp only [Bool.false_eq_true, if_false]
      exact ih (fun x hx => hd x (List.mem_cons_of_mem _ hx))
  refine ⟨by rw [he]; exact hH, ?_⟩
  intro b m _ hm
  unfold hdiff
  rw [hH, hm]

theorem newest12 : ∀ p ∈ [1, 2], Newest h0 p 0 := by
  intro p hp
  exact newest0 (by simpa using hp)

/-- The premises of C56 and C64 in the example state; both instances are unfixed and two states are estimated. -/
theorem example_premises : ∃ d S0 m0 H, getDictBel pred h0 [1, 2] 0 [] = .ok (h0, d) ∧ d ≠ [] ∧ SMap.Sorted h0 ∧ MeanOk d ∧
    stackSigma h0 d 0 = .ok S0 ∧ stackMean d = .ok m0 ∧ stackH dH = .ok H ∧ getDim d = 2 ∧ (∀ e ∈ d, e.2.fixed = false) ∧
    AffineAt hdiff [1, 2] (s 5) d dH H (s 5) ∧ checkDimObs H (s 1) (s 5 - H * m0) (stabM S0 (1 / 10^12)) = true := by
  obtain ⟨d, S0, m0, h1, h2, h3, h4, h5, h6, h7, h8⟩ := c56_premises_reachable (fp := FP.exact) nearOk reach0 (ids := [1, 2]) (by simp) (by simp) newest12
  obtain ⟨H, g1, g2⟩ := dH_stack
  have hfx : ∀ e ∈ d, e.2.fixed = false := by
    intro e he
    rw [(h8 e he).1]
    have hk : e.1 ∈ d.keys := List.mem_map.mpr ⟨e, he, rfl⟩
    rw [h2] at hk
    have : e.1 = 1 ∨ e.1 = 2 := by simpa using hk
    rcases this with h | h <;> rw [h] <;> rfl
  have hdim : getDim d = 2 := by
    have hu : unfixed d = d := by
      unfold unfixed; rw [List.filter_eq_self]; intro e he; rw [hfx e he]; rfl
    have : bdims (unfixed d) = [(1, 1), (2, 1)] := by
      rw [hu]
      have : bdims d = d.keys.map (fun p => (p, 1)) := by
        unfold bdims SMap.keys
        rw [List.map_map]
        refine List.map_congr_left ?_
        intro e he
        rw [(h8 e he).2]; rfl
      rw [this, h2]; rfl
    rw [getDim_eq, this]; rfl
  have hS := (stackSigma_shape h6).stabM (1 / 10^12)
  refine ⟨d, S0, m0, H, h1, h3, h4, h5, h6, h7, g1, hdim, hfx, c64_example_affine hfx g1, ?_⟩
  rw [hdim] at hS
  exact ObsShape.check (n := 2) (m := 1) ⟨g2, s_shape 1, ⟨rfl, rfl⟩, hS⟩

/-- C64 in the example, with the default ten iterations: the one-shot correction. -/
theorem c64_example : ∃ d S0 m0 H, getDictBel pred h0 [1, 2] 0 [] = .ok (h0, d) ∧ stackSigma h0 d 0 = .ok S0 ∧
    applyObsI near (fun b _ => one b.dim) pred hdiff h0 (s 1) (s 5) 0 [1, 2] cfg =
      oneShot near h0 d dH (s 1) (s 5 - H * m0) (stabM S0 (1 / 10^12)) 0 cfg ∧ cfg.numIter = 10 := by
  obtain ⟨d, S0, m0, H, p1, p2, p3, p4, p5, p6, p7, p8, p9, p10, p11⟩ := example_premises
  exact ⟨d, S0, m0, H, p1, p5, c64_iterations_affine (fun _ _ => rfl) (by decide) (Or.inl rfl) p1 p2 p3 p4 p5 p6 p10, rfl⟩

/-- C56 in the example: with the shipped belief and the default ten iterations, an ordinary measurement of two linear beliefs is
undefined behaviour. -/
theorem c56_example_ub : applyObsI near linJac pred hdiff h0 (s 1) (s 5) 0 [1, 2] cfg = .ub := by
  obtain ⟨d, S0, m0, H, p1, p2, p3, p4, p5, p6, p7, p8, p9, p10, p11⟩ := example_premises
  have hhf := p10.2 d m0 (SameBut.refl d) p6
  refine c56_linear_belief_ub (H := H) (by decide) p1 p4 (by omega) p5 (by rw [hhf]; exact p10.1) (by rw [hhf]; exact p11) rfl ?_
  intro b hb hbm
  obtain ⟨m, hm, -⟩ := stackMean_ok hbm
  refine ⟨H, by rw [p10.2 b m hb hm]; exact p10.1, ?_⟩
  rw [p10.2 b m hb hm]
  have hS := (stackSigma_shape p5).stabM (1 / 10^12)
  have hO := obsShape_of_check hS p11
  exact ObsShape.check (n := getDim d) (m := H.rows) ⟨hO.H, hO.R, ⟨by rw [← hO.r.1]; rfl, by rw [← hO.r.2]; rfl⟩, hO.S⟩

/-- One iteration. -/
noncomputable def cfg1 : Cfg := { outlier := false, numIter := 1 }

/-- C56 in the example, one iteration: the answer of the one-shot observation. -/
theorem c56_example_one : ∃ h' r, applyObsI near linJac pred hdiff h0 (s 1) (s 5) 0 [1, 2] cfg1 = .ok (h', .processed, r) ∧
    applyObsR near pred h0 dH (s 1) r 0 cfg1 = .ok (h', true) := by
  obtain ⟨d, S0, m0, H, p1, p2, p3, p4, p5, p6, p7, p8, p9, p10, p11⟩ := example_premises
  have hhf := p10.2 d m0 (SameBut.refl d) p6
  obtain ⟨w1, f1⟩ := joint_fits (s 5 - H * m0) ⟨rfl, rfl⟩
  obtain ⟨h', a1, e1, g1⟩ := c57_progress (fp := FP.exact) (pred := pred) nearOk reach0 (.jointR dH (s 1) (s 5 - H * m0) 0 cfg1) ⟨w1.1, w1.2⟩ ⟨f1.1, f1.2.1, Or.inl rfl⟩
  obtain rfl := g1 rfl
  refine ⟨h', s 5 - H * m0, ?_, e1⟩
  exact c56_equals_one_shot (dH := dH) (H := H) rfl (Or.inl rfl) p1 p2 p3 p4 p5 p9 hhf rfl p7 p11 e1

end Example
end Hdl
end Ikf
