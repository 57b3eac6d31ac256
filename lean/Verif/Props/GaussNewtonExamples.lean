import Verif.Props.GaussNewton
import Verif.Props.IteratedExamples

/-! # The iterated extended Kalman filter: a concrete case (C82) -/

namespace Ikf
open Mat
namespace Hdl
namespace Example

/-- State of instance `p`. -/
noncomputable def st1 (b : SMap Belief) (p : ℕ) : ℝ := match b.find p with
  | some b => b.mean.e 0 0
  | none => 0

/-- A measurement of the product of the two states, with the Jacobians `x2` and `x1`. -/
noncomputable def hprod : SMap Belief → List ℕ → Mat → SMap Mat × Mat := fun b _ z =>
  ([(1, s (st1 b 2)), (2, s (st1 b 1))], s (z.e 0 0 - st1 b 1 * st1 b 2))

/-- The Jacobian of a curved state space. -/
noncomputable def pjc : Belief → Mat → Mat := fun b v => of b.dim b.dim (fun i j => if i = j then 1 + v.e i 0 ^ 2 else 0)

theorem hprod_fits {d : SMap Belief} (hd : Shows dim c0 [1, 2] d) : FunFits hprod [1, 2] (s 5) 1 d := by
  have hfx : ∀ e ∈ d, e.2.fixed = false := fun e he => (hd.2 e he).2.2.2.1
  intro x
  refine ⟨⟨rfl, rfl⟩, ?_, ?_⟩
  · have h1 : (d.filter fun e => !e.2.fixed) = d := by
      rw [List.filter_eq_self]; intro e he; rw [hfx e he]; rfl
    have h2 : ∀ e : ℕ × Mat, (d.any fun b => b.1 == e.1 && b.2.fixed) = false := by
      intro e
      rw [List.any_eq_false]
      intro b hb
      rw [hfx b hb]; simp
    have h3 : d.map (fun e => (e.1, e.2.dim)) = (d.map (·.1)).map (fun p => (p, 1)) := by
      rw [List.map_map]
      refine List.map_congr_left ?_
      intro e he
      rw [(hd.2 e he).2.2.2.2]; rfl
    rw [h1, h3, hd.1]
    simp only [h2, Bool.not_false]
    rfl
  · intro e he
    have : e = (1, s (st1 (moved d x) 2)) ∨ e = (2, s (st1 (moved d x) 1)) := by simpa [hprod] using he
    rcases this with rfl | rfl <;> rfl

/-- C82 in the example: a measurement of the product of two states (3 and 3, variances 2 and 2) in a curved state space. It is processed; the beliefs
are those of at least two iterations of the iterated extended Kalman filter, and it is a history `c82_iterated_filter` speaks about. -/
theorem c82_example : ∃ h' res, applyObsI near pjc pred hprod h0 (s 1) (s 5) 0 [1, 2] cfg = .ok (h', .processed, res) ∧
    RunsI FP.exact near pjc pred dim h0 [.iter hprod (s 1) (s 5) 0 [1, 2] cfg .processed res] h' ∧
    ∃ d x0 S N q xf P, Shows dim c0 [1, 2] d ∧ (userProblem pjc hprod [1, 2] (s 5) d x0 (stabM S (1 / 10^12)) (s 1)).Ends cfg N q xf P ∧ 1 ≤ N ∧ res = (q N).r := by
  obtain ⟨h', st, res, he, hst⟩ := c82_progress (near := near) (pj := pjc) (hf := hprod) (ids := [1, 2]) (z := s 5) (R := s 1) (cfg := cfg) (pred := pred) (t := 0) (m := 1)
    nearOk init.rel (by simp) newest12 ⟨1, by simp, rfl⟩ (fun b => by simp [hprod, SMap.Sorted]) (by decide) (Or.inl rfl)
    (fun b v => ⟨rfl, rfl⟩) (fun d hd => hprod_fits hd) (s_shape 1) (Or.inl rfl)
  have hst : st = .processed := by
    rcases hst with h | h
    · exact h
    · exact absurd h.2 (by decide)
  subst hst
  obtain ⟨a, c', e1, e2, -⟩ := c82_iterated_step (c := c0) nearOk init.rel (by simp) (by simp) newest12 (fun b => by simp [hprod, SMap.Sorted]) (by decide) (Or.inl rfl) he
  have : a = .processed := by cases a <;> first | rfl | cases e1
  subst this
  refine ⟨h', res, he, RunsI.iter (by simp) (by simp) newest12 (fun b => by simp [hprod, SMap.Sorted]) (by decide) (Or.inl rfl) he (RunsI.nil _), ?_⟩
  cases e2 with
  | ends d x0 S N q xf P hd hm hS he' =>
    refine ⟨d, x0, S, N, q, xf, P, hd, he', ?_, rfl⟩
    rcases he'.stop with h | h
    · have : cfg.numIter = 10 := rfl
      omega
    · exact h.2.1

end Example
end Hdl
end Ikf
