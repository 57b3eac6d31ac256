import Verif.Props.Corr

/-!
# Correction-buffer flavour: concrete runs (C28)

One-dimensional instance, exact arithmetic, horizon 1 s. Times in nanoseconds.
-/

namespace Ikf
open Mat

namespace CInst

/-- A belief of dimension 1. -/
noncomputable def exB : Belief := ⟨zero 1 1, one 1, 0, false, true⟩

/-- The 1 × 1 matrix 2. -/
noncomputable def two : Mat := of 1 1 (fun _ _ => 2)

/-- A sequence of `apply_propagation(bel_b, Phi, t_a, t_b)` calls on the eager flavour. -/
noncomputable def propsE : Inst → List (Int × Int × Mat) → Res Inst
  | i, [] => .ok i
  | i, (ta, tb, Phi) :: r => do
    let x ← i.propBel FP.exact exB Phi ta tb
    propsE x.1 r

/-- The same on the correction-buffer flavour. -/
noncomputable def propsC : CInst → List (Int × Int × Mat) → Res CInst
  | c, [] => .ok c
  | c, (ta, tb, Phi) :: r => do
    let x ← c.propBel FP.exact exB Phi ta tb
    propsC x.1 r

/-- Initialised at time 0. -/
noncomputable def exE : Inst := Inst.doInit ⟨[], [], 1⟩ exB 0
noncomputable def exC : CInst := ⟨Inst.doInit ⟨[], [], 1⟩ exB 0, [], 1⟩

/-- C28 is false with a correlation known at the initial time: three propagations of 0.3 s throw. -/
theorem c28_prior_correlation_fails :
    propsC { exC with base := exC.base.setCCF 0 7 (one 1) }
      [(0, 300000000, one 1), (300000000, 600000000, one 1), (600000000, 900000000, one 1)] = .throws ∧
    (∃ e, propsE (exE.setCCF 0 7 (one 1))
      [(0, 300000000, one 1), (300000000, 600000000, one 1), (600000000, 900000000, one 1)] = .ok e) := by
  constructor
  · with_unfolding_all rfl
  · exact ⟨_, by with_unfolding_all rfl⟩

/-- C28: asking for a factor between two propagations makes a later propagation throw. Without the question
the same calls succeed. -/
theorem c28_reading_fails :
    (do let c1 ← propsC exC [(0, 100000000, one 1)]
        let c2 ← propsC { c1 with base := c1.base.setCCF 100000000 7 (one 1) } [(100000000, 200000000, one 1)]
        let g ← c2.getCCF 150000000 7
        propsC g.1 [(200000000, 300000000, one 1), (300000000, 700000000, one 1)]) = .throws ∧
    ∃ c, (do let c1 ← propsC exC [(0, 100000000, one 1)]
             let c2 ← propsC { c1 with base := c1.base.setCCF 100000000 7 (one 1) } [(100000000, 200000000, one 1)]
             propsC c2 [(200000000, 300000000, one 1), (300000000, 700000000, one 1)]) = .ok c := by
  constructor
  · with_unfolding_all rfl
  · exact ⟨_, by with_unfolding_all rfl⟩

/-- C28 is false for a time step longer than half the horizon: the correction of the propagation before it is
forgotten. Eager factor 2, other flavour 1. -/
theorem c28_jump_fails : ∃ MC ME,
    (do let c1 ← propsC exC [(0, 100000000, one 1)]
        let c2 ← propsC { c1 with base := c1.base.setCCF 100000000 7 (one 1) }
          [(100000000, 200000000, one 1), (200000000, 700000000, two), (700000000, 5000000000, one 1)]
        let g ← c2.getCCF 5000000000 7
        .ok g.2) = .ok MC ∧
    (do let e1 ← propsE exE [(0, 100000000, one 1)]
        let e2 ← propsE (e1.setCCF 100000000 7 (one 1))
          [(100000000, 200000000, one 1), (200000000, 700000000, two), (700000000, 5000000000, one 1)]
        .ok (e2.getCCF 5000000000 7)) = .ok ME ∧
    MC.e 0 0 = 1 ∧ ME.e 0 0 = 2 := by
  have h1 : (one 1 * one 1 : Mat) = one 1 := Mat.one_mul (one 1) 1 rfl
  have h2 : (two * one 1 : Mat) = two := Mat.mul_one two 1 rfl
  have h3 : (one 1 * two : Mat) = two := Mat.one_mul two 1 rfl
  refine ⟨one 1 * one 1 * (one 1 * (one 1 * one 1 * one 1)), one 1 * (two * (one 1 * one 1)), ?_, ?_, ?_, ?_⟩
  · with_unfolding_all rfl
  · with_unfolding_all rfl
  · simp only [h1]; rw [one_e]; simp
  · simp only [h1, h2, h3]; rfl

/-- A run as in `c28_lazy_eager_partial`: propagate, correlate, propagate, correct. -/
example : ∃ q, Calls FP.exact 1 (Fresh 0 1 1 exB) q ∧ q.T = 200000000 ∧ (q.e.getCCF q.T 7).size ≠ 0 ∧ q.L ≤ q.T := by
  refine ⟨_, .cons (.propBel _ exB (one 1) 100000000 _ _ 100000000 rfl ?_ (by with_unfolding_all rfl) (by with_unfolding_all rfl) ?_)
    (.cons (.setFactor _ 7 (one 1) rfl)
    (.cons (.propBel _ exB two 200000000 _ _ 200000000 rfl ?_ (by with_unfolding_all rfl) (by with_unfolding_all rfl) ?_)
    (.cons (.correct _ two _ _ true ⟨rfl, rfl⟩ (by with_unfolding_all rfl) (by with_unfolding_all rfl)) (.nil _)))), rfl, ?_, le_rfl⟩
  · refine ⟨by decide, by decide, ?_⟩
    show ((100000000 - 0 : ℤ) : ℚ) / 1000000000 ≤ (1:ℚ) / 2 - 3/100000
    norm_num
  · exact ⟨by decide, le_rfl, Or.inl rfl⟩
  · refine ⟨by decide, by decide, ?_⟩
    show ((200000000 - 100000000 : ℤ) : ℚ) / 1000000000 ≤ (1:ℚ) / 2 - 3/100000
    norm_num
  · exact ⟨by decide, le_rfl, Or.inl rfl⟩
  · with_unfolding_all (show (1 : ℕ) ≠ 0)
    decide

/-- The hypotheses of `c29_corr_kf_fails` and its conclusion on a concrete call. -/
example : ∃ d, exC.propKF FP.exact two (one 1) 0 100000000 = .ok (d, false) ∧ exC.base.Ord ∧ exC.corr.StrictKeys ∧
    (∀ x ∈ exC.base.bel, x.1 ≤ 0) ∧ (∀ x ∈ exC.corr, x.1 < 100000000) ∧ exC.base.beliefAt 0 = some exB := by
  refine ⟨(exC.propKF FP.exact two (one 1) 0 100000000).casesOn (fun x => x.1) exC exC, by with_unfolding_all rfl,
    ⟨List.pairwise_singleton _ ((0:Int), exB), List.Pairwise.nil, by intro J b h; exact absurd h (by show ¬ (none = some b); simp)⟩,
    by simp [exC, Buf.StrictKeys], ?_, by simp [exC], by with_unfolding_all rfl⟩
  intro x hx
  have hx : x ∈ [((0:Int), exB)] := hx
  simp at hx; simp [hx]

end CInst
end Ikf
