import Verif.Props.CollabNonlinear
import Verif.Props.CollabExamples

/-!
# Two agents with one instance each: concrete cases for C73
-/

namespace Ikf
open Mat
namespace Collab.Example
open Hdl.Example

/-- Measured difference of the two states: Jacobians and residual at the estimates. -/
noncomputable def hfun : SMap Belief → List ℕ → Mat → SMap Mat × Mat := fun bel _ z =>
  (dH, of 1 1 fun _ _ => z.e 0 0 - (((bel.find 1).map fun b => b.mean.e 0 0).getD 0 - ((bel.find 2).map fun b => b.mean.e 0 0).getD 0))

theorem fitsH : FitsH dim hfun [1, 2] (s 1) (s 5) := by
  refine ⟨1, s_shape 1, fun bel => ⟨?_, ?_, ⟨rfl, rfl⟩⟩⟩
  · intro p hp
    have : p = 1 ∨ p = 2 := by simpa using hp
    rcases this with rfl | rfl <;> simp [hfun, dH, SMap.keys]
  · intro e he
    have he' : e = (1, s 1) ∨ e = (2, s (-1)) := by simpa [hfun, dH] using he
    rcases he' with rfl | rfl
    · exact s_shape 1
    · exact s_shape (-1)

theorem one_otherL : OneOtherL (Agents.agentOf T) 1 [1, 2] := by
  refine ⟨2, by decide, ⟨2, by simp, rfl⟩, ?_⟩
  intro p hp
  have : p = 1 ∨ p = 2 := by simpa using hp
  rcases this with rfl | rfl
  · exact Or.inl rfl
  · exact Or.inr rfl

theorem has_localL : ∃ p ∈ [1, 2], Agents.agentOf T p = 1 := ⟨1, by simp, rfl⟩

theorem wfH_of {n : Net} (hN : ∀ p, p = 1 ∨ p = 2 → NewestAt T n p 0) : Net.WfH T dim n 1 (.obsH hfun [1, 2] (s 1) (s 5) 0 cfg) := by
  refine ⟨by simp, fun p hp => hN p (by simpa using hp), fun h => absurd (h 2 (by simp)) (by rw [own2]; decide), fun bel => ⟨dH_sorted, ?_⟩⟩
  intro k hk
  have := keys (p := k) hk
  simpa using this

def pj : Belief → Mat → Mat := fun b _ => b.mean

theorem reachH : HReach T FP.exact near pj pred dim n0 := ⟨n0, h0, c0, [], dist, init, HRuns.nil _⟩

/-- The premises of C73 hold: the observation across the two agents is PROCESSED. -/
theorem jointH_run : ∃ n1 r, HRuns T FP.exact near pj pred dim n0 [(1, .obsH hfun [1, 2] (s 1) (s 5) 0 cfg, .meas .processed r)] n1 ∧
    Net.applyObsH T 1 near pj pred hfun {} n0 (s 1) (s 5) 0 [1, 2] cfg = .ok ((n1, r), .processed) := by
  have w := wfH_of fun p hp => newest hp
  obtain ⟨n1, r, st, e, hu⟩ := (c73_answer_partial nearOk reachH w fitsH gate one_otherL has_localL).1
    ⟨2, by simp, free (Or.inr rfl), Or.inl (by rw [own2]; decide)⟩
  have hst := hu rfl
  subst hst
  refine ⟨n1, r, HRuns.step w ?_ (HRuns.nil _), e⟩
  simp only [Net.runH]
  rw [e]; rfl

/-! ## The other agent's instance is fixed -/

noncomputable def bFix : Belief := { b0 with fixed := true }
noncomputable def iF : Inst := Inst.doInit ⟨[], [], 10⟩ bFix 0
noncomputable def hF : Hdl := [(1, i0), (2, iF)]
noncomputable def nF : Net := fun x => if x = 1 then [(1, i0)] else if x = 2 then [(2, iF)] else []
noncomputable def cF : Central := { c0 with fix := fun p => p = 2 }

theorem distF : Dist T nF hF := by
  intro x p
  by_cases hp1 : p = 1
  · subst hp1
    rw [own1]
    by_cases hx : x = 1
    · subst hx; simp [nF, hF, SMap.find]
    · rw [if_neg (Ne.symm hx)]
      by_cases hx2 : x = 2
      · subst hx2; simp [nF, SMap.find]
      · simp [nF, hx, hx2, SMap.find]
  · by_cases hp2 : p = 2
    · subst hp2
      rw [own2]
      by_cases hx : x = 2
      · subst hx; simp [nF, hF, SMap.find]
      · rw [if_neg (Ne.symm hx)]
        by_cases hx2 : x = 1
        · subst hx2; simp [nF, SMap.find]
        · simp [nF, hx, hx2, SMap.find]
    · have e : (hF.find p) = none := by simp [hF, SMap.find, Ne.symm hp1, Ne.symm hp2]
      rw [e, ite_self]
      unfold nF
      split
      · simp [SMap.find, Ne.symm hp1]
      · split
        · simp [SMap.find, Ne.symm hp2]
        · rfl

theorem initF : Hdl.Init dim hF cF where
  sorted := by simp [hF, SMap.Sorted]
  inst := by
    intro p i hi
    simp only [hF, SMap.find] at hi
    split at hi
    · rename_i h1
      have h2 := (Option.some.inj hi).symm
      exact ⟨10, b0, h2, rfl, Nat.one_pos, rfl, rfl, rfl, s_tr 2, rfl, by simp [cF, c0, b0], by simp [cF, ← h1]; rfl⟩
    · split at hi
      · rename_i h1
        have h2 := (Option.some.inj hi).symm
        exact ⟨10, bFix, h2, rfl, Nat.one_pos, rfl, rfl, rfl, s_tr 2, rfl, by simp [cF, c0, bFix, b0], by simp [cF, ← h1, bFix]⟩
      · simp at hi
  uncorrelated := by intro p q hpq; simp [cF, c0, hpq]; rfl

/-- C73. The instance of the other agent is fixed, so the only free participant is held by the caller: the in-order
observation with fitting matrices throws instead of correcting the caller's instance. -/
theorem c73_single_free_fails : HReach T FP.exact near pj pred dim nF ∧ Net.WfH T dim nF 1 (.obsH hfun [1, 2] (s 1) (s 5) 0 cfg) ∧
    FitsH dim hfun [1, 2] (s 1) (s 5) ∧ Net.applyObsH T 1 near pj pred hfun {} nF (s 1) (s 5) 0 [1, 2] cfg = .throws := by
  have hre : HReach T FP.exact near pj pred dim nF := ⟨nF, hF, cF, [], distF, initF, HRuns.nil _⟩
  have w : Net.WfH T dim nF 1 (.obsH hfun [1, 2] (s 1) (s 5) 0 cfg) := wfH_of fun p hp => by
    rcases hp with rfl | rfl
    · exact ⟨i0, (0, b0), by simp [Agents.agentOf, T, nF, SMap.find], rfl, rfl⟩
    · exact ⟨iF, (0, bFix), by simp [Agents.agentOf, T, nF, SMap.find], rfl, rfl⟩
  refine ⟨hre, w, fitsH, (c73_answer_partial nearOk hre w fitsH gate one_otherL has_localL).2 1 (by simp) ?_ own1 ?_ rfl⟩
  · intro i e hi he
    have hi0 : i = i0 := by
      simp [Agents.agentOf, T, nF, SMap.find] at hi; exact hi.symm
    subst hi0
    have h1 : i0.bel.getLast? = some (0, b0) := rfl
    rw [h1] at he; rw [← Option.some.inj he]; rfl
  · intro q hq hne hfree
    have hq2 : q = 2 := by
      have : q = 1 ∨ q = 2 := by simpa using hq
      exact this.resolve_left hne
    subst hq2
    have := hfree iF (0, bFix) (by simp [Agents.agentOf, T, nF, SMap.find]) rfl
    simp [bFix] at this

end Collab.Example
end Ikf
