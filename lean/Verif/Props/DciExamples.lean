import Verif.Props.DciProgress
import Verif.Props.CollabNonlinearExamples

/-!
# Agents with covariance intersection: concrete cases for C74 and C75
-/

namespace Ikf
open Mat
namespace Collab.Example
open Hdl.Example

theorem init_of {h : Hdl} (hs : h.Sorted) (hi : ∀ p i, SMap.find h p = some i → i = i0) : Hdl.Init dim h c0 where
  sorted := hs
  inst := fun p i hf => ⟨10, b0, hi p i hf, rfl, Nat.one_pos, rfl, rfl, rfl, s_tr 2, rfl, by simp [c0, b0], rfl⟩
  uncorrelated := by intro p q hpq; simp [c0, hpq]; rfl

/-! ## One instance each -/

theorem placed : Placed T n0 := by
  intro x p hx
  have := dist x p
  rw [this] at hx
  split at hx
  · assumption
  · simp at hx

theorem n0_only (x p : ℕ) (i : Inst) (hi : (n0 x).find p = some i) : i = i0 := by
  simp only [n0] at hi
  split at hi
  · simp only [SMap.find] at hi
    split at hi
    · exact (Option.some.inj hi).symm
    · simp at hi
  · split at hi
    · simp only [SMap.find] at hi
      split at hi
      · exact (Option.some.inj hi).symm
      · simp at hi
    · simp [SMap.find] at hi

theorem n0_sorted (x : ℕ) : (n0 x).Sorted := by
  unfold n0
  split
  · simp [SMap.Sorted]
  · split
    · simp [SMap.Sorted]
    · exact List.Pairwise.nil

theorem reachD : DReach T FP.exact near pj pred dim n0 :=
  ⟨n0, fun _ => c0, [], placed, fun x => init_of (n0_sorted x) (n0_only x), DRuns.nil _⟩

theorem otherIs : OtherIs (Agents.agentOf T) 1 2 [1, 2] := by
  refine ⟨by decide, ⟨2, by simp, rfl⟩, ?_⟩
  intro p hp
  have : p = 1 ∨ p = 2 := by simpa using hp
  rcases this with rfl | rfl
  · exact Or.inl rfl
  · exact Or.inr rfl

theorem wfD : Net.WfDci T dim n0 1 (.obsH hfun [1, 2] (s 1) (s 5) 0 cfg) := by
  obtain ⟨w1, w2, w3, w4⟩ := wfH_of (n := n0) fun p hp => newest hp
  exact ⟨w1, w2, w3, fun bel => (w4 bel).1⟩

/-- C75. Two agents with one instance each, both free: the relative observation between the two, in order and with fitting
matrices, throws. -/
theorem c75_one_each_fails : DReach T FP.exact near pj pred dim n0 ∧ Net.WfDci T dim n0 1 (.obsH hfun [1, 2] (s 1) (s 5) 0 cfg) ∧
    FitsH dim hfun [1, 2] (s 1) (s 5) ∧ Net.applyObsDci T 1 near pj pred hfun {} n0 (s 1) (s 5) 0 [1, 2] cfg = .throws := by
  refine ⟨reachD, wfD, fitsH, (c75_answer_partial nearOk reachD wfD fitsH Nat.one_pos gate otherIs has_localL).1 ?_⟩
  refine ⟨1, by simp, free (Or.inl rfl), fun q hq e => ?_⟩
  have : q = 1 ∨ q = 2 := by simpa using hq
  rcases this with rfl | rfl
  · rfl
  · rw [own2, own1] at e; simp at e

/-! ## Two instances each -/

/-- Instances 1 and 3 are held by agent 1, instances 2 and 4 by agent 2. -/
def T4 : Agents.Tables := ⟨[], [(1, 1), (2, 2), (3, 1), (4, 2)]⟩

noncomputable def n4 : Net := fun x => if x = 1 then [(1, i0), (3, i0)] else if x = 2 then [(2, i0), (4, i0)] else []

/-- Measured `x1 + x3 - x2 - x4`. -/
noncomputable def hfun4 : SMap Belief → List ℕ → Mat → SMap Mat × Mat := fun bel _ z =>
  ([(1, s 1), (2, s (-1)), (3, s 1), (4, s (-1))],
    of 1 1 fun _ _ => z.e 0 0 - (((bel.find 1).map fun b => b.mean.e 0 0).getD 0 + ((bel.find 3).map fun b => b.mean.e 0 0).getD 0 -
      ((bel.find 2).map fun b => b.mean.e 0 0).getD 0 - ((bel.find 4).map fun b => b.mean.e 0 0).getD 0))

theorem four {p : ℕ} (hp : p ∈ [1, 2, 3, 4]) : p = 1 ∨ p = 2 ∨ p = 3 ∨ p = 4 := by simpa using hp

theorem placed4 : Placed T4 n4 := by
  intro x p hx
  simp only [n4] at hx
  split at hx
  · rename_i h1
    subst h1
    simp only [SMap.find] at hx
    split at hx
    · rename_i h2; subst h2; rfl
    · split at hx
      · rename_i h2; subst h2; rfl
      · simp at hx
  · split at hx
    · rename_i h1
      subst h1
      simp only [SMap.find] at hx
      split at hx
      · rename_i h2; subst h2; rfl
      · split at hx
        · rename_i h2; subst h2; rfl
        · simp at hx
    · simp [SMap.find] at hx

theorem n4_only (x p : ℕ) (i : Inst) (hi : (n4 x).find p = some i) : i = i0 := by
  simp only [n4] at hi
  split at hi
  · simp only [SMap.find] at hi
    split at hi
    · exact (Option.some.inj hi).symm
    · split at hi
      · exact (Option.some.inj hi).symm
      · simp at hi
  · split at hi
    · simp only [SMap.find] at hi
      split at hi
      · exact (Option.some.inj hi).symm
      · split at hi
        · exact (Option.some.inj hi).symm
        · simp at hi
    · simp [SMap.find] at hi

theorem n4_sorted (x : ℕ) : (n4 x).Sorted := by
  unfold n4
  split
  · simp [SMap.Sorted]
  · split
    · simp [SMap.Sorted]
    · exact List.Pairwise.nil

theorem reach4 : DReach T4 FP.exact near pj pred dim n4 :=
  ⟨n4, fun _ => c0, [], placed4, fun x => init_of (n4_sorted x) (n4_only x), DRuns.nil _⟩

theorem newest4 {p : ℕ} (hp : p ∈ [1, 2, 3, 4]) : NewestAt T4 n4 p 0 := by
  refine ⟨i0, (0, b0), ?_, rfl, rfl⟩
  rcases four hp with rfl | rfl | rfl | rfl <;> simp [Agents.agentOf, T4, n4, SMap.find]

theorem free4 {p : ℕ} (hp : p ∈ [1, 2, 3, 4]) : Free T4 n4 p := by
  intro i e hi he
  have hi0 := n4_only _ _ _ hi
  subst hi0
  have h1 : i0.bel.getLast? = some (0, b0) := rfl
  rw [h1] at he; rw [← Option.some.inj he]; rfl

theorem wf4 : Net.WfDci T4 dim n4 1 (.obsH hfun4 [1, 2, 3, 4] (s 1) (s 5) 0 cfg) := by
  refine ⟨by simp, fun p hp => newest4 hp, fun h => ?_, fun bel => by simp [hfun4, SMap.Sorted]⟩
  have := h 2 (by simp)
  simp [Agents.agentOf, T4, SMap.find] at this

theorem fits4 : FitsH dim hfun4 [1, 2, 3, 4] (s 1) (s 5) := by
  refine ⟨1, s_shape 1, fun bel => ⟨?_, ?_, ⟨rfl, rfl⟩⟩⟩
  · intro p hp
    rcases four hp with rfl | rfl | rfl | rfl <;> simp [hfun4, SMap.keys]
  · intro e he
    have he' : e = (1, s 1) ∨ e = (2, s (-1)) ∨ e = (3, s 1) ∨ e = (4, s (-1)) := by simpa [hfun4] using he
    rcases he' with rfl | rfl | rfl | rfl
    · exact s_shape 1
    · exact s_shape (-1)
    · exact s_shape 1
    · exact s_shape (-1)

theorem otherIs4 : OtherIs (Agents.agentOf T4) 1 2 [1, 2, 3, 4] := by
  refine ⟨by decide, ⟨2, by simp, rfl⟩, ?_⟩
  intro p hp
  rcases four hp with rfl | rfl | rfl | rfl
  · exact Or.inl rfl
  · exact Or.inr rfl
  · exact Or.inl rfl
  · exact Or.inr rfl

/-- The premises of C74 hold: the observation with two free instances of each agent is PROCESSED. -/
theorem dci_run : ∃ n1 r, DRuns T4 FP.exact near pj pred dim n4 [(1, .obsH hfun4 [1, 2, 3, 4] (s 1) (s 5) 0 cfg, .meas .processed r)] n1 := by
  obtain ⟨n1, r, st, e, hu, -⟩ := (c75_answer_partial nearOk reach4 wf4 fits4 Nat.one_pos gate otherIs4 ⟨1, by simp, rfl⟩).2 (by
    rintro ⟨p, hp, -, hq⟩
    rcases four hp with rfl | rfl | rfl | rfl
    · exact absurd (hq 3 (by simp) rfl) (by decide)
    · exact absurd (hq 4 (by simp) rfl) (by decide)
    · exact absurd (hq 1 (by simp) rfl) (by decide)
    · exact absurd (hq 2 (by simp) rfl) (by decide))
  have hst := hu ⟨1, by simp, rfl, free4 (by simp)⟩ ⟨2, by simp, rfl, free4 (by simp)⟩ rfl
  subst hst
  refine ⟨n1, r, DRuns.step wf4 ?_ (DRuns.nil _)⟩
  simp only [Net.runDci]
  rw [e]; rfl

end Collab.Example
end Ikf
