import Verif.Props.Prior
import Verif.Props.IsolatedExamples

/-! # The beliefs a joint observation starts from: concrete cases (C83) -/

namespace Ikf
open Mat
namespace Hdl
namespace Example

/-- A `predict_to` that works for instance 2 only: the mean 4, the variance 3. -/
noncomputable def pred2 : ℕ → Inst → Int → Inst × Bool := fun p i t =>
  if p = 2 then (i.setBelief { b0 with mean := s 4, Sigma := s 3, stamp := t } t, true) else (i, false)

/-- Handler in which instance 1 has a belief at 5 and instance 2 has not. -/
noncomputable def hp : Hdl := [(1, (Inst.doInit ⟨[], [], 10⟩ b0 0).setBelief b0 5), (2, Inst.doInit ⟨[], [], 10⟩ b0 0)]

theorem hp_sorted : SMap.Sorted hp := by simp [hp, SMap.Sorted]

theorem hp_avail : ∀ p ∈ [1, 2], Avail pred2 5 hp p := by
  intro p hp'
  have : p = 1 ∨ p = 2 := by simpa using hp'
  rcases this with rfl | rfl
  · exact ⟨_, _, rfl, rfl⟩
  · exact ⟨_, _, rfl, rfl⟩

theorem hp_missing : Missing pred2 5 h0 1 := ⟨_, rfl, rfl⟩

/-- C83 in the example: an observation of both at 5 is the one of the handler with the predicted belief of instance 2, whose other content is unchanged; at a time
instance 1 knows nothing about it is refused; the handler with decoupled propagation throws. -/
theorem c83_example :
    applyObsR near pred2 hp dH (s 1) (s 1) 5 cfg = applyObsR near pred2 (predicted pred2 5 [1, 2] hp) dH (s 1) (s 1) 5 cfg ∧
    (∃ i b, (predicted pred2 5 [1, 2] hp).find 2 = some i ∧ i.beliefAt 5 = some b ∧ b.mean = s 4) ∧
    (predicted pred2 5 [1, 2] hp).find 1 = hp.find 1 ∧
    applyObsR near pred2 h0 dH (s 1) (s 1) 5 cfg = .ok (h0, false) ∧
    applyObsRD near pred2 h0 dH (s 1) (s 1) 5 cfg = .throws ∧
    Collab.getBF pred2 h0 [2, 1] [1, 2] 5 = .ok (predicted pred2 5 [2, 1] h0, none) := by
  obtain ⟨H, hH, -⟩ := stackH_ok dH 1 (by intro e he; have : e = (1, s 1) ∨ e = (2, s (-1)) := by simpa [dH] using he
                                          rcases this with rfl | rfl <;> rfl) (by simp [dH])
  have hs0 : SMap.Sorted h0 := by simp [h0, SMap.Sorted]
  have hp1 : predicted pred2 5 [1] h0 = h0 := by simp [predicted, h0]; rfl
  refine ⟨((c83_predict_first (pj := fun b _ => one b.dim) (hf := fun _ _ z => ([], z)) (z := s 1) (ids := []) (dH := dH) hp_sorted).1 (by simp [dH, SMap.keys]) hp_avail).1, ?_, ?_, ?_, ?_, ?_⟩
  · exact ⟨_, _, rfl, rfl, rfl⟩
  · exact (c83_predicted [1, 2] 1).2.1 _ b0 rfl rfl
  · have := ((c83_missing (near := near) (pj := fun b _ => one b.dim) (hf := fun _ _ z => ([], z)) (ids := []) (dH := dH) (R := s 1) (r := s 1) (z := s 1) (cfg := cfg) hs0
      (pre := []) (p := 1) (post := [2]) (by simp) (by simp) hp_missing).1 rfl hH).1
    rw [this, List.nil_append, hp1]
  · have hH2 : ∃ H, stackHAll h0 dH = .ok H := ⟨_, rfl⟩
    obtain ⟨H2, hH2⟩ := hH2
    exact ((c83_decoupled (near := near) (R := s 1) (r := s 1) (z := s 1) (cfg := cfg) hs0).2 H2 hH2 1 hp_missing).1
  · exact ((c83_answer_to_agents hs0).2 [2] 1 [] rfl (by simp) (by
      intro q hq
      obtain rfl : q = 2 := by simpa using hq
      exact ⟨_, _, rfl, rfl⟩)).1 hp_missing

end Example
end Hdl
end Ikf
