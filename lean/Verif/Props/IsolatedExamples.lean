import Verif.Props.Progress

/-!
# A concrete run for C19, C21 - C27, C57

Two instances of one state each, initialised at time 0, a joint observation of their difference, then a
propagation of each and a private observation.
-/

namespace Ikf
open Mat
namespace Hdl.Example

/-- A 1x1 matrix. -/
def s (x : ℝ) : Mat := of 1 1 (fun _ _ => x)

theorem s_shape (x : ℝ) : (s x).Shape 1 1 := ⟨rfl, rfl⟩
theorem s_tr (x : ℝ) : (s x).tr = s x := by
  refine Mat.ext' rfl rfl ?_
  intro i j hi hj
  have h1 : i = 0 := by change i < 1 at hi; omega
  have h2 : j = 0 := by change j < 1 at hj; omega
  subst h1; subst h2; rfl

def b0 : Belief := { mean := s 3, Sigma := s 2, stamp := 0 }

/-- Two initialised instances. -/
noncomputable def h0 : Hdl := [(1, Inst.doInit ⟨[], [], 10⟩ b0 0), (2, Inst.doInit ⟨[], [], 10⟩ b0 0)]

noncomputable def c0 : Central where
  tm _ := 0
  mu _ := s 3
  cov p q := if p = q then s 2 else Mat.zero 1 1
  fix _ := false

def dim : ℕ → ℕ := fun _ => 1

theorem init : Init dim h0 c0 where
  sorted := by simp [h0, SMap.Sorted]
  inst := by
    intro p i hi
    have : i = Inst.doInit ⟨[], [], 10⟩ b0 0 := by
      simp only [h0, SMap.find] at hi
      split at hi
      · exact (Option.some.inj hi).symm
      · split at hi
        · exact (Option.some.inj hi).symm
        · simp at hi
    exact ⟨10, b0, this, rfl, Nat.one_pos, rfl, rfl, rfl, s_tr 2, rfl, by simp [c0, b0], rfl⟩
  uncorrelated := by intro p q hpq; simp [c0, hpq]; rfl

def near : Mat → Mat := fun P => Mat.zero P.rows P.rows
theorem nearOk : NearOk near := by
  intro n P hP _
  refine ⟨⟨hP.1, hP.1⟩, ?_⟩
  unfold near; exact tr_zero _ _

def pred : ℕ → Inst → Int → Inst × Bool := fun _ i _ => (i, false)
noncomputable def cfg : Cfg := { outlier := false }

theorem gate : GateOk cfg := Or.inl rfl

/-- Observation of the difference. -/
def dH : SMap Mat := [(1, s 1), (2, s (-1))]

theorem dH_sorted : dH.Sorted := by simp [dH, SMap.Sorted]

theorem reach0 : Reach FP.exact near pred dim h0 := ⟨h0, c0, [], init, Runs.nil _⟩

theorem newest0 {p : ℕ} (hp : p = 1 ∨ p = 2) : Newest h0 p 0 := by
  refine ⟨Inst.doInit ⟨[], [], 10⟩ b0 0, (0, b0), ?_, rfl, rfl⟩
  rcases hp with rfl | rfl <;> simp [h0, SMap.find]

theorem keys {p : ℕ} (hp : p ∈ dH.keys) : p = 1 ∨ p = 2 := by simpa [dH, SMap.keys] using hp

/-- The premises of C24 and C57 hold for the joint observation in the initial state. -/
theorem joint_fits (r : Mat) (hr : r.Shape 1 1) : Wf dim h0 (.jointR dH (s 1) r 0 cfg) ∧ Fits dim h0 (.jointR dH (s 1) r 0 cfg) := by
  refine ⟨⟨dH_sorted, fun p hp => newest0 (keys hp)⟩, by simp [dH], ⟨1, ?_, s_shape 1, hr⟩, gate⟩
  intro e he
  have he' : e = (1, s 1) ∨ e = (2, s (-1)) := by simpa [dH] using he
  rcases he' with rfl | rfl
  · exact ⟨s_shape 1, rfl⟩
  · exact ⟨s_shape (-1), rfl⟩

theorem Runs.append {fp : FP} {near : Mat → Mat} {pred : ℕ → Inst → Int → Inst × Bool} {dim : ℕ → ℕ} {a b c : Hdl} {l m : List (Ev × Bool)}
    (h1 : Runs fp near pred dim a l b) (h2 : Runs fp near pred dim b m c) : Runs fp near pred dim a (l ++ m) c := by
  induction h1 with
  | nil h => exact h2
  | step hw hs _ ih => exact Runs.step hw hs (ih h2)

/-- Reachability is closed under calls. -/
theorem Reach.step {fp : FP} {near : Mat → Mat} {pred : ℕ → Inst → Int → Inst × Bool} {dim : ℕ → ℕ} {h h' : Hdl} (hr : Reach fp near pred dim h)
    {ev : Ev} (hw : Wf dim h ev) {ans : Bool} (hs : run fp near pred h ev = .ok (h', ans)) : Reach fp near pred dim h' := by
  obtain ⟨a, c, l, hi, hl⟩ := hr
  exact ⟨a, c, _, hi, Runs.append hl (Runs.step hw hs (Runs.nil _))⟩

/-- A whole run: joint observation (accepted), propagation of both, private observation of the first. All
premises of the theorems of this folder are met along the way. -/
theorem whole_run : ∃ h1 h2 h3 h4,
    run FP.exact near pred h0 (.jointR dH (s 1) (s 5) 0 cfg) = .ok (h1, true) ∧ Reach FP.exact near pred dim h1 ∧
    Newest h1 1 0 ∧ Newest h1 2 0 ∧
    Runs FP.exact near pred dim h1 [(.propKF 1 (s 2) (s 1) 0 7, true), (.propKF 2 (s 3) (s 1) 0 7, true)] h3 ∧
    run FP.exact near pred h1 (.propKF 1 (s 2) (s 1) 0 7) = .ok (h2, true) ∧
    Newest h3 1 7 ∧ Newest h3 2 7 ∧ Reach FP.exact near pred dim h3 ∧
    run FP.exact near pred h3 (.privKF 1 (s 1) (s 1) (s 4) 7 cfg) = .ok (h4, true) := by
  have hrel0 := init.rel
  obtain ⟨w1, f1⟩ := joint_fits (s 5) (s_shape 5)
  obtain ⟨h1, a1, e1, g1⟩ := c57_progress (fp := FP.exact) (pred := pred) nearOk reach0 _ w1 f1
  obtain rfl := g1 rfl
  obtain ⟨c1, s1, r1⟩ := accepted nearOk hrel0 _ w1 e1
  have d1 := step_dom hrel0 _ w1 e1
  have q1 := Reach.step reach0 w1 e1
  have t1 : c1.tm = c0.tm := by cases s1; rfl
  have n1 : ∀ p, p = 1 ∨ p = 2 → Newest h1 p 0 := fun p hp =>
    Newest.of_rel r1 (sameDom_isSome d1 ((newest0 hp).rel hrel0).1) (by rw [t1]; rfl)
  have w2 : Wf dim h1 (.propKF 1 (s 2) (s 1) 0 7) := ⟨n1 1 (Or.inl rfl), by norm_num, s_tr 1⟩
  obtain ⟨h2, a2, e2, g2⟩ := c57_progress (fp := FP.exact) (pred := pred) nearOk q1 _ w2 ⟨s_shape 2, s_shape 1⟩
  obtain rfl := g2 trivial
  obtain ⟨c2, s2, r2⟩ := accepted nearOk r1 _ w2 e2
  have d2 := step_dom r1 _ w2 e2
  have q2 := Reach.step q1 w2 e2
  have n2 : Newest h2 1 7 := Newest.of_rel r2 (sameDom_isSome d2 ((n1 1 (Or.inl rfl)).rel r1).1) (by cases s2; simp [Central.transform])
  have n2' : Newest h2 2 0 := Newest.of_rel r2 (sameDom_isSome d2 ((n1 2 (Or.inr rfl)).rel r1).1) (by cases s2; simp [Central.transform, t1]; rfl)
  have w3 : Wf dim h2 (.propKF 2 (s 3) (s 1) 0 7) := ⟨n2', by norm_num, s_tr 1⟩
  obtain ⟨h3, a3, e3, g3⟩ := c57_progress (fp := FP.exact) (pred := pred) nearOk q2 _ w3 ⟨s_shape 3, s_shape 1⟩
  obtain rfl := g3 trivial
  obtain ⟨c3, s3, r3⟩ := accepted nearOk r2 _ w3 e3
  have d3 := step_dom r2 _ w3 e3
  have q3 := Reach.step q2 w3 e3
  have n3 : Newest h3 1 7 := Newest.of_rel r3 (sameDom_isSome d3 (n2.rel r2).1) (by cases s3; simp [Central.transform, (n2.rel r2).2])
  have n3' : Newest h3 2 7 := Newest.of_rel r3 (sameDom_isSome d3 (n2'.rel r2).1) (by cases s3; simp [Central.transform])
  have w4 : Wf dim h3 (.privKF 1 (s 1) (s 1) (s 4) 7 cfg) := n3
  obtain ⟨h4, a4, e4, g4⟩ := c57_progress (fp := FP.exact) (pred := pred) nearOk q3 _ w4 ⟨rfl, s_shape 1, s_shape 4, gate⟩
  obtain rfl := g4 rfl
  exact ⟨h1, h2, h3, h4, e1, q1, n1 1 (Or.inl rfl), n1 2 (Or.inr rfl), Runs.step w2 e2 (Runs.step w3 e3 (Runs.nil _)), e2, n3, n3', q3, e4⟩

/-- C22 in numbers: the cross-covariance after the two propagations is 2 * 3 times the one before. -/
theorem c22_example : ∃ h1 h3 S S', Runs FP.exact near pred dim h1 [(.propKF 1 (s 2) (s 1) 0 7, true), (.propKF 2 (s 3) (s 1) 0 7, true)] h3 ∧
    getSigma h1 1 2 0 = .ok S ∧ getSigma h3 1 2 7 = .ok S' ∧ (asCov 1 1 S').e 0 0 = 6 * (asCov 1 1 S).e 0 0 := by
  obtain ⟨h1, h2, h3, h4, -, q1, n1, n2, hr, -, n3, n4, -⟩ := whole_run
  obtain ⟨S, S', g1, g2, g3⟩ := c22_propagation nearOk q1 (p := 1) (q := 2) (by
    intro x hx
    simp only [List.mem_cons, List.not_mem_nil, or_false] at hx
    rcases hx with rfl | rfl <;> trivial) hr (by norm_num) n1 n2 n3 n4
  refine ⟨h1, h3, S, S', hr, g1, g2, ?_⟩
  have : (asCov (dim 1) (dim 2) S').e 0 0 = 6 * (asCov (dim 1) (dim 2) S).e 0 0 := by
    rw [g3]
    simp only [phiProd, transition, if_true]
    simp only [dim]
    have hz : ¬ 0 < (asCov 1 1 S).cols → (asCov 1 1 S).e 0 0 = 0 := fun hc => (asCov 1 1 S).out 0 0 (Or.inr (by omega))
    simp [mul_e, s, of, one, tr]
    ring_nf
    split
    · rfl
    · rename_i hc; rw [hz hc]; ring
  exact this

end Hdl.Example
end Ikf
