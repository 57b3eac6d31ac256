import Verif.Props.EndToEndExamples
import Verif.Lemmas.FpErr

/-! # Property C87: the numbers of the example filter are those of a body under constant acceleration -/

namespace Ikf
open Mat

namespace Linear1D

/-- Position and velocity of the state `x`. -/
def pos (x : Mat) : ℝ := x.e 0 0
@[inherit_doc pos] def vel (x : Mat) : ℝ := x.e 1 0

/-- What `prop` computes, with the products written out. -/
theorem prop_eq (fp : FP) (id : ℕ) {m : Data} (hz : m.z.Shape 1 1) (hR : m.R.Shape 1 1) (ta tb : Int) {x : Mat} (hx : x.Shape 2 1) :
    prop fp id m ta tb x = .ok (Phi (dt fp ta tb) * x + G (dt fp ta tb) * m.z, Phi (dt fp ta tb),
      G (dt fp ta tb) * m.R * (G (dt fp ta tb)).tr + Q0) := by
  set d := dt fp ta tb with hd
  have hP : (Phi d).Shape 2 2 := ⟨rfl, rfl⟩
  have hG : (G d).Shape 2 1 := ⟨rfl, rfl⟩
  have hGt : (G d).tr.Shape 1 2 := ⟨rfl, rfl⟩
  unfold prop
  simp only [← hd]
  rw [hP.mulC hx, Res.bind_ok, hG.mulC hz, Res.bind_ok, (hP.mul hx).addC (hG.mul hz), Res.bind_ok, hG.mulC hR, Res.bind_ok,
    (hG.mul hR).mulC hGt, Res.bind_ok, ((hG.mul hR).mul hGt).addC q0_shape, Res.bind_ok]

theorem phi_e (d : ℝ) : (Phi d).e 0 0 = 1 ∧ (Phi d).e 0 1 = d ∧ (Phi d).e 1 0 = 0 ∧ (Phi d).e 1 1 = 1 := by
  simp [Phi, of]

theorem g_e (d : ℝ) : (G d).e 0 0 = 1 / 2 * d * d ∧ (G d).e 1 0 = d := by simp [G, of]

theorem phi_mul (d : ℝ) {x : Mat} (hx : x.Shape 2 1) : (Phi d * x).e 0 0 = pos x + d * vel x ∧ (Phi d * x).e 1 0 = vel x := by
  have hP : (Phi d).cols = 2 := rfl
  obtain ⟨h1, h2, h3, h4⟩ := phi_e d
  constructor
  · rw [mul_e, hP, Finset.sum_range_succ, Finset.sum_range_one, h1, h2]; unfold pos vel; ring
  · rw [mul_e, hP, Finset.sum_range_succ, Finset.sum_range_one, h3, h4]; unfold vel; ring

theorem g_mul (d : ℝ) {z : Mat} : (G d * z).e 0 0 = 1 / 2 * d * d * z.e 0 0 ∧ (G d * z).e 1 0 = d * z.e 0 0 := by
  have hG : (G d).cols = 1 := rfl
  obtain ⟨h1, h2⟩ := g_e d
  constructor
  · rw [mul_e, hG, Finset.sum_range_one, h1]
  · rw [mul_e, hG, Finset.sum_range_one, h2]

/-- Two numbers make a state. -/
theorem ext2 {x y : Mat} (hx : x.Shape 2 1) (hy : y.Shape 2 1) (h0 : pos x = pos y) (h1 : vel x = vel y) : x = y := by
  refine Mat.ext' (by rw [hx.1, hy.1]) (by rw [hx.2, hy.2]) ?_
  intro i j hi hj
  rw [hx.1] at hi; rw [hx.2] at hj
  have : j = 0 := by omega
  subst this
  rcases (by omega : i = 0 ∨ i = 1) with rfl | rfl
  · exact h0
  · exact h1

/-- C87. A propagation with the acceleration `a` moves position and velocity by the elapsed time `d` (seconds) as a body under constant
acceleration moves: `p + v d + a d²/2` and `v + a d`. -/
theorem c87_motion (fp : FP) (id : ℕ) {m : Data} (hz : m.z.Shape 1 1) (hR : m.R.Shape 1 1) (ta tb : Int) {x : Mat} (hx : x.Shape 2 1) :
    ∃ mb Phi Q, prop fp id m ta tb x = .ok (mb, Phi, Q) ∧ mb.Shape 2 1 ∧
      pos mb = pos x + vel x * dt fp ta tb + m.z.e 0 0 * (dt fp ta tb)^2 / 2 ∧ vel mb = vel x + m.z.e 0 0 * dt fp ta tb := by
  set d := dt fp ta tb
  have hP : (Linear1D.Phi d).Shape 2 2 := ⟨rfl, rfl⟩
  have hG : (G d).Shape 2 1 := ⟨rfl, rfl⟩
  refine ⟨_, _, _, prop_eq fp id hz hR ta tb hx, (hP.mul hx).add, ?_, ?_⟩
  · show (_ + _ : Mat).e 0 0 = _
    rw [add_e _ _ (by rw [(hP.mul hx).1, (hG.mul hz).1]) (by rw [(hP.mul hx).2, (hG.mul hz).2]), (phi_mul d hx).1, (g_mul d).1]
    ring
  · show (_ + _ : Mat).e 1 0 = _
    rw [add_e _ _ (by rw [(hP.mul hx).1, (hG.mul hz).1]) (by rw [(hP.mul hx).2, (hG.mul hz).2]), (phi_mul d hx).2, (g_mul d).2]
    ring

/-- C87. The elapsed time is the difference of the two times, up to the rounding of seconds in doubles (6 µs over 272 years), and exactly so
without rounding. -/
theorem c87_elapsed (fp : FP) {ta tb : Int} (h0 : 0 ≤ ta) (h1 : ta ≤ tb) (h2 : tb ≤ 8589934590000000000) :
    |dt fp ta tb - (tb - ta) / 1000000000| ≤ 6 / 1000000 ∧ dt FP.exact ta tb = (tb - ta) / 1000000000 := by
  constructor
  · have e1 := fp.secOfKey_err ta h0 (by omega)
    have e2 := fp.secOfKey_err tb (by omega) (by omega)
    change |fp.secOfKey ta - _| ≤ _ at e1
    change |fp.secOfKey tb - _| ≤ _ at e2
    have hq1 : (0 : ℚ) ≤ ta := by exact_mod_cast h0
    have hq2 : (ta : ℚ) ≤ tb := by exact_mod_cast h1
    have hq3 : (tb : ℚ) ≤ 8589934590000000000 := by exact_mod_cast h2
    rw [abs_le] at e1 e2
    have e3 := fp.rnd_err (fp.secOfKey tb - fp.secOfKey ta) 8589934591 (by rw [abs_le]; constructor <;> linarith)
    have key : |fp.rnd (fp.secOfKey tb - fp.secOfKey ta) - (tb - ta) / 1000000000| ≤ 6 / 1000000 := by
      rw [abs_le] at e3 ⊢
      norm_num at e3
      constructor <;> linarith
    unfold dt
    have h := (Rat.cast_le (K := ℝ)).mpr key
    push_cast at h
    exact h
  · have e : ∀ k : Int, 0 ≤ k → FP.exact.secOfKey k = (k : ℚ) / 1000000000 := by
      intro k hk
      show FP.exact.toSec (Timestamp.ofStampNs k) = _
      rw [FP.exact_toSec, (ofStampNs_normal k hk).2.1]
    unfold dt
    rw [FP.exact_rnd, e ta h0, e tb (by omega)]
    push_cast; ring

/-- C87. `Phi` is the derivative of the predicted mean by the state (the model is linear in it), the same at every state. -/
theorem c87_jacobian (fp : FP) (id : ℕ) {m : Data} (hz : m.z.Shape 1 1) (hR : m.R.Shape 1 1) (ta tb : Int) {x y : Mat} (hx : x.Shape 2 1)
    (hy : y.Shape 2 1) : ∃ mx my Phi Q, prop fp id m ta tb x = .ok (mx, Phi, Q) ∧ prop fp id m ta tb y = .ok (my, Phi, Q) ∧
      Phi.Shape 2 2 ∧ my - mx = Phi * (y - x) := by
  set d := dt fp ta tb
  have hP : (Linear1D.Phi d).Shape 2 2 := ⟨rfl, rfl⟩
  have hG : (G d).Shape 2 1 := ⟨rfl, rfl⟩
  refine ⟨_, _, _, _, prop_eq fp id hz hR ta tb hx, prop_eq fp id hz hR ta tb hy, hP, ?_⟩
  have hyx : (y - x).Shape 2 1 := hy
  have s1 : (Linear1D.Phi d * x + G d * m.z).Shape 2 1 := (hP.mul hx).add
  have s2 : (Linear1D.Phi d * y + G d * m.z).Shape 2 1 := (hP.mul hy).add
  have a : ∀ {w : Mat}, w.Shape 2 1 → ∀ i, (Linear1D.Phi d * w + G d * m.z).e i 0 = (Linear1D.Phi d * w).e i 0 + (G d * m.z).e i 0 := by
    intro w hw i
    rw [add_e _ _ (by rw [(hP.mul hw).1, (hG.mul hz).1]) (by rw [(hP.mul hw).2, (hG.mul hz).2])]
  have b : ∀ i, (y - x).e i 0 = y.e i 0 - x.e i 0 := fun i => by rw [sub_e y x (by rw [hy.1, hx.1]) (by rw [hy.2, hx.2])]
  refine ext2 (x := (Linear1D.Phi d * y + G d * m.z) - (Linear1D.Phi d * x + G d * m.z)) s2 (hP.mul hyx) ?_ ?_
  · unfold pos
    rw [sub_e _ _ (by rw [s2.1, s1.1]) (by rw [s2.2, s1.2]), a hy, a hx, (phi_mul d hy).1, (phi_mul d hx).1, (phi_mul d hyx).1]
    unfold pos vel
    rw [b, b]; ring
  · unfold vel
    rw [sub_e _ _ (by rw [s2.1, s1.1]) (by rw [s2.2, s1.2]), a hy, a hx, (phi_mul d hy).2, (phi_mul d hx).2, (phi_mul d hyx).2]
    unfold vel
    rw [b]; ring

/-- C87. The process noise is the variance `R` of the measured acceleration through the derivative `w` of the predicted mean by it, plus
`10⁻⁶` on the diagonal. -/
theorem c87_noise (fp : FP) (id : ℕ) {m m' : Data} (hz : m.z.Shape 1 1) (hR : m.R.Shape 1 1) (hz' : m'.z.Shape 1 1) (hR' : m'.R.Shape 1 1)
    (ta tb : Int) {x : Mat} (hx : x.Shape 2 1) : ∃ w : ℕ → ℝ, ∃ mb mb' Phi Q Q', prop fp id m ta tb x = .ok (mb, Phi, Q) ∧
      prop fp id m' ta tb x = .ok (mb', Phi, Q') ∧ Q.Shape 2 2 ∧
      (∀ i < 2, mb'.e i 0 - mb.e i 0 = w i * (m'.z.e 0 0 - m.z.e 0 0)) ∧
      w 0 = (dt fp ta tb)^2 / 2 ∧ w 1 = dt fp ta tb ∧
      ∀ i < 2, ∀ j < 2, Q.e i j = w i * m.R.e 0 0 * w j + if i = j then 1 / 1000000 else 0 := by
  set d := dt fp ta tb
  have hP : (Linear1D.Phi d).Shape 2 2 := ⟨rfl, rfl⟩
  have hG : (G d).Shape 2 1 := ⟨rfl, rfl⟩
  have hGt : (G d).tr.Shape 1 2 := ⟨rfl, rfl⟩
  refine ⟨fun i => (G d).e i 0, _, _, _, _, _, prop_eq fp id hz hR ta tb hx, prop_eq fp id hz' hR' ta tb hx, ((hG.mul hR).mul hGt).add, ?_, ?_, ?_, ?_⟩
  · intro i hi
    rw [add_e _ _ (by rw [(hP.mul hx).1, (hG.mul hz').1]) (by rw [(hP.mul hx).2, (hG.mul hz').2]),
      add_e _ _ (by rw [(hP.mul hx).1, (hG.mul hz).1]) (by rw [(hP.mul hx).2, (hG.mul hz).2]), mul_e (G d), mul_e (G d), hG.2,
      Finset.sum_range_one, Finset.sum_range_one]
    ring
  · show (G d).e 0 0 = _
    rw [(g_e d).1]; ring
  · exact (g_e d).2
  · intro i hi j hj
    rw [add_e _ _ (by rw [((hG.mul hR).mul hGt).1, q0_shape.1]) (by rw [((hG.mul hR).mul hGt).2, q0_shape.2]), mul_e, (hG.mul hR).2,
      Finset.sum_range_one, mul_e, hG.2, Finset.sum_range_one, tr_e]
    unfold Q0
    rw [smul_e, one_e]
    by_cases hij : i = j
    · rw [if_pos hij, if_pos ⟨hij, hi⟩]; ring
    · rw [if_neg hij, if_neg (fun h => hij h.1)]; ring

/-- C87. The process noise is positive definite for any variance of the acceleration. -/
theorem c87_noise_positive (fp : FP) (id : ℕ) {m : Data} (hz : m.z.Shape 1 1) (hR : m.R.Shape 1 1) (hpos : 0 ≤ m.R.e 0 0)
    (ta tb : Int) {x : Mat} (hx : x.Shape 2 1) : ∃ mb Phi Q, prop fp id m ta tb x = .ok (mb, Phi, Q) ∧ Q.e 0 1 = Q.e 1 0 ∧
      ∀ a b : ℝ, (a, b) ≠ (0, 0) → 0 < a * Q.e 0 0 * a + a * Q.e 0 1 * b + b * Q.e 1 0 * a + b * Q.e 1 1 * b := by
  obtain ⟨w, mb, -, Phi, Q, -, e, -, -, -, -, -, hQ⟩ := c87_noise fp id hz hR hz hR ta tb hx
  refine ⟨mb, Phi, Q, e, ?_, ?_⟩
  · rw [hQ 0 (by omega) 1 (by omega), hQ 1 (by omega) 0 (by omega)]; simp; ring
  · intro a b hab
    rw [hQ 0 (by omega) 0 (by omega), hQ 0 (by omega) 1 (by omega), hQ 1 (by omega) 0 (by omega), hQ 1 (by omega) 1 (by omega)]
    have e : a * (w 0 * m.R.e 0 0 * w 0 + if (0:ℕ) = 0 then 1 / 1000000 else 0) * a + a * (w 0 * m.R.e 0 0 * w 1 + if (0:ℕ) = 1 then 1 / 1000000 else 0) * b +
        b * (w 1 * m.R.e 0 0 * w 0 + if (1:ℕ) = 0 then 1 / 1000000 else 0) * a + b * (w 1 * m.R.e 0 0 * w 1 + if (1:ℕ) = 1 then 1 / 1000000 else 0) * b =
        m.R.e 0 0 * (a * w 0 + b * w 1)^2 + (a^2 + b^2) / 1000000 := by
      simp; ring
    rw [e]
    have h1 : 0 ≤ m.R.e 0 0 * (a * w 0 + b * w 1)^2 := mul_nonneg hpos (sq_nonneg _)
    have h2 : 0 < a^2 + b^2 := by
      by_cases ha : a = 0
      · have : b ≠ 0 := fun hb => hab (by rw [ha, hb])
        positivity
      · positivity
    linarith [div_pos h2 (by norm_num : (0:ℝ) < 1000000)]

/-- C87. Splitting an interval does not change the prediction: if the elapsed times add up, two propagations with the same acceleration give
the mean of one, and the transition matrices multiply. -/
theorem c87_split (fp : FP) (id : ℕ) {m : Data} (hz : m.z.Shape 1 1) (hR : m.R.Shape 1 1) {ta tb tc : Int} {x : Mat} (hx : x.Shape 2 1)
    (hd : dt fp ta tb + dt fp tb tc = dt fp ta tc) :
    ∃ mb mc P1 P2 Q1 Q2 Q, prop fp id m ta tb x = .ok (mb, P1, Q1) ∧ prop fp id m tb tc mb = .ok (mc, P2, Q2) ∧
      prop fp id m ta tc x = .ok (mc, P2 * P1, Q) := by
  set d1 := dt fp ta tb with h1
  set d2 := dt fp tb tc with h2
  have hP : ∀ d, (Linear1D.Phi d).Shape 2 2 := fun d => ⟨rfl, rfl⟩
  have hG : ∀ d, (G d).Shape 2 1 := fun d => ⟨rfl, rfl⟩
  have hb : (Linear1D.Phi d1 * x + G d1 * m.z).Shape 2 1 := ((hP d1).mul hx).add
  have hPP : Phi d2 * Phi d1 = Phi (dt fp ta tc) := by
    rw [← hd]
    refine Mat.ext' rfl rfl ?_
    intro i j hi hj
    have hi : i < 2 := hi
    have hj : j < 2 := hj
    obtain ⟨a1, a2, a3, a4⟩ := phi_e d1
    obtain ⟨b1, b2, b3, b4⟩ := phi_e d2
    obtain ⟨c1, c2, c3, c4⟩ := phi_e (d1 + d2)
    rw [mul_e, (hP d2).2, Finset.sum_range_succ, Finset.sum_range_one]
    rcases (by omega : i = 0 ∨ i = 1) with rfl | rfl <;> rcases (by omega : j = 0 ∨ j = 1) with rfl | rfl
    · rw [a1, a3, b1, b2, c1]; ring
    · rw [a2, a4, b1, b2, c2]; ring
    · rw [a1, a3, b3, b4, c3]; ring
    · rw [a2, a4, b3, b4, c4]; ring
  refine ⟨_, Phi d2 * (Phi d1 * x + G d1 * m.z) + G d2 * m.z, _, _, _, _, G (dt fp ta tc) * m.R * (G (dt fp ta tc)).tr + Q0,
    prop_eq fp id hz hR ta tb hx, prop_eq fp id hz hR tb tc hb, ?_⟩
  rw [prop_eq fp id hz hR ta tc hx]
  have e : Phi (dt fp ta tc) * x + G (dt fp ta tc) * m.z = Phi d2 * (Phi d1 * x + G d1 * m.z) + G d2 * m.z := by
    rw [← hd]
    have a : ∀ d {w : Mat}, w.Shape 2 1 → ∀ i, (Phi d * w + G d * m.z).e i 0 = (Phi d * w).e i 0 + (G d * m.z).e i 0 := by
      intro d w hw i
      rw [add_e _ _ (by rw [((hP d).mul hw).1, ((hG d).mul hz).1]) (by rw [((hP d).mul hw).2, ((hG d).mul hz).2])]
    refine ext2 (((hP _).mul hx).add) (((hP _).mul hb).add) ?_ ?_
    · unfold pos
      rw [a _ hx, a _ hb, (phi_mul _ hx).1, (phi_mul _ hb).1, (g_mul _).1, (g_mul _).1]
      unfold pos vel
      rw [a _ hx, a _ hx, (phi_mul _ hx).1, (phi_mul _ hx).2, (g_mul _).1, (g_mul _).2]
      unfold pos vel; ring
    · unfold vel
      rw [a _ hx, a _ hb, (phi_mul _ hx).2, (phi_mul _ hb).2, (g_mul _).2, (g_mul _).2]
      unfold vel
      rw [a _ hx, (phi_mul _ hx).2, (g_mul _).2]
      unfold vel; ring
  rw [e, hPP]

/-- C87. A private observation is of the position: the residual is the measured minus the estimated position, `H` is the derivative of the
predicted measurement. -/
theorem c87_private (id : ℕ) {m : Data} (hz : m.z.Shape 1 1) (t : Int) {x : Mat} (hx : x.Shape 2 1) :
    ∃ H r, priv id m t x = .ok (H, m.R, r) ∧ H.Shape 1 2 ∧ H.e 0 0 = 1 ∧ H.e 0 1 = 0 ∧ r.Shape 1 1 ∧ r.e 0 0 = m.z.e 0 0 - pos x := by
  have hr : (row 1).Shape 1 2 := ⟨rfl, rfl⟩
  refine ⟨row 1, m.z - row 1 * x, ?_, hr, by simp [row, of], by simp [row, of], hz, ?_⟩
  · unfold priv
    rw [hr.mulC hx, Res.bind_ok, hz.subC (hr.mul hx), Res.bind_ok]
  · rw [sub_e _ _ (by rw [hz.1, (hr.mul hx).1]) (by rw [hz.2, (hr.mul hx).2]), mul_e, hr.2, Finset.sum_range_succ, Finset.sum_range_one]
    simp [row, of, pos]

/-- C87. A joint observation is of the position of the other instance relative to one's own: the residual is the measured minus the estimated
difference of positions, and the Jacobians of the two participants are those of that difference. -/
theorem c87_joint (g : ℕ → ℕ → ℝ) {id : ℕ} {m : Data} (hJ : m.J ≠ id) (hz : m.z.Shape 1 1) (t : Int) {x y : Mat} (hx : x.Shape 2 1) (hy : y.Shape 2 1) :
    ∃ dH HI HJ r, joint g id m t [x, y] = .ok (dH, m.R, r) ∧ SMap.find dH id = some HI ∧ SMap.find dH m.J = some HJ ∧
      (∀ p, p ≠ id → p ≠ m.J → SMap.find dH p = none) ∧ HI.Shape 1 2 ∧ HJ.Shape 1 2 ∧
      HI.e 0 0 = -1 ∧ HI.e 0 1 = 0 ∧ HJ.e 0 0 = 1 ∧ HJ.e 0 1 = 0 ∧
      r.Shape 1 1 ∧ r.e 0 0 = m.z.e 0 0 - (pos y - pos x) := by
  have hr : ∀ s, (row s).Shape 1 2 := fun s => ⟨rfl, rfl⟩
  set mu : ℕ → Mat := fun p => if p = id then x else y with hmu
  have hmi : mu id = x := by simp [hmu]
  have hmj : mu m.J = y := by simp [hmu, hJ]
  obtain ⟨H, eH, bH, sH⟩ := StdHdl.horcat_side (I := id) (J := m.J) (Ne.symm hJ) g (hr (-1)) (hr 1) (by omega) (by omega) (by omega)
  obtain ⟨X, ex, bX, sx⟩ := StdHdl.vertcat_mean (I := id) (J := m.J) (Ne.symm hJ) g (mu := mu) hx hy (by omega) (by omega) hmi.symm hmj.symm
  refine ⟨SMap.emplace [(id, row (-1))] m.J (row 1), row (-1), row 1, m.z - H * X, ?_, ?_, ?_, ?_, hr _, hr _, by simp [row, of], by simp [row, of],
    by simp [row, of], by simp [row, of], hz, ?_⟩
  · unfold joint
    simp only
    rw [eH, Res.bind_ok, ex, Res.bind_ok, sH.mulC sx, Res.bind_ok, hz.subC (sH.mul sx), Res.bind_ok]
  · rw [SMap.find_emplace, if_neg (fun h => hJ h.1)]; simp [SMap.find]
  · rw [SMap.find_emplace, if_pos ⟨rfl, by simp [SMap.find, Ne.symm hJ]⟩]
  · intro p h1 h2
    rw [SMap.find_emplace, if_neg (fun h => h2 h.1.symm)]; simp [SMap.find, Ne.symm h1]
  · have o1 : off [(id, 2), (m.J, 2)] id = 0 := by simp [off]
    have o2 : off [(id, 2), (m.J, 2)] m.J = 2 := by simp [off, Ne.symm hJ]
    have hI := (bH.2 (id, row (-1)) (by simp)).2
    have hJ' := (bH.2 (m.J, row 1) (by simp)).2
    have e0 := hI 0 0 (by show 0 < 2; omega)
    have e1 := hI 0 1 (by show 1 < 2; omega)
    have e2 := hJ' 0 0 (by show 0 < 2; omega)
    have e3 := hJ' 0 1 (by show 1 < 2; omega)
    simp only [List.map_cons, List.map_nil] at e0 e1 e2 e3
    change H.e 0 (off [(id, 2), (m.J, 2)] id + 0) = _ at e0
    change H.e 0 (off [(id, 2), (m.J, 2)] id + 1) = _ at e1
    change H.e 0 (off [(id, 2), (m.J, 2)] m.J + 0) = _ at e2
    change H.e 0 (off [(id, 2), (m.J, 2)] m.J + 1) = _ at e3
    rw [o1] at e0 e1; rw [o2] at e2 e3
    have x0 := bX.2 (id, 2) (by simp) 0 (by norm_num)
    have x2 := bX.2 (m.J, 2) (by simp) 0 (by norm_num)
    simp only [o1, o2, hmi, hmj] at x0 x2
    rw [sub_e _ _ (by rw [hz.1, (sH.mul sx).1]) (by rw [hz.2, (sH.mul sx).2]), mul_e, sH.2]
    rw [Finset.sum_range_succ, Finset.sum_range_succ, Finset.sum_range_succ, Finset.sum_range_one]
    norm_num at e0 e1 e2 e3 x0 x2 ⊢
    rw [e0, e1, e2, e3, x0, x2]
    simp [row, of, pos]
    ring

/-- The premises of C87 hold: from position 1, velocity 2, two seconds under the acceleration 3 lead to position 11, velocity 8. -/
example : ∃ mb Phi Q, prop FP.exact 1 ⟨of 1 1 (fun _ _ => 3), one 1, 2⟩ 1000000000 3000000000 (of 2 1 fun i _ => if i = 0 then 1 else 2) = .ok (mb, Phi, Q) ∧
    pos mb = 11 ∧ vel mb = 8 := by
  obtain ⟨mb, P, Q, e, -, h1, h2⟩ := c87_motion FP.exact 1 (m := ⟨of 1 1 (fun _ _ => 3), one 1, 2⟩) ⟨rfl, rfl⟩ ⟨rfl, rfl⟩ 1000000000 3000000000
    (x := of 2 1 fun i _ => if i = 0 then 1 else 2) ⟨rfl, rfl⟩
  have hd := (c87_elapsed FP.exact (ta := 1000000000) (tb := 3000000000) (by norm_num) (by norm_num) (by norm_num)).2
  refine ⟨mb, P, Q, e, ?_, ?_⟩
  · rw [h1, hd]; simp [pos, vel, of]; norm_num
  · rw [h2, hd]; simp [vel, of]; norm_num

end Linear1D
end Ikf
