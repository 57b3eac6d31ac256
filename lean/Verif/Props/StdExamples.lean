import Verif.Props.StdJoint
import Verif.Props.IsolatedExamples

/-!
# The filters without buffers: progress and a concrete run (C54, C55, C63)
-/

namespace Ikf
open Mat

theorem table_nonneg : ∀ x ∈ nisTable, ∀ i, 0 ≤ x.2.getD i 0 := by
  intro x hx i
  have h0 : ∀ x ∈ nisTable, ∀ y ∈ x.2, (0 : ℤ) ≤ y := by decide
  rw [List.getD_eq_getElem?_getD]
  cases hg : x.2[i]? with
  | none => simp
  | some y => exact h0 x hx y (List.mem_of_getElem? hg)

theorem chi2inv_nonneg {conf : ℚ} {df : ℕ} {th : ℤ} (h : chi2inv conf df = .ok th) : 0 ≤ th := by
  unfold chi2inv at h
  cases hl : nisTable.lookup (round (conf * 1000)) with
  | none => rw [hl] at h; simp at h
  | some row =>
    rw [hl] at h
    simp only at h
    split at h
    · rw [← Res.ok.inj h]
      obtain ⟨x, hx, e⟩ : ∃ x ∈ nisTable, x.2 = row := by
        have : ∀ l : List (Int × List ℤ), l.lookup (round (conf * 1000)) = some row → ∃ x ∈ l, x.2 = row := by
          intro l
          induction l with
          | nil => intro h; simp at h
          | cons e r ih =>
            intro h
            obtain ⟨k, v⟩ := e
            rw [List.lookup_cons] at h
            split at h
            · exact ⟨(k, v), List.mem_cons_self, Option.some.inj h⟩
            · obtain ⟨x, hx, e⟩ := ih h
              exact ⟨x, List.mem_cons_of_mem _ hx, e⟩
        exact this _ hl
      rw [← e]
      exact table_nonneg x hx df
    · rw [← Res.ok.inj h]

/-- A measurement that is predicted exactly is never rejected. -/
theorem correctionStep_zero {H R S : Mat} {n m : ℕ} (hO : ObsShape H R (Mat.zero m 1) S n m) {cfg : Cfg} (hg : GateOk cfg) :
    correctionStep H R (Mat.zero m 1) S cfg = .ok ⟨postM H R S cfg, gainM H R S cfg.eps * Mat.zero m 1, updM H R S cfg.eps, false⟩ := by
  obtain ⟨rej, e, hrej⟩ := correctionStep_progress hO hg
  rw [e]
  cases rej with
  | false => rfl
  | true =>
    exfalso
    rw [correctionStep_eq hO] at e
    cases ho : cfg.outlier with
    | false => have := hrej ho; simp at this
    | true =>
      rw [ho, if_pos rfl] at e
      cases hn : checkNIS (innov H R S cfg.eps) (Mat.zero m 1) cfg.conf with
      | throws => rw [hn] at e; simp at e
      | ub => rw [hn] at e; simp at e
      | ok b =>
        rw [hn, Res.bind_ok, Res.bind_ok] at e
        have hb : b = false := by
          have := congrArg CorrRes.rejected (Res.ok.inj e)
          simpa using this
        subst hb
        unfold checkNIS at hn
        split at hn
        · obtain ⟨s, h1, k1⟩ := Hdl.bind_eq_ok hn
          obtain ⟨th, h2, k2⟩ := Hdl.bind_eq_ok k1
          have hs : s = 0 := by
            unfold nis at h1
            have hI := (innov_shape hO cfg.eps)
            have hz : (Mat.zero m 1).Shape m 1 := ⟨rfl, rfl⟩
            split at h1
            · rw [hI.invC, Res.bind_ok, hz.tr.mulC hI.inv, Res.bind_ok, (hz.tr.mul hI.inv).mulC hz, Res.bind_ok] at h1
              rw [← Res.ok.inj h1, Hdl.mul_zero_mat (hz.tr.mul hI.inv)]
              rfl
            · exact (Res.ok.inj h1).symm
          have hth := chi2inv_nonneg h2
          rw [hs, if_neg] at k2
          · simp at k2
          · have : (0 : ℝ) ≤ (th : ℝ) / 100000 := by positivity
            exact not_lt.mpr this
        · simp at hn

namespace StdHdl

variable {g1 g2 g3 : ℕ → ℕ → ℝ} {dim : ℕ → ℕ} {h h' : StdHdl} {c : Central}

theorem joint_progress (hr : StdView.Rel dim (view h) c) (hs : Srt h) {I J : ℕ} {HI HJ R z : Mat} {m : ℕ} (hIJ : I ≠ J) (hm : 0 < m) (sI : HI.Shape m (dim I))
    (sJ : HJ.Shape m (dim J)) (hR : R.Shape m m) (hz : z.Shape m 1) (pR : (R.toM m m).PosSemidef)
    (hI : (h.find I).isSome) (hJ : (h.find J).isSome) (ht : stamp h I = stamp h J)
    (hpsd : ∀ S, StackedCov [(I, dim I), (J, dim J)] c.cov S → (S.toM (dim I + dim J) (dim I + dim J)).PosSemidef) :
    ∃ h' ans, joint g1 g2 g3 h I I J HI HJ R z = .ok (h', ans) ∧
      ((∀ H x, SideBySide [(I, HI), (J, HJ)] H → H.rows = m → StackedMean [(I, dim I), (J, dim J)] c.mu x → z = H * x) → ans = true) := by
  obtain ⟨i, hi⟩ := Option.isSome_iff_exists.mp hI
  obtain ⟨j, hj⟩ := Option.isSome_iff_exists.mp hJ
  obtain ⟨bI, hbI, a1, a2, a3, a4, a5, a6⟩ := Rel.stored hr hi
  obtain ⟨bJ, hbJ, b1, b2, b3, b4, b5, b6⟩ := Rel.stored hr hj
  have hst : bI.stamp = bJ.stamp := by
    unfold stamp at ht
    rw [hi, hj] at ht
    simpa [hbI, hbJ] using ht
  obtain ⟨H, eH, hH, sH⟩ := horcat_side hIJ g1 sI sJ hm (hr.pos I hI) (hr.pos J hJ)
  obtain ⟨x, ex, hx, sx⟩ := vertcat_mean hIJ g2 a4 b4 (hr.pos I hI) (hr.pos J hJ) a1 b1
  obtain ⟨S, eS, hS, sS⟩ := stackPrior_cov hIJ hr g3 hI hJ
  rw [← a2, ← b2] at eS
  have hO : ObsShape H R (z - H * x) (stabM S (1 / 10^12)) (dim I + dim J) m := ⟨sH, hR, hz.sub, sS.stabM _⟩
  obtain ⟨rej, ec, -⟩ := correctionStep_progress hO GateOk.default
  have pS := hpsd S hS
  have pS1 : ((stabM S (1 / 10^12)).toM (dim I + dim J) (dim I + dim J)).PosSemidef := by
    rw [toM_stabM_symm sS (1 / 10 ^ 12) (Alg.psd_symm pS)]
    exact pS.add (Alg.smul_one_psd (by norm_num))
  have pRe : (R.toM m m + (1 / 10^16 : ℝ) • 1).PosDef := by
    have h1 : ((1 / 10^16 : ℝ) • (1 : Matrix (Fin m) (Fin m) ℝ)).PosDef := Matrix.PosDef.smul Matrix.PosDef.one (by norm_num)
    exact Matrix.PosDef.posSemidef_add pR h1
  obtain ⟨q1, q2, -, -, -, -, -, -, q3, -⟩ := c18_kalman_update H R (z - H * x) (stabM S (1 / 10^12)) {} hO pS1 pR (by norm_num) pRe _ ec
  have key : ∀ res : CorrRes, correctionStep H R (z - H * x) (stabM S (1 / 10^12)) {} = .ok res →
      joint g1 g2 g3 h I I J HI HJ R z = (if !res.rejected then do
        let h' ← commit h I J bI.Sigma bJ.Sigma res
        .ok (h', true)
      else .ok (h, false)) := by
    intro res hc
    unfold joint
    have x1 : expect ((h.find I).isSome = true ∧ (h.find J).isSome = true) = .ok () := by unfold expect; rw [if_pos ⟨hI, hJ⟩]
    have x2 : expect (I = I) = .ok () := by unfold expect; rw [if_pos rfl]
    have x3 : expect (bI.stamp = bJ.stamp) = .ok () := by unfold expect; rw [if_pos hst]
    rw [x1, Res.bind_ok, x2, Res.bind_ok, get_ok hi, Res.bind_ok, get_ok hj, Res.bind_ok, StdInst.deref_ok hbI, Res.bind_ok, StdInst.deref_ok hbJ,
      Res.bind_ok, x3, Res.bind_ok, eH, Res.bind_ok, ex, Res.bind_ok, sH.mulC sx, Res.bind_ok, hz.subC (sH.mul sx), Res.bind_ok, eS, Res.bind_ok,
      stabilize_ok sS, Res.bind_ok, hc, Res.bind_ok]
  rw [key _ ec]
  cases rej with
  | true =>
    refine ⟨h, false, rfl, fun hp => ?_⟩
    exfalso
    have e := hp H x hH sH.1 hx
    have e0 : z - H * x = Mat.zero m 1 := by
      rw [e]
      refine Mat.ext' (by rw [sub_rows, mul_rows, sH.1]; rfl) (by rw [sub_cols, mul_cols, sx.2]; rfl) ?_
      intro a b _ _
      rw [sub_e (H * x) (H * x) rfl rfl]
      simp [Mat.zero, Mat.of]
    rw [e0] at ec hO
    rw [correctionStep_zero hO GateOk.default] at ec
    have := congrArg CorrRes.rejected (Res.ok.inj ec)
    simp at this
  | false =>
    have hp : Psd (postM H R (stabM S (1 / 10^12)) {}) := by
      refine ⟨by rw [q1.1, q1.2], ?_⟩
      rw [q1.1]
      exact q3
    obtain ⟨h1, A, B, e1, -⟩ := commit_spec (res := ⟨postM H R (stabM S (1 / 10^12)) {}, gainM H R (stabM S (1 / 10^12)) ({} : Cfg).eps * (z - H * x),
      updM H R (stabM S (1 / 10^12)) ({} : Cfg).eps, false⟩) hIJ hs hi hj hbI hbJ (hr.pos I hI) (hr.pos J hJ) a4 b4 a5 b5
      (Rel.rows hr hs hi) (Rel.rows hr hs hj) q1 q2 hp
    rw [e1]
    exact ⟨h1, true, rfl, fun _ => rfl⟩

/-- C55: in every reachable state, if the stacked prior and the measurement noise are positive semidefinite, a joint update of
two filters at the same time with fitting matrices returns: it neither throws nor is it undefined. It is accepted at least if
the measurement is the predicted one. -/
theorem c55_progress (hreach : Reach g1 g2 g3 dim h) {I J : ℕ} {HI HJ R z : Mat} {m : ℕ} (hIJ : I ≠ J) (hm : 0 < m) (sI : HI.Shape m (dim I))
    (sJ : HJ.Shape m (dim J)) (hR : R.Shape m m) (hz : z.Shape m 1) (pR : (R.toM m m).PosSemidef)
    (hI : (h.find I).isSome) (hJ : (h.find J).isSome) (ht : stamp h I = stamp h J)
    (hpsd : ∀ c S, Reads dim h c → StackedCov [(I, dim I), (J, dim J)] c.cov S → (S.toM (dim I + dim J) (dim I + dim J)).PosSemidef) :
    ∃ h' ans, joint g1 g2 g3 h I I J HI HJ R z = .ok (h', ans) ∧
      ((∀ c H x, Reads dim h c → SideBySide [(I, HI), (J, HJ)] H → H.rows = m → StackedMean [(I, dim I), (J, dim J)] c.mu x → z = H * x) → ans = true) := by
  obtain ⟨c, hr, hs⟩ := hreach.rel
  obtain ⟨h', ans, e, q⟩ := joint_progress (g1 := g1) (g2 := g2) (g3 := g3) hr hs hIJ hm sI sJ hR hz pR hI hJ ht (fun S hS => hpsd c S (reads hr) hS)
  exact ⟨h', ans, e, fun hp => q fun H x h1 h2 h3 => hp c H x (reads hr) h1 h2 h3⟩

/-- C55: the calls that throw: an unknown filter, a call on the wrong filter, estimates at different times. -/
theorem c55_throws {I J me : ℕ} {HI HJ R z : Mat} {i j : StdInst} {bI bJ : Belief}
    (hc : ¬ ((h.find I).isSome ∧ (h.find J).isSome) ∨
      (h.find I = some i ∧ h.find J = some j ∧ i.bel = some bI ∧ j.bel = some bJ ∧ (me ≠ I ∨ bI.stamp ≠ bJ.stamp))) :
    joint g1 g2 g3 h me I J HI HJ R z = .throws := by
  unfold joint
  rcases hc with hc | ⟨hi, hj, hbI, hbJ, hc⟩
  · have : expect ((h.find I).isSome = true ∧ (h.find J).isSome = true) = .throws := by unfold expect; rw [if_neg hc]
    rw [this]; rfl
  · have x1 : expect ((h.find I).isSome = true ∧ (h.find J).isSome = true) = .ok () := by
      unfold expect; rw [if_pos ⟨by rw [hi]; rfl, by rw [hj]; rfl⟩]
    rw [x1, Res.bind_ok]
    by_cases hm : I = me
    · have x2 : expect (I = me) = .ok () := by unfold expect; rw [if_pos hm]
      have hst : bI.stamp ≠ bJ.stamp := by
        rcases hc with hc | hc
        · exact absurd hm.symm hc
        · exact hc
      have x3 : expect (bI.stamp = bJ.stamp) = .throws := by unfold expect; rw [if_neg hst]
      rw [x2, Res.bind_ok, get_ok hi, Res.bind_ok, get_ok hj, Res.bind_ok, StdInst.deref_ok hbI, Res.bind_ok, StdInst.deref_ok hbJ, Res.bind_ok, x3]
      rfl
    · have x2 : expect (I = me) = .throws := by unfold expect; rw [if_neg hm]
      rw [x2]; rfl

namespace Example
open Hdl.Example (s s_shape s_tr b0)

/-- Two fresh filters with mean 3 and variance 2 at time 0. -/
noncomputable def h0 : StdHdl := [(1, ⟨some b0, []⟩), (2, ⟨some b0, []⟩)]

noncomputable def g0 : ℕ → ℕ → ℝ := fun _ _ => 17

theorem init : Init Hdl.Example.dim h0 Hdl.Example.c0 where
  sorted := by simp [h0, SMap.Sorted]
  inst := by
    intro p i hi
    have : i = ⟨some b0, []⟩ := by
      simp only [h0, SMap.find] at hi
      split at hi
      · exact (Option.some.inj hi).symm
      · split at hi
        · exact (Option.some.inj hi).symm
        · simp at hi
    exact ⟨b0, this, Nat.one_pos, ⟨rfl, rfl⟩, ⟨rfl, rfl⟩, s_tr 2, rfl, by simp [Hdl.Example.c0, b0], rfl⟩
  uncorrelated := by intro p q hpq; simp [Hdl.Example.c0, hpq]; rfl

theorem reach0 : Reach g0 g0 g0 Hdl.Example.dim h0 := ⟨h0, _, [], init, by simp, .nil _⟩

/-- The premises of `c54_propagate` and `c63` are met. -/
theorem holds0 : StdInst.Holds ⟨some b0, []⟩ b0 1 := ⟨rfl, ⟨rfl, rfl⟩, ⟨rfl, rfl⟩, by simp⟩

example : (StdInst.prop ⟨some b0, []⟩ (s 2) (s 1) 5) =
    .ok (⟨some { b0 with mean := s 2 * s 3, Sigma := s 2 * s 2 * (s 2).tr + s 1, stamp := 5 }, []⟩, true) :=
  ((StdInst.c54_propagate holds0 (s 2) (s 1) 5).1 ⟨s_shape 2, s_shape 1, by decide⟩).2

/-- Two inputs. -/
example : StdInst.basePropU ⟨some b0, []⟩ (s 2) (s 1) 5 (Mat.zero 1 2) (Mat.zero 2 1) (Mat.zero 2 1) = .ub :=
  (StdInst.c63_inputs_fails holds0 (k := 2) (by decide) (s_shape 2) (s_shape 1) (by decide) ⟨rfl, rfl⟩ ⟨rfl, rfl⟩ ⟨rfl, rfl⟩).1

/-- The stacked prior of the two is positive semidefinite. -/
theorem psd0 : ∀ c S, Reads Hdl.Example.dim h0 c → StackedCov [(1, Hdl.Example.dim 1), (2, Hdl.Example.dim 2)] c.cov S →
    (S.toM (Hdl.Example.dim 1 + Hdl.Example.dim 2) (Hdl.Example.dim 1 + Hdl.Example.dim 2)).PosSemidef := by
  rintro c S ⟨r1, r2⟩ ⟨-, hS⟩
  obtain ⟨x, hx, -, e1, -⟩ := r1 1 (by simp [h0, SMap.find])
  obtain ⟨y, hy, -, e2, -⟩ := r1 2 (by simp [h0, SMap.find])
  obtain rfl : b0 = x := by simpa [belief, h0, SMap.find] using hx
  obtain rfl : b0 = y := by simpa [belief, h0, SMap.find] using hy
  obtain ⟨X, hX, e3⟩ := r2 1 2 (by simp [h0, SMap.find]) (by simp [h0, SMap.find]) (by decide)
  obtain ⟨Y, hY, e4⟩ := r2 2 1 (by simp [h0, SMap.find]) (by simp [h0, SMap.find]) (by decide)
  have hX0 : X = Mat.empty := by
    have : getSigma h0 1 2 = .ok Mat.empty := by
      simp [getSigma, h0, get, SMap.find, StdInst.getCCF, Mat.size]
    rw [this] at hX; exact (Res.ok.inj hX).symm
  have hY0 : Y = Mat.empty := by
    have : getSigma h0 2 1 = .ok Mat.empty := by
      simp [getSigma, h0, get, SMap.find, StdInst.getCCF, Mat.size]
    rw [this] at hY; exact (Res.ok.inj hY).symm
  have c12 : c.cov 1 2 = Mat.zero 1 1 := by rw [← e3, hX0]; rfl
  have c21 : c.cov 2 1 = Mat.zero 1 1 := by rw [← e4, hY0]; rfl
  have m1 : ((1, 1) : ℕ × ℕ) ∈ [(1, 1), (2, 1)] := by simp
  have m2 : ((2, 1) : ℕ × ℕ) ∈ [(1, 1), (2, 1)] := by simp
  have o1 : off [(1, 1), (2, 1)] 1 = 0 := rfl
  have o2 : off [(1, 1), (2, 1)] 2 = 1 := rfl
  have s11 := hS (1, 1) m1 (1, 1) m1 0 Nat.one_pos 0 Nat.one_pos
  have s12 := hS (1, 1) m1 (2, 1) m2 0 Nat.one_pos 0 Nat.one_pos
  have s21 := hS (2, 1) m2 (1, 1) m1 0 Nat.one_pos 0 Nat.one_pos
  have s22 := hS (2, 1) m2 (2, 1) m2 0 Nat.one_pos 0 Nat.one_pos
  simp only [Hdl.Example.dim, o1, o2, Nat.add_zero] at s11 s12 s21 s22
  rw [c12] at s12
  rw [c21] at s21
  rw [← e1] at s11
  rw [← e2] at s22
  have : S.toM 2 2 = (2 : ℝ) • (1 : Matrix (Fin 2) (Fin 2) ℝ) := by
    ext a b
    fin_cases a <;> fin_cases b
    · simpa [Mat.toM, b0, s, Mat.of] using s11
    · simpa [Mat.toM, Mat.zero, Mat.of] using s12
    · simpa [Mat.toM, Mat.zero, Mat.of] using s21
    · simpa [Mat.toM, b0, s, Mat.of] using s22
  show (S.toM 2 2).PosSemidef
  rw [this]
  exact Alg.smul_one_psd (by norm_num)

/-- A joint observation of the difference of the two, with measurement 0 (which is what is predicted), is accepted: all premises
of `c55_joint` and `c55_progress` are met. -/
theorem joint_accepted : ∃ h', joint g0 g0 g0 h0 1 1 2 (s 1) (s (-1)) (s 1) (s 0) = .ok (h', true) := by
  obtain ⟨h', ans, e, ha⟩ := c55_progress (m := 1) (I := 1) (J := 2) (HI := s 1) (HJ := s (-1)) (R := s 1) (z := s 0) reach0 (by decide) Nat.one_pos
    (s_shape 1) (s_shape _) (s_shape 1) (s_shape 0) (by
      have : (s 1).toM 1 1 = (1 : ℝ) • (1 : Matrix (Fin 1) (Fin 1) ℝ) := by
        ext a b; fin_cases a; fin_cases b; simp [Mat.toM, s, Mat.of]
      rw [this]; exact Alg.smul_one_psd (by norm_num)) (by simp [h0, SMap.find]) (by simp [h0, SMap.find]) rfl psd0
  refine ⟨h', ?_⟩
  rw [e, ha]
  rintro c H x ⟨r1, -⟩ ⟨hc, hH⟩ hrow ⟨hxs, hx⟩
  obtain ⟨b, hb, e1, -⟩ := r1 1 (by simp [h0, SMap.find])
  obtain ⟨b', hb', e2, -⟩ := r1 2 (by simp [h0, SMap.find])
  obtain rfl : b0 = b := by simpa [belief, h0, SMap.find] using hb
  obtain rfl : b0 = b' := by simpa [belief, h0, SMap.find] using hb'
  have o1 : off [(1, 1), (2, 1)] 1 = 0 := rfl
  have o2 : off [(1, 1), (2, 1)] 2 = 1 := rfl
  have hc2 : H.cols = 2 := hc
  have x1 := hx (1, 1) (by simp [Hdl.Example.dim]) 0 Nat.one_pos
  have x2 := hx (2, 1) (by simp [Hdl.Example.dim]) 0 Nat.one_pos
  have y1 := (hH (1, s 1) (by simp)).2 0 0 Nat.one_pos
  have y2 := (hH (2, s (-1)) (by simp)).2 0 0 Nat.one_pos
  have c1 : (s 1).cols = 1 := rfl
  have c2 : (s (-1)).cols = 1 := rfl
  simp only [Hdl.Example.dim, o1, o2, Nat.add_zero, List.map_cons, List.map_nil, c1, c2] at x1 x2 y1 y2
  rw [← e1] at x1
  rw [← e2] at x2
  refine Mat.ext' (by rw [mul_rows, hrow]; rfl) (by rw [mul_cols, hxs.2]; rfl) ?_
  intro a b ha hb
  have h1 : a = 0 := by change a < 1 at ha; omega
  have h2 : b = 0 := by change b < 1 at hb; omega
  subst h1; subst h2
  rw [mul_e, hc2, Finset.sum_range_succ, Finset.sum_range_one, x1, x2, y1, y2]
  simp [s, Mat.of, b0]

end Example
end StdHdl
end Ikf
