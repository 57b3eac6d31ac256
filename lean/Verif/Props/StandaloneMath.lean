import Verif.Spec.StandaloneMath
import Verif.Lemmas.Isolated
import Verif.Props.KalmanMath
import Verif.Props.StandaloneKF

/-!
# C100, C102: the matrix functions of a standalone filter
-/

namespace Ikf
open Mat Matrix

namespace SKF

/-- Histories of an `n`-state filter: times increase; every belief has `n` states and a symmetric positive
semidefinite covariance. -/
structure Ok (n : ℕ) (h : Buf Belief) : Prop where
  strict : h.Pairwise (fun x y => x.1 < y.1)
  bel : ∀ e ∈ h, (e.2.mean.rows = n ∧ e.2.mean.cols = 1) ∧ (e.2.Sigma.rows = n ∧ e.2.Sigma.cols = n) ∧
    (e.2.Sigma.toM n n).PosSemidef

theorem Ok.at {n : ℕ} {h : Buf Belief} (ho : Ok n h) {t : Int} {b : Belief} (hb : beliefAt h t = some b) :
    b.mean.Shape n 1 ∧ b.Sigma.Shape n n ∧ (b.Sigma.toM n n).PosSemidef := by
  unfold beliefAt at hb
  obtain ⟨e, he, rfl⟩ := Option.map_eq_some_iff.mp hb
  exact ho.bel e (List.mem_of_find?_eq_some he)

theorem Ok.set {n : ℕ} {h : Buf Belief} (ho : Ok n h) {b : Belief} (t : Int) (hm : b.mean.Shape n 1)
    (hS : b.Sigma.Shape n n) (hP : (b.Sigma.toM n n).PosSemidef) : Ok n (setBelief h b t) where
  strict := Buf.strict_insertMap h ho.strict t b
  bel := by
    intro e he
    rcases (Buf.mem_insertMap h ho.strict t b e).mp he with rfl | ⟨h1, _⟩
    · exact ⟨hm, hS, hP⟩
    · exact ho.bel e h1

theorem beliefAt_set {h : Buf Belief} (hs : h.StrictKeys) (b : Belief) (t t' : Int) :
    beliefAt (setBelief h b t) t' = if t' = t then some b else beliefAt h t' :=
  Buf.absMap_insertMap h hs t b t'

theorem estimates_set {n : ℕ} {h : Buf Belief} (ho : Ok n h) (b : Belief) (t : Int) :
    estimates n (setBelief h b t) = Function.update (estimates n h) t (some ⟨b.mean.toM n 1, b.Sigma.toM n n⟩) := by
  funext t'
  unfold estimates
  rw [beliefAt_set ho.strict]
  by_cases ht : t' = t
  · subst ht; simp
  · rw [if_neg ht, Function.update_of_ne ht]

theorem propEKF_true {n : ℕ} {h h' : Buf Belief} {b : Belief} (hS : b.Sigma.Shape n n) (mb Phi Q : Mat)
    (tb : Int) (hc : propEKF h b mb Phi Q tb = .ok (h', true)) :
    Phi.Shape n n ∧ Q.Shape n n ∧ mb.Shape n 1 ∧
    h' = setBelief h { b with mean := mb, Sigma := Phi * b.Sigma * Phi.tr + Q, stamp := tb } tb := by
  unfold propEKF at hc
  split at hc
  · rename_i hd
    have hd' := (checkDimQ_iff _ _ _).mp hd
    have hP : Phi.Shape n n := ⟨by rw [hd'.1, hS.1], by rw [hd'.2.1, hS.1]⟩
    have hQ : Q.Shape n n := ⟨by rw [hd'.2.2.1, hS.1], by rw [hd'.2.2.2, hS.1]⟩
    rw [Inst.covPropagation_eq hS hP hQ, Res.bind_ok] at hc
    have hn : (Phi * b.Sigma * Phi.tr + Q).Shape n n := ((hP.mul hS).mul hP.tr).add
    split at hc
    · rename_i hm
      have hm' := (Inst.checkDimMean_iff _ _).mp hm
      unfold Belief.set at hc
      simp only [hm, Bool.not_true, Bool.false_eq_true, if_false, if_true] at hc
      exact ⟨hP, hQ, ⟨by rw [hm'.2.1, hn.1], hm'.1⟩, (Prod.mk.inj (Res.ok.inj hc)).1.symm⟩
    · simp at hc
  · simp at hc

theorem psd_prop {n : ℕ} {S Phi Q : Mat} (hS : S.Shape n n) (hP : Phi.Shape n n) (hQ : Q.Shape n n) :
    (Phi * S * Phi.tr + Q).toM n n = Phi.toM n n * S.toM n n * (Phi.toM n n)ᵀ + Q.toM n n := by
  rw [((hP.mul hS).mul hP.tr).toM_add hQ, (hP.mul hS).toM_mul, hP.toM_mul]; rfl

theorem privEKF_true {n : ℕ} {h h' : Buf Belief} (ho : Ok n h) {b : Belief} {t : Int} (hb : beliefAt h t = some b)
    (H R r : Mat) (cfg : Cfg) (heps : 0 ≤ cfg.eps) (pR : (R.toM r.rows r.rows).PosSemidef)
    (pRe : (R.toM r.rows r.rows + cfg.eps • 1).PosDef) (hc : privEKF h b t H R r cfg = .ok (h', true)) :
    ObsShape H R r b.Sigma n r.rows ∧
    estimates n h' = Function.update (estimates n h) t (some
      ((⟨b.mean.toM n 1, b.Sigma.toM n n⟩ : Gauss n).updateReg (H.toM r.rows n) (R.toM r.rows r.rows) (r.toM r.rows 1)
        cfg.eps cfg.joseph cfg.stab)) ∧ Ok n h' := by
  obtain ⟨hm, hS, hP⟩ := ho.at hb
  unfold privEKF at hc
  cases hx : correctionStep H R r b.Sigma cfg with
  | throws => rw [hx] at hc; simp at hc
  | ub => rw [hx] at hc; simp at hc
  | ok res =>
    rw [hx, Res.bind_ok] at hc
    cases hr : res.rejected with
    | true => rw [hr] at hc; simp at hc
    | false =>
      obtain ⟨hO, _⟩ := Inst.correctionStep_accept hS cfg res hx hr
      have hO' : ObsShape H R r b.Sigma n r.rows := by rw [hO.r.1]; exact hO
      obtain ⟨a1, a2, _, a4, _, a6, a7, _, a9, _⟩ :=
        c18_kalman_update H R r b.Sigma cfg hO' hP pR heps pRe res hx
      rw [hr] at hc
      simp only [Bool.not_false, if_true] at hc
      unfold Belief.correct at hc
      rw [hm.addC a2, Res.bind_ok, Res.bind_ok] at hc
      have hj := (Prod.mk.inj (Res.ok.inj hc)).1
      refine ⟨hO', ?_, ?_⟩
      · rw [← hj, estimates_set ho]
        congr 2
        refine Gauss.ext ?_ ?_
        · show (b.mean + res.dx).toM n 1 = _
          rw [hm.toM_add a2, a4]; rfl
        · show res.Sapos.toM n n = _
          rw [a6]
          unfold Gauss.updateReg Gauss.updateR Gauss.gain
          simp only
          congr 1
          cases cfg.joseph with
          | true => simp only [if_true]; exact eq_sub_of_add_eq a7.symm
          | false => simp
      · rw [← hj]
        exact ho.set t hm.add a1 a9

theorem call_true {n : ℕ} {h h' : Buf Belief} (ho : Ok n h) (c : KCall) (hf : c.Fits n) (hc : call h c = .ok (h', true)) :
    TextStep (estimates n h) c (estimates n h') ∧ Ok n h' := by
  have hest : ∀ t b, beliefAt h t = some b → estimates n h t = some ⟨b.mean.toM n 1, b.Sigma.toM n n⟩ := by
    intro t b hb; unfold estimates; rw [hb]; rfl
  cases c with
  | prop Phi Q ta tb =>
    simp only [call, propKF] at hc
    split at hc
    · rename_i b hb
      obtain ⟨hm, hS, hP⟩ := ho.at hb
      split at hc
      · cases hx : Phi *! b.mean with
        | throws => rw [hx] at hc; simp at hc
        | ub => rw [hx] at hc; simp at hc
        | ok mb =>
          rw [hx, Res.bind_ok] at hc
          obtain ⟨hF, hQ, hmb, rfl⟩ := propEKF_true hS mb Phi Q tb hc
          rw [hF.mulC hm] at hx
          have hmb' := Res.ok.inj hx
          have hp := psd_prop hS hF hQ
          refine ⟨?_, ho.set tb hmb ((hF.mul hS).mul hF.tr).add ?_⟩
          · rw [estimates_set ho]
            have := TextStep.prop (f := estimates n h) Phi Q ta tb _ (hest ta b hb)
            convert this using 3
            refine Gauss.ext ?_ ?_
            · show mb.toM n 1 = _
              rw [← hmb', hF.toM_mul]; rfl
            · exact hp
          · show ((Phi * b.Sigma * Phi.tr + Q).toM n n).PosSemidef
            rw [hp]; exact (Alg.psd_congr hP _).add hf
      · simp at hc
    · simp at hc
  | propEKF mb Phi Q ta tb =>
    simp only [call] at hc
    cases hb : beliefAt h ta with
    | none => rw [hb] at hc; simp [deref] at hc
    | some b =>
      obtain ⟨hm, hS, hP⟩ := ho.at hb
      rw [hb] at hc
      simp only [deref, Res.bind_ok] at hc
      obtain ⟨hF, hQ, hmb, rfl⟩ := propEKF_true hS mb Phi Q tb hc
      have hp := psd_prop hS hF hQ
      refine ⟨?_, ho.set tb hmb ((hF.mul hS).mul hF.tr).add ?_⟩
      · rw [estimates_set ho]
        have := TextStep.propEKF (f := estimates n h) mb Phi Q ta tb _ (hest ta b hb)
        convert this using 3
        exact Gauss.ext rfl hp
      · show ((Phi * b.Sigma * Phi.tr + Q).toM n n).PosSemidef
        rw [hp]; exact (Alg.psd_congr hP _).add hf
  | propBel bb Phi ta tb =>
    simp only [call, propBel] at hc
    split at hc
    · have hj := (Prod.mk.inj (Res.ok.inj hc)).1
      obtain ⟨f1, f2, f3⟩ := hf
      rw [← hj]
      refine ⟨?_, ho.set tb f1 f2 f3⟩
      rw [estimates_set ho]
      exact TextStep.propBel bb Phi ta tb
    · simp at hc
  | priv H R z t cfg =>
    simp only [call, privKF] at hc
    split at hc
    · rename_i b hb
      obtain ⟨hm, hS, hP⟩ := ho.at hb
      unfold Mat.mulC at hc
      split at hc
      · rw [Res.bind_ok] at hc
        unfold Mat.subC at hc
        split at hc
        · rename_i h1 h2
          rw [Res.bind_ok] at hc
          obtain ⟨f1, f2, f3⟩ := hf
          obtain ⟨hO, he, hk⟩ := privEKF_true ho hb H R (z - H * b.mean) cfg f1 f2 f3 hc
          refine ⟨?_, hk⟩
          rw [he]
          have := TextStep.priv (f := estimates n h) H R z t cfg _ (hest t b hb)
          have hz : z.Shape z.rows 1 := ⟨rfl, by rw [h2.2]; exact hm.2⟩
          have hH : H.Shape z.rows n := ⟨by rw [h2.1]; rfl, by rw [h1, hm.1]⟩
          have key : z.toM z.rows 1 - H.toM z.rows n * b.mean.toM n 1 = (z - H * b.mean).toM z.rows 1 := by
            rw [hz.toM_sub (hH.mul hm), hH.toM_mul]
          simp only [key] at this
          exact this
        · simp at hc
      · simp at hc
    · simp at hc
  | privEKF H R r t cfg =>
    simp only [call] at hc
    cases hb : beliefAt h t with
    | none => rw [hb] at hc; simp [deref] at hc
    | some b =>
      rw [hb] at hc
      simp only [deref, Res.bind_ok] at hc
      obtain ⟨f1, f2, f3⟩ := hf
      obtain ⟨hO, he, hk⟩ := privEKF_true ho hb H R r cfg f1 f2 f3 hc
      refine ⟨?_, hk⟩
      rw [he]
      exact TextStep.privEKF H R r t cfg _ (hest t b hb)
  | correct dx S t =>
    simp only [call, correctBeliefAt] at hc
    split at hc
    · rename_i b hb
      obtain ⟨hm, hS, hP⟩ := ho.at hb
      obtain ⟨f1, f2, f3⟩ := hf
      unfold Belief.correct at hc
      rw [hm.addC (show dx.Shape n 1 from f1), Res.bind_ok, Res.bind_ok] at hc
      have hj := (Prod.mk.inj (Res.ok.inj hc)).1
      rw [← hj]
      refine ⟨?_, ho.set t hm.add f2 f3⟩
      rw [estimates_set ho]
      have := TextStep.correct (f := estimates n h) dx S t _ (hest t b hb)
      convert this using 3
      refine Gauss.ext ?_ rfl
      show (b.mean + dx).toM n 1 = _
      rw [hm.toM_add (show dx.Shape n 1 from f1)]
    · simp at hc

theorem propEKF_false (h : Buf Belief) (b : Belief) (mb Phi Q : Mat) (tb : Int) (h' : Buf Belief)
    (hc : propEKF h b mb Phi Q tb = .ok (h', false)) : h' = h := by
  unfold propEKF at hc
  split at hc
  · cases hx : covPropagation b.Sigma Phi Q false with
    | throws => rw [hx] at hc; simp at hc
    | ub => rw [hx] at hc; simp at hc
    | ok S =>
      rw [hx, Res.bind_ok] at hc
      split at hc
      · simp only at hc
        split at hc
        · simp at hc
        · exact (Prod.mk.inj (Res.ok.inj hc)).1.symm
      · exact (Prod.mk.inj (Res.ok.inj hc)).1.symm
  · exact (Prod.mk.inj (Res.ok.inj hc)).1.symm

theorem privEKF_false (h : Buf Belief) (b : Belief) (t : Int) (H R r : Mat) (cfg : Cfg) (h' : Buf Belief)
    (hc : privEKF h b t H R r cfg = .ok (h', false)) : h' = h := by
  unfold privEKF at hc
  cases hx : correctionStep H R r b.Sigma cfg with
  | throws => rw [hx] at hc; simp at hc
  | ub => rw [hx] at hc; simp at hc
  | ok res =>
    rw [hx, Res.bind_ok] at hc
    split at hc
    · rename_i hr
      cases h2 : b.correct res.dx res.Sapos with
      | throws => rw [h2] at hc; simp at hc
      | ub => rw [h2] at hc; simp at hc
      | ok y => rw [h2] at hc; simp at hc; simp [hc.2] at hr
    · exact (Prod.mk.inj (Res.ok.inj hc)).1.symm

theorem privEKF_set (h : Buf Belief) (b : Belief) (t : Int) (H R r : Mat) (cfg : Cfg) (h' : Buf Belief)
    (hc : privEKF h b t H R r cfg = .ok (h', true)) : ∃ b', h' = setBelief h b' t ∧ b'.stamp = b.stamp := by
  unfold privEKF at hc
  cases hx : correctionStep H R r b.Sigma cfg with
  | throws => rw [hx] at hc; simp at hc
  | ub => rw [hx] at hc; simp at hc
  | ok res =>
    rw [hx, Res.bind_ok] at hc
    split at hc
    · unfold Belief.correct at hc
      cases h2 : b.mean +! res.dx with
      | throws => rw [h2] at hc; simp at hc
      | ub => rw [h2] at hc; simp at hc
      | ok y =>
        rw [h2, Res.bind_ok, Res.bind_ok] at hc
        exact ⟨_, (Prod.mk.inj (Res.ok.inj hc)).1.symm, rfl⟩
    · rename_i hr
      have := (Prod.mk.inj (Res.ok.inj hc)).2
      exact absurd this hr

/-- C100. A call that answers false has changed nothing, whatever its arguments and the history. -/
theorem c100_refused (h h' : Buf Belief) (c : KCall) (hc : call h c = .ok (h', false)) : h' = h := by
  cases c with
  | prop Phi Q ta tb =>
    simp only [call, propKF] at hc
    split at hc
    · split at hc
      · rename_i b _ _
        cases hx : Phi *! b.mean with
        | throws => rw [hx] at hc; simp at hc
        | ub => rw [hx] at hc; simp at hc
        | ok mb =>
          rw [hx, Res.bind_ok] at hc
          exact propEKF_false _ _ _ _ _ _ _ hc
      · exact (Prod.mk.inj (Res.ok.inj hc)).1.symm
    · exact (Prod.mk.inj (Res.ok.inj hc)).1.symm
  | propEKF mb Phi Q ta tb =>
    simp only [call] at hc
    cases hb : beliefAt h ta with
    | none => rw [hb] at hc; simp [deref] at hc
    | some b =>
      rw [hb] at hc
      simp only [deref, Res.bind_ok] at hc
      exact propEKF_false _ _ _ _ _ _ _ hc
  | propBel bb Phi ta tb =>
    simp only [call, propBel] at hc
    split at hc
    · simp at hc
    · exact (Prod.mk.inj (Res.ok.inj hc)).1.symm
  | priv H R z t cfg =>
    simp only [call, privKF] at hc
    split at hc
    · rename_i b hb
      cases hx : H *! b.mean with
      | throws => rw [hx] at hc; simp at hc
      | ub => rw [hx] at hc; simp at hc
      | ok hm =>
        rw [hx, Res.bind_ok] at hc
        cases hy : z -! hm with
        | throws => rw [hy] at hc; simp at hc
        | ub => rw [hy] at hc; simp at hc
        | ok r =>
          rw [hy, Res.bind_ok] at hc
          exact privEKF_false _ _ _ _ _ _ _ _ hc
    · exact (Prod.mk.inj (Res.ok.inj hc)).1.symm
  | privEKF H R r t cfg =>
    simp only [call] at hc
    cases hb : beliefAt h t with
    | none => rw [hb] at hc; simp [deref] at hc
    | some b =>
      rw [hb] at hc
      simp only [deref, Res.bind_ok] at hc
      exact privEKF_false _ _ _ _ _ _ _ _ hc
  | correct dx S t =>
    simp only [call, correctBeliefAt] at hc
    split at hc
    · rename_i b hb
      cases h2 : b.correct dx S with
      | throws => rw [h2] at hc; simp at hc
      | ub => rw [h2] at hc; simp at hc
      | ok y => rw [h2] at hc; simp at hc
    · exact (Prod.mk.inj (Res.ok.inj hc)).1.symm

/-- C100. Every sequence of calls on an `n`-state filter that is defined, in any order of times, is the textbook
Kalman filter: accepted calls predict, update or replace exactly the estimate they name, refused ones change nothing,
and every stored covariance stays symmetric positive semidefinite. -/
theorem c100_textbook {n : ℕ} (h : Buf Belief) (ho : Ok n h) (cs : List KCall) (hf : ∀ c ∈ cs, c.Fits n)
    (h' : Buf Belief) (as : List Bool) (hr : calls h cs = .ok (h', as)) :
    TextRun (estimates n h) cs as (estimates n h') ∧ Ok n h' := by
  induction cs generalizing h as with
  | nil =>
    simp only [calls, Res.ok.injEq, Prod.mk.injEq] at hr
    rw [← hr.1, ← hr.2]
    exact ⟨.nil _, ho⟩
  | cons c cs ih =>
    simp only [calls] at hr
    cases hc : call h c with
    | throws => rw [hc] at hr; simp at hr
    | ub => rw [hc] at hr; simp at hr
    | ok x =>
      rw [hc, Res.bind_ok] at hr
      cases hy : calls x.1 cs with
      | throws => rw [hy] at hr; simp at hr
      | ub => rw [hy] at hr; simp at hr
      | ok y =>
        rw [hy, Res.bind_ok] at hr
        have hr' := Prod.mk.inj (Res.ok.inj hr)
        obtain ⟨x1, a⟩ := x
        obtain ⟨y1, bs⟩ := y
        obtain ⟨e1, e2⟩ := hr'
        simp only at e1 e2 hy
        subst e1 e2
        cases a with
        | true =>
          obtain ⟨t1, o1⟩ := call_true ho c (hf c (by simp)) hc
          obtain ⟨t2, o2⟩ := ih x1 o1 (fun c hc => hf c (by simp [hc])) bs hy
          exact ⟨.accept t1 t2, o2⟩
        | false =>
          have := c100_refused h x1 c hc
          subst this
          obtain ⟨t2, o2⟩ := ih x1 ho (fun c hc => hf c (by simp [hc])) bs hy
          exact ⟨.refuse t2, o2⟩

/-- C100. Without regularisation (`ε = 0`) the update is the textbook one, in both covariance forms. -/
theorem c100_eps_zero {n m : ℕ} (g : Gauss n) (H : Matrix (Fin m) (Fin n) ℝ) (R : Matrix (Fin m) (Fin m) ℝ)
    (z : Matrix (Fin m) (Fin 1) ℝ) (joseph stab : Bool) :
    g.updateReg H R (z - H * g.mean) 0 joseph stab = g.update H R z := by
  unfold Gauss.updateReg Gauss.update
  simp

/-- The outlier gate is defined: switched off, or a tabulated confidence (or none). -/
def GateDefined (cfg : Cfg) : Prop :=
  cfg.outlier = false ∨ cfg.conf ≤ 0 ∨ round (cfg.conf * 1000) ∈ ([380, 500, 680, 950, 997] : List ℤ)

theorem gate_ok {cfg : Cfg} (hg : GateDefined cfg) {S r : Mat} {m : ℕ} (hS : S.Shape m m) (hr : r.Shape m 1) :
    ∃ b, (if cfg.outlier then do
        let good ← checkNIS S r cfg.conf
        .ok (!good)
      else .ok false : Res Bool) = .ok b ∧ (cfg.outlier = false → b = false) := by
  by_cases ho : cfg.outlier = false
  · exact ⟨false, by simp [ho], fun _ => rfl⟩
  · have ho' : cfg.outlier = true := by simpa using ho
    have hn : ∃ x, nis S r = .ok x := by
      unfold nis
      split
      · rw [hS.invC, Res.bind_ok, hr.tr.mulC hS.inv, Res.bind_ok, (hr.tr.mul hS.inv).mulC hr, Res.bind_ok]
        exact ⟨_, rfl⟩
      · exact ⟨_, rfl⟩
    obtain ⟨x, hx⟩ := hn
    have hc : ∃ b, checkNIS S r cfg.conf = .ok b := by
      unfold checkNIS
      split
      · rename_i hpos
        rw [hx, Res.bind_ok]
        have : ∃ y, chi2inv cfg.conf r.rows = .ok y := by
          rcases hg with h | h | h
          · exact absurd h ho
          · exact absurd hpos (not_lt.mpr h)
          · have : ∃ row, nisTable.lookup (round (cfg.conf * 1000)) = some row := by
              simp only [List.mem_cons, List.not_mem_nil, or_false] at h
              rcases h with h | h | h | h | h <;> rw [h] <;> exact ⟨_, rfl⟩
            obtain ⟨row, hrow⟩ := this
            unfold chi2inv
            rw [hrow]
            simp only
            split <;> exact ⟨_, rfl⟩
        obtain ⟨y, hy⟩ := this
        rw [hy, Res.bind_ok]
        exact ⟨_, rfl⟩
      · exact ⟨_, rfl⟩
    obtain ⟨b, hb⟩ := hc
    refine ⟨!b, ?_, fun h => absurd h ho⟩
    rw [if_pos ho', hb, Res.bind_ok]

/-- C100. Fitting calls are defined: propagations from a stored belief are accepted, an observation of a stored belief
is answered, and accepted if the outlier gate is off. -/
theorem c100_defined {n m : ℕ} (h : Buf Belief) (ho : Ok n h) (t : Int) (b : Belief) (hb : beliefAt h t = some b) :
    (∀ Phi Q tb, Phi.rows = n → Phi.cols = n → Q.rows = n → Q.cols = n → ∃ h', call h (.prop Phi Q t tb) = .ok (h', true)) ∧
    (∀ mb Phi Q tb, mb.rows = n → mb.cols = 1 → Phi.rows = n → Phi.cols = n → Q.rows = n → Q.cols = n →
      ∃ h', call h (.propEKF mb Phi Q t tb) = .ok (h', true)) ∧
    (∀ H R z cfg, H.rows = m → H.cols = n → R.rows = m → R.cols = m → z.rows = m → z.cols = 1 → GateDefined cfg →
      (∃ h' a, call h (.priv H R z t cfg) = .ok (h', a) ∧ (cfg.outlier = false → a = true)) ∧
      ∃ h' a, call h (.privEKF H R z t cfg) = .ok (h', a) ∧ (cfg.outlier = false → a = true)) := by
  obtain ⟨hm, hS, hP⟩ := ho.at hb
  have hE : ∀ mb Phi Q tb, mb.rows = n → mb.cols = 1 → Phi.rows = n → Phi.cols = n → Q.rows = n → Q.cols = n →
      ∃ h', propEKF h b mb Phi Q tb = .ok (h', true) := by
    intro mb Phi Q tb m1 m2 p1 p2 q1 q2
    have hF : Phi.Shape n n := ⟨p1, p2⟩
    have hQ : Q.Shape n n := ⟨q1, q2⟩
    unfold propEKF
    rw [if_pos ((checkDimQ_iff _ Phi Q).mpr ⟨by rw [p1, hS.1], by rw [p2, hS.1], by rw [q1, hS.1], by rw [q2, hS.1]⟩),
      Inst.covPropagation_eq hS hF hQ, Res.bind_ok]
    have hn : (Phi * b.Sigma * Phi.tr + Q).Shape n n := ((hF.mul hS).mul hF.tr).add
    have hc : checkDimMean mb (Phi * b.Sigma * Phi.tr + Q) = true :=
      (Inst.checkDimMean_iff _ _).mpr ⟨m2, by rw [m1, hn.1], by rw [hn.1, hn.2]⟩
    rw [if_pos hc]
    unfold Belief.set
    simp [hc]
  have hR : ∀ H R r cfg, H.Shape m n → R.Shape m m → r.Shape m 1 → GateDefined cfg →
      ∃ h' a, privEKF h b t H R r cfg = .ok (h', a) ∧ (cfg.outlier = false → a = true) := by
    intro H R r cfg sH sR sr hg
    have hO : ObsShape H R r b.Sigma n m := ⟨sH, sR, sr, hS⟩
    obtain ⟨x, hx, hx'⟩ := gate_ok hg (innov_shape hO cfg.eps) sr
    unfold privEKF
    rw [correctionStep_eq hO, hx, Res.bind_ok, Res.bind_ok]
    cases x with
    | true =>
      refine ⟨h, false, by simp, fun h => ?_⟩
      have := hx' h; simp at this
    | false =>
      simp only [Bool.not_false, if_true]
      unfold Belief.correct
      rw [hm.addC ((gainM_shape hO _).mul sr), Res.bind_ok, Res.bind_ok]
      exact ⟨_, true, rfl, fun _ => rfl⟩
  refine ⟨?_, ?_, ?_⟩
  · intro Phi Q tb p1 p2 q1 q2
    have hF : Phi.Shape n n := ⟨p1, p2⟩
    simp only [call, propKF, hb]
    rw [if_pos ((Inst.checkDimMean_iff _ _).mpr ⟨hm.2, by rw [hm.1, p1], by rw [p1, p2]⟩), hF.mulC hm, Res.bind_ok]
    exact hE _ Phi Q tb (hF.mul hm).1 (hF.mul hm).2 p1 p2 q1 q2
  · intro mb Phi Q tb m1 m2 p1 p2 q1 q2
    simp only [call, hb, deref, Res.bind_ok]
    exact hE mb Phi Q tb m1 m2 p1 p2 q1 q2
  · intro H R z cfg h1 h2 r1 r2 z1 z2 hg
    have sH : H.Shape m n := ⟨h1, h2⟩
    have sz : z.Shape m 1 := ⟨z1, z2⟩
    refine ⟨?_, ?_⟩
    · simp only [call, privKF, hb]
      rw [sH.mulC hm, Res.bind_ok, sz.subC (sH.mul hm), Res.bind_ok]
      exact hR H R _ cfg sH ⟨r1, r2⟩ sz.sub hg
    · simp only [call, hb, deref, Res.bind_ok]
      exact hR H R z cfg sH ⟨r1, r2⟩ sz hg

/-- C100. What does not fit: no belief at the named time is answered false; propagations with wrong dimensions and
observations by residual with wrong dimensions are answered false; an observation by measurement whose `H` or `z` does not
fit the mean is undefined, since the residual is formed before the dimensions are checked. -/
theorem c100_dimensions {n : ℕ} (h : Buf Belief) (ho : Ok n h) (t : Int) :
    (beliefAt h t = none → (∀ Phi Q tb, call h (.prop Phi Q t tb) = .ok (h, false)) ∧
      (∀ H R z cfg, call h (.priv H R z t cfg) = .ok (h, false)) ∧ (∀ dx S, call h (.correct dx S t) = .ok (h, false))) ∧
    (∀ b, beliefAt h t = some b →
      (∀ Phi Q tb, ¬ ((Phi.rows = n ∧ Phi.cols = n) ∧ Q.rows = n ∧ Q.cols = n) → call h (.prop Phi Q t tb) = .ok (h, false)) ∧
      (∀ mb Phi Q tb, ¬ ((mb.rows = n ∧ mb.cols = 1) ∧ (Phi.rows = n ∧ Phi.cols = n) ∧ Q.rows = n ∧ Q.cols = n) →
        call h (.propEKF mb Phi Q t tb) = .ok (h, false)) ∧
      (∀ H R r cfg, ¬ (H.cols = n ∧ (r.rows = H.rows ∧ r.cols = 1) ∧ R.rows = H.rows ∧ R.cols = H.rows) →
        call h (.privEKF H R r t cfg) = .ok (h, false)) ∧
      (∀ H R z cfg, ¬ (H.cols = n ∧ z.rows = H.rows ∧ z.cols = 1) → call h (.priv H R z t cfg) = .ub)) := by
  refine ⟨fun hb => ⟨?_, ?_, ?_⟩, fun b hb => ?_⟩
  · intro Phi Q tb; simp only [call, propKF, hb]
  · intro H R z cfg; simp only [call, privKF, hb]
  · intro dx S; simp only [call, correctBeliefAt, hb]
  · obtain ⟨hm, hS, hP⟩ := ho.at hb
    have hE : ∀ mb Phi Q tb, ¬ ((mb.rows = n ∧ mb.cols = 1) ∧ (Phi.rows = n ∧ Phi.cols = n) ∧ Q.rows = n ∧ Q.cols = n) →
        propEKF h b mb Phi Q tb = .ok (h, false) := by
      intro mb Phi Q tb hn
      unfold propEKF
      split
      · rename_i hd
        have hd' := (checkDimQ_iff _ _ _).mp hd
        rw [hS.1] at hd'
        have hF : Phi.Shape n n := ⟨hd'.1, hd'.2.1⟩
        have hQ : Q.Shape n n := ⟨hd'.2.2.1, hd'.2.2.2⟩
        rw [Inst.covPropagation_eq hS hF hQ, Res.bind_ok, if_neg]
        intro hc
        have hc' := (Inst.checkDimMean_iff _ _).mp hc
        have hsh : (Phi * b.Sigma * Phi.tr + Q).Shape n n := ((hF.mul hS).mul hF.tr).add
        exact hn ⟨⟨by rw [hc'.2.1, hsh.1], hc'.1⟩, hF, hQ⟩
      · rfl
    refine ⟨?_, ?_, ?_, ?_⟩
    · intro Phi Q tb hn
      simp only [call, propKF, hb]
      split
      · rename_i hd
        have hd' := (Inst.checkDimMean_iff _ _).mp hd
        have hF : Phi.Shape n n := ⟨by rw [← hd'.2.1, hm.1], by rw [← hd'.2.2, ← hd'.2.1, hm.1]⟩
        rw [hF.mulC hm, Res.bind_ok]
        exact hE _ _ _ _ (fun hh => hn hh.2)
      · rfl
    · intro mb Phi Q tb hn
      simp only [call, hb, deref, Res.bind_ok]
      exact hE _ _ _ _ hn
    · intro H R r cfg hn
      simp only [call, hb, deref, Res.bind_ok]
      unfold privEKF
      rw [((c18_dimensions H R r b.Sigma cfg).1 (by
        rintro ⟨a1, a2, a3⟩
        exact hn ⟨by rw [a1, hS.1], a2, a3⟩)).1]
      rfl
    · intro H R z cfg hn
      simp only [call, privKF, hb]
      unfold Mat.mulC
      split
      · rename_i h1
        rw [Res.bind_ok]
        unfold Mat.subC
        rw [if_neg]
        · rfl
        · rintro ⟨a1, a2⟩
          exact hn ⟨by rw [h1, hm.1], a1, by rw [a2]; exact hm.2⟩
      · rfl

/-- C100. A propagated belief handed over by the caller is stored, with the covariance unchanged and the stamp `tb`, exactly if the
transition matrix has the size of its covariance; otherwise the call answers false. -/
theorem c100_propagated_belief {n : ℕ} (h : Buf Belief) (ho : Ok n h) (bb : Belief) (Phi : Mat) (ta tb : Int) :
    ((Phi.rows = bb.Sigma.rows ∧ Phi.cols = bb.Sigma.rows) →
      ∃ h', call h (.propBel bb Phi ta tb) = .ok (h', true) ∧ beliefAt h' tb = some { bb with stamp := tb }) ∧
    (¬ (Phi.rows = bb.Sigma.rows ∧ Phi.cols = bb.Sigma.rows) → call h (.propBel bb Phi ta tb) = .ok (h, false)) := by
  constructor
  · intro hd
    refine ⟨_, by simp only [call, propBel]; rw [if_pos (by unfold checkDimPhi; simp [hd.1, hd.2])], ?_⟩
    rw [beliefAt_set ho.1, if_pos rfl]
  · intro hd
    simp only [call, propBel]
    rw [if_neg]
    unfold checkDimPhi
    simp
    tauto

/-- C100. Accepted propagations to `tb` and corrections at `t` leave every other stored belief, with its own time stamp,
and the new belief carries the time it is stored at. -/
theorem c100_frame {n : ℕ} (h : Buf Belief) (ho : Ok n h) (c : KCall) (h' : Buf Belief) (a : Bool) (hc : call h c = .ok (h', a)) :
    let t := match c with
      | .prop _ _ _ tb => tb | .propEKF _ _ _ _ tb => tb | .propBel _ _ _ tb => tb
      | .priv _ _ _ t _ => t | .privEKF _ _ _ t _ => t | .correct _ _ t => t
    (∀ t', t' ≠ t → beliefAt h' t' = beliefAt h t') ∧
    ((∀ t' b, beliefAt h t' = some b → b.stamp = t') → ∀ t' b, beliefAt h' t' = some b → b.stamp = t') := by
  intro t
  cases a with
  | false =>
    have := c100_refused h h' c hc
    subst this
    exact ⟨fun _ _ => rfl, fun h => h⟩
  | true =>
    have key : ∃ b, h' = setBelief h b t ∧ ((∀ t' b, beliefAt h t' = some b → b.stamp = t') → b.stamp = t) := by
      cases c with
      | prop Phi Q ta tb =>
        simp only [call, propKF] at hc
        split at hc
        · rename_i b hb
          obtain ⟨hm, hS, hP⟩ := ho.at hb
          split at hc
          · cases hx : Phi *! b.mean with
            | throws => rw [hx] at hc; simp at hc
            | ub => rw [hx] at hc; simp at hc
            | ok mb =>
              rw [hx, Res.bind_ok] at hc
              obtain ⟨hF, hQ, hmb, rfl⟩ := propEKF_true hS mb Phi Q tb hc
              exact ⟨_, rfl, fun _ => rfl⟩
          · simp at hc
        · simp at hc
      | propEKF mb Phi Q ta tb =>
        simp only [call] at hc
        cases hb : beliefAt h ta with
        | none => rw [hb] at hc; simp [deref] at hc
        | some b =>
          obtain ⟨hm, hS, hP⟩ := ho.at hb
          rw [hb] at hc
          simp only [deref, Res.bind_ok] at hc
          obtain ⟨hF, hQ, hmb, rfl⟩ := propEKF_true hS mb Phi Q tb hc
          exact ⟨_, rfl, fun _ => rfl⟩
      | propBel bb Phi ta tb =>
        simp only [call, propBel] at hc
        split at hc
        · exact ⟨_, (Prod.mk.inj (Res.ok.inj hc)).1.symm, fun _ => rfl⟩
        · simp at hc
      | priv H R z t cfg =>
        simp only [call, privKF] at hc
        split at hc
        · rename_i b hb
          cases hx : H *! b.mean with
          | throws => rw [hx] at hc; simp at hc
          | ub => rw [hx] at hc; simp at hc
          | ok hm =>
            rw [hx, Res.bind_ok] at hc
            cases hy : z -! hm with
            | throws => rw [hy] at hc; simp at hc
            | ub => rw [hy] at hc; simp at hc
            | ok r =>
              rw [hy, Res.bind_ok] at hc
              obtain ⟨b', e1, e2⟩ := privEKF_set h b _ H R r cfg h' hc
              exact ⟨b', e1, fun hs => by rw [e2]; exact hs _ b hb⟩
        · simp at hc
      | privEKF H R r t cfg =>
        simp only [call] at hc
        cases hb : beliefAt h t with
        | none => rw [hb] at hc; simp [deref] at hc
        | some b =>
          rw [hb] at hc
          simp only [deref, Res.bind_ok] at hc
          obtain ⟨b', e1, e2⟩ := privEKF_set h b _ H R r cfg h' hc
          exact ⟨b', e1, fun hs => by rw [e2]; exact hs _ b hb⟩
      | correct dx S t =>
        simp only [call, correctBeliefAt] at hc
        split at hc
        · rename_i b hb
          unfold Belief.correct at hc
          cases hx : b.mean +! dx with
          | throws => rw [hx] at hc; simp at hc
          | ub => rw [hx] at hc; simp at hc
          | ok m =>
            rw [hx, Res.bind_ok, Res.bind_ok] at hc
            exact ⟨_, (Prod.mk.inj (Res.ok.inj hc)).1.symm, fun hs => hs _ b hb⟩
        · simp at hc
    obtain ⟨b, hh, hst⟩ := key
    refine ⟨fun t' ht => by rw [hh, beliefAt_set ho.strict, if_neg ht], fun hs t' b' hb' => ?_⟩
    rw [hh, beliefAt_set ho.strict] at hb'
    split at hb'
    · rename_i ht
      rw [← Option.some.inj hb', ht]; exact hst hs
    · exact hs t' b' hb'

/-- C100. The readers of mean and covariance return those of the stored belief; without one they are undefined. A
filter built from a belief is a new filter initialised with it at its own time. -/
theorem c100_readers (h : Buf Belief) (t : Int) :
    (∀ b, beliefAt h t = some b → getMean h t = .ok b.mean ∧ getSigma h t = .ok b.Sigma) ∧
    (beliefAt h t = none → getMean h t = .ub ∧ getSigma h t = .ub) ∧
    (∀ (P : Type) (b : Belief) (hor : ℚ) (d : Bool), (newWith b hor d : KFState Belief P) = doInitOwn (new hor d) b ∧
      (newWith b hor d : KFState Belief P).bel = [(b.stamp, b)]) := by
  refine ⟨fun b hb => ?_, fun hb => ?_, fun P b hor d => ⟨rfl, rfl⟩⟩
  · unfold getMean getSigma; rw [hb]; exact ⟨rfl, rfl⟩
  · unfold getMean getSigma; rw [hb]; exact ⟨rfl, rfl⟩

namespace MathExample

/-- A scalar. -/
noncomputable def sc (x : ℝ) : Mat := ofM (!![x] : Matrix (Fin 1) (Fin 1) ℝ)

theorem sc_psd {x : ℝ} (h : 0 ≤ x) : ((sc x).toM 1 1).PosSemidef := by
  have : (sc x).toM 1 1 = x • (1 : Matrix (Fin 1) (Fin 1) ℝ) := by
    ext i j; fin_cases i; fin_cases j; simp [sc, Mat.toM, Mat.ofM, Mat.of]
  rw [this]; exact Alg.smul_one_psd h

theorem sc_pd {x : ℝ} (h : 0 < x) : ((sc x).toM 1 1).PosDef := by
  have : (sc x).toM 1 1 = x • (1 : Matrix (Fin 1) (Fin 1) ℝ) := by
    ext i j; fin_cases i; fin_cases j; simp [sc, Mat.toM, Mat.ofM, Mat.of]
  rw [this]; exact Alg.smul_one_pd h

noncomputable def h0 : Buf Belief := [(0, { mean := sc 0, Sigma := sc 1, stamp := 0 })]

theorem h0_ok : Ok 1 h0 where
  strict := List.pairwise_singleton _ _
  bel := by
    intro e he
    simp only [h0, List.mem_singleton] at he
    subst he
    exact ⟨⟨rfl, rfl⟩, ⟨rfl, rfl⟩, sc_psd (by norm_num)⟩

/-- Predict from 0 to 5, observe 2 at 5, observe again with a gate. -/
noncomputable def cs : List KCall :=
  [.prop (sc 1) (sc 3) 0 5, .priv (sc 1) (sc 1) (sc 2) 5 { outlier := false }, .priv (sc 1) (sc 1) (sc 4) 5 {}]

example : Ok 1 h0 ∧ (∀ c ∈ cs, c.Fits 1) ∧ ∃ h' a, calls h0 cs = .ok (h', [true, true, a]) := by
  have hfit : ∀ c ∈ cs, c.Fits 1 := by
    intro c hc
    simp only [cs, List.mem_cons, List.not_mem_nil, or_false] at hc
    rcases hc with rfl | rfl | rfl
    · exact sc_psd (by norm_num)
    · refine ⟨by norm_num, sc_psd (by norm_num), ?_⟩
      exact (sc_pd (by norm_num)).add_posSemidef (Alg.smul_one_psd (by norm_num))
    · refine ⟨by norm_num, sc_psd (by norm_num), ?_⟩
      exact (sc_pd (by norm_num)).add_posSemidef (Alg.smul_one_psd (by norm_num))
  have hsome : ∀ (h h' : Buf Belief) (c : KCall), c.Fits 1 → Ok 1 h → call h c = .ok (h', true) →
      (∀ t, (beliefAt h t).isSome → (beliefAt h' t).isSome) := by
    intro h h' c hf ho hc t ht
    by_contra hn
    obtain ⟨hs, _⟩ := call_true ho c hf hc
    have hn' : estimates 1 h' t = none := by unfold estimates; simpa using hn
    have hy : (estimates 1 h t).isSome := by unfold estimates; simpa using ht
    generalize estimates 1 h' = f' at hs hn'
    cases hs <;> simp only [Function.update_apply] at * <;> split at hn' <;> simp_all
  obtain ⟨b0, hb0⟩ : ∃ b, beliefAt h0 0 = some b := ⟨_, rfl⟩
  obtain ⟨h1, e1⟩ := (c100_defined (m := 1) h0 h0_ok 0 b0 hb0).1 (sc 1) (sc 3) 5 rfl rfl rfl rfl
  obtain ⟨s1, o1⟩ := call_true h0_ok _ (hfit (.prop (sc 1) (sc 3) 0 5) (by simp [cs])) e1
  obtain ⟨b1, hb1⟩ : ∃ b, beliefAt h1 5 = some b := by
    have : (estimates 1 h1 5).isSome := by
      generalize estimates 1 h1 = f' at s1 ⊢
      cases s1; simp
    rw [← Option.isSome_iff_exists]; unfold estimates at this; simpa using this
  obtain ⟨⟨h2, a2, e2, t2⟩, _⟩ := (c100_defined (m := 1) h1 o1 5 b1 hb1).2.2 (sc 1) (sc 1) (sc 2) { outlier := false }
    rfl rfl rfl rfl rfl rfl (.inl rfl)
  rw [t2 rfl] at e2
  have f2 := hfit (.priv (sc 1) (sc 1) (sc 2) 5 { outlier := false }) (by simp [cs])
  obtain ⟨s2, o2⟩ := call_true o1 _ f2 e2
  obtain ⟨b2, hb2⟩ := Option.isSome_iff_exists.mp (hsome h1 h2 _ f2 o1 e2 5 (by rw [hb1]; rfl))
  obtain ⟨⟨h3, a3, e3, _⟩, _⟩ := (c100_defined (m := 1) h2 o2 5 b2 hb2).2.2 (sc 1) (sc 1) (sc 4) {}
    rfl rfl rfl rfl rfl rfl (.inr (.inr (by norm_num [round_eq])))
  refine ⟨h0_ok, hfit, h3, a3, ?_⟩
  simp only [cs, calls, e1, e2, e3, Res.bind_ok]

end MathExample

/-! ## C102 -/

/-- What C102 asks of a call through a measurement function: it has a defined answer. -/
def MeasFnAnswered (h : Buf Belief) (R z : Mat) (t : Int) (hf : HPriv) (cfg : Cfg) : Prop :=
  ∃ h' a, privIter h R z t hf cfg = .ok (h', a)

/-- C102 fails for every input: the covariance is read through a null pointer. -/
theorem c102_measurement_function_fails (h : Buf Belief) (R z : Mat) (t : Int) (hf : HPriv) (cfg : Cfg) :
    privIter h R z t hf cfg = .ub ∧ ¬ MeasFnAnswered h R z t hf cfg := by
  have : privIter h R z t hf cfg = .ub := by
    unfold privIter
    rfl
  refine ⟨this, ?_⟩
  rintro ⟨h', a, he⟩
  rw [this] at he
  simp at he

end SKF
end Ikf
