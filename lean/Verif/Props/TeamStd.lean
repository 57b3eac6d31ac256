import Verif.Props.TeamExamples
import Verif.Props.StdExamples

/-!
# A joint update of filters without buffers that throws after legal calls (C106)
-/

namespace Ikf
open Mat
namespace StdHdl.TeamEx
open Hdl.Example (s s_shape s_tr dim)
open Hdl.TeamEx (Joint2 corr2 joint2_entries stack2 side2 pa pb px)
open StdHdl

variable {g1 g2 g3 : ℕ → ℕ → ℝ} {h h' : StdHdl} {c : Central}

/-- The observation `u * x_p + v * x_q = 0` of two scalar filters, called on the first. -/
def ob (p q : ℕ) (u v ρ : ℝ) : StdEv := .joint p p q (s u) (s v) (s ρ) (s 0)

theorem wf {p q : ℕ} (hpq : p ≠ q) (u v ρ : ℝ) : Wf dim (ob p q u v ρ) := ⟨hpq, 1, Nat.one_pos, s_shape u, s_shape v⟩

/-- The call returns or throws depending on the posterior alone, if the measurement is the predicted one. -/
theorem eval (hr : StdView.Rel dim (view h) c) (hs : Srt h) {p q : ℕ} (hpq : p ≠ q) (hp : (h.find p).isSome) (hq : (h.find q).isSome) (ht : c.tm p = c.tm q) {u v ρ : ℝ}
    (hz : (u = 0 ∧ v = 0) ∨ ((c.mu p).e 0 0 = 0 ∧ (c.mu q).e 0 0 = 0)) :
    ∃ H S, SideBySide [(p, s u), (q, s v)] H ∧ StackedCov [(p, 1), (q, 1)] c.cov S ∧ ∃ res, correctionStep H (s ρ) (Mat.zero 1 1) (stabM S (1 / 10^12)) {} = .ok res ∧ res.rejected = false ∧
      res.Sapos = postM H (s ρ) (stabM S (1 / 10^12)) {} ∧ ObsShape H (s ρ) (Mat.zero 1 1) (stabM S (1 / 10^12)) 2 1 ∧
      (Psd res.Sapos → ∃ h', run g1 g2 g3 h (ob p q u v ρ) = .ok (h', true)) ∧ (¬ Psd res.Sapos → run g1 g2 g3 h (ob p q u v ρ) = .throws) := by
  obtain ⟨i, hi⟩ := Option.isSome_iff_exists.mp hp
  obtain ⟨j, hj⟩ := Option.isSome_iff_exists.mp hq
  obtain ⟨bI, hbI, a1, a2, a3, a4, a5, a6⟩ := Rel.stored hr hi
  obtain ⟨bJ, hbJ, b1, b2, b3, b4, b5, b6⟩ := Rel.stored hr hj
  have hst : bI.stamp = bJ.stamp := by rw [a3, b3, ht]
  obtain ⟨H, eH, hH, sH⟩ := horcat_side hpq g1 (s_shape u) (s_shape v) Nat.one_pos Nat.one_pos Nat.one_pos
  obtain ⟨x, ex, hx, sx⟩ := vertcat_mean hpq g2 a4 b4 (hr.pos p hp) (hr.pos q hq) a1 b1
  obtain ⟨S, eS, hS, sS⟩ := stackPrior_cov hpq hr g3 hp hq
  rw [← a2, ← b2] at eS
  have sz : (s 0).Shape 1 1 := s_shape 0
  obtain ⟨k1, k2, k3⟩ := side2 hpq hH
  have e0 : s 0 - H * x = Mat.zero 1 1 := by
    refine Mat.ext' rfl rfl ?_
    intro a b ha hb
    have h1 : a = 0 := by change a < 1 at ha; omega
    have h2 : b = 0 := by change b < 1 at hb; omega
    subst h1; subst h2
    have x1 := hx.2 (p, dim p) (by simp) 0 Nat.one_pos
    have x2 := hx.2 (q, dim q) (by simp) 0 Nat.one_pos
    have o1 : off [(p, dim p), (q, dim q)] p = 0 := by simp [off]
    have o2 : off [(p, dim p), (q, dim q)] q = 1 := by simp [off, hpq, dim]
    simp only [o1, o2, Nat.add_zero] at x1 x2
    rw [sub_e (s 0) (H * x) (by rw [mul_rows, sH.1]; rfl) (by rw [mul_cols, sx.2]; rfl), mul_e, sH.2]
    show (s 0).e 0 0 - ∑ k ∈ Finset.range 2, _ = _
    rw [Finset.sum_range_succ, Finset.sum_range_one, k2, k3, x1, x2]
    have z1 : (s 0).e 0 0 = 0 := rfl
    have z2 : (Mat.zero 1 1).e 0 0 = 0 := rfl
    rw [z1, z2]
    rcases hz with ⟨rfl, rfl⟩ | ⟨m1, m2⟩
    · ring
    · rw [m1, m2]; ring
  have hO : ObsShape H (s ρ) (Mat.zero 1 1) (stabM S (1 / 10^12)) 2 1 := ⟨sH, s_shape ρ, ⟨rfl, rfl⟩, sS.stabM _⟩
  have ec := correctionStep_zero hO (cfg := {}) GateOk.default
  refine ⟨H, S, hH, hS, _, ec, rfl, rfl, hO, ?_⟩
  have key : run g1 g2 g3 h (ob p q u v ρ) = (do
        let h' ← commit h p q bI.Sigma bJ.Sigma ⟨postM H (s ρ) (stabM S (1 / 10^12)) {}, gainM H (s ρ) (stabM S (1 / 10^12)) ({} : Cfg).eps * Mat.zero 1 1,
          updM H (s ρ) (stabM S (1 / 10^12)) ({} : Cfg).eps, false⟩
        .ok (h', true)) := by
    show joint g1 g2 g3 h p p q (s u) (s v) (s ρ) (s 0) = _
    unfold joint
    have x1 : expect ((h.find p).isSome = true ∧ (h.find q).isSome = true) = .ok () := by unfold expect; rw [if_pos ⟨hp, hq⟩]
    have x2 : expect (p = p) = .ok () := by unfold expect; rw [if_pos rfl]
    have x3 : expect (bI.stamp = bJ.stamp) = .ok () := by unfold expect; rw [if_pos hst]
    rw [x1, Res.bind_ok, x2, Res.bind_ok, get_ok hi, Res.bind_ok, get_ok hj, Res.bind_ok, StdInst.deref_ok hbI, Res.bind_ok, StdInst.deref_ok hbJ,
      Res.bind_ok, x3, Res.bind_ok, eH, Res.bind_ok, ex, Res.bind_ok, sH.mulC sx, Res.bind_ok, sz.subC (sH.mul sx), Res.bind_ok, eS, Res.bind_ok,
      stabilize_ok sS, Res.bind_ok, e0, ec, Res.bind_ok]
    rfl
  rw [key]
  constructor
  · intro hpsd
    obtain ⟨h1, A, B, e1, -⟩ := commit_spec (res := ⟨postM H (s ρ) (stabM S (1 / 10^12)) {}, gainM H (s ρ) (stabM S (1 / 10^12)) ({} : Cfg).eps * Mat.zero 1 1,
      updM H (s ρ) (stabM S (1 / 10^12)) ({} : Cfg).eps, false⟩) hpq hs hi hj hbI hbJ (hr.pos p hp) (hr.pos q hq) a4 b4 a5 b5
      (Rel.rows hr hs hi) (Rel.rows hr hs hj) (postM_shape hO {}) ((gainM_shape hO _).mul hO.r) hpsd
    rw [e1]
    exact ⟨h1, rfl⟩
  · intro hpsd
    rw [commit_throws (res := ⟨postM H (s ρ) (stabM S (1 / 10^12)) {}, gainM H (s ρ) (stabM S (1 / 10^12)) ({} : Cfg).eps * Mat.zero 1 1,
      updM H (s ρ) (stabM S (1 / 10^12)) ({} : Cfg).eps, false⟩) hpsd]
    rfl

theorem step2 (hr : StdView.Rel dim (view h) c) (hs : Srt h) {p q : ℕ} (hpq : p ≠ q) (hp : (h.find p).isSome) (hq : (h.find q).isSome) (ht : c.tm p = c.tm q) {u v ρ a b x : ℝ}
    (hz : (u = 0 ∧ v = 0) ∨ ((c.mu p).e 0 0 = 0 ∧ (c.mu q).e 0 0 = 0)) (ea : (c.cov p p).e 0 0 = a) (eb : (c.cov q q).e 0 0 = b)
    (ex : (c.cov p q).e 0 0 = x) (ha : 0 ≤ a) (hb : 0 ≤ b) (hab : x * x ≤ a * b) (hρ : 0 ≤ ρ) :
    ∃ h' c', run g1 g2 g3 h (ob p q u v ρ) = .ok (h', true) ∧ StdView.Rel dim (view h') c' ∧ Srt h' ∧ c'.tm = c.tm ∧ (∀ o, (h.find o).isSome → (h'.find o).isSome) ∧
      Joint2 c.cov c'.cov p q (1 / 10^16) (a + 1 / 10^12) (b + 1 / 10^12) x u v ρ := by
  have hsym : (c.cov q p).e 0 0 = (c.cov p q).e 0 0 := by rw [hr.symm p q hp hq, tr_e]
  obtain ⟨H, S, hH, hS, res, hc, hrj, hpo, hO, g, -⟩ := eval (g1 := g1) (g2 := g2) (g3 := g3) (ρ := ρ) hr hs hpq hp hq ht hz
  obtain ⟨q1, q2, -⟩ := corr2 hpq hH hS hc hrj hsym ea eb ex ha hb hab hρ (by norm_num) rfl rfl
  obtain ⟨h', e⟩ := g ⟨by rw [q2.1, q2.2], (q1.psd rfl).2⟩
  obtain ⟨⟨c', st, r'⟩, s'⟩ := accepted hr hs _ (wf hpq u v ρ) e
  have dom : ∀ o, (h.find o).isSome → (h'.find o).isSome := by
    intro o ho
    have h1 := (c54_increasing (Runs.step e (Runs.nil _)) o).2.2
    obtain ⟨i, hi⟩ := Option.isSome_iff_exists.mp ho
    obtain ⟨b, hb, -⟩ := Rel.stored hr hi
    have h2 : stamp h o = some b.stamp := by unfold stamp; rw [hi]; simp [hb]
    have h3 : (stamp h' o).isSome := by rw [h1, h2]; cases (times o [(ob p q u v ρ, true)]).getLast? <;> rfl
    unfold stamp at h3
    cases hf : h'.find o with
    | none => rw [hf] at h3; simp at h3
    | some i => rfl
  refine ⟨h', c', e, r', s', ?_⟩
  unfold ob at st
  cases st with
  | joint I J HI HJ R z H S m res ht hH hS hm hc hrj =>
    obtain ⟨-, -, q3⟩ := corr2 hpq hH hS hc hrj hsym ea eb ex ha hb hab hρ (by norm_num) rfl rfl
    exact ⟨rfl, dom, joint2_entries hpq (hr.covS p p hp hp) (hr.covS q q hq hq) q3⟩

/-- An observation with zero Jacobians adds the two regularisations to the prior. If that is not positive semidefinite, the call throws. -/
theorem throws2 (hr : StdView.Rel dim (view h) c) (hs : Srt h) {p q : ℕ} (hpq : p ≠ q) (hp : (h.find p).isSome) (hq : (h.find q).isSome) (ht : c.tm p = c.tm q) {ρ : ℝ} (x y : ℝ)
    (hneg : (c.cov p p).e 0 0 * (x * x) + 2 * ((c.cov p q).e 0 0 * (x * y)) + (c.cov q q).e 0 0 * (y * y) + (1 / 10^12 + 1 / 10^16) * (x * x + y * y) < 0) :
    run g1 g2 g3 h (ob p q 0 0 ρ) = .throws := by
  have hsym : (c.cov q p).e 0 0 = (c.cov p q).e 0 0 := by rw [hr.symm p q hp hq, tr_e]
  obtain ⟨H, S, hH, hS, res, hc, hrj, hpo, hO, -, g⟩ := eval (g1 := g1) (g2 := g2) (g3 := g3) (ρ := ρ) hr hs hpq hp hq ht (u := 0) (v := 0) (Or.inl ⟨rfl, rfl⟩)
  refine g fun hpsd => ?_
  obtain ⟨s1, s2, s3, s4, s5⟩ := stack2 hpq hS
  obtain ⟨k1, k2, k3⟩ := side2 hpq hH
  have hH0 : H.toM 1 2 = 0 := by
    ext i j
    simp only [toM_apply, Matrix.zero_apply]
    fin_cases i; fin_cases j
    · exact k2
    · exact k3
  have symS : (S.toM 2 2).transpose = S.toM 2 2 := by
    ext i j
    rw [Matrix.transpose_apply]
    simp only [toM_apply]
    fin_cases i <;> fin_cases j <;> simp [s3, s4, hsym]
  have eT := toM_stabM_symm s1 (1 / 10^12) symS
  have symT : ((stabM S (1 / 10^12)).toM 2 2).transpose = (stabM S (1 / 10^12)).toM 2 2 := by
    rw [eT, Matrix.transpose_add, symS, Matrix.transpose_smul, Matrix.transpose_one]
  set T := stabM S (1 / 10^12) with hT
  have hK : (gainM H (s ρ) T ({} : Cfg).eps).toM 2 1 = 0 := by
    unfold gainM
    rw [(hO.S.mul hO.H.tr).toM_mul 1, hO.S.toM_mul 1, toM_tr, hH0]
    simp
  have hU : (updM H (s ρ) T ({} : Cfg).eps).toM 2 2 = 1 := by
    unfold updM
    have h1 : (one T.rows).Shape 2 2 := by rw [hO.S.1]; exact Shape.one 2
    rw [h1.toM_sub ((gainM_shape hO _).mul hO.H), (gainM_shape hO _).toM_mul 2, hK, Matrix.zero_mul, sub_zero, hO.S.1, toM_one]
  have hP0 : (post0 H (s ρ) T {}).toM 2 2 = T.toM 2 2 := by
    unfold post0
    rw [if_pos rfl, (((updM_shape hO _).mul hO.S).mul (updM_shape hO _).tr).toM_add (((gainM_shape hO _).mul hO.R).mul (gainM_shape hO _).tr),
      ((updM_shape hO _).mul hO.S).toM_mul 2, (updM_shape hO _).toM_mul 2, toM_tr, hU, ((gainM_shape hO _).mul hO.R).toM_mul 2, (gainM_shape hO _).toM_mul 1, hK]
    simp
  have hP : res.Sapos.toM 2 2 = S.toM 2 2 + (1 / 10^12 : ℝ) • 1 + (1 / 10^16 : ℝ) • 1 := by
    have h1 := toM_stabM_symm (post0_shape hO {}) ({} : Cfg).eps (by rw [hP0]; exact symT)
    rw [hpo]
    unfold postM
    rw [if_pos rfl, toM_symM_symm ((post0_shape hO {}).stabM _) (by rw [h1, hP0, Matrix.transpose_add, symT, Matrix.transpose_smul, Matrix.transpose_one]), h1, hP0, eT]
  have hshape : res.Sapos.Shape 2 2 := by rw [hpo]; exact postM_shape hO {}
  obtain ⟨-, hps⟩ := hpsd
  rw [hshape.1, hP] at hps
  have := hps.dotProduct_mulVec_nonneg ![x, y]
  have f1 : (0 : Fin 2) ≠ 1 := by decide
  have f2 : (1 : Fin 2) ≠ 0 := by decide
  simp only [star_trivial, Matrix.add_apply, Matrix.smul_apply, Matrix.one_apply, if_true, if_neg f1, if_neg f2, dotProduct, Matrix.mulVec, Fin.sum_univ_two, toM_apply, Pi.add_apply, Pi.smul_apply,
    Matrix.cons_val_zero, Matrix.cons_val_one, smul_eq_mul, Fin.val_zero, Fin.val_one, s2, s3, s4, s5, hsym] at this
  nlinarith

/-- Mean 0, variance 1, time 0. -/
def b1 : Belief := { mean := s 0, Sigma := s 1, stamp := 0 }

/-- Three fresh filters. -/
noncomputable def h3 : StdHdl := [(1, ⟨some b1, []⟩), (2, ⟨some b1, []⟩), (3, ⟨some b1, []⟩)]

theorem init3 : Init dim h3 Hdl.TeamEx.c3 where
  sorted := by simp [h3, SMap.Sorted]
  inst := by
    intro p i hi
    have : i = ⟨some b1, []⟩ := by
      simp only [h3, SMap.find] at hi
      split at hi
      · exact (Option.some.inj hi).symm
      · split at hi
        · exact (Option.some.inj hi).symm
        · split at hi
          · exact (Option.some.inj hi).symm
          · simp at hi
    exact ⟨b1, this, Nat.one_pos, ⟨rfl, rfl⟩, ⟨rfl, rfl⟩, s_tr 1, rfl, by simp [Hdl.TeamEx.c3, b1], rfl⟩
  uncorrelated := by intro p q hpq; simp [Hdl.TeamEx.c3, hpq]; rfl

/-- Three filters of one state each, fresh, with mean 0 and variance 1. All four calls are joint updates with fitting matrices, noise that is a
covariance, filters at the same time and the predicted measurement. The first (of 1 and 3) correlates the two fully, the next two (of 1 and 2)
observe nothing; each is accepted. The last (of 1 and 3, observing nothing) throws. -/
theorem c106_std_throws_fails (g1 g2 g3 : ℕ → ℕ → ℝ) : ∃ l h', Runs g1 g2 g3 h3 l h' ∧ (∀ x ∈ l, x.2 = true) ∧
    l.map (·.1) = [ob 1 3 2 (-1) 0, ob 1 2 0 0 1, ob 1 2 0 0 1] ∧ run g1 g2 g3 h' (ob 1 3 0 0 1) = .throws := by
  have hp3 : ∀ p, p = 1 ∨ p = 2 ∨ p = 3 → (h3.find p).isSome := by
    intro p hp
    rcases hp with rfl | rfl | rfl <;> simp [h3, SMap.find]
  have z : ∀ p q, p ≠ q → (Hdl.TeamEx.c3.cov p q).e 0 0 = 0 := fun p q h => by simp only [Hdl.TeamEx.c3]; rw [if_neg h]; rfl
  have o : ∀ p, (Hdl.TeamEx.c3.cov p p).e 0 0 = 1 := fun p => by simp only [Hdl.TeamEx.c3]; rw [if_pos trivial]; rfl
  obtain ⟨h1, c1, e1, r1, s1, t1, d1, j1⟩ := step2 (g1 := g1) (g2 := g2) (g3 := g3) (u := 2) (v := -1) (ρ := 0) init3.rel init3.srt (p := 1) (q := 3) (by norm_num) (hp3 1 (by simp)) (hp3 3 (by simp)) rfl
    (Or.inr ⟨rfl, rfl⟩) (o 1) (o 3) (z 1 3 (by norm_num)) (by norm_num) (by norm_num) (by norm_num) (by norm_num)
  have p1 : ∀ p, p = 1 ∨ p = 2 ∨ p = 3 → (h1.find p).isSome := fun p hp => d1 p (hp3 p hp)
  have a11 := j1.pp
  have a12 := j1.left 2 (by norm_num) (by norm_num)
  have a22 : (c1.cov 2 2).e 0 0 = 1 := by rw [j1.rest 2 2 (by norm_num) (by norm_num) (by norm_num) (by norm_num)]; exact o 2
  rw [z 1 2 (by norm_num), mul_zero] at a12
  have u11 : 0 < (c1.cov 1 1).e 0 0 := by rw [a11]; norm_num [pa]
  obtain ⟨h2, c2, e2, r2, s2, t2, d2, j2⟩ := step2 (g1 := g1) (g2 := g2) (g3 := g3) (u := 0) (v := 0) (ρ := 1) r1 s1 (p := 1) (q := 2) (by norm_num) (p1 1 (by simp)) (p1 2 (by simp)) (by rw [t1]; rfl)
    (Or.inl ⟨rfl, rfl⟩) rfl a22 a12 u11.le (by norm_num) (by linarith) (by norm_num)
  have p2 : ∀ p, p = 1 ∨ p = 2 ∨ p = 3 → (h2.find p).isSome := fun p hp => d2 p (p1 p hp)
  have b11 : (c2.cov 1 1).e 0 0 = (c1.cov 1 1).e 0 0 + (1 / 10^12 + 1 / 10^16) := by rw [j2.pp]; simp [pa]; ring
  have b22 : (c2.cov 2 2).e 0 0 = 1 + (1 / 10^12 + 1 / 10^16) := by rw [j2.qq]; simp [pb]; ring
  have b12 : (c2.cov 1 2).e 0 0 = 0 := by rw [j2.pq]; simp [px]
  have b13 := j2.left 3 (by norm_num) (by norm_num)
  rw [← j2.pp] at b13
  have b33 : (c2.cov 3 3).e 0 0 = (c1.cov 3 3).e 0 0 := by rw [j2.rest 3 3 (by norm_num) (by norm_num) (by norm_num) (by norm_num)]
  have v11 : 0 < (c2.cov 1 1).e 0 0 := by rw [b11]; positivity
  obtain ⟨h4, c4, e4, r4, s4, t4, d4, j4⟩ := step2 (g1 := g1) (g2 := g2) (g3 := g3) (u := 0) (v := 0) (ρ := 1) r2 s2 (p := 1) (q := 2) (by norm_num) (p2 1 (by simp)) (p2 2 (by simp)) (by rw [t2, t1]; rfl)
    (Or.inl ⟨rfl, rfl⟩) rfl b22 b12 v11.le (by norm_num) (by nlinarith) (by norm_num)
  have p4 : ∀ p, p = 1 ∨ p = 2 ∨ p = 3 → (h4.find p).isSome := fun p hp => d4 p (p2 p hp)
  have f11 : (c4.cov 1 1).e 0 0 = (c2.cov 1 1).e 0 0 + (1 / 10^12 + 1 / 10^16) := by rw [j4.pp]; simp [pa]; ring
  have f13 := j4.left 3 (by norm_num) (by norm_num)
  rw [← j4.pp] at f13
  have f33 : (c4.cov 3 3).e 0 0 = (c2.cov 3 3).e 0 0 := by rw [j4.rest 3 3 (by norm_num) (by norm_num) (by norm_num) (by norm_num)]
  refine ⟨[(_, true), (_, true), (_, true)], h4, Runs.step e1 (Runs.step e2 (Runs.step e4 (Runs.nil _))), by simp, rfl, ?_⟩
  refine throws2 r4 s4 (by norm_num) (p4 1 (by simp)) (p4 3 (by simp)) (by rw [t4, t2, t1]; rfl) (-2) 1 ?_
  have g13 : (c4.cov 1 3).e 0 0 = (c4.cov 1 1).e 0 0 / (c1.cov 1 1).e 0 0 * (c1.cov 1 3).e 0 0 := by
    rw [f13, b13]
    field_simp
  rw [g13, f33, b33, f11, b11, j1.pp, j1.pq, j1.qq]
  norm_num [pa, pb, px]

end StdHdl.TeamEx
end Ikf
