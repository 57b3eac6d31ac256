import Verif.Lemmas.GaussNewton
import Verif.Props.IteratedExamples

/-! # The iterated joint observation is the iterated extended Kalman filter (C82)

Any measurement function, any Jacobian of the state error, any number of iterations, in any history. -/

namespace Ikf
open Mat
namespace Hdl

section
variable {pj : Belief → Mat → Mat} {hf : SMap Belief → List ℕ → Mat → SMap Mat × Mat} {ids : List ℕ} {z R S x0 : Mat} {d : SMap Belief} {cfg : Cfg}
  {near : Mat → Mat}

theorem cov_eq_post0 {g : GN} {q : GN.Pt} {k : ℕ} (hs : g.Step cfg k q) (hP : q.P.Shape (tot g.bs) (tot g.bs)) :
    g.cov cfg q = post0 q.H g.R q.P cfg := by
  unfold GN.cov post0
  have hK : q.K = gainM q.H g.R q.P cfg.eps := hs.K
  have hU : one (tot g.bs) - q.K * q.H = updM q.H g.R q.P cfg.eps := by unfold updM; rw [hP.1, hK]
  rw [hU, hK]

theorem step_shapes {g : GN} {q : GN.Pt} {k : ℕ} (hs : g.Step cfg k q) :
    q.J.Shape (tot g.bs) (tot g.bs) ∧ q.P.Shape (tot g.bs) (tot g.bs) ∧ ObsShape q.H g.R q.r q.P (tot g.bs) q.H.rows := by
  have hJ : q.J.Shape (tot g.bs) (tot g.bs) := by
    by_cases h : k = 0
    · rw [hs.J0 h]; exact Shape.one _
    · exact (hs.J1 (by omega)).1
  obtain ⟨r0, -, hO, hr⟩ := hs.res
  have hP : q.P.Shape (tot g.bs) (tot g.bs) := by rw [hs.P]; exact (hJ.mul hO.S).mul hJ.tr
  exact ⟨hJ, hP, hO.H, hO.R, by rw [hr]; exact hO.r.add, hP⟩

theorem post0_symm {H R S r : Mat} {n m : ℕ} (h : ObsShape H R r S n m) (hS : S.tr = S) (hR : R.tr = R) : (post0 H R S cfg).tr = post0 H R S cfg := by
  have h1 := loopPost_eq h hS { cfg with stab := false } (Or.inr hR)
  have hp : post0 H R S { cfg with stab := false } = post0 H R S cfg := rfl
  unfold loopPost postM at h1
  simp only [Bool.false_eq_true, if_false] at h1
  rw [hp] at h1
  rw [h1]
  exact symM_tr (post0_shape h cfg)

theorem sandwich_symm {L P : Mat} (hP : P.tr = P) : (L * P * L.tr).tr = L * P * L.tr := by
  rw [tr_mul, tr_mul, tr_tr, hP, Mat.mul_assoc]

/-- The covariance behind the loop. -/
theorem iterPost_out (hd : d.Sorted) (hm : MeanOk d) (hx0 : stackMean d = .ok x0) (hs0 : x0.Shape (getDim d) 1) (hSs : S.tr = S)
    (hc : cfg.stab = true ∨ R.tr = R) {N iter : ℕ} {q : ℕ → GN.Pt} (hr : (userProblem pj hf ids z d x0 S R).Run cfg N q)
    (hs : (userProblem pj hf ids z d x0 S R).Step cfg N (q N)) (hp : (userProblem pj hf ids z d x0 S R).Passes cfg (q N))
    (hx : (q N).x.Shape (getDim d) 1) (hdx : (q N).dx.Shape (getDim d) 1)
    (hi : (iter = N + 1 ∧ N + 1 = cfg.numIter ∧ ¬ (0 < N ∧ GN.Small cfg (q N))) ∨ (iter = N ∧ N + 1 ≤ cfg.numIter ∧ 0 < N ∧ GN.Small cfg (q N)))
    {Pf : Mat} (ho : iterPost near pj R d cfg iter ⟨unfixed (moved d ((q N).x + (q N).dx)), (q N).H, (q N).K, (q N).J, (q N).P, (q N).r⟩ = .ok Pf) :
    ∃ P, Pf = fixPsd near P ∧ P.Shape (getDim d) (getDim d) ∧ P.tr = P ∧
      (userProblem pj hf ids z d x0 S R).Ends cfg N q ((q N).x + (q N).dx) P := by
  have hdim : tot (userProblem pj hf ids z d x0 S R).bs = getDim d := (getDim_eq d).symm
  obtain ⟨hJ, hP, hO⟩ := step_shapes hs
  have hcov := cov_eq_post0 hs hP
  have hstop : N + 1 = cfg.numIter ∨ (N + 1 < cfg.numIter ∧ 0 < N ∧ GN.Small cfg (q N)) := by
    rcases hi with ⟨-, h, -⟩ | ⟨-, h, h1, h2⟩
    · exact Or.inl h
    · by_cases he : N + 1 = cfg.numIter
      · exact Or.inl he
      · exact Or.inr ⟨by omega, h1, h2⟩
  have hproj : 1 < iter ↔ (2 ≤ N ∨ (N = 1 ∧ ¬ GN.Small cfg (q N))) := by
    rcases hi with ⟨rfl, -, h⟩ | ⟨rfl, -, h1, h2⟩
    · constructor
      · intro h0
        by_cases h2 : 2 ≤ N
        · exact Or.inl h2
        · exact Or.inr ⟨by omega, fun hsm => h ⟨by omega, hsm⟩⟩
      · rintro (h0 | ⟨h0, -⟩) <;> omega
    · constructor
      · intro h0; exact Or.inl h0
      · rintro (h0 | ⟨-, h0⟩)
        · exact h0
        · exact absurd h2 h0
  rw [hdim] at hJ hP hO
  change ObsShape (q N).H R (q N).r (q N).P (getDim d) (q N).H.rows at hO
  have hK : (q N).K = gainM (q N).H R (q N).P cfg.eps := hs.K
  have hPs : (q N).P.tr = (q N).P := by rw [hs.P]; exact sandwich_symm hSs
  set P0 := post0 (q N).H R (q N).P cfg with hP0
  have hP0s : P0.Shape (getDim d) (getDim d) := post0_shape hO cfg
  have hcov' : (userProblem pj hf ids z d x0 S R).cov cfg (q N) = P0 := hcov
  have hKs := gainM_shape hO cfg.eps
  have hUs := updM_shape hO cfg.eps
  unfold iterPost at ho
  dsimp only at ho
  rw [hK] at ho
  rw [hKs.mulC hO.H, Res.bind_ok, (Shape.one (getDim d)).subC (hKs.mul hO.H), Res.bind_ok] at ho
  have hu : one (getDim d) - gainM (q N).H R (q N).P cfg.eps * (q N).H = updM (q N).H R (q N).P cfg.eps := by unfold updM; rw [hP.1]
  rw [hu] at ho
  have hp0 : (if cfg.joseph = true then do
        let x ← updM (q N).H R (q N).P cfg.eps *! (q N).P
        let y ← x *! (updM (q N).H R (q N).P cfg.eps).tr
        let v ← gainM (q N).H R (q N).P cfg.eps *! R
        let w ← v *! (gainM (q N).H R (q N).P cfg.eps).tr
        y +! w
      else updM (q N).H R (q N).P cfg.eps *! (q N).P) = .ok P0 := by
    rw [hP0]
    unfold post0
    split
    · rw [hUs.mulC hP, Res.bind_ok, (hUs.mul hP).mulC hUs.tr, Res.bind_ok, hKs.mulC hO.R, Res.bind_ok,
        (hKs.mul hO.R).mulC hKs.tr, Res.bind_ok, ((hUs.mul hP).mul hUs.tr).addC ((hKs.mul hO.R).mul hKs.tr)]
    · rw [hUs.mulC hP]
  rw [hp0, Res.bind_ok] at ho
  obtain ⟨Q, hQ, ho⟩ := bind_eq_ok ho
  have hxf : ((q N).x + (q N).dx).Shape (getDim d) 1 := hx.add
  have key : Q.Shape (getDim d) (getDim d) ∧ (R.tr = R → Q.tr = Q) ∧
      ((2 ≤ N ∨ (N = 1 ∧ ¬ GN.Small cfg (q N))) → ∃ L, (userProblem pj hf ids z d x0 S R).ErrJac ((q N).x + (q N).dx) L ∧ Q = L * P0 * L.tr) ∧
      (¬ (2 ≤ N ∨ (N = 1 ∧ ¬ GN.Small cfg (q N))) → Q = P0) := by
    unfold project at hQ
    by_cases h1 : 1 < iter
    · rw [if_pos h1, stateError_moved hd hm hx0 hs0 hxf, Res.bind_ok] at hQ
      obtain ⟨L, hL, hQ⟩ := bind_eq_ok hQ
      have hbd := stateJac_moved hd hL
      have hLs : L.Shape (getDim d) (getDim d) := by have := hbd.1; rw [← getDim_eq] at this; exact this
      rw [hLs.mulC hP0s, Res.bind_ok, (hLs.mul hP0s).mulC hLs.tr] at hQ
      obtain rfl := Res.ok.inj hQ
      exact ⟨(hLs.mul hP0s).mul hLs.tr, fun hR => sandwich_symm (post0_symm hO hPs hR), fun _ => ⟨L, hbd, rfl⟩, fun h => absurd (hproj.mp h1) h⟩
    · rw [if_neg h1] at hQ
      obtain rfl := Res.ok.inj hQ
      exact ⟨hP0s, fun hR => post0_symm hO hPs hR, fun h => absurd (hproj.mpr h) h1, fun _ => rfl⟩
  obtain ⟨hQs, hQt, hQ1, hQ2⟩ := key
  refine ⟨if cfg.stab then stabM Q cfg.eps else Q, ?_, ?_, ?_, ?_⟩
  · by_cases hst : cfg.stab = true
    · rw [if_pos hst, stabilize_ok hQs, Res.bind_ok] at ho
      rw [if_pos hst]; exact (Res.ok.inj ho).symm
    · rw [if_neg hst, Res.bind_ok] at ho
      rw [if_neg hst]; exact (Res.ok.inj ho).symm
  · split
    · exact hQs.stabM _
    · exact hQs
  · split
    · exact stabM_tr hQs _
    · rename_i hst; exact hQt (hc.resolve_left hst)
  · refine ⟨hr, hs, hp, hstop, rfl, Q, ?_, ?_, rfl⟩
    · rw [hcov']; exact hQ1
    · rw [hcov']; exact hQ2

/-- The answer as a status of the library. -/
def iterStatus : IterAns → Status
  | .processed => .processed
  | .rejected => .rejected
  | .misfit => .discarded

theorem splitRightUpper_nil {P : Mat} {t : Int} {h : Hdl} (h0 : unfixed d = []) : splitRightUpper P d t h = .throws := by
  unfold splitRightUpper
  rw [h0]; rfl

/-- C82: in any state that stands for the centralised state `c`, for every measurement function, `plus_jacobian`, noise, measurement and
configuration with at least one iteration: whatever the iterated observation returns, the centralised iterated extended Kalman filter
returns, and the filters stand for its state afterwards. -/
theorem c82_iterated_step {pred : ℕ → Inst → Int → Inst × Bool} {dim : ℕ → ℕ} {h h' : Hdl} {c : Central} {t : Int} {st : Status} {res : Mat}
    (hnear : NearOk near) (hr : Rel dim h c) (hids : ids.Pairwise (· < ·)) (hne : ids ≠ []) (hN : ∀ p ∈ ids, Newest h p t)
    (hsort : ∀ b, (hf b ids z).1.Sorted) (hn : 1 ≤ cfg.numIter) (hc : cfg.stab = true ∨ R.tr = R)
    (hs : applyObsI near pj pred hf h R z t ids cfg = .ok (h', st, res)) :
    ∃ a c', iterStatus a = st ∧ SpecIter dim near pj c hf R z ids cfg a res c' ∧ Rel dim h' c' := by
  set dH : SMap Mat := ids.map (fun p => (p, Mat.empty)) with hdH
  have hkeys : dH.keys = ids := by rw [hdH]; unfold SMap.keys; rw [List.map_map]; exact List.map_id ids
  have hp : Parts dim h c dH t := by
    refine ⟨(SMap.sorted_iff_keys dH).mpr (by rw [hkeys]; exact hids), ?_, ?_⟩
    · intro p hpm; rw [hkeys] at hpm; exact ((hN p hpm).rel hr).1
    · intro p hpm; rw [hkeys] at hpm; exact ((hN p hpm).rel hr).2
  have hD := getDictBel_rel pred hr hp
  rw [hkeys] at hD
  have hds := dict_sorted (h := h) hp
  obtain ⟨S0, hS0, hSC⟩ := stackSigma_spec (dict h dH t) hds (covOf hr hp)
  have hmem : ∀ e ∈ dict h dH t, _ := fun e he => mem_dict hr hp he
  have hm : MeanOk (dict h dH t) := fun e he => (hmem e (mem_unfixed.mp he).1).2.2.2.2.2.2.2.2.2.1
  obtain ⟨x0, hx0, hSM⟩ := stackMean_spec (dict h dH t) hds c.mu (fun e he => (hmem e (mem_unfixed.mp he).1).2.2.2.2.1) hm
  have hkd : (dict h dH t).map (·.1) = ids := by
    unfold dict
    rw [List.map_map]
    show (List.map _ dH.keys) = ids
    rw [hkeys]
    exact List.map_id ids
  have hshow : Shows dim c ids (dict h dH t) := ⟨hkd, fun e he => by
    have := hmem e he
    exact ⟨this.2.2.2.2.1, this.2.2.2.2.2.1, by rw [this.2.2.2.2.2.2.1, this.2.2.1], this.2.2.2.2.2.2.2.1, this.2.2.2.2.2.2.2.2.1⟩⟩
  have hdne : dict h dH t ≠ [] := by
    intro h0
    rw [h0] at hkd
    exact hne hkd.symm
  have hpe := participants_eq hr hp
  have hcom := fun (hne : participants dim c dH ≠ []) (P dx : Mat) h1 h2 h3 => commit_rel (P := P) (dx := dx) hr hp hne h1 h2 h3
  rw [hpe] at hcom
  have hreg := getDictBel_reg hD
  generalize dict h dH t = d at *
  have hs0 : x0.Shape (getDim d) 1 := by have := hSM.1; rw [← getDim_eq] at this; exact this
  have hSs := (stackSigma_shape hS0).stabM (1 / 10^12)
  have hSt := stabM_tr (stackSigma_shape hS0) (1 / 10^12)
  rw [applyObsI_eq hD hdne hm hS0] at hs
  obtain ⟨o, ho, hs⟩ := bind_eq_ok hs
  obtain ⟨lo, hlo, ho⟩ := bind_eq_ok ho
  obtain ⟨n, hn1⟩ : ∃ n, cfg.numIter = n + 1 := ⟨cfg.numIter - 1, by omega⟩
  rw [hn1] at hlo
  set S := stabM S0 (1 / 10^12) with hSdef
  have hspec := iterLoop_out (x0 := x0) hds hm hx0 hs0 hSs hsort n 0 (fun _ => ⟨x0, x0, x0, x0, x0, x0, x0⟩) _ lo (by omega)
    ⟨rfl, fun k hk => by omega, fun k hk => by omega, fun k hk => by omega, fun k hk => by omega⟩ hs0
    (by dsimp only; rw [moved_self hds hm hx0]) (fun _ => rfl) hlo
  cases hspec with
  | fin N q iter a1 a2 a3 a4 a5 a6 =>
    dsimp only at ho
    obtain ⟨Pf, hPf, ho⟩ := bind_eq_ok ho
    obtain ⟨P, rfl, p2, p3, p4⟩ := iterPost_out hds hm hx0 hs0 hSt hc a1 a2 a3 a4 a5 a6 hPf
    obtain ⟨y, hy, ho⟩ := bind_eq_ok ho
    obtain rfl := Res.ok.inj ho
    unfold finishObs at hs
    dsimp only at hs
    rw [if_pos rfl] at hs
    obtain ⟨h2, hcm, hs⟩ := bind_eq_ok hs
    obtain ⟨e1, e2⟩ := Prod.mk.inj (Res.ok.inj hs)
    obtain ⟨e2, e3⟩ := Prod.mk.inj e2
    subst e1 e2 e3
    have hxf : ((q N).x + (q N).dx).Shape (getDim d) 1 := a4.add
    have hdxs : ((q N).x + (q N).dx - x0).Shape (getDim d) 1 := hxf.sub
    have hbp : boxplusAll ((q N).x + (q N).dx - x0) (unfixed d) 0 = .ok (unfixed (moved d ((q N).x + (q N).dx))) := by
      have := boxplusAll_moved hds hs0 hdxs
      rw [moved_self hds hm hx0, add_sub_self' hs0 hxf] at this
      exact this
    have hcs := commit_setMeans (P := fixPsd near P) (t := t) (sameBut_moved d ((q N).x + (q N).dx)) hds hr.ok.sorted hreg hdxs hbp hm
    rw [hy, Res.bind_ok, hcm] at hcs
    have hune : bdims (unfixed d) ≠ [] := by
      intro h0
      have hu0 : unfixed d = [] := by
        cases hu : unfixed d with
        | nil => rfl
        | cons a b => rw [hu] at h0; cases h0
      unfold commit at hcs
      cases hac : applyCorrections (fixPsd near P) t d 0 h with
      | ok a => rw [hac, Res.bind_ok, splitRightUpper_nil hu0] at hcs; cases hcs
      | throws => rw [hac] at hcs; cases hcs
      | ub => rw [hac] at hcs; cases hcs
    obtain ⟨f1, f2⟩ := fixPsd_facts hnear p2 p3
    obtain ⟨h3, c1, c2⟩ := hcom hune (fixPsd near P) ((q N).x + (q N).dx - x0) (by rw [← getDim_eq]; exact f1) f2 (by rw [← getDim_eq]; exact hdxs)
    rw [c1] at hcs
    obtain rfl := Res.ok.inj hcs
    exact ⟨.processed, _, rfl, SpecIter.ends d x0 S0 N q _ P hshow hSM hSC p4, c2⟩
  | rej N q hrej =>
    obtain rfl := Res.ok.inj ho
    obtain ⟨e1, e2⟩ := Prod.mk.inj (Res.ok.inj hs)
    obtain ⟨e2, e3⟩ := Prod.mk.inj e2
    simp only at e1 e2 e3
    subst e1 e2 e3
    exact ⟨.rejected, c, rfl, SpecIter.rejects d x0 S0 N q hshow hSM hSC hrej, hr⟩
  | misfit N q hmis =>
    obtain rfl := Res.ok.inj ho
    obtain ⟨e1, e2⟩ := Prod.mk.inj (Res.ok.inj hs)
    obtain ⟨e2, e3⟩ := Prod.mk.inj e2
    simp only at e1 e2 e3
    subst e1 e2 e3
    exact ⟨.misfit, c, rfl, SpecIter.misfits d x0 S0 N q hshow hSM hSC hmis, hr⟩

/-! ## Progress -/

/-- Linearised anywhere, the user's function returns a residual with `m` rows and, fixed participants aside, one Jacobian per
participant, with `m` rows and as many columns as the participant has states. -/
def FunFits (hf : SMap Belief → List ℕ → Mat → SMap Mat × Mat) (ids : List ℕ) (z : Mat) (m : ℕ) (d : SMap Belief) : Prop :=
  ∀ x, (hf (moved d x) ids z).2.Shape m 1 ∧
    ((hf (moved d x) ids z).1.filter fun e => !d.any fun b => b.1 == e.1 && b.2.fixed).map (fun e => (e.1, e.2.cols)) =
      (d.filter fun e => !e.2.fixed).map (fun e => (e.1, e.2.dim)) ∧
    ∀ e ∈ (hf (moved d x) ids z).1, e.2.rows = m

theorem stateJac_ok {ex : Mat} {n : ℕ} (hpj : ∀ b v, (pj b v).Shape b.dim b.dim) (hex : ex.Shape n 1) (x : SMap Belief) {row : ℕ} {J : Mat}
    (hn : row + getDim x ≤ n) (hJ : J.Shape n n) : ∃ J', stateJac pj ex x row J = .ok J' := by
  induction x generalizing row J with
  | nil => exact ⟨J, rfl⟩
  | cons e r ih =>
    rw [getDim_cons] at hn
    rw [stateJac]
    by_cases hf : e.2.fixed = true
    · simp only [hf, Bool.not_true, Bool.false_eq_true, if_false] at hn ⊢
      exact ih (by omega) hJ
    · have hf' : e.2.fixed = false := by simpa using hf
      simp only [hf', Bool.not_false, if_true] at hn ⊢
      have hp := hpj e.2 (smul (-1) (ex.block row 0 e.2.dim 1))
      rw [blockC_ok (by rw [hex.1]; omega) (by rw [hex.2]), Res.bind_ok,
        setBlockC_ok (A := J) (i := row) (j := row) (r := e.2.dim) (c := e.2.dim) (by rw [hJ.1]; omega) (by rw [hJ.2]; omega) hp.1 hp.2, Res.bind_ok]
      exact ih (by omega) hJ

theorem stackH_fits {m : ℕ} (hfit : FunFits hf ids z m d) (hpos : unfixed d ≠ []) (x : Mat) :
    ∃ H, stackH (eraseFixed d (hf (moved d x) ids z).1) = .ok H ∧ H.Shape m (getDim d) := by
  rw [eraseFixed_eq]
  obtain ⟨h1, h2, h3⟩ := hfit x
  have hne : ((hf (moved d x) ids z).1.filter fun e => !d.any fun b => b.1 == e.1 && b.2.fixed) ≠ [] := by
    intro h0
    rw [h0] at h2
    have : (unfixed d).map (fun e => (e.1, e.2.dim)) = [] := h2.symm
    exact hpos (List.map_eq_nil_iff.mp this)
  obtain ⟨H, g1, g2⟩ := stackH_ok _ m (fun e he => h3 e (List.mem_filter.mp he).1) hne
  refine ⟨H, g1, ?_⟩
  rw [getDim_eq]
  rw [show hcols _ = bdims (unfixed d) from h2] at g2
  exact g2

theorem iterBody_ok {m : ℕ} (hpj : ∀ b v, (pj b v).Shape b.dim b.dim) (hfit : FunFits hf ids z m d) (hpos : unfixed d ≠ []) (hR : R.Shape m m)
    (hg : GateOk cfg) (hd : d.Sorted) (hm : MeanOk d) (hx0 : stackMean d = .ok x0) (hs0 : x0.Shape (getDim d) 1) (hS : S.Shape (getDim d) (getDim d))
    {k : ℕ} {x : Mat} (hx : x.Shape (getDim d) 1) {s : It} (hsx : s.x = unfixed (moved d x)) (hsJ : k = 0 → s.J = one (getDim d)) :
    ∃ o, iterBody pj hf ids z R d S cfg k s = .ok o ∧ (∀ r, o ≠ .ret .discarded r) ∧ (cfg.outlier = false → ∃ s1 dx, o = .next s1 dx) := by
  obtain ⟨H, hH, hHs⟩ := stackH_fits hfit hpos x
  have hr0 := (hfit x).1
  have hO : ObsShape H R (hf (moved d x) ids z).2 S (getDim d) m := ⟨hHs, hR, hr0, hS⟩
  unfold iterBody
  dsimp only
  rw [hsx, fullBel_eq (sameBut_moved d x) hd, hH, Res.bind_ok, if_pos hO.check]
  have key : ∃ e J r, relinearise pj d k s H (hf (moved d x) ids z).2 = .ok (e, J, r) ∧ e.Shape (getDim d) 1 ∧ J.Shape (getDim d) (getDim d) ∧ r.Shape m 1 := by
    unfold relinearise
    by_cases hk0 : 0 < k
    · have hex : (x - x0).Shape (getDim d) 1 := hx.sub
      obtain ⟨J, hJ⟩ := stateJac_ok (pj := pj) hpj hex (unfixed (moved d x)) (row := 0) (J := one (getDim d))
        (by rw [getDim_unfixed, getDim_moved]; omega) (Shape.one _)
      have hJs : J.Shape (getDim d) (getDim d) := by have := (stateJac_moved hd hJ).1; rw [← getDim_eq] at this; exact this
      refine ⟨x - x0, J, _, ?_, hex, hJs, hr0.add (B := H * (J * (x - x0)))⟩
      rw [if_pos hk0, hsx, stateError_moved hd hm hx0 hs0 hx, Res.bind_ok, hJ, Res.bind_ok, hJs.mulC hex, Res.bind_ok,
        hHs.mulC (hJs.mul hex), Res.bind_ok, hr0.addC (hHs.mul (hJs.mul hex)), Res.bind_ok]
    · refine ⟨_, _, _, if_neg hk0, ⟨rfl, rfl⟩, ?_, hr0⟩
      rw [hsJ (by omega)]; exact Shape.one _
  obtain ⟨e, J, r, hq, he, hJ, hr⟩ := key
  rw [hq, Res.bind_ok]
  dsimp only
  have hO' : ObsShape H R r S (getDim d) m := ⟨hHs, hR, hr, hS⟩
  have hP : (J * S * J.tr).Shape (getDim d) (getDim d) := (hJ.mul hS).mul hJ.tr
  have hOP : ObsShape H R r (J * S * J.tr) (getDim d) m := ⟨hHs, hR, hr, hP⟩
  rw [iterCorrect_jac hO' he hJ]
  have hdx : (gainM H R (J * S * J.tr) cfg.eps * r - J * e).Shape (getDim d) 1 := ((gainM_shape hOP cfg.eps).mul hr).sub
  have hgate : ∃ b, gate (innov H R (J * S * J.tr) cfg.eps) r cfg = .ok b ∧ (cfg.outlier = false → b = true) := by
    unfold gate
    cases ho : cfg.outlier with
    | false => exact ⟨true, by simp, fun _ => rfl⟩
    | true =>
      have hg' : cfg.conf ≤ 0 ∨ ∃ row, nisTable.lookup (round (cfg.conf * 1000)) = some row := by
        rcases hg with hg | hg
        · rw [hg] at ho; simp at ho
        · exact hg
      obtain ⟨b, hb⟩ := checkNIS_ok (innov_shape hOP cfg.eps) hr hg'
      exact ⟨b, by rw [if_pos rfl]; exact hb, fun h => by cases h⟩
  obtain ⟨b, hb, hb1⟩ := hgate
  rw [hb, Res.bind_ok]
  cases b with
  | true =>
    rw [if_pos rfl, boxplusAll_moved hd hx hdx, Res.bind_ok]
    exact ⟨_, rfl, fun _ h => (by cases h), fun _ => ⟨_, _, rfl⟩⟩
  | false =>
    exact ⟨_, rfl, fun _ h => (by cases h), fun h => (by cases hb1 h)⟩

theorem iterLoop_ok {m : ℕ} (hpj : ∀ b v, (pj b v).Shape b.dim b.dim) (hfit : FunFits hf ids z m d) (hpos : unfixed d ≠ []) (hR : R.Shape m m)
    (hg : GateOk cfg) (hd : d.Sorted) (hm : MeanOk d) (hx0 : stackMean d = .ok x0) (hs0 : x0.Shape (getDim d) 1) (hS : S.Shape (getDim d) (getDim d))
    (hsort : ∀ b, (hf b ids z).1.Sorted) (n : ℕ) : ∀ (k : ℕ) (s : It) (x : Mat), x.Shape (getDim d) 1 → (k = 0 → x = x0) → s.x = unfixed (moved d x) →
    (k = 0 → s.J = one (getDim d)) →
    ∃ o, iterLoop pj hf ids z R d S cfg n k s = .ok o ∧ (∀ r, o ≠ .ret .discarded r) ∧ (cfg.outlier = false → ∃ i s1, o = .fin i s1) := by
  induction n with
  | zero => intro k s x _ _ _ _; exact ⟨_, rfl, fun _ h => (by cases h), fun _ => ⟨_, _, rfl⟩⟩
  | succ n ih =>
    intro k s x hx hk hsx hsJ
    obtain ⟨o, ho, hnd, hno⟩ := iterBody_ok (cfg := cfg) hpj hfit hpos hR hg hd hm hx0 hs0 hS hx hsx hsJ
    have hbo := iterBody_out hd hm hx0 hs0 hS hsort hx hk hsx hsJ ho
    rw [iterLoop, ho]
    cases hbo with
    | next q a1 a2 a3 a4 =>
      simp only [Res.bind]
      split
      · exact ⟨_, rfl, fun _ h => (by cases h), fun _ => ⟨_, _, rfl⟩⟩
      · exact ih (k + 1) _ (x + q.dx) hx.add (fun h => by omega) rfl (fun h => by omega)
    | rej q a1 a2 a3 a4 =>
      refine ⟨_, rfl, fun _ h => (by cases h), fun h => ?_⟩
      rw [h] at a3; cases a3
    | misfit H r a1 a2 => exact absurd rfl (hnd _)

/-- C82, progress: if the function and the Jacobians of the beliefs fit (see `FunFits`), at least one participant is not fixed and the gate can be evaluated, the call returns, processed or
rejected; without gate it is processed. -/
theorem c82_progress {pred : ℕ → Inst → Int → Inst × Bool} {dim : ℕ → ℕ} {h : Hdl} {c : Central} {t : Int} {m : ℕ}
    (hnear : NearOk near) (hr : Rel dim h c) (hids : ids.Pairwise (· < ·)) (hN : ∀ p ∈ ids, Newest h p t)
    (hfree : ∃ p ∈ ids, c.fix p = false) (hsort : ∀ b, (hf b ids z).1.Sorted) (hn : 1 ≤ cfg.numIter) (hc : cfg.stab = true ∨ R.tr = R)
    (hpj : ∀ b v, (pj b v).Shape b.dim b.dim) (hfit : ∀ d, Shows dim c ids d → FunFits hf ids z m d) (hR : R.Shape m m) (hg : GateOk cfg) :
    ∃ h' st res, applyObsI near pj pred hf h R z t ids cfg = .ok (h', st, res) ∧ (st = .processed ∨ (st = .rejected ∧ cfg.outlier = true)) := by
  set dH : SMap Mat := ids.map (fun p => (p, Mat.empty)) with hdH
  have hkeys : dH.keys = ids := by rw [hdH]; unfold SMap.keys; rw [List.map_map]; exact List.map_id ids
  have hp : Parts dim h c dH t := by
    refine ⟨(SMap.sorted_iff_keys dH).mpr (by rw [hkeys]; exact hids), ?_, ?_⟩
    · intro p hpm; rw [hkeys] at hpm; exact ((hN p hpm).rel hr).1
    · intro p hpm; rw [hkeys] at hpm; exact ((hN p hpm).rel hr).2
  have hD := getDictBel_rel pred hr hp
  rw [hkeys] at hD
  have hds := dict_sorted (h := h) hp
  obtain ⟨S0, hS0, hSC⟩ := stackSigma_spec (dict h dH t) hds (covOf hr hp)
  have hmem : ∀ e ∈ dict h dH t, _ := fun e he => mem_dict hr hp he
  have hm : MeanOk (dict h dH t) := fun e he => (hmem e (mem_unfixed.mp he).1).2.2.2.2.2.2.2.2.2.1
  obtain ⟨x0, hx0, hSM⟩ := stackMean_spec (dict h dH t) hds c.mu (fun e he => (hmem e (mem_unfixed.mp he).1).2.2.2.2.1) hm
  have hkd : (dict h dH t).map (·.1) = ids := by
    unfold dict
    rw [List.map_map]
    show (List.map _ dH.keys) = ids
    rw [hkeys]
    exact List.map_id ids
  have hshow : Shows dim c ids (dict h dH t) := ⟨hkd, fun e he => by
    have := hmem e he
    exact ⟨this.2.2.2.2.1, this.2.2.2.2.2.1, by rw [this.2.2.2.2.2.2.1, this.2.2.1], this.2.2.2.2.2.2.2.1, this.2.2.2.2.2.2.2.2.1⟩⟩
  have hff := hfit _ hshow
  have hpos : unfixed (dict h dH t) ≠ [] := by
    obtain ⟨p, hpi, hpf⟩ := hfree
    rw [← hkd] at hpi
    obtain ⟨e, he, rfl⟩ := List.mem_map.mp hpi
    have : e ∈ unfixed (dict h dH t) := mem_unfixed.mpr ⟨he, by rw [(hmem e he).2.2.2.2.2.2.2.1]; exact hpf⟩
    exact List.ne_nil_of_mem this
  have hdne : dict h dH t ≠ [] := by
    intro h0
    rw [h0] at hpos
    exact hpos rfl
  have hpe := participants_eq hr hp
  have hcom := fun (hne : participants dim c dH ≠ []) (P dx : Mat) h1 h2 h3 => commit_rel (P := P) (dx := dx) hr hp hne h1 h2 h3
  rw [hpe] at hcom
  have hreg := getDictBel_reg hD
  generalize dict h dH t = d at *
  have hs0 : x0.Shape (getDim d) 1 := by have := hSM.1; rw [← getDim_eq] at this; exact this
  have hSs := (stackSigma_shape hS0).stabM (1 / 10^12)
  have hSt := stabM_tr (stackSigma_shape hS0) (1 / 10^12)
  obtain ⟨n, hn1⟩ : ∃ n, cfg.numIter = n + 1 := ⟨cfg.numIter - 1, by omega⟩
  rw [applyObsI_eq hD hdne hm hS0, hn1]
  set S := stabM S0 (1 / 10^12) with hSdef
  obtain ⟨lo, hlo, hnd, hno⟩ := iterLoop_ok (cfg := cfg) hpj hff hpos hR hg hds hm hx0 hs0 hSs hsort (n + 1) 0
    ⟨unfixed d, Mat.empty, Mat.empty, one (getDim d), S, Mat.zero 0 1⟩ x0 hs0 (fun _ => rfl) (by dsimp only; rw [moved_self hds hm hx0]) (fun _ => rfl)
  have hspec := iterLoop_out (x0 := x0) hds hm hx0 hs0 hSs hsort n 0 (fun _ => ⟨x0, x0, x0, x0, x0, x0, x0⟩) _ lo (by omega)
    ⟨rfl, fun k hk => by omega, fun k hk => by omega, fun k hk => by omega, fun k hk => by omega⟩ hs0
    (by dsimp only; rw [moved_self hds hm hx0]) (fun _ => rfl) hlo
  rw [hlo, Res.bind_ok]
  cases hspec with
  | fin N q iter a1 a2 a3 a4 a5 a6 =>
    have hxf : ((q N).x + (q N).dx).Shape (getDim d) 1 := a4.add
    have hdxs : ((q N).x + (q N).dx - x0).Shape (getDim d) 1 := hxf.sub
    have hbp : boxplusAll ((q N).x + (q N).dx - x0) (unfixed d) 0 = .ok (unfixed (moved d ((q N).x + (q N).dx))) := by
      have := boxplusAll_moved hds hs0 hdxs
      rw [moved_self hds hm hx0, add_sub_self' hs0 hxf] at this
      exact this
    have hpo : ∃ Pf, iterPost near pj R d cfg iter ⟨unfixed (moved d ((q N).x + (q N).dx)), (q N).H, (q N).K, (q N).J, (q N).P, (q N).r⟩ = .ok Pf := by
      obtain ⟨hJ, hP, hO⟩ := step_shapes a2
      rw [show tot (userProblem pj hf ids z d x0 S R).bs = getDim d from (getDim_eq d).symm] at hJ hP hO
      change ObsShape (q N).H R (q N).r (q N).P (getDim d) (q N).H.rows at hO
      have hK : (q N).K = gainM (q N).H R (q N).P cfg.eps := a2.K
      have hKs : (q N).K.Shape (getDim d) (q N).H.rows := by rw [hK]; exact gainM_shape hO cfg.eps
      have hU : (one (getDim d) - (q N).K * (q N).H).Shape (getDim d) (getDim d) := (Shape.one _).sub
      unfold iterPost
      dsimp only
      rw [hKs.mulC hO.H, Res.bind_ok, (Shape.one (getDim d)).subC (hKs.mul hO.H), Res.bind_ok]
      have h0 : ∃ P0 : Mat, P0.Shape (getDim d) (getDim d) ∧ (if cfg.joseph = true then do
            let x ← (one (getDim d) - (q N).K * (q N).H) *! (q N).P
            let y ← x *! (one (getDim d) - (q N).K * (q N).H).tr
            let v ← (q N).K *! R
            let w ← v *! (q N).K.tr
            y +! w
          else (one (getDim d) - (q N).K * (q N).H) *! (q N).P) = .ok P0 := by
        split
        · rw [hU.mulC hP, Res.bind_ok, (hU.mul hP).mulC hU.tr, Res.bind_ok, hKs.mulC hO.R, Res.bind_ok,
            (hKs.mul hO.R).mulC hKs.tr, Res.bind_ok, ((hU.mul hP).mul hU.tr).addC ((hKs.mul hO.R).mul hKs.tr)]
          exact ⟨_, ((hU.mul hP).mul hU.tr).add, rfl⟩
        · rw [hU.mulC hP]; exact ⟨_, hU.mul hP, rfl⟩
      obtain ⟨P0, hP0, e0⟩ := h0
      rw [e0, Res.bind_ok]
      have h1 : ∃ P1 : Mat, P1.Shape (getDim d) (getDim d) ∧ project pj d (unfixed (moved d ((q N).x + (q N).dx))) iter P0 = .ok P1 := by
        unfold project
        split
        · obtain ⟨J, hJ⟩ := stateJac_ok (pj := pj) hpj hdxs (unfixed (moved d ((q N).x + (q N).dx))) (row := 0) (J := one (getDim d))
            (by rw [getDim_unfixed, getDim_moved]; omega) (Shape.one _)
          have hJs : J.Shape (getDim d) (getDim d) := by have := (stateJac_moved hds hJ).1; rw [← getDim_eq] at this; exact this
          rw [stateError_moved hds hm hx0 hs0 hxf, Res.bind_ok, hJ, Res.bind_ok, hJs.mulC hP0, Res.bind_ok, (hJs.mul hP0).mulC hJs.tr]
          exact ⟨_, (hJs.mul hP0).mul hJs.tr, rfl⟩
        · exact ⟨P0, hP0, rfl⟩
      obtain ⟨P1, hP1, e1⟩ := h1
      rw [e1, Res.bind_ok]
      by_cases hst : cfg.stab = true
      · rw [if_pos hst, stabilize_ok hP1, Res.bind_ok]; exact ⟨_, rfl⟩
      · rw [if_neg hst, Res.bind_ok]; exact ⟨_, rfl⟩
    obtain ⟨Pf, hPf⟩ := hpo
    obtain ⟨P, rfl, p2, p3, p4⟩ := iterPost_out hds hm hx0 hs0 hSt hc a1 a2 a3 a4 a5 a6 hPf
    obtain ⟨f1, f2⟩ := fixPsd_facts hnear p2 p3
    have hune : bdims (unfixed d) ≠ [] := fun h0 => hpos (List.map_eq_nil_iff.mp h0)
    obtain ⟨h3, c1, c2⟩ := hcom hune (fixPsd near P) ((q N).x + (q N).dx - x0) (by rw [← getDim_eq]; exact f1) f2 (by rw [← getDim_eq]; exact hdxs)
    have hcs := commit_setMeans (P := fixPsd near P) (t := t) (sameBut_moved d ((q N).x + (q N).dx)) hds hr.ok.sorted hreg hdxs hbp hm
    rw [c1] at hcs
    obtain ⟨y, hy, hy2⟩ := bind_eq_ok hcs
    refine ⟨h3, .processed, (q N).r, ?_, Or.inl rfl⟩
    dsimp only
    rw [hPf, Res.bind_ok, hy, Res.bind_ok, Res.bind_ok]
    unfold finishObs
    dsimp only
    rw [if_pos rfl, hy2, Res.bind_ok]
  | rej N q hrej => exact ⟨h, .rejected, (q N).r, rfl, Or.inr ⟨rfl, hrej.gate.1⟩⟩
  | misfit N q hmis => exact absurd rfl (hnd _)

/-! ## Histories -/

/-- Calls: those of C24 with their answers, and iterated observations with answer and reported residual. -/
inductive Call where
  | base (ev : Ev) (ans : Bool)
  | iter (hf : SMap Belief → List ℕ → Mat → SMap Mat × Mat) (R z : Mat) (t : Int) (ids : List ℕ) (cfg : Cfg) (ans : IterAns) (res : Mat)

/-- Histories of calls: in-order use as in C24, iterated observations of increasing IDs at the time of their newest beliefs. -/
inductive RunsI (fp : FP) (near : Mat → Mat) (pj : Belief → Mat → Mat) (pred : ℕ → Inst → Int → Inst × Bool) (dim : ℕ → ℕ) : Hdl → List Call → Hdl → Prop
  | nil (h) : RunsI fp near pj pred dim h [] h
  | base {h h1 h2 ev ans l} (hw : Wf dim h ev) (hs : run fp near pred h ev = .ok (h1, ans)) (r : RunsI fp near pj pred dim h1 l h2) :
      RunsI fp near pj pred dim h (.base ev ans :: l) h2
  | iter {h h1 h2 hf R z t ids cfg ans res l} (hids : ids.Pairwise (· < ·)) (hne : ids ≠ []) (hN : ∀ p ∈ ids, Newest h p t)
      (hsort : ∀ b, (hf b ids z).1.Sorted) (hn : 1 ≤ cfg.numIter) (hc : cfg.stab = true ∨ R.tr = R)
      (hs : applyObsI near pj pred hf h R z t ids cfg = .ok (h1, iterStatus ans, res)) (r : RunsI fp near pj pred dim h1 l h2) :
      RunsI fp near pj pred dim h (.iter hf R z t ids cfg ans res :: l) h2

/-- The same history on the centralised filter. -/
inductive SpecRunI (dim : ℕ → ℕ) (near : Mat → Mat) (pj : Belief → Mat → Mat) : Central → List Call → Central → Prop
  | nil (c) : SpecRunI dim near pj c [] c
  | accept {c c1 c2 ev l} (h : SpecStep dim near c ev c1) (r : SpecRunI dim near pj c1 l c2) : SpecRunI dim near pj c (.base ev true :: l) c2
  | reject {c c2 ev l} (r : SpecRunI dim near pj c l c2) : SpecRunI dim near pj c (.base ev false :: l) c2
  | iter {c c1 c2 hf R z t ids cfg ans res l} (h : SpecIter dim near pj c hf R z ids cfg ans res c1) (r : SpecRunI dim near pj c1 l c2) :
      SpecRunI dim near pj c (.iter hf R z t ids cfg ans res :: l) c2

theorem iterStatus_inj {a b : IterAns} (h : iterStatus a = iterStatus b) : a = b := by cases a <;> cases b <;> first | rfl | cases h

theorem runsI_sim {fp : FP} {pred : ℕ → Inst → Int → Inst × Bool} {dim : ℕ → ℕ} {h h' : Hdl} {c : Central} (hnear : NearOk near) (hr : Rel dim h c)
    {l : List Call} (hrun : RunsI fp near pj pred dim h l h') : ∃ c', SpecRunI dim near pj c l c' ∧ Rel dim h' c' := by
  induction hrun generalizing c with
  | nil h => exact ⟨c, .nil c, hr⟩
  | @base h h1 h2 ev ans l hw hs _ ih =>
    cases ans with
    | true =>
      obtain ⟨c1, s1, r1⟩ := accepted hnear hr ev hw hs
      obtain ⟨c2, s2, r2⟩ := ih r1
      exact ⟨c2, .accept s1 s2, r2⟩
    | false =>
      have e := rejected hr ev hw hs
      rw [e] at ih
      obtain ⟨c2, s2, r2⟩ := ih hr
      exact ⟨c2, .reject s2, r2⟩
  | iter hids hne hN hsort hn hc hs _ ih =>
    obtain ⟨a, c1, e1, s1, r1⟩ := c82_iterated_step hnear hr hids hne hN hsort hn hc hs
    obtain rfl := iterStatus_inj e1
    obtain ⟨c2, s2, r2⟩ := ih r1
    exact ⟨c2, .iter s1 s2, r2⟩

/-- C82: start with freshly initialised instances; after any history of propagations, private, joint and iterated joint observations, with any
measurement functions, the newest belief of every instance and the cross-covariance of every two instances at the same time are those of the
centralised filter with iterated extended Kalman updates, and so are the answers and the residuals reported on the way. -/
theorem c82_iterated_filter {fp : FP} {pred : ℕ → Inst → Int → Inst × Bool} {dim : ℕ → ℕ} {h0 h : Hdl} {c0 : Central} (hnear : NearOk near) (hi : Init dim h0 c0)
    {l : List Call} (hrun : RunsI fp near pj pred dim h0 l h) :
    ∃ c, SpecRunI dim near pj c0 l c ∧
      (∀ p i, h.find p = some i → ∃ b, belief h p (c.tm p) = some b ∧ i.bel.getLast? = some (c.tm p, b) ∧ b.mean = c.mu p ∧ b.Sigma = c.cov p p) ∧
      ∀ p q t, p ≠ q → Newest h p t → Newest h q t → ∃ S, getSigma h p q t = .ok S ∧ asCov (dim p) (dim q) S = c.cov p q := by
  obtain ⟨c, hs, hr⟩ := runsI_sim hnear hi.rel hrun
  refine ⟨c, hs, ?_, fun p q t hpq hp hq => hr.read hpq hp hq⟩
  intro p i hf
  have hp : (h.find p).isSome := by rw [hf]; rfl
  obtain ⟨b, h1, h2, h3, -⟩ := hr.bel p hp
  have h1' := h1
  rw [bl_of_find hf] at h1
  refine ⟨b, h1', ?_, h2, h3⟩
  have ho := (hr.ok.ord p i hf).bel
  rw [Inst.beliefAt_eq, Buf.absMap_eq_some _ ho] at h1
  cases hl : i.bel.getLast? with
  | none => rw [List.getLast?_eq_none_iff] at hl; rw [hl] at h1; simp at h1
  | some e =>
    have g1 := ho.sorted.le_getLast hl _ h1
    have g2 := (hr.ok.upTo p i hf).bel e (List.mem_of_getLast? hl)
    simp only at g1
    have g3 : e.1 = c.tm p := by omega
    have g4 := (Buf.absMap_eq_some _ ho e.1 e.2).mpr (List.mem_of_getLast? hl)
    rw [g3, (Buf.absMap_eq_some _ ho _ _).mpr h1] at g4
    rw [Option.some.inj g4, ← g3]

end
end Hdl
end Ikf
