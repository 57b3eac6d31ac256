import Verif.Lemmas.IteratedLoop
import Verif.Props.Progress

/-! # The iterated joint observation (C56, C64)

`oneShot` is the one-shot correction (`correctJoint`, IH:256-285) of the beliefs of the dictionary with the Jacobians and the
residual of the user's function at these beliefs. -/

namespace Ikf
open Mat
namespace Hdl

/-- One-shot correction: Jacobians of fixed beliefs removed, stacked, dimensions checked, correction, answer. -/
noncomputable def oneShot (near : Mat → Mat) (h : Hdl) (d : SMap Belief) (dH : SMap Mat) (R r S : Mat) (t : Int) (cfg : Cfg) :
    Res (Hdl × Status × Mat) := do
  let H ← stackH (eraseFixed d dH)
  if checkDimObs H R r S then do
    let y ← correctJoint near h d H R r S t cfg
    .ok (y.1, if y.2 then .processed else .rejected, r)
  else .ok (h, .discarded, Mat.zero 0 1)

section
variable {near : Mat → Mat} {pj : Belief → Mat → Mat} {pred : ℕ → Inst → Int → Inst × Bool} {hf : SMap Belief → List ℕ → Mat → SMap Mat × Mat}
  {h h1 : Hdl} {d : SMap Belief} {R z S0 : Mat} {t : Int} {ids : List ℕ} {cfg : Cfg}

theorem stackRow_shape {a : ℕ × Belief} {row : ℕ} (l : SMap Belief) {col n : ℕ} {M N : Mat} (hM : M.Shape n n)
    (hs : stackRow h t a row l col M = .ok N) : N.Shape n n := by
  have sb : ∀ {A B : Mat} {i j r c : ℕ} {C : Mat}, A.setBlockC i j r c C = .ok B → A.Shape n n → B.Shape n n := by
    intro A B i j r c C hb hA
    unfold setBlockC at hb
    split at hb
    · rw [← Res.ok.inj hb]; exact hA
    · cases hb
  induction l generalizing col M with
  | nil => rw [← Res.ok.inj hs]; exact hM
  | cons b r ih =>
    rw [stackRow] at hs
    split at hs
    · obtain ⟨M1, h1, hs⟩ := bind_eq_ok hs
      refine ih ?_ hs
      split at h1
      · exact sb h1 hM
      · split at h1
        · obtain ⟨X, hX, h1⟩ := bind_eq_ok h1
          split at h1
          · obtain ⟨M2, h2, h1⟩ := bind_eq_ok h1
            exact sb h1 (sb h2 hM)
          · rw [← Res.ok.inj h1]; exact hM
        · rw [← Res.ok.inj h1]; exact hM
    · exact ih hM hs

theorem stackRows_shape {D : SMap Belief} (l : SMap Belief) {row n : ℕ} {M N : Mat} (hM : M.Shape n n)
    (hs : stackRows h t D l row M = .ok N) : N.Shape n n := by
  induction l generalizing row M with
  | nil => rw [← Res.ok.inj hs]; exact hM
  | cons b r ih =>
    rw [stackRows] at hs
    split at hs
    · obtain ⟨M1, h1, hs⟩ := bind_eq_ok hs
      exact ih (stackRow_shape _ hM h1) hs
    · exact ih hM hs

theorem stackSigma_shape (hs : stackSigma h d t = .ok S0) : S0.Shape (getDim d) (getDim d) := by
  unfold stackSigma at hs
  obtain ⟨M, h1, hs⟩ := bind_eq_ok hs
  have hM := stackRows_shape d (n := getDim d) (M := Mat.zero (getDim d) (getDim d)) ⟨rfl, rfl⟩ h1
  rw [symmetrize_ok hM] at hs
  rw [← Res.ok.inj hs]; exact hM.symM

theorem stackMean_ok (hm : MeanOk d) : ∃ m, stackMean d = .ok m ∧ m.Shape (getDim d) 1 := by
  have hz : (Mat.zero (getDim d) 1).Shape (getDim d) 1 := ⟨rfl, rfl⟩
  obtain ⟨m, h1, -, h3⟩ := stackMean_add hz (SameBut.refl d) hm (boxplusAll_zero d 0 (by omega) hm)
  exact ⟨m, h1, h3⟩

theorem obsShape_of_check {H R r S : Mat} {n : ℕ} (hS : S.Shape n n) (hc : checkDimObs H R r S = true) : ObsShape H R r S n H.rows := by
  obtain ⟨a, b, c, e, f⟩ := (checkDimObs_iff H R r S).mp hc
  exact ⟨⟨rfl, by rw [a, hS.1]⟩, ⟨e, f⟩, ⟨b, c⟩, hS⟩

theorem iterBody_zero {S : Mat} (hd : d.Sorted) (s : It) (hx : s.x = unfixed d) :
    iterBody pj hf ids z R d S cfg 0 s = (stackH (eraseFixed d (hf d ids z).1) >>= fun H =>
      if checkDimObs H R (hf d ids z).2 S then iterCorrect cfg S R H (Mat.zero (getDim d) 1) s.J (hf d ids z).2 s.x
      else .ok (.ret .discarded (Mat.zero 0 1))) := by
  unfold iterBody
  rw [hx, fullBel_eq (SameBut.refl d) hd]
  rfl

theorem sub_zero' {A : Mat} {n : ℕ} (hA : A.Shape n 1) : A - Mat.zero n 1 = A := by
  refine Mat.ext' rfl rfl ?_
  intro i j _ _
  rw [sub_e _ _ (by rw [hA.1]; rfl) (by rw [hA.2]; rfl), zero_e, _root_.sub_zero]

/-- The shared end of both routes: the posterior is the one of the one-shot correction, and the beliefs get the correction. -/
theorem finish_eq {d' : SMap Belief} {H S r J : Mat} {m iter : ℕ} {rr : Mat} (hh : h1.Sorted) (hd : d.Sorted) (hm : MeanOk d)
    (hreg : ∀ k ∈ (unfixed d).keys, (h1.find k).isSome = true)
    (hO : ObsShape H R r S (getDim d) m) (hS : S.tr = S) (hc : cfg.stab = true ∨ R.tr = R) (hsb : SameBut d d')
    (hbp : boxplusAll (gainM H R S cfg.eps * r) (unfixed d) 0 = .ok (unfixed d'))
    (hp : ∀ P, P.Shape (getDim d) (getDim d) → project pj d (unfixed d') iter P = .ok P) :
    ((iterPost near pj R d cfg iter ⟨unfixed d', H, gainM H R S cfg.eps, J, S, r⟩ >>= fun P =>
      setMeans t (unfixed d') h1 d >>= fun y => .ok (y.1, Status.processed, rr, P, y.2)) >>= fun o => finishObs t o) =
      (commit h1 d (fixPsd near (postM H R S cfg)) (gainM H R S cfg.eps * r) t >>= fun h2 => .ok (h2, .processed, rr)) := by
  rw [iterPost_eq hO hp, Res.bind_ok, loopPost_eq hO hS cfg hc]
  have hK := gainM_shape hO cfg.eps
  rw [← commit_setMeans hsb hd hh hreg (hK.mul hO.r) hbp hm]
  cases setMeans t (unfixed d') h1 d with
  | throws => rfl
  | ub => rfl
  | ok y => rfl

/-- A successful `get_dict_bel` returns registered instances, in increasing order of their IDs. -/
theorem getDictBel_reg (hD : getDictBel pred h ids t [] = .ok (h1, d)) : ∀ k ∈ (unfixed d).keys, (h1.find k).isSome = true := by
  intro k hk
  obtain ⟨e, he, rfl⟩ := List.mem_map.mp hk
  obtain ⟨-, -, f⟩ := getDictBel_frame _ hD
  rcases f e (mem_unfixed.mp he).1 with h0 | ⟨-, i, hi, -⟩
  · cases h0
  · rw [hi]; rfl

theorem getDictBel_sorted (hD : getDictBel pred h ids t [] = .ok (h1, d)) : d.Sorted := by
  have key : ∀ (ids : List ℕ) (h : Hdl) (acc : SMap Belief), acc.Sorted → getDictBel pred h ids t acc = .ok (h1, d) → d.Sorted := by
    intro ids
    induction ids with
    | nil =>
      intro h acc ha hs
      obtain ⟨-, e2⟩ := Prod.mk.inj (Res.ok.inj hs)
      rw [← e2]; exact ha
    | cons i r ih =>
      intro h acc ha hs
      rw [getDictBel] at hs
      obtain ⟨x, hx, hs⟩ := bind_eq_ok hs
      split at hs
      · obtain ⟨-, e2⟩ := Prod.mk.inj (Res.ok.inj hs)
        rw [← e2]; exact List.Pairwise.nil
      · exact ih _ _ (ha.emplace _ _) hs
  exact key ids h [] List.Pairwise.nil hD

/-- `applyObsI` behind a successful, non-empty `get_dict_bel`. -/
theorem applyObsI_eq (hD : getDictBel pred h ids t [] = .ok (h1, d)) (hne : d ≠ []) (hm : MeanOk d) (hS0 : stackSigma h1 d t = .ok S0) :
    applyObsI near pj pred hf h R z t ids cfg =
      ((iterLoop pj hf ids z R d (stabM S0 (1 / 10^12)) cfg cfg.numIter 0
          ⟨unfixed d, Mat.empty, Mat.empty, one (getDim d), stabM S0 (1 / 10^12), Mat.zero 0 1⟩ >>= fun o =>
        match o with
        | .ret st r => .ok (h1, st, r, Mat.empty, d)
        | .fin iter s => iterPost near pj R d cfg iter s >>= fun P =>
            setMeans t s.x h1 d >>= fun y => .ok (y.1, .processed, s.r, P, y.2)) >>= fun o => finishObs t o) := by
  unfold applyObsI
  rw [hD, Res.bind_ok]
  dsimp only
  have he : d.isEmpty = false := by cases d with
    | nil => exact absurd rfl hne
    | cons => rfl
  rw [he]
  simp only [Bool.false_eq_true, if_false]
  unfold processDict
  obtain ⟨m, h2, -⟩ := stackMean_ok hm
  rw [h2, Res.bind_ok, hS0, Res.bind_ok, stabilize_ok (stackSigma_shape hS0), Res.bind_ok]
  rfl

/-- C56: one iteration is the one-shot correction. -/
theorem c56_one_iteration (hn : cfg.numIter = 1) (hc : cfg.stab = true ∨ R.tr = R) (hD : getDictBel pred h ids t [] = .ok (h1, d))
    (hne : d ≠ []) (hh : h1.Sorted) (hm : MeanOk d) (hS0 : stackSigma h1 d t = .ok S0) :
    applyObsI near pj pred hf h R z t ids cfg = oneShot near h1 d (hf d ids z).1 R (hf d ids z).2 (stabM S0 (1 / 10^12)) t cfg := by
  have hd := getDictBel_sorted hD
  have hreg := getDictBel_reg hD
  have hSs := (stackSigma_shape hS0).stabM (1 / 10^12)
  have hSt := stabM_tr (stackSigma_shape hS0) (1 / 10^12)
  rw [applyObsI_eq hD hne hm hS0, hn]
  rw [iterLoop, iterBody_zero hd _ rfl]
  unfold oneShot
  set S := stabM S0 (1 / 10^12)
  set r := (hf d ids z).2
  set dH := (hf d ids z).1
  cases hH : stackH (eraseFixed d dH) with
  | throws => rfl
  | ub => rfl
  | ok H =>
    rw [Res.bind_ok, Res.bind_ok]
    by_cases hck : checkDimObs H R r S = true
    · rw [if_pos hck, if_pos hck]
      have hO := obsShape_of_check hSs hck
      have hK := gainM_shape hO cfg.eps
      dsimp only
      rw [iterCorrect_eq hO (e := Mat.zero (getDim d) 1) ⟨rfl, rfl⟩, sub_zero' (hK.mul hO.r)]
      unfold correctJoint
      rw [correctionStep_eq hO cfg]
      obtain ⟨d', b1, b2, b3⟩ := boxplusAll_spec (hK.mul hO.r) d 0 (by omega) hm
      have fin : ((iterPost near pj R d cfg 1 ⟨unfixed d', H, gainM H R S cfg.eps, one (getDim d), S, r⟩ >>= fun P =>
          setMeans t (unfixed d') h1 d >>= fun y => Res.ok (y.1, Status.processed, r, P, y.2)) >>= fun o => finishObs t o) = _ :=
        finish_eq (near := near) (t := t) (iter := 1) (J := one (getDim d)) (rr := r) hh hd hm hreg hO hSt hc b1 b2
          (fun P _ => by unfold project; rw [if_neg (by omega)])
      have good : ∀ g : Bool, gate (innov H R S cfg.eps) r cfg = .ok g →
          (if cfg.outlier = true then checkNIS (innov H R S cfg.eps) r cfg.conf >>= fun good => Res.ok (!good) else Res.ok false) = Res.ok (!g) := by
        intro g hg
        unfold gate at hg
        by_cases ho : cfg.outlier = true
        · rw [if_pos ho] at hg ⊢; rw [hg]; rfl
        · rw [if_neg ho] at hg ⊢; rw [← Res.ok.inj hg]; rfl
      cases hg : gate (innov H R S cfg.eps) r cfg with
      | ok g =>
        rw [good g hg, Res.bind_ok, Res.bind_ok, Res.bind_ok]
        cases g with
        | true =>
          rw [if_pos rfl, b2, Res.bind_ok]
          simp only [Bool.not_true, Bool.not_false, if_true]
          have e1 : (if 0 < 0 ∧ converged (gainM H R S cfg.eps * r) cfg.tolEps = true then
              (Res.ok (LoopOut.fin 0 ⟨unfixed d', H, gainM H R S cfg.eps, one (getDim d), S, r⟩)) else
              iterLoop pj hf ids z R d S cfg 0 (0 + 1) ⟨unfixed d', H, gainM H R S cfg.eps, one (getDim d), S, r⟩) =
              Res.ok (LoopOut.fin 1 ⟨unfixed d', H, gainM H R S cfg.eps, one (getDim d), S, r⟩) := by
            rw [if_neg (by omega)]; rfl
          show ((((if 0 < 0 ∧ converged (gainM H R S cfg.eps * r) cfg.tolEps = true then
              (Res.ok (LoopOut.fin 0 ⟨unfixed d', H, gainM H R S cfg.eps, one (getDim d), S, r⟩)) else
              iterLoop pj hf ids z R d S cfg 0 (0 + 1) ⟨unfixed d', H, gainM H R S cfg.eps, one (getDim d), S, r⟩)) >>= _) >>= _) = _
          rw [e1, Res.bind_ok]
          dsimp only
          rw [fin]
          cases commit h1 d (fixPsd near (postM H R S cfg)) (gainM H R S cfg.eps * r) t <;> rfl
        | false => rfl
      | throws =>
        unfold gate at hg
        by_cases ho : cfg.outlier = true
        · rw [if_pos ho] at hg; rw [if_pos ho, hg]; rfl
        · rw [if_neg ho] at hg; cases hg
      | ub =>
        unfold gate at hg
        by_cases ho : cfg.outlier = true
        · rw [if_pos ho] at hg; rw [if_pos ho, hg]; rfl
        · rw [if_neg ho] at hg; cases hg
    · rw [if_neg hck, if_neg hck]; rfl

/-- C56: when no participant is fixed and the function gives a Jacobian for every participant, one iteration leaves the same
state as `apply_observation(dict_H, R, r, t, cfg)` with the Jacobians and the residual of the function at the current beliefs. -/
theorem c56_equals_one_shot {dH : SMap Mat} {r H : Mat} {ans : Bool} {h' : Hdl} (hn : cfg.numIter = 1) (hc : cfg.stab = true ∨ R.tr = R)
    (hD : getDictBel pred h ids t [] = .ok (h1, d)) (hne : d ≠ []) (hh : h1.Sorted) (hm : MeanOk d) (hS0 : stackSigma h1 d t = .ok S0)
    (hfx : ∀ e ∈ d, e.2.fixed = false) (hhf : hf d ids z = (dH, r)) (hk : dH.keys = ids) (hH : stackH dH = .ok H)
    (hck : checkDimObs H R r (stabM S0 (1 / 10^12)) = true) (hR : applyObsR near pred h dH R r t cfg = .ok (h', ans)) :
    applyObsI near pj pred hf h R z t ids cfg = .ok (h', if ans then .processed else .rejected, r) := by
  rw [c56_one_iteration hn hc hD hne hh hm hS0, hhf]
  unfold oneShot
  have he : eraseFixed d dH = dH := by
    unfold eraseFixed
    clear hD hne hm hS0 hhf
    induction d with
    | nil => rfl
    | cons e q ih =>
      rw [List.foldl_cons, hfx e List.mem_cons_self]
      simp only [Bool.false_eq_true, if_false]
      exact ih (fun x hx => hfx x (List.mem_cons_of_mem _ hx))
  have hemp : d.isEmpty = false := by cases d with
    | nil => exact absurd rfl hne
    | cons => rfl
  unfold applyObsR at hR
  rw [hH, Res.bind_ok, hk, hD, Res.bind_ok] at hR
  dsimp only at hR
  rw [hemp] at hR
  simp only [Bool.false_eq_true, if_false] at hR
  rw [hS0, Res.bind_ok, stabilize_ok (stackSigma_shape hS0), Res.bind_ok] at hR
  dsimp only
  rw [he, hH, Res.bind_ok, if_pos hck, hR, Res.bind_ok]

/-! ## More iterations -/

/-- The first iteration of an accepted measurement. -/
theorem iterBody_first {S H : Mat} (hd : d.Sorted) (hm : MeanOk d) (hS : S.Shape (getDim d) (getDim d)) (s : It) (hx : s.x = unfixed d)
    (hJ : s.J = one (getDim d)) (hH : stackH (eraseFixed d (hf d ids z).1) = .ok H) (hck : checkDimObs H R (hf d ids z).2 S = true)
    (hg : gate (innov H R S cfg.eps) (hf d ids z).2 cfg = .ok true) :
    ∃ d', SameBut d d' ∧ MeanOk d' ∧ boxplusAll (gainM H R S cfg.eps * (hf d ids z).2) (unfixed d) 0 = .ok (unfixed d') ∧
      iterBody pj hf ids z R d S cfg 0 s = .ok (.next ⟨unfixed d', H, gainM H R S cfg.eps, one (getDim d), S, (hf d ids z).2⟩
        (gainM H R S cfg.eps * (hf d ids z).2)) := by
  have hO := obsShape_of_check hS hck
  have hK := gainM_shape hO cfg.eps
  obtain ⟨d', b1, b2, b3⟩ := boxplusAll_spec (hK.mul hO.r) d 0 (by omega) hm
  refine ⟨d', b1, b3, b2, ?_⟩
  rw [iterBody_zero hd s hx, hH, Res.bind_ok, if_pos hck, hx, hJ, iterCorrect_eq hO (e := Mat.zero (getDim d) 1) ⟨rfl, rfl⟩,
    sub_zero' (hK.mul hO.r), hg, Res.bind_ok, if_pos rfl, b2, Res.bind_ok]

theorem getDim_unfixed (d : SMap Belief) : getDim (unfixed d) = getDim d := by
  rw [getDim_eq, getDim_eq, unfixed_unfixed]

theorem iterLoop_next {S : Mat} {k iter : ℕ} {s s1 : It} {dx : Mat} (hb : iterBody pj hf ids z R d S cfg iter s = .ok (.next s1 dx)) :
    iterLoop pj hf ids z R d S cfg (k + 1) iter s =
      if 0 < iter ∧ converged dx cfg.tolEps = true then .ok (.fin iter s1) else iterLoop pj hf ids z R d S cfg k (iter + 1) s1 := by
  rw [iterLoop, hb]; rfl

/-- With the Jacobian of the shipped belief the Jacobian of the state error cannot be built. -/
theorem stateJac_linJac_ub {ex : Mat} {n : ℕ} (hex : ex.Shape n 1) (x : SMap Belief) {row : ℕ} {J : Mat} (hn : row + getDim x ≤ n)
    (hJ : J.Shape n n) (hp : 0 < getDim x) : stateJac linJac ex x row J = .ub := by
  induction x generalizing row J with
  | nil => cases hp
  | cons e r ih =>
    rw [getDim_cons] at hn hp
    rw [stateJac]
    by_cases hf : e.2.fixed = true
    · simp only [hf, Bool.not_true, Bool.false_eq_true, if_false] at hn hp ⊢
      exact ih (by omega) hJ (by omega)
    · have hf' : e.2.fixed = false := by simpa using hf
      simp only [hf', Bool.not_false, if_true] at hn hp ⊢
      rw [blockC_ok (by rw [hex.1]; omega) (by rw [hex.2]), Res.bind_ok]
      unfold linJac
      by_cases h0 : e.2.dim = 0
      · rw [setBlockC_ok (A := J) (B := one 0) (i := row) (j := row) (r := e.2.dim) (c := e.2.dim) (by rw [hJ.1]; omega)
          (by rw [hJ.2]; omega) h0.symm h0.symm, Res.bind_ok]
        exact ih (by omega) hJ (by omega)
      · unfold setBlockC
        rw [if_neg (fun h => h0 h.2.2.1.symm)]
        rfl

/-- C56: with the Jacobian of the shipped belief (`plus_jacobian` of `LinearBelief`, a 0 x 0 matrix), two or more iterations and a
measurement accepted in the first of them, the call is undefined behaviour: for every handler, participants (with at least one
unfixed state), measurement function, measurement and tolerance. -/
theorem c56_linear_belief_ub {H : Mat} (hn : 2 ≤ cfg.numIter) (hD : getDictBel pred h ids t [] = .ok (h1, d)) (hm : MeanOk d)
    (hpos : 0 < getDim d) (hS0 : stackSigma h1 d t = .ok S0) (hH : stackH (eraseFixed d (hf d ids z).1) = .ok H)
    (hck : checkDimObs H R (hf d ids z).2 (stabM S0 (1 / 10^12)) = true)
    (hg : gate (innov H R (stabM S0 (1 / 10^12)) cfg.eps) (hf d ids z).2 cfg = .ok true)
    (hfit : ∀ b, SameBut d b → MeanOk b → ∃ H', stackH (eraseFixed d (hf b ids z).1) = .ok H' ∧
      checkDimObs H' R (hf b ids z).2 (stabM S0 (1 / 10^12)) = true) :
    applyObsI near linJac pred hf h R z t ids cfg = .ub := by
  have hd := getDictBel_sorted hD
  have hne : d ≠ [] := by rintro rfl; cases hpos
  have hSs := (stackSigma_shape hS0).stabM (1 / 10^12)
  rw [applyObsI_eq hD hne hm hS0]
  obtain ⟨k, hk⟩ : ∃ k, cfg.numIter = k + 1 + 1 := ⟨cfg.numIter - 2, by omega⟩
  obtain ⟨d', b1, b2, b3, b4⟩ := iterBody_first (pj := linJac) hd hm hSs
    ⟨unfixed d, Mat.empty, Mat.empty, one (getDim d), stabM S0 (1 / 10^12), Mat.zero 0 1⟩ rfl rfl hH hck hg
  have hO := obsShape_of_check hSs hck
  have hK := gainM_shape hO cfg.eps
  obtain ⟨H', q1, q2⟩ := hfit d' b1 b2
  have key : ∀ s : It, s.x = unfixed d' → iterLoop linJac hf ids z R d (stabM S0 (1 / 10^12)) cfg (k + 1) (0 + 1) s = .ub := by
    intro s hx
    rw [iterLoop]
    have : iterBody linJac hf ids z R d (stabM S0 (1 / 10^12)) cfg (0 + 1) s = .ub := by
      unfold iterBody
      dsimp only
      rw [hx, fullBel_eq b1 hd, q1, Res.bind_ok, if_pos q2]
      unfold relinearise
      rw [if_pos (by omega), hx, stateError_eq (hK.mul hO.r) b1 hd hm b3, Res.bind_ok,
        stateJac_linJac_ub (hK.mul hO.r) (unfixed d') (by rw [getDim_unfixed, b1.getDim]; omega) (Shape.one _)
          (by rw [getDim_unfixed, b1.getDim]; exact hpos)]
      rfl
    rw [this]; rfl
  rw [hk, iterLoop_next b4, if_neg (by omega), key _ rfl]
  rfl

/-- C56: with zero iterations the call is undefined behaviour (the gain is a default constructed matrix), for every
participants with at least one unfixed state. -/
theorem c56_zero_iterations_ub (hn : cfg.numIter = 0) (hD : getDictBel pred h ids t [] = .ok (h1, d)) (hm : MeanOk d)
    (hpos : 0 < getDim d) (hS0 : stackSigma h1 d t = .ok S0) : applyObsI near pj pred hf h R z t ids cfg = .ub := by
  have hne : d ≠ [] := by rintro rfl; cases hpos
  rw [applyObsI_eq hD hne hm hS0, hn]
  show ((iterPost near pj R d cfg 0 ⟨unfixed d, Mat.empty, Mat.empty, one (getDim d), stabM S0 (1 / 10^12), Mat.zero 0 1⟩ >>= _) >>= _) = _
  have : iterPost near pj R d cfg 0 ⟨unfixed d, Mat.empty, Mat.empty, one (getDim d), stabM S0 (1 / 10^12), Mat.zero 0 1⟩ = .ub := by
    unfold iterPost
    dsimp only
    rw [show Mat.empty *! Mat.empty = Res.ok (Mat.empty * Mat.empty) from mulC_ok rfl, Res.bind_ok]
    have : (one (getDim d) -! (Mat.empty * Mat.empty)) = Res.ub := by
      unfold subC
      rw [if_neg]
      rintro ⟨h1, -⟩
      have : getDim d = 0 := h1
      omega
    rw [this]; rfl
  rw [this]; rfl

/-! ## Affine measurements (C64) -/

/-- The function is affine in the states it estimates, with its own Jacobians: at every choice of the unfixed means the Jacobians
are `dH` and the residual is `y0 - H m` with `H` the stacked Jacobian of the unfixed participants and `m` their stacked mean. -/
def AffineAt (hf : SMap Belief → List ℕ → Mat → SMap Mat × Mat) (ids : List ℕ) (z : Mat) (d : SMap Belief) (dH : SMap Mat) (H y0 : Mat) : Prop :=
  stackH (eraseFixed d dH) = .ok H ∧ ∀ b m, SameBut d b → stackMean b = .ok m → hf b ids z = (dH, y0 - H * m)

/-- After the first iteration nothing changes any more. -/
theorem iterLoop_affine {dH : SMap Mat} {H y0 S r0 m0 : Mat} {d' : SMap Belief} (hpj : ∀ b v, pj b v = one b.dim) (hd : d.Sorted) (hm : MeanOk d)
    (ha : AffineAt hf ids z d dH H y0) (hS : S.Shape (getDim d) (getDim d)) (hm0 : stackMean d = .ok m0) (hr0 : r0 = y0 - H * m0)
    (hck : checkDimObs H R r0 S = true) (hg : gate (innov H R S cfg.eps) r0 cfg = .ok true) (hsb : SameBut d d') (hm' : MeanOk d')
    (hbp : boxplusAll (gainM H R S cfg.eps * r0) (unfixed d) 0 = .ok (unfixed d')) (k iter : ℕ) (hi : 0 < iter) :
    ∃ it, iterLoop pj hf ids z R d S cfg k iter ⟨unfixed d', H, gainM H R S cfg.eps, one (getDim d), S, r0⟩ =
      .ok (.fin it ⟨unfixed d', H, gainM H R S cfg.eps, one (getDim d), S, r0⟩) := by
  have hO := obsShape_of_check hS hck
  have hK := gainM_shape hO cfg.eps
  have hdx := hK.mul hO.r
  obtain ⟨m, a1, a2, a3⟩ := stackMean_add hdx hsb hm hbp
  have em : m = m0 := by rw [a1] at hm0; exact Res.ok.inj hm0
  subst em
  have hy0 : y0.Shape H.rows 1 := by
    have h1 := hO.r.1
    have h2 := hO.r.2
    rw [hr0] at h1 h2
    exact ⟨h1, h2⟩
  have hHm : (H * m).Shape H.rows 1 := hO.H.mul a3
  have hHx : (H * (gainM H R S cfg.eps * r0)).Shape H.rows 1 := hO.H.mul hdx
  have body : ∀ iter, 0 < iter → iterBody pj hf ids z R d S cfg iter ⟨unfixed d', H, gainM H R S cfg.eps, one (getDim d), S, r0⟩ =
      .ok (.next ⟨unfixed d', H, gainM H R S cfg.eps, one (getDim d), S, r0⟩ (Mat.zero (getDim d) 1)) := by
    intro iter hi
    unfold iterBody
    dsimp only
    rw [fullBel_eq hsb hd, ha.2 d' _ hsb a2]
    dsimp only
    rw [ha.1, Res.bind_ok]
    have hr1 : (y0 - H * (m + gainM H R S cfg.eps * r0)).Shape H.rows 1 := hy0.sub
    have hck1 : checkDimObs H R (y0 - H * (m + gainM H R S cfg.eps * r0)) S = true :=
      ObsShape.check ⟨hO.H, hO.R, hr1, hO.S⟩
    rw [if_pos hck1]
    unfold relinearise
    dsimp only
    rw [if_pos hi, stateError_eq hdx hsb hd hm hbp, Res.bind_ok,
      stateJac_one hpj hdx (unfixed d') (by rw [getDim_unfixed, hsb.getDim]; omega), Res.bind_ok, (Shape.one _).mulC hdx, Res.bind_ok,
      Mat.one_mul _ _ hdx.1, hO.H.mulC hdx, Res.bind_ok, hr1.addC hHx, Res.bind_ok, Res.bind_ok]
    have er : y0 - H * (m + gainM H R S cfg.eps * r0) + H * (gainM H R S cfg.eps * r0) = r0 := by
      rw [Mat.mul_add H m _ (by rw [hdx.1, a3.1]) (by rw [hdx.2, a3.2])]
      have hsum : (H * m + H * (gainM H R S cfg.eps * r0)).Shape H.rows 1 := hHm.add
      refine Mat.ext' (by rw [hO.r.1]; exact hy0.1) (by rw [hO.r.2]; exact hy0.2) ?_
      intro i j _ _
      rw [add_e (y0 - (H * m + H * (gainM H R S cfg.eps * r0))) _ (by rw [hHx.1]; exact hy0.1.symm) (by rw [hHx.2]; exact hy0.2.symm),
        sub_e y0 _ (by rw [hsum.1, hy0.1]) (by rw [hsum.2, hy0.2]), add_e (H * m) _ (by rw [hHx.1, hHm.1]) (by rw [hHx.2, hHm.2])]
      have : r0.e i j = y0.e i j - (H * m).e i j := by
        conv_lhs => rw [hr0]
        rw [sub_e y0 _ (by rw [hHm.1, hy0.1]) (by rw [hHm.2, hy0.2])]
      rw [this]; ring
    dsimp only
    rw [er, iterCorrect_eq hO hdx, hg, Res.bind_ok, if_pos rfl]
    have e0 : gainM H R S cfg.eps * r0 - gainM H R S cfg.eps * r0 = Mat.zero (getDim d) 1 := by
      refine Mat.ext' hdx.1 hdx.2 ?_
      intro i j _ _
      rw [sub_e _ _ rfl rfl, zero_e, sub_self]
    rw [e0, boxplusAll_zero d' 0 (by rw [hsb.getDim]; omega) hm', Res.bind_ok]
  induction k generalizing iter with
  | zero => exact ⟨iter, rfl⟩
  | succ k ih =>
    rw [iterLoop_next (body iter hi)]
    by_cases hcv : 0 < iter ∧ converged (Mat.zero (getDim d) 1) cfg.tolEps = true
    · exact ⟨iter, if_pos hcv⟩
    · obtain ⟨it, hit⟩ := ih (iter + 1) (by omega)
      exact ⟨it, (if_neg hcv).trans hit⟩

/-- C64: with an affine measurement function and identity Jacobians of the beliefs, iterating changes nothing: for every number of
iterations and every tolerance the call does what the one-shot correction does. -/
theorem c64_iterations_affine {dH : SMap Mat} {H y0 m0 : Mat} (hpj : ∀ b v, pj b v = one b.dim) (hn : 1 ≤ cfg.numIter)
    (hc : cfg.stab = true ∨ R.tr = R) (hD : getDictBel pred h ids t [] = .ok (h1, d)) (hne : d ≠ []) (hh : h1.Sorted) (hm : MeanOk d)
    (hS0 : stackSigma h1 d t = .ok S0) (hm0 : stackMean d = .ok m0) (ha : AffineAt hf ids z d dH H y0) :
    applyObsI near pj pred hf h R z t ids cfg = oneShot near h1 d dH R (y0 - H * m0) (stabM S0 (1 / 10^12)) t cfg := by
  have hd := getDictBel_sorted hD
  have hreg := getDictBel_reg hD
  have hSs := (stackSigma_shape hS0).stabM (1 / 10^12)
  have hSt := stabM_tr (stackSigma_shape hS0) (1 / 10^12)
  have hhf := ha.2 d m0 (SameBut.refl d) hm0
  -- the one-shot route as one iteration
  have hone : applyObsI near pj pred hf h R z t ids { cfg with numIter := 1 } = oneShot near h1 d dH R (y0 - H * m0) (stabM S0 (1 / 10^12)) t cfg := by
    have := c56_one_iteration (near := near) (pj := pj) (hf := hf) (R := R) (z := z) (cfg := { cfg with numIter := 1 }) rfl hc hD hne hh hm hS0
    rw [this, hhf]
    rfl
  rw [← hone]
  obtain ⟨k, hk⟩ : ∃ k, cfg.numIter = k + 1 := ⟨cfg.numIter - 1, by omega⟩
  rw [applyObsI_eq hD hne hm hS0, applyObsI_eq hD hne hm hS0, hk]
  set s0 : It := ⟨unfixed d, Mat.empty, Mat.empty, one (getDim d), stabM S0 (1 / 10^12), Mat.zero 0 1⟩ with hs0
  set S := stabM S0 (1 / 10^12) with hSdef
  set r0 := y0 - H * m0 with hr0
  have bcfg : ∀ s, iterBody pj hf ids z R d S { cfg with numIter := 1 } 0 s = iterBody pj hf ids z R d S cfg 0 s := fun _ => rfl
  by_cases hacc : checkDimObs H R r0 S = true ∧ gate (innov H R S cfg.eps) r0 cfg = .ok true
  · have hH : stackH (eraseFixed d (hf d ids z).1) = .ok H := by rw [hhf]; exact ha.1
    have hr : (hf d ids z).2 = r0 := by rw [hhf]
    obtain ⟨d', b1, b2, b3, b4⟩ := iterBody_first (pj := pj) (cfg := cfg) hd hm hSs s0 rfl rfl hH (by rw [hr]; exact hacc.1) (by rw [hr]; exact hacc.2)
    rw [hr] at b3 b4
    have hO := obsShape_of_check hSs hacc.1
    have hK := gainM_shape hO cfg.eps
    obtain ⟨it, hit⟩ := iterLoop_affine (cfg := cfg) hpj hd hm ha hSs hm0 hr0 hacc.1 hacc.2 b1 b2 b3 k (0 + 1) (by omega)
    have fin : ∀ it, ((iterPost near pj R d cfg it ⟨unfixed d', H, gainM H R S cfg.eps, one (getDim d), S, r0⟩ >>= fun P =>
        setMeans t (unfixed d') h1 d >>= fun y => Res.ok (y.1, Status.processed, r0, P, y.2)) >>= fun o => finishObs t o) = _ := fun it =>
      finish_eq (h1 := h1) (near := near) (t := t) (iter := it) (J := one (getDim d)) (rr := r0) hh hd hm hreg hO hSt hc b1 b3 (fun P hP => by
        unfold project
        split
        · rw [stateError_eq (hK.mul hO.r) b1 hd hm b3, Res.bind_ok,
            stateJac_one hpj (hK.mul hO.r) (unfixed d') (by rw [getDim_unfixed, b1.getDim]; omega), Res.bind_ok, (Shape.one _).mulC hP,
            Res.bind_ok, Mat.one_mul _ _ hP.1, hP.mulC (Shape.one _).tr]
          have : (one (getDim d)).tr = one (getDim d) := by
            refine Mat.ext' rfl rfl ?_
            intro i j _ _
            rw [tr_e, one_e, one_e]
            by_cases hij : i = j
            · subst hij; rfl
            · rw [if_neg (fun h => hij h.1.symm), if_neg (fun h => hij h.1)]
          rw [this, Mat.mul_one _ _ hP.2]
        · rfl)
    have l2 : iterLoop pj hf ids z R d S { cfg with numIter := 1 } 1 0 s0 = Res.ok (LoopOut.fin 1 ⟨unfixed d', H, gainM H R S cfg.eps, one (getDim d), S, r0⟩) := by
      rw [iterLoop_next (cfg := { cfg with numIter := 1 }) (k := 0) b4, if_neg (by omega)]; rfl
    rw [iterLoop_next b4, if_neg (by omega), hit, l2, Res.bind_ok, Res.bind_ok]
    dsimp only
    rw [fin it]
    exact (fin 1).symm
  · -- not accepted: both stop in the first iteration
    have hb : ∀ s1 dx, iterBody pj hf ids z R d S cfg 0 s0 ≠ .ok (.next s1 dx) := by
      intro s1 dx hb
      rw [iterBody_zero hd s0 rfl, hhf] at hb
      dsimp only at hb
      rw [ha.1, Res.bind_ok] at hb
      by_cases hck : checkDimObs H R r0 S = true
      · rw [if_pos hck] at hb
        have hO := obsShape_of_check hSs hck
        rw [iterCorrect_eq hO (e := Mat.zero (getDim d) 1) ⟨rfl, rfl⟩] at hb
        obtain ⟨g, hg, hb⟩ := bind_eq_ok hb
        cases g with
        | true => exact hacc ⟨hck, hg⟩
        | false => cases hb
      · rw [if_neg hck] at hb; cases hb
    rw [iterLoop, iterLoop, bcfg]
    cases hbd : iterBody pj hf ids z R d S cfg 0 s0 with
    | throws => rfl
    | ub => rfl
    | ok o =>
      cases o with
      | ret st r => rfl
      | next s1 dx => exact absurd hbd (hb s1 dx)

end
end Hdl
end Ikf
