import Verif.Props.Decoupled
import Verif.Props.IteratedExamples

/-! # The iterated joint observation of the handler with decoupled propagation (C67), and an example (C66, C67) -/

namespace Ikf
open Mat
namespace Hdl

/-- One-shot correction of this handler: Jacobians of fixed beliefs removed, stacked for the full state,
dimensions checked, correction, answer. -/
noncomputable def oneShotD (near : Mat → Mat) (h : Hdl) (d : SMap Belief) (dH : SMap Mat) (R r S : Mat) (t : Int) (cfg : Cfg) :
    Res (Hdl × Status × Mat) := do
  let H ← stackHAll h (eraseFixed d dH)
  if checkDimObs H R r S then do
    let y ← correctD near h d H R r S t cfg
    .ok (y.1, if y.2 then .processed else .rejected, r)
  else .ok (h, .discarded, Mat.zero 0 1)

section
variable {fp : FP} {near : Mat → Mat} {pj : Belief → Mat → Mat} {pred : ℕ → Inst → Int → Inst × Bool} {hf : SMap Belief → List ℕ → Mat → SMap Mat × Mat}
  {dim : ℕ → ℕ} {h h1 : Hdl} {d : SMap Belief} {R z S0 : Mat} {t : Int} {ids : List ℕ} {cfg : Cfg}

/-- The means written first, no correction afterwards: the same as the correction. -/
theorem commitD_setMeans {P dx : Mat} {t : Int} {d d' : SMap Belief} (hsb : SameBut d d') (hd : d.Sorted) {h : Hdl} (hh : h.Sorted)
    (hreg : ∀ k ∈ (unfixed d).keys, (h.find k).isSome = true) (hdx : dx.Shape (getDim d) 1)
    (hbp : boxplusAll dx (unfixed d) 0 = .ok (unfixed d')) (hmn : MeanOk d) :
    (setMeans t (unfixed d') h d >>= fun y => commitD y.1 y.2 P (Mat.zero (getDim y.2) 1) t) = commitD h d P dx t := by
  obtain ⟨g, hg1, hg2, hg3⟩ := setMeans_spec (t := t) hsb [] hd hh hreg
  rw [show ([] ++ d : SMap Belief) = d from rfl] at hg3
  rw [hg3, Res.bind_ok]
  show commitD (mapB g h) d' P (Mat.zero (getDim d') 1) t = _
  unfold commitD
  rw [hsb.getDim, hsb.split, splitRightUpper_mapB, Res.bind_mapv]
  cases h2 : splitRightUpper P d t h with
  | throws => rfl
  | ub => rfl
  | ok b =>
    rw [Res.bind_ok, Res.bind_ok]
    exact correctBeliefs_mapB hsb (splitRightUpper_sorted hh h2) hg1 hg2 hdx (by omega) hbp hmn

theorem finishD_eq {d' : SMap Belief} {H S r J : Mat} {m iter : ℕ} {rr : Mat} (hh : h1.Sorted) (hd : d.Sorted) (hm : MeanOk d)
    (hreg : ∀ k ∈ (unfixed d).keys, (h1.find k).isSome = true)
    (hO : ObsShape H R r S (getDim d) m) (hS : S.tr = S) (hc : cfg.stab = true ∨ R.tr = R) (hsb : SameBut d d')
    (hbp : boxplusAll (gainM H R S cfg.eps * r) (unfixed d) 0 = .ok (unfixed d'))
    (hp : ∀ P, P.Shape (getDim d) (getDim d) → project pj d (unfixed d') iter P = .ok P) :
    ((iterPost near pj R d cfg iter ⟨unfixed d', H, gainM H R S cfg.eps, J, S, r⟩ >>= fun P =>
      setMeans t (unfixed d') h1 d >>= fun y => .ok (y.1, Status.processed, rr, P, y.2)) >>= fun o => finishObsD t o) =
      (commitD h1 d (fixPsd near (postM H R S cfg)) (gainM H R S cfg.eps * r) t >>= fun h2 => .ok (h2, .processed, rr)) := by
  rw [iterPost_eq hO hp, Res.bind_ok, loopPost_eq hO hS cfg hc]
  have hK := gainM_shape hO cfg.eps
  rw [← commitD_setMeans hsb hd hh hreg (hK.mul hO.r) hbp hm]
  cases setMeans t (unfixed d') h1 d with
  | throws => rfl
  | ub => rfl
  | ok y => rfl

theorem applyObsID_eq (hD : getDictBel pred h ids t [] = .ok (h1, d)) (hne : d ≠ []) (hm : MeanOk d) (hS0 : stackSigma h1 d t = .ok S0) :
    applyObsID near pj pred hf h R z t ids cfg =
      ((iterLoopD h1 pj hf ids z R d (stabM S0 (1 / 10^12)) cfg cfg.numIter 0
          ⟨unfixed d, Mat.empty, Mat.empty, one (getDim d), stabM S0 (1 / 10^12), Mat.zero 0 1⟩ >>= fun o =>
        match o with
        | .ret st r => .ok (h1, st, r, Mat.empty, d)
        | .fin iter s => iterPost near pj R d cfg iter s >>= fun P =>
            setMeans t s.x h1 d >>= fun y => .ok (y.1, .processed, s.r, P, y.2)) >>= fun o => finishObsD t o) := by
  unfold applyObsID
  rw [hD, Res.bind_ok]
  dsimp only
  have he : d.isEmpty = false := by cases d with
    | nil => exact absurd rfl hne
    | cons => rfl
  rw [he]
  simp only [Bool.false_eq_true, if_false]
  unfold processDictD
  obtain ⟨m, h2, -⟩ := stackMean_ok hm
  rw [h2, Res.bind_ok, hS0, Res.bind_ok, stabilize_ok (stackSigma_shape hS0), Res.bind_ok]
  rfl

theorem iterBodyD_zero {S : Mat} (hd : d.Sorted) (s : It) (hx : s.x = unfixed d) :
    iterBodyD h1 pj hf ids z R d S cfg 0 s = (stackHAll h1 (eraseFixed d (hf d ids z).1) >>= fun H =>
      if checkDimObs H R (hf d ids z).2 S then iterCorrect cfg S R H (Mat.zero (getDim d) 1) s.J (hf d ids z).2 s.x
      else .ok (.ret .discarded (Mat.zero 0 1))) := by
  unfold iterBodyD
  rw [hx, fullBel_eq (SameBut.refl d) hd]
  rfl

/-- C67: one iteration is the one-shot correction of the full state. -/
theorem c67_one_iteration (hn : cfg.numIter = 1) (hc : cfg.stab = true ∨ R.tr = R) (hD : getDictBel pred h ids t [] = .ok (h1, d))
    (hne : d ≠ []) (hh : h1.Sorted) (hm : MeanOk d) (hS0 : stackSigma h1 d t = .ok S0) :
    applyObsID near pj pred hf h R z t ids cfg = oneShotD near h1 d (hf d ids z).1 R (hf d ids z).2 (stabM S0 (1 / 10^12)) t cfg := by
  have hd := getDictBel_sorted hD
  have hreg := getDictBel_reg hD
  have hSs := (stackSigma_shape hS0).stabM (1 / 10^12)
  have hSt := stabM_tr (stackSigma_shape hS0) (1 / 10^12)
  rw [applyObsID_eq hD hne hm hS0, hn]
  rw [iterLoopD, iterBodyD_zero hd _ rfl]
  unfold oneShotD
  set S := stabM S0 (1 / 10^12)
  set r := (hf d ids z).2
  set dH := (hf d ids z).1
  cases hH : stackHAll h1 (eraseFixed d dH) with
  | throws => rfl
  | ub => rfl
  | ok H =>
    rw [Res.bind_ok, Res.bind_ok]
    by_cases hck : checkDimObs H R r S = true
    · rw [if_pos hck, if_pos hck]
      have hO := obsShape_of_check hSs hck
      have hK := gainM_shape hO cfg.eps
      dsimp only
      rw [iterCorrect_eq hO (e := Mat.zero (getDim d) 1) ⟨rfl, rfl⟩, sub_zero' (hK.mul hO.r)]
      unfold correctD
      rw [correctionStep_eq hO cfg]
      obtain ⟨d', b1, b2, b3⟩ := boxplusAll_spec (hK.mul hO.r) d 0 (by omega) hm
      have fin : ((iterPost near pj R d cfg 1 ⟨unfixed d', H, gainM H R S cfg.eps, one (getDim d), S, r⟩ >>= fun P =>
          setMeans t (unfixed d') h1 d >>= fun y => Res.ok (y.1, Status.processed, r, P, y.2)) >>= fun o => finishObsD t o) = _ :=
        finishD_eq (near := near) (t := t) (iter := 1) (J := one (getDim d)) (rr := r) hh hd hm hreg hO hSt hc b1 b2
          (fun P _ => by unfold project; rw [if_neg (by omega)])
      have good : ∀ g : Bool, gate (innov H R S cfg.eps) r cfg = .ok g →
          (if cfg.outlier = true then checkNIS (innov H R S cfg.eps) r cfg.conf >>= fun good => Res.ok (!good) else Res.ok false) = Res.ok (!g) := by
        intro g hg
        unfold gate at hg
        by_cases ho : cfg.outlier = true
        · rw [if_pos ho] at hg ⊢; rw [hg]; rfl
        · rw [if_neg ho] at hg ⊢; rw [← Res.ok.inj hg]; rfl
      cases hg : gate (innov H R S cfg.eps) r cfg with
      | ok g =>
        rw [good g hg, Res.bind_ok, Res.bind_ok, Res.bind_ok]
        cases g with
        | true =>
          rw [if_pos rfl, b2, Res.bind_ok]
          simp only [Bool.not_true, Bool.not_false, if_true]
          have e1 : (if 0 < 0 ∧ converged (gainM H R S cfg.eps * r) cfg.tolEps = true then
              (Res.ok (LoopOut.fin 0 ⟨unfixed d', H, gainM H R S cfg.eps, one (getDim d), S, r⟩)) else
              iterLoopD h1 pj hf ids z R d S cfg 0 (0 + 1) ⟨unfixed d', H, gainM H R S cfg.eps, one (getDim d), S, r⟩) =
              Res.ok (LoopOut.fin 1 ⟨unfixed d', H, gainM H R S cfg.eps, one (getDim d), S, r⟩) := by
            rw [if_neg (by omega)]; rfl
          show ((((if 0 < 0 ∧ converged (gainM H R S cfg.eps * r) cfg.tolEps = true then
              (Res.ok (LoopOut.fin 0 ⟨unfixed d', H, gainM H R S cfg.eps, one (getDim d), S, r⟩)) else
              iterLoopD h1 pj hf ids z R d S cfg 0 (0 + 1) ⟨unfixed d', H, gainM H R S cfg.eps, one (getDim d), S, r⟩)) >>= _) >>= _) = _
          rw [e1, Res.bind_ok]
          dsimp only
          rw [fin]
          cases commitD h1 d (fixPsd near (postM H R S cfg)) (gainM H R S cfg.eps * r) t <;> rfl
        | false => rfl
      | throws =>
        unfold gate at hg
        by_cases ho : cfg.outlier = true
        · rw [if_pos ho] at hg; rw [if_pos ho, hg]; rfl
        · rw [if_neg ho] at hg; cases hg
      | ub =>
        unfold gate at hg
        by_cases ho : cfg.outlier = true
        · rw [if_pos ho] at hg; rw [if_pos ho, hg]; rfl
        · rw [if_neg ho] at hg; cases hg
    · rw [if_neg hck, if_neg hck]; rfl

/-- If the full state has another size than the state of the participants, the measurement is discarded. -/
theorem applyObsID_discard {ds : List (ℕ × ℕ)} {h' : Hdl} {st : Status} {r : Mat} (hn : 0 < cfg.numIter) (hD : getDictBel pred h ids t [] = .ok (h1, d))
    (hne : d ≠ []) (hm : MeanOk d) (hS0 : stackSigma h1 d t = .ok S0)
    (hds : allDims h1 = .ok ds) (hsz : tot ds ≠ getDim d) (hs : applyObsID near pj pred hf h R z t ids cfg = .ok (h', st, r)) :
    h' = h1 ∧ st = .discarded := by
  rw [applyObsID_eq hD hne hm hS0] at hs
  obtain ⟨k, hk⟩ : ∃ k, cfg.numIter = k + 1 := ⟨cfg.numIter - 1, by omega⟩
  rw [hk, iterLoopD, iterBodyD_zero (getDictBel_sorted hD) _ rfl] at hs
  have hSs := (stackSigma_shape hS0).stabM (1 / 10^12)
  cases hH : stackHAll h1 (eraseFixed d (hf d ids z).1) with
  | throws => rw [hH] at hs; cases hs
  | ub => rw [hH] at hs; cases hs
  | ok H =>
    have hcol : H.cols = tot ds := by
      unfold stackHAll at hH
      rw [hds, Res.bind_ok, sum_tot] at hH
      have key : ∀ (dH : SMap Mat) (m : ℕ) (l : List (ℕ × ℕ)) (col : ℕ) (A B : Mat), stackAllLoop dH m l col A = .ok B → B.cols = A.cols := by
        intro dH m l
        induction l with
        | nil => intro col A B hb; rw [← Res.ok.inj hb]
        | cons e l ih =>
          intro col A B hb
          rw [stackAllLoop] at hb
          obtain ⟨X, hX, hb⟩ := bind_eq_ok hb
          rw [ih _ _ _ hb]
          split at hX
          · unfold setBlockC at hX
            split at hX
            · rw [← Res.ok.inj hX]; rfl
            · cases hX
          · rw [← Res.ok.inj hX]
      rw [key _ _ _ _ _ _ hH]; rfl
    have hck : checkDimObs H R (hf d ids z).2 (stabM S0 (1 / 10^12)) = false := by
      by_contra hx
      rw [Bool.not_eq_false] at hx
      obtain ⟨a, -⟩ := (checkDimObs_iff _ _ _ _).mp hx
      rw [hcol, hSs.1] at a
      exact hsz a
    rw [hH, Res.bind_ok, hck] at hs
    simp only [Bool.false_eq_true, if_false] at hs
    have := Res.ok.inj hs
    exact ⟨(congrArg Prod.fst this).symm, (congrArg (fun x => x.2.1) this).symm⟩

theorem getDim_tot (d : SMap Belief) (hd : ∀ e ∈ d, e.2.dim = dim e.1) : getDim d = tot (((unfixed d).keys).map fun p => (p, dim p)) := by
  induction d with
  | nil => rfl
  | cons e r ih =>
    have ih := ih (fun x hx => hd x (List.mem_cons_of_mem _ hx))
    rw [getDim_cons]
    by_cases hf : e.2.fixed = true
    · simp only [hf, Bool.not_true, Bool.false_eq_true, if_false]
      rw [unfixed_cons_neg _ _ hf, ih]; omega
    · have hf' : e.2.fixed = false := by simpa using hf
      simp only [hf', Bool.not_false, if_true]
      rw [unfixed_cons_pos _ _ hf', ih]
      simp only [SMap.keys, List.map_cons, tot, hd e List.mem_cons_self]

/-- C67: in every reachable state a joint observation with a measurement function is never processed, and changes nothing, unless
all registered instances take part and none of them is fixed: with at least one iteration every completed call answers
DISCARDED. -/
theorem c67_subset_never_processed (hnear : NearOk near) (hreach : ReachD fp near pred dim h) (hids : ids.Pairwise (· < ·)) (hne : ids ≠ [])
    (hN : ∀ p ∈ ids, Newest h p t) {q : ℕ} (hq : q ∈ h.keys) (hout : q ∉ ids ∨ fixedAt h t q = true) (hn : 0 < cfg.numIter)
    {h' : Hdl} {st : Status} {r : Mat} (hs : applyObsID near pj pred hf h R z t ids cfg = .ok (h', st, r)) : h' = h ∧ st = .discarded := by
  obtain ⟨c, hr⟩ := hreach.rel hnear
  obtain ⟨d, S0, m0, p1, p2, p3, p4, p5, p6, p7, p8⟩ := premises_rel (pred := pred) hr hids hne hN
  refine applyObsID_discard hn p1 p3 p5 p6 hr.allDims ?_ hs
  rw [getDim_tot (dim := dim) d (fun e he => (p8 e he).2)]
  have hsort := (SMap.sorted_iff_keys h).mp p4
  -- the keys of the unfixed participants are those of the handler that take part
  have hks : (unfixed d).keys = h.keys.filter (fun p => decide (p ∈ (unfixed d).keys)) := by
    have hus : (unfixed d).keys.Pairwise (· < ·) := by
      have : (d.keys).Pairwise (· < ·) := by rw [p2]; exact hids
      unfold SMap.keys at this ⊢
      exact this.sublist ((List.filter_sublist (l := d)).map _)
    refine List.Perm.eq_of_pairwise (le := (· < ·)) (fun a b _ _ x y => by omega) hus (hsort.sublist List.filter_sublist) ?_
    refine (List.perm_ext_iff_of_nodup (hus.imp (fun x => Nat.ne_of_lt x)) ((hsort.sublist List.filter_sublist).imp (fun x => Nat.ne_of_lt x))).mpr ?_
    intro p
    rw [List.mem_filter]
    constructor
    · intro hp
      exact ⟨(SMap.find_isSome_iff h p).mp (getDictBel_reg p1 p hp), by simpa using hp⟩
    · intro hp; simpa using hp.2
  rw [hks]
  have := (tot_filter (dim := dim) (l := h.keys) (fun p => decide (p ∈ (unfixed d).keys))
    (fun p hp => hr.pos p ((SMap.find_isSome_iff h p).mpr hp))).2 ⟨q, hq, ?_⟩
  · omega
  · simp only [decide_eq_false_iff_not]
    intro hm
    obtain ⟨e, he, rfl⟩ := List.mem_map.mp hm
    obtain ⟨h1, h2⟩ := mem_unfixed.mp he
    rcases hout with ho | ho
    · refine ho ?_
      rw [← p2]; exact List.mem_map.mpr ⟨e, h1, rfl⟩
    · rw [← (p8 e h1).1, h2] at ho; cases ho

/-- C67: in every reachable state with all instances at `t` and none fixed, one iteration with all instances as participants is the
joint observation with the Jacobians and the residual of the function at the current beliefs: same final state, and PROCESSED or
REJECTED according to its answer. -/
theorem c67_equals_one_shot (hnear : NearOk near) (hreach : ReachD fp near pred dim h) (hN : ∀ p ∈ h.keys, Newest h p t)
    (hfx : ∀ p ∈ h.keys, fixedAt h t p = false) (hne : h.keys ≠ []) (hn : cfg.numIter = 1) (hc : cfg.stab = true ∨ R.tr = R) :
    ∃ d, getDictBel pred h h.keys t [] = .ok (h, d) ∧ d.keys = h.keys ∧
      ∀ dH r H h' ans, hf d h.keys z = (dH, r) → stackHAll h dH = .ok H → R.Shape H.rows H.rows → r.Shape H.rows 1 →
        runD fp near pred h (.jointR dH R r t cfg) = .ok (h', ans) →
        applyObsID near pj pred hf h R z t h.keys cfg = .ok (h', if ans then .processed else .rejected, r) := by
  obtain ⟨c, hr⟩ := hreach.rel hnear
  have hids := (SMap.sorted_iff_keys h).mp hr.ok.sorted
  obtain ⟨d, S0, m0, p1, p2, p3, p4, p5, p6, p7, p8⟩ := premises_rel (pred := pred) hr hids hne hN
  refine ⟨d, p1, p2, ?_⟩
  intro dH r H h' ans hhf hH hRs hrs hR
  have hdf : ∀ e ∈ d, e.2.fixed = false := fun e he => by
    rw [(p8 e he).1]; exact hfx _ (by rw [← p2]; exact List.mem_map.mpr ⟨e, he, rfl⟩)
  rw [c67_one_iteration hn hc p1 p3 p4 p5 p6, hhf]
  unfold oneShotD
  have he : eraseFixed d dH = dH := by
    unfold eraseFixed
    clear hhf p1 p2 p3 p5 p6 p7 p8
    induction d with
    | nil => rfl
    | cons e q ih =>
      rw [List.foldl_cons, hdf e List.mem_cons_self]
      simp only [Bool.false_eq_true, if_false]
      exact ih (fun x hx => hdf x (List.mem_cons_of_mem _ hx))
  dsimp only
  rw [he, hH, Res.bind_ok]
  have hN' : ∀ p ∈ h.keys, c.tm p = t := fun p hp => ((hN p hp).rel hr).2
  have hpt := parts_all hr hN' 0 dH
  have ed : d = dict h (padH dim 0 dH h.keys) t := by
    have := getDictBel_rel pred hr hpt
    rw [padH_keys, p1] at this
    exact (Prod.mk.inj (Res.ok.inj this)).2
  have hck : checkDimObs H R r (stabM S0 (1 / 10^12)) = true := by
    refine ObsShape.check (n := getDim d) (m := H.rows) ⟨⟨rfl, ?_⟩, hRs, hrs, (stackSigma_shape p6).stabM _⟩
    rw [(fullJac_of hr hH).1, getDim_tot (dim := dim) d (fun e he => (p8 e he).2)]
    have : unfixed d = d := by unfold unfixed; rw [List.filter_eq_self]; intro e he; simp [hdf e he]
    rw [this, p2]
  simp only [runD, applyObsRD] at hR
  rw [hH, Res.bind_ok, getDictAll_rel pred hr hN' 0 dH, Res.bind_ok, ← ed] at hR
  dsimp only at hR
  rw [p6, Res.bind_ok, stabilize_ok (stackSigma_shape p6), Res.bind_ok] at hR
  rw [if_pos hck, hR, Res.bind_ok]

/-! ## Progress -/

theorem lastRows_eq (d : SMap Mat) (a m : ℕ) (hd : ∀ e ∈ d, e.2.rows = m) (hne : d ≠ []) : lastRows d a = m := by
  induction d generalizing a with
  | nil => exact absurd rfl hne
  | cons e r ih =>
    rw [lastRows]
    cases r with
    | nil => exact hd e List.mem_cons_self
    | cons f r => exact ih _ (fun x hx => hd x (List.mem_cons_of_mem _ hx)) (by simp)

theorem stackAllLoop_ok (dH : SMap Mat) (m : ℕ) (l : List (ℕ × ℕ)) (col : ℕ) (H : Mat) (hM : ∀ e ∈ l, ∀ M, dH.find e.1 = some M → M.Shape m e.2)
    (h1 : m ≤ H.rows) (h2 : col + tot l ≤ H.cols) : ∃ G, stackAllLoop dH m l col H = .ok G := by
  induction l generalizing col H with
  | nil => exact ⟨H, rfl⟩
  | cons e r ih =>
    simp only [tot] at h2
    rw [stackAllLoop]
    cases hf : dH.find e.1 with
    | none =>
      dsimp only
      rw [Res.bind_ok]
      exact ih _ _ (fun x hx => hM x (List.mem_cons_of_mem _ hx)) h1 (by omega)
    | some M =>
      dsimp only
      have hs := hM e List.mem_cons_self M hf
      rw [setBlockC_ok (A := H) (B := M) (i := 0) (j := col) (r := m) (c := e.2) (by omega) (by omega) hs.1 hs.2, Res.bind_ok]
      exact ih _ _ (fun x hx => hM x (List.mem_cons_of_mem _ hx)) h1 (by show _ ≤ H.cols; omega)

/-- C66: in every reachable state with all instances at `t` and none fixed, a joint observation with fitting matrices completes; it is
accepted if the gate is switched off. -/
theorem c66_progress (hnear : NearOk near) (hreach : ReachD fp near pred dim h) (hN : ∀ p ∈ h.keys, Newest h p t)
    (hfx : ∀ p ∈ h.keys, fixedAt h t p = false) (hne : h.keys ≠ []) {dH : SMap Mat} {r : Mat} {m : ℕ} (hdH : dH ≠ [])
    (hrows : ∀ e ∈ dH, e.2.rows = m) (hcols : ∀ p ∈ h.keys, ∀ M, dH.find p = some M → M.cols = dim p) (hR : R.Shape m m) (hrs : r.Shape m 1)
    (hg : GateOk cfg) : ∃ h' ans, runD fp near pred h (.jointR dH R r t cfg) = .ok (h', ans) ∧ (cfg.outlier = false → ans = true) := by
  obtain ⟨c, hr⟩ := hreach.rel hnear
  have hN' : ∀ p ∈ h.keys, c.tm p = t := fun p hp => ((hN p hp).rel hr).2
  have hfix : ∀ p ∈ h.keys, c.fix p = false := by
    intro p hp
    obtain ⟨h1, h2⟩ := (hN p hp).rel hr
    obtain ⟨b, hb, -, -, -, h5⟩ := hr.bel p h1
    have := hfx p hp
    rw [h2] at hb
    unfold fixedAt at this
    rw [show belief h p t = some b from hb] at this
    rw [← h5]; exact this
  have hM : ∀ e ∈ h.keys.map (fun p => (p, dim p)), ∀ M, dH.find e.1 = some M → M.Shape m e.2 := by
    intro e he M hf
    obtain ⟨p, hp, rfl⟩ := List.mem_map.mp he
    exact ⟨hrows _ (SMap.mem_of_find hf), hcols p hp M hf⟩
  obtain ⟨H, hH⟩ : ∃ H, stackHAll h dH = .ok H := by
    unfold stackHAll
    rw [hr.allDims, Res.bind_ok, sum_tot, lastRows_eq dH 0 m hrows hdH]
    exact stackAllLoop_ok dH m _ 0 _ hM (le_refl _) (by rw [zero_cols]; omega)
  obtain ⟨-, hHs, -⟩ := stackHAll_spec hr hH
  rw [lastRows_eq dH 0 m hrows hdH] at hHs
  have hpt := parts_all hr hN' 0 dH
  obtain ⟨S, hSe, hSC⟩ := stackSigma_spec (dict h (padH dim 0 dH h.keys) t) (dict_sorted (h := h) hpt) (covOf hr hpt)
  rw [← participants_eq hr hpt] at hSC
  have hpa := participants_all (dim := dim) hfix 0 dH
  simp only [runD, applyObsRD]
  rw [hH, Res.bind_ok, getDictAll_rel pred hr hN' 0 dH, Res.bind_ok]
  dsimp only
  rw [hSe, Res.bind_ok, stabilize_ok hSC.1, Res.bind_ok]
  have hO : ObsShape H R r (stabM S (1 / 10^12)) (tot (participants dim c (padH dim 0 dH h.keys))) m :=
    ⟨by rw [hpa]; exact hHs, hR, hrs, hSC.1.stabM _⟩
  obtain ⟨rej, e, hrej⟩ := correctionStep_progress hO hg
  unfold correctD
  rw [e, Res.bind_ok]
  cases rej with
  | true => exact ⟨h, false, rfl, fun h => by simpa using hrej h⟩
  | false =>
    obtain ⟨hP1, hP2⟩ := fixPsd_facts hnear (postM_shape hO cfg) (postM_symm hO cfg)
    obtain ⟨h1, e1, -⟩ := commitD_rel hr hpt (fun p hp => by rw [padH_keys]; exact (SMap.find_isSome_iff h p).mp hp)
      (fun p hp => by rw [padH_keys] at hp; exact hfix p hp) (by rw [padH_keys]; exact hne) hP1 hP2 ((gainM_shape hO cfg.eps).mul hO.r)
    simp only [Bool.not_false, if_true]
    rw [e1, Res.bind_ok]
    exact ⟨h1, true, rfl, fun _ => rfl⟩

end

/-! ## A concrete case -/

namespace Example

theorem reachD0 : ReachD FP.exact near pred dim h0 := ⟨h0, c0, [], init, RunsD.nil _⟩

theorem keys0 : h0.keys = [1, 2] := rfl

theorem newestAll : ∀ p ∈ h0.keys, Newest h0 p 0 := by
  intro p hp
  refine newest0 ?_
  rw [keys0] at hp; simpa using hp

theorem unfixedAll : ∀ p ∈ h0.keys, fixedAt h0 0 p = false := by
  intro p hp
  rw [keys0] at hp
  have : p = 1 ∨ p = 2 := by simpa using hp
  rcases this with rfl | rfl <;> rfl

/-- C66 in the example: an observation of the first instance alone is accepted; the premises of the theorems hold. -/
theorem c66_example : ∃ h', runD FP.exact near pred h0 (.jointR [(1, s 1)] (s 1) (s 5) 0 cfg) = .ok (h', true) ∧ ReachD FP.exact near pred dim h' := by
  obtain ⟨h', ans, e, g⟩ := c66_progress (fp := FP.exact) (pred := pred) (R := s 1) (cfg := cfg) nearOk reachD0 newestAll unfixedAll (by rw [keys0]; simp)
    (dH := [(1, s 1)]) (r := s 5) (m := 1) (by simp) (by intro e he; simp only [List.mem_singleton] at he; rw [he]; rfl)
    (by
      intro p _ M hM
      simp only [SMap.find] at hM
      split at hM
      · rw [← Option.some.inj hM]; rfl
      · cases hM) (s_shape 1) (s_shape 5) gate
  obtain rfl := g rfl
  exact ⟨h', e, h0, c0, [(.jointR [(1, s 1)] (s 1) (s 5) 0 cfg, true)], init, RunsD.step (show WfD dim h0 (.jointR [(1, s 1)] (s 1) (s 5) 0 cfg) from newestAll) e (RunsD.nil _)⟩

/-- C67 in the example: the same observation through a measurement function of the first instance is discarded. -/
theorem c67_example : applyObsID near linJac pred (fun _ _ z => ([(1, s 1)], z)) h0 (s 1) (s 5) 0 [1] cfg = .ok (h0, .discarded, Mat.zero 0 1) := by
  obtain ⟨d, S0, m0, p1, p2, p3, p4, p5, p6, p7, p8⟩ := premises_rel (pred := pred) init.rel (ids := [1]) (by simp) (by simp) (t := 0)
    (fun p hp => newest0 (Or.inl (by simpa using hp)))
  have hd := getDictBel_sorted p1
  rw [applyObsID_eq p1 p3 p5 p6]
  show (((iterLoopD h0 linJac _ [1] (s 5) (s 1) d (stabM S0 (1 / 10^12)) cfg (9 + 1) 0 _) >>= _) >>= _) = _
  rw [iterLoopD, iterBodyD_zero hd _ rfl]
  have he : eraseFixed d [(1, s 1)] = [(1, s 1)] := by
    have hdf : ∀ e ∈ d, e.2.fixed = false := fun e he => by
      have h1 : e.1 ∈ d.keys := List.mem_map.mpr ⟨e, he, rfl⟩
      rw [p2] at h1
      simp only [List.mem_singleton] at h1
      rw [(p8 e he).1, h1]; rfl
    unfold eraseFixed
    clear p1 p2 p3 p5 p6 p7 p8 hd
    induction d with
    | nil => rfl
    | cons e q ih =>
      rw [List.foldl_cons, hdf e List.mem_cons_self]
      simp only [Bool.false_eq_true, if_false]
      exact ih (fun x hx => hdf x (List.mem_cons_of_mem _ hx))
  have hH : ∃ H, stackHAll h0 [(1, s 1)] = .ok H ∧ H.cols = 2 := by
    unfold stackHAll
    rw [init.rel.allDims, Res.bind_ok, keys0]
    refine ⟨(Mat.zero 1 2).setBlock 0 0 (s 1), ?_, rfl⟩
    show stackAllLoop [(1, s 1)] 1 [(1, 1), (2, 1)] 0 (Mat.zero 1 2) = _
    with_unfolding_all rfl
  obtain ⟨H, hH, hc⟩ := hH
  dsimp only
  rw [he, hH, Res.bind_ok]
  have hdim : getDim d = 1 := by
    rw [getDim_tot (dim := dim) d (fun e he => (p8 e he).2)]
    have hu : unfixed d = d := by
      unfold unfixed; rw [List.filter_eq_self]; intro e he
      have h1 : e.1 ∈ d.keys := List.mem_map.mpr ⟨e, he, rfl⟩
      rw [p2] at h1
      simp only [List.mem_singleton] at h1
      simp only [(p8 e he).1, h1]; rfl
    rw [hu, p2]; rfl
  have hck : checkDimObs H (s 1) (s 5) (stabM S0 (1 / 10^12)) = false := by
    by_contra hx
    rw [Bool.not_eq_false] at hx
    obtain ⟨a, -⟩ := (checkDimObs_iff _ _ _ _).mp hx
    rw [hc, ((stackSigma_shape p6).stabM _).1, hdim] at a
    cases a
  rw [hck]
  rfl

end Example
end Hdl
end Ikf
