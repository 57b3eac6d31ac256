import Verif.Lemmas.Decoupled
import Verif.Props.Isolated

/-!
# The handler with decoupled propagation (C66)

Every accepted joint observation of this handler is one Kalman correction of the full state: all registered
instances, whether they take part in the observation or not.
-/

namespace Ikf
open Mat

/-! ## Specification: the centralised filter that corrects the whole state -/

/-- `H` is the Jacobian of the whole state `regs`: that of `dH` for the participants, zero for the others. -/
def FullJac (dim : ℕ → ℕ) (regs : List ℕ) (dH : SMap Mat) (H : Mat) : Prop :=
  H.cols = tot (regs.map fun p => (p, dim p)) ∧
    ∀ p ∈ regs, ∀ i, ∀ j < dim p, H.e i (off (regs.map fun p => (p, dim p)) p + j) =
      match dH.find p with
      | some M => M.e i j
      | none => 0

/-- The call is a joint observation. -/
def IsJoint : Ev → Prop
  | .jointR .. => True
  | .jointZ .. => True
  | _ => False

/-- What an accepted call does: a joint observation corrects all of `regs`. -/
inductive FullStep (dim : ℕ → ℕ) (near : Mat → Mat) (regs : List ℕ) (c : Central) : Ev → Central → Prop
  | other {ev c'} (hj : ¬ IsJoint ev) (h : SpecStep dim near c ev c') : FullStep dim near regs c ev c'
  | jointR (dH R r t cfg H S res) (hH : FullJac dim regs dH H) (hS : StackedCov (regs.map fun p => (p, dim p)) c.cov S)
      (h : correctionStep H R r (stabM S (1 / 10^12)) cfg = .ok res) (hr : res.rejected = false) :
      FullStep dim near regs c (.jointR dH R r t cfg)
        (c.joint (regs.map fun p => (p, dim p)) (Hdl.fixPsd near res.Sapos) res.dx)
  | jointZ (dH z R t cfg H S m res) (hH : FullJac dim regs dH H) (hS : StackedCov (regs.map fun p => (p, dim p)) c.cov S)
      (hm : StackedMean (regs.map fun p => (p, dim p)) c.mu m)
      (h : correctionStep H R (z - H * m) (stabM S (1 / 10^12)) cfg = .ok res) (hr : res.rejected = false) :
      FullStep dim near regs c (.jointZ dH z R t cfg)
        (c.joint (regs.map fun p => (p, dim p)) (Hdl.fixPsd near res.Sapos) res.dx)

/-- A sequence of calls with their answers: rejected ones change nothing. -/
inductive FullRun (dim : ℕ → ℕ) (near : Mat → Mat) (regs : List ℕ) : Central → List (Ev × Bool) → Central → Prop
  | nil (c) : FullRun dim near regs c [] c
  | accept {c c1 c2 ev l} (h : FullStep dim near regs c ev c1) (r : FullRun dim near regs c1 l c2) :
      FullRun dim near regs c ((ev, true) :: l) c2
  | reject {c c2 ev l} (r : FullRun dim near regs c l c2) : FullRun dim near regs c ((ev, false) :: l) c2

namespace Hdl

/-- One call to the decoupled handler: its joint observations are its own, the rest is inherited. -/
noncomputable def runD (fp : FP) (near : Mat → Mat) (pred : ℕ → Inst → Int → Inst × Bool) (h : Hdl) : Ev → Res (Hdl × Bool)
  | .jointR dH R r t cfg => applyObsRD near pred h dH R r t cfg
  | .jointZ dH z R t cfg => applyObsZD near pred h dH z R t cfg
  | ev => run fp near pred h ev

/-- Calls of an in-order user: at a joint observation the newest belief of every registered instance is at `t`. -/
def WfD (dim : ℕ → ℕ) (h : Hdl) : Ev → Prop
  | .jointR _ _ _ t _ => ∀ p ∈ h.keys, Newest h p t
  | .jointZ _ _ _ t _ => ∀ p ∈ h.keys, Newest h p t
  | ev => Wf dim h ev

/-- A sequence of calls with their answers. -/
inductive RunsD (fp : FP) (near : Mat → Mat) (pred : ℕ → Inst → Int → Inst × Bool) (dim : ℕ → ℕ) : Hdl → List (Ev × Bool) → Hdl → Prop
  | nil (h) : RunsD fp near pred dim h [] h
  | step {h h1 h2 ev ans l} (hw : WfD dim h ev) (hs : runD fp near pred h ev = .ok (h1, ans)) (r : RunsD fp near pred dim h1 l h2) :
      RunsD fp near pred dim h ((ev, ans) :: l) h2

/-- States reachable by in-order use of the decoupled handler. -/
def ReachD (fp : FP) (near : Mat → Mat) (pred : ℕ → Inst → Int → Inst × Bool) (dim : ℕ → ℕ) (h : Hdl) : Prop :=
  ∃ h0 c0 l, Init dim h0 c0 ∧ RunsD fp near pred dim h0 l h

variable {fp : FP} {near : Mat → Mat} {pred : ℕ → Inst → Int → Inst × Bool} {dim : ℕ → ℕ} {h h' : Hdl} {c c' : Central}

theorem tot_filter {l : List ℕ} (f : ℕ → Bool) (hpos : ∀ p ∈ l, 0 < dim p) :
    tot ((l.filter f).map (fun p => (p, dim p))) ≤ tot (l.map (fun p => (p, dim p))) ∧
      ((∃ p ∈ l, f p = false) → tot ((l.filter f).map (fun p => (p, dim p))) < tot (l.map (fun p => (p, dim p)))) := by
  induction l with
  | nil => simp [tot]
  | cons a l ih =>
    obtain ⟨i1, i2⟩ := ih (fun p hp => hpos p (List.mem_cons_of_mem _ hp))
    have ha0 := hpos a List.mem_cons_self
    cases ha : f a with
    | false =>
      rw [List.filter_cons_of_neg (by simp [ha])]
      simp only [List.map_cons, tot]
      exact ⟨by omega, fun _ => by omega⟩
    | true =>
      rw [List.filter_cons_of_pos (by simp [ha])]
      simp only [List.map_cons, tot]
      refine ⟨by omega, ?_⟩
      rintro ⟨p, hp, hf⟩
      rcases List.mem_cons.mp hp with rfl | hp
      · rw [ha] at hf; simp at hf
      · have := i2 ⟨p, hp, hf⟩; omega

/-- The shape test of a correction fails if somebody is fixed. -/
theorem allUnfixed (hr : Rel dim h c) {m : ℕ} {dH : SMap Mat} (hcols : tot (participants dim c (padH dim m dH h.keys)) = tot (h.keys.map fun p => (p, dim p))) :
    ∀ p ∈ h.keys, c.fix p = false := by
  intro p hp
  by_contra hx
  unfold participants at hcols
  rw [padH_keys] at hcols
  have := (tot_filter (dim := dim) (l := h.keys) (fun p => !c.fix p) (fun p hp => hr.pos p ((SMap.find_isSome_iff h p).mpr hp))).2
    ⟨p, hp, by simpa using hx⟩
  omega

theorem participants_all (hfix : ∀ p ∈ h.keys, c.fix p = false) (m : ℕ) (dH : SMap Mat) :
    participants dim c (padH dim m dH h.keys) = h.keys.map fun p => (p, dim p) := by
  unfold participants
  rw [padH_keys, List.filter_eq_self.mpr]
  intro p hp; simp [hfix p hp]

theorem fullJac_of (hr : Rel dim h c) {dH : SMap Mat} {H : Mat} (hH : stackHAll h dH = .ok H) : FullJac dim h.keys dH H := by
  obtain ⟨s1, s2, s3⟩ := stackHAll_spec hr hH
  refine ⟨s2.2, ?_⟩
  intro p hp i j hj
  have hm : (p, (dH.find p).getD (Mat.zero H.rows (dim p))) ∈ padH dim H.rows dH h.keys := List.mem_map.mpr ⟨p, hp, rfl⟩
  have hcols : ((padH dim H.rows dH h.keys).map fun e => (e.1, e.2.cols)) = h.keys.map fun p => (p, dim p) := by
    unfold padH
    rw [List.map_map]
    apply List.map_congr_left
    intro q hq
    simp only [Function.comp]
    cases hf : dH.find q with
    | none => rw [Option.getD_none, zero_cols]
    | some M => rw [Option.getD_some, (s3 q hq M hf).2]
  have := (s1.2 _ hm).2 i j
  rw [hcols] at this
  simp only at this
  cases hf : dH.find p with
  | none =>
    rw [hf, Option.getD_none, zero_cols] at this
    rw [this hj, zero_e]
  | some M =>
    rw [hf, Option.getD_some, (s3 p hp M hf).2] at this
    exact this hj

/-- Everything behind the shape tests: an accepted correction of the full state. -/
theorem correctD_accept (hnear : NearOk near) (hr : Rel dim h c) {t : Int} (hN : ∀ p ∈ h.keys, c.tm p = t) {m : ℕ} {dH : SMap Mat} {H R r S : Mat} {cfg : Cfg}
    (hHc : H.cols = tot (h.keys.map fun p => (p, dim p))) (hSC : StackedCov (participants dim c (padH dim m dH h.keys)) c.cov S)
    (hs : correctD near h (dict h (padH dim m dH h.keys) t) H R r (stabM S (1 / 10^12)) t cfg = .ok (h', true)) :
    ∃ res, correctionStep H R r (stabM S (1 / 10^12)) cfg = .ok res ∧ res.rejected = false ∧ (∀ p ∈ h.keys, c.fix p = false) ∧ SameDom h h' ∧
      Rel dim h' (c.joint (h.keys.map fun p => (p, dim p)) (fixPsd near res.Sapos) res.dx) := by
  unfold correctD at hs
  obtain ⟨res, hc, hs⟩ := bind_eq_ok hs
  cases hrj : res.rejected with
  | true => rw [hrj] at hs; simp at hs
  | false =>
    rw [hrj] at hs
    simp only [Bool.not_false, if_true] at hs
    obtain ⟨hO, hres⟩ := Inst.correctionStep_accept (hSC.1.stabM _) cfg res hc hrj
    have hfix := allUnfixed hr (m := m) (dH := dH) (by rw [← hO.H.2, hHc])
    have hpa := participants_all (dim := dim) hfix m dH
    have hP : res.Sapos.Shape (tot (participants dim c (padH dim m dH h.keys))) (tot (participants dim c (padH dim m dH h.keys))) := by rw [hres]; exact postM_shape hO cfg
    have hPs : res.Sapos.tr = res.Sapos := by rw [hres]; exact postM_symm hO cfg
    have hdx : res.dx.Shape (tot (participants dim c (padH dim m dH h.keys))) 1 := by rw [hres]; exact (gainM_shape hO _).mul hO.r
    obtain ⟨hP1, hP2⟩ := fixPsd_facts hnear hP hPs
    have hpt := parts_all hr hN m dH
    by_cases hne : h.keys = []
    · have : dict h (padH dim m dH h.keys) t = [] := by unfold dict; rw [padH_keys, hne]; rfl
      rw [this] at hs
      simp [commitD, splitRightUpper, unfixed] at hs
    · obtain ⟨h1, e, hd, hr'⟩ := commitD_rel hr hpt (fun p hp => by rw [padH_keys]; exact (SMap.find_isSome_iff h p).mp hp)
        (fun p hp => by rw [padH_keys] at hp; exact hfix p hp) (by rw [padH_keys]; exact hne) hP1 hP2 hdx
      rw [e, Res.bind_ok] at hs
      have e1 := (Prod.mk.inj (Res.ok.inj hs)).1
      rw [hpa] at hr'
      rw [← e1]
      exact ⟨res, hc, hrj, hfix, hd, hr'⟩

/-- C66 step: an accepted call takes the isolated filters to the state of the centralised filter. -/
theorem acceptedD (hnear : NearOk near) (hr : Rel dim h c) (ev : Ev) (hw : WfD dim h ev) (hs : runD fp near pred h ev = .ok (h', true)) :
    ∃ c', FullStep dim near h.keys c ev c' ∧ SameDom h h' ∧ Rel dim h' c' := by
  have other : ∀ ev, ¬ IsJoint ev → Wf dim h ev → run fp near pred h ev = .ok (h', true) →
      ∃ c', FullStep dim near h.keys c ev c' ∧ SameDom h h' ∧ Rel dim h' c' := by
    intro ev hj hw hs
    obtain ⟨c', h1, h2⟩ := accepted hnear hr ev hw hs
    exact ⟨c', FullStep.other hj h1, step_dom hr ev hw hs, h2⟩
  cases ev with
  | jointR dH R r t cfg =>
    have hN : ∀ p ∈ h.keys, c.tm p = t := fun p hp => ((hw p hp).rel hr).2
    simp only [runD, applyObsRD] at hs
    obtain ⟨H, hH, hs⟩ := bind_eq_ok hs
    rw [getDictAll_rel pred hr hN 0 dH, Res.bind_ok] at hs
    have hpt := parts_all hr hN 0 dH
    obtain ⟨S, hSe, hSC⟩ := stackSigma_spec (dict h (padH dim 0 dH h.keys) t) (dict_sorted (h := h) hpt) (covOf hr hpt)
    rw [← participants_eq hr hpt] at hSC
    simp only [hSe, Res.bind_ok, stabilize_ok hSC.1] at hs
    have hHf := fullJac_of hr hH
    obtain ⟨res, hc, hrj, hfix, hd, hr'⟩ := correctD_accept hnear hr hN hHf.1 hSC hs
    rw [participants_all hfix] at hSC
    exact ⟨_, FullStep.jointR dH R r t cfg H S res hHf hSC hc hrj, hd, hr'⟩
  | jointZ dH z R t cfg =>
    have hN : ∀ p ∈ h.keys, c.tm p = t := fun p hp => ((hw p hp).rel hr).2
    simp only [runD, applyObsZD] at hs
    obtain ⟨H, hH, hs⟩ := bind_eq_ok hs
    rw [getDictAll_rel pred hr hN 0 dH, Res.bind_ok] at hs
    have hpt := parts_all hr hN 0 dH
    obtain ⟨S, hSe, hSC⟩ := stackSigma_spec (dict h (padH dim 0 dH h.keys) t) (dict_sorted (h := h) hpt) (covOf hr hpt)
    obtain ⟨m, hme, hmC⟩ := stackMean_spec (dict h (padH dim 0 dH h.keys) t) (dict_sorted (h := h) hpt) c.mu
      (fun e he => (mem_dict hr hpt (mem_unfixed.mp he).1).2.2.2.2.1)
      (fun e he => (mem_dict hr hpt (mem_unfixed.mp he).1).2.2.2.2.2.2.2.2.2.1)
    rw [← participants_eq hr hpt] at hSC hmC
    simp only [hme, hSe, Res.bind_ok] at hs
    obtain ⟨Hm, hHm, hs⟩ := bind_eq_ok hs
    obtain ⟨r, hzr, hs⟩ := bind_eq_ok hs
    simp only [Res.bind_ok, stabilize_ok hSC.1] at hs
    have e0 : Hm = H * m := by
      unfold Mat.mulC at hHm; split at hHm
      · exact (Res.ok.inj hHm).symm
      · simp at hHm
    have e00 : r = z - H * m := by
      unfold Mat.subC at hzr; split at hzr
      · rw [← e0]; exact (Res.ok.inj hzr).symm
      · simp at hzr
    have hHf := fullJac_of hr hH
    obtain ⟨res, hc, hrj, hfix, hd, hr'⟩ := correctD_accept hnear hr hN hHf.1 hSC hs
    rw [participants_all hfix] at hSC hmC
    rw [e00] at hc
    exact ⟨_, FullStep.jointZ dH z R t cfg H S m res hHf hSC hmC hc hrj, hd, hr'⟩
  | propKF id Phi Q ta tb => exact other _ (by simp [IsJoint]) hw hs
  | propEKF id mb Phi Q ta tb => exact other _ (by simp [IsJoint]) hw hs
  | propBel id bb Phi ta tb => exact other _ (by simp [IsJoint]) hw hs
  | privKF id H R z t cfg => exact other _ (by simp [IsJoint]) hw hs
  | privEKF id H R r t cfg => exact other _ (by simp [IsJoint]) hw hs
  | setCov a b S t => exact other _ (by simp [IsJoint]) hw hs

theorem correctD_false {d : SMap Belief} {H R r S : Mat} {t : Int} {cfg : Cfg}
    (hs : correctD near h d H R r S t cfg = .ok (h', false)) : h' = h := by
  unfold correctD at hs
  obtain ⟨res, hc, hs⟩ := bind_eq_ok hs
  split at hs
  · obtain ⟨x, hx, hs⟩ := bind_eq_ok hs
    simp at hs
  · exact (Prod.mk.inj (Res.ok.inj hs)).1.symm

/-- A rejected call changes nothing at all. -/
theorem rejectedD (hr : Rel dim h c) (ev : Ev) (hw : WfD dim h ev) (hs : runD fp near pred h ev = .ok (h', false)) : h' = h := by
  cases ev with
  | jointR dH R r t cfg =>
    have hN : ∀ p ∈ h.keys, c.tm p = t := fun p hp => ((hw p hp).rel hr).2
    simp only [runD, applyObsRD] at hs
    obtain ⟨H, hH, hs⟩ := bind_eq_ok hs
    rw [getDictAll_rel pred hr hN 0 dH, Res.bind_ok] at hs
    obtain ⟨S0, -, hs⟩ := bind_eq_ok hs
    obtain ⟨S, -, hs⟩ := bind_eq_ok hs
    exact correctD_false hs
  | jointZ dH z R t cfg =>
    have hN : ∀ p ∈ h.keys, c.tm p = t := fun p hp => ((hw p hp).rel hr).2
    simp only [runD, applyObsZD] at hs
    obtain ⟨H, hH, hs⟩ := bind_eq_ok hs
    rw [getDictAll_rel pred hr hN 0 dH, Res.bind_ok] at hs
    obtain ⟨m, -, hs⟩ := bind_eq_ok hs
    obtain ⟨S0, -, hs⟩ := bind_eq_ok hs
    obtain ⟨Hm, -, hs⟩ := bind_eq_ok hs
    obtain ⟨r, -, hs⟩ := bind_eq_ok hs
    obtain ⟨S, -, hs⟩ := bind_eq_ok hs
    exact correctD_false hs
  | propKF id Phi Q ta tb => exact rejected (fp := fp) (near := near) (pred := pred) hr (.propKF id Phi Q ta tb) hw hs
  | propEKF id mb Phi Q ta tb => exact rejected (fp := fp) (near := near) (pred := pred) hr (.propEKF id mb Phi Q ta tb) hw hs
  | propBel id bb Phi ta tb => exact rejected (fp := fp) (near := near) (pred := pred) hr (.propBel id bb Phi ta tb) hw hs
  | privKF id H R z t cfg => exact rejected (fp := fp) (near := near) (pred := pred) hr (.privKF id H R z t cfg) hw hs
  | privEKF id H R r t cfg => exact rejected (fp := fp) (near := near) (pred := pred) hr (.privEKF id H R r t cfg) hw hs
  | setCov a b S t => exact rejected (fp := fp) (near := near) (pred := pred) hr (.setCov a b S t) hw hs

theorem keys_of_sameDom (h1 : SMap.Sorted h) (h2 : SMap.Sorted h') (hd : SameDom h h') : h'.keys = h.keys := by
  have s1 := (SMap.sorted_iff_keys h).mp h1
  have s2 := (SMap.sorted_iff_keys h').mp h2
  refine List.Perm.eq_of_pairwise (le := (· < ·)) (fun a b _ _ x y => by omega) s2 s1 ?_
  refine (List.perm_ext_iff_of_nodup (s2.imp (fun x => Nat.ne_of_lt x)) (s1.imp (fun x => Nat.ne_of_lt x))).mpr ?_
  intro p
  rw [← SMap.find_isSome_iff, ← SMap.find_isSome_iff, hd p]

theorem runsD_sim (hnear : NearOk near) (hr : Rel dim h c) {l : List (Ev × Bool)} (hrun : RunsD fp near pred dim h l h') :
    ∃ c', FullRun dim near h.keys c l c' ∧ Rel dim h' c' := by
  induction hrun generalizing c with
  | nil h => exact ⟨c, FullRun.nil c, hr⟩
  | @step h h1 h2 ev ans l hw hs _ ih =>
    cases ans with
    | true =>
      obtain ⟨c1, s1, d1, r1⟩ := acceptedD hnear hr ev hw hs
      obtain ⟨c2, s2, r2⟩ := ih r1
      rw [keys_of_sameDom hr.ok.sorted r1.ok.sorted d1] at s2
      exact ⟨c2, FullRun.accept s1 s2, r2⟩
    | false =>
      have e := rejectedD hr ev hw hs
      rw [e] at ih
      obtain ⟨c2, s2, r2⟩ := ih hr
      exact ⟨c2, FullRun.reject s2, r2⟩

theorem ReachD.rel (hnear : NearOk near) (hr : ReachD fp near pred dim h) : ∃ c, Rel dim h c := by
  obtain ⟨h0, c0, l, hi, hrun⟩ := hr
  obtain ⟨c, -, hr⟩ := runsD_sim hnear hi.rel hrun
  exact ⟨c, hr⟩

/-- C66: start with freshly initialised instances, use the decoupled handler in any in-order way, any number of
calls, in any interleaving: the newest belief of every instance and the cross-covariance of every two
instances at the same time are those of a centralised filter whose joint observations correct the whole
state. -/
theorem c66_centralised (hnear : NearOk near) {h0 : Hdl} {c0 : Central} (hi : Init dim h0 c0) {l : List (Ev × Bool)}
    (hrun : RunsD fp near pred dim h0 l h) :
    ∃ c, FullRun dim near h0.keys c0 l c ∧
      (∀ p t, Newest h p t → IsMean h p t (c.mu p)) ∧
      ∀ p q t, Newest h p t → Newest h q t → IsCov dim h p q t (c.cov p q) := by
  obtain ⟨c, hs, hr⟩ := runsD_sim hnear hi.rel hrun
  exact ⟨c, hs, fun p t hp => hr.isMean hp, fun p q t hp hq => hr.isCov hp hq⟩

/-- What a correction of the whole state `bs` does: every mean and every covariance is a block of the posterior. -/
structure WholeEffect (bs : List (ℕ × ℕ)) (C' : ℕ → ℕ → Mat) (m m' : ℕ → Mat) (P dx : Mat) : Prop where
  mean : ∀ p ∈ bs, m' p.1 = m p.1 + dx.block (off bs p.1) 0 p.2 1
  pair : ∀ p ∈ bs, ∀ q ∈ bs, C' p.1 q.1 = P.block (off bs p.1) (off bs q.1) p.2 q.2

theorem whole_effect {regs : List ℕ} (hn : regs.Nodup) (P dx : Mat) :
    WholeEffect (regs.map fun p => (p, dim p)) (c.joint (regs.map fun p => (p, dim p)) P dx).cov c.mu
      (c.joint (regs.map fun p => (p, dim p)) P dx).mu P dx := by
  have hn' : ((regs.map fun p => (p, dim p)).map (·.1)).Nodup := by
    rw [List.map_map]
    have : ((fun x : ℕ × ℕ => x.1) ∘ fun p => (p, dim p)) = id := rfl
    rw [this, List.map_id]; exact hn
  have he := joint_effect (dim := dim) (h := []) (h' := []) (c := c) (t := 0) (bs := regs.map fun p => (p, dim p))
    (by intro p hp; obtain ⟨x, -, rfl⟩ := List.mem_map.mp hp; rfl) hn' P dx (fun _ _ => rfl)
  exact ⟨he.mean, he.pair⟩

/-- C66: in every reachable state with all newest beliefs at `t`, an accepted joint observation with residual
`r` replaces the means and covariances of *all* registered instances by those of one Kalman correction of
the stacked state, with zero Jacobians for the instances not taking part. -/
theorem c66_full_update (hnear : NearOk near) (hreach : ReachD fp near pred dim h) {dH : SMap Mat} {R r : Mat} {t : Int} {cfg : Cfg}
    (hN : ∀ p ∈ h.keys, Newest h p t) (hs : runD fp near pred h (.jointR dH R r t cfg) = .ok (h', true)) :
    ∃ C C' m m', (∀ p ∈ h.keys, ∀ q ∈ h.keys, IsCov dim h p q t (C p q) ∧ IsMean h p t (m p)) ∧
      (∀ p ∈ h.keys, ∀ q ∈ h.keys, IsCov dim h' p q t (C' p q) ∧ IsMean h' p t (m' p)) ∧
      ∃ H S res, FullJac dim h.keys dH H ∧ StackedCov (h.keys.map fun p => (p, dim p)) C S ∧
        correctionStep H R r (stabM S (1 / 10^12)) cfg = .ok res ∧ res.rejected = false ∧
        WholeEffect (h.keys.map fun p => (p, dim p)) C' m m' (fixPsd near res.Sapos) res.dx := by
  obtain ⟨c, hr⟩ := hreach.rel hnear
  obtain ⟨c', hst, hd, hr'⟩ := acceptedD hnear hr (.jointR dH R r t cfg) hN hs
  have hn : h.keys.Nodup := ((SMap.sorted_iff_keys h).mp hr.ok.sorted).imp (fun x => Nat.ne_of_lt x)
  have hnew : c'.tm = c.tm → ∀ p ∈ h.keys, Newest h' p t := by
    intro e p hp
    obtain ⟨h1, h2⟩ := (hN p hp).rel hr
    exact Newest.of_rel hr' (sameDom_isSome hd h1) (by rw [e]; exact h2)
  cases hst with
  | other hj => exact absurd trivial hj
  | jointR _ _ _ _ _ H S res hH hS hc hrj =>
    refine ⟨c.cov, _, c.mu, _, fun p hp q hq => ⟨hr.isCov (hN p hp) (hN q hq), hr.isMean (hN p hp)⟩,
      fun p hp q hq => ⟨hr'.isCov (hnew rfl p hp) (hnew rfl q hq), hr'.isMean (hnew rfl p hp)⟩, H, S, res, hH, hS, hc, hrj, ?_⟩
    exact whole_effect hn _ _

/-- C66 for the version with a measurement `z`. -/
theorem c66_full_update_meas (hnear : NearOk near) (hreach : ReachD fp near pred dim h) {dH : SMap Mat} {R z : Mat} {t : Int} {cfg : Cfg}
    (hN : ∀ p ∈ h.keys, Newest h p t) (hs : runD fp near pred h (.jointZ dH z R t cfg) = .ok (h', true)) :
    ∃ C C' m m', (∀ p ∈ h.keys, ∀ q ∈ h.keys, IsCov dim h p q t (C p q) ∧ IsMean h p t (m p)) ∧
      (∀ p ∈ h.keys, ∀ q ∈ h.keys, IsCov dim h' p q t (C' p q) ∧ IsMean h' p t (m' p)) ∧
      ∃ H S x res, FullJac dim h.keys dH H ∧ StackedCov (h.keys.map fun p => (p, dim p)) C S ∧
        StackedMean (h.keys.map fun p => (p, dim p)) m x ∧
        correctionStep H R (z - H * x) (stabM S (1 / 10^12)) cfg = .ok res ∧ res.rejected = false ∧
        WholeEffect (h.keys.map fun p => (p, dim p)) C' m m' (fixPsd near res.Sapos) res.dx := by
  obtain ⟨c, hr⟩ := hreach.rel hnear
  obtain ⟨c', hst, hd, hr'⟩ := acceptedD hnear hr (.jointZ dH z R t cfg) hN hs
  have hn : h.keys.Nodup := ((SMap.sorted_iff_keys h).mp hr.ok.sorted).imp (fun x => Nat.ne_of_lt x)
  have hnew : c'.tm = c.tm → ∀ p ∈ h.keys, Newest h' p t := by
    intro e p hp
    obtain ⟨h1, h2⟩ := (hN p hp).rel hr
    exact Newest.of_rel hr' (sameDom_isSome hd h1) (by rw [e]; exact h2)
  cases hst with
  | other hj => exact absurd trivial hj
  | jointZ _ _ _ _ _ H S x res hH hS hx hc hrj =>
    refine ⟨c.cov, _, c.mu, _, fun p hp q hq => ⟨hr.isCov (hN p hp) (hN q hq), hr.isMean (hN p hp)⟩,
      fun p hp q hq => ⟨hr'.isCov (hnew rfl p hp) (hnew rfl q hq), hr'.isMean (hnew rfl p hp)⟩, H, S, x, res, hH, hS, hx, hc, hrj, ?_⟩
    exact whole_effect hn _ _

/-- C66: a rejected joint observation changes nothing. -/
theorem c66_rejected (hnear : NearOk near) (hreach : ReachD fp near pred dim h) {ev : Ev} (hw : WfD dim h ev)
    (hs : runD fp near pred h ev = .ok (h', false)) : h' = h := by
  obtain ⟨c, hr⟩ := hreach.rel hnear
  exact rejectedD hr ev hw hs

/-- C66: as soon as one registered instance has a fixed belief no joint observation is accepted, whoever takes
part in it. -/
theorem c66_fixed_blocks_all (hnear : NearOk near) (hreach : ReachD fp near pred dim h) {t : Int}
    (hN : ∀ p ∈ h.keys, Newest h p t) {p : ℕ} (hp : p ∈ h.keys) (hfix : fixedAt h t p = true) (dH : SMap Mat) (R r : Mat) (cfg : Cfg) :
    runD fp near pred h (.jointR dH R r t cfg) ≠ .ok (h', true) ∧ runD fp near pred h (.jointZ dH r R t cfg) ≠ .ok (h', true) := by
  obtain ⟨c, hr⟩ := hreach.rel hnear
  have hcf : c.fix p = true := by
    obtain ⟨h1, h2⟩ := (hN p hp).rel hr
    obtain ⟨b, hb, -, -, -, h5⟩ := hr.bel p h1
    rw [h2] at hb
    unfold fixedAt at hfix
    rw [show belief h p t = some b from hb] at hfix
    rw [← h5]; exact hfix
  have hN' : ∀ p ∈ h.keys, c.tm p = t := fun p hp => ((hN p hp).rel hr).2
  have key : ∀ (H r' S : Mat), stackHAll h dH = .ok H → StackedCov (participants dim c (padH dim 0 dH h.keys)) c.cov S →
      correctD near h (dict h (padH dim 0 dH h.keys) t) H R r' (stabM S (1 / 10^12)) t cfg ≠ .ok (h', true) := by
    intro H r' S hH hSC hs
    obtain ⟨res, -, -, hf, -⟩ := correctD_accept hnear hr hN' (fullJac_of hr hH).1 hSC hs
    rw [hf p hp] at hcf; simp at hcf
  have hpt := parts_all hr hN' 0 dH
  obtain ⟨S, hSe, hSC⟩ := stackSigma_spec (dict h (padH dim 0 dH h.keys) t) (dict_sorted (h := h) hpt) (covOf hr hpt)
  rw [← participants_eq hr hpt] at hSC
  constructor
  · intro hs
    simp only [runD, applyObsRD] at hs
    obtain ⟨H, hH, hs⟩ := bind_eq_ok hs
    rw [getDictAll_rel pred hr hN' 0 dH, Res.bind_ok] at hs
    simp only [hSe, Res.bind_ok, stabilize_ok hSC.1] at hs
    exact key H r S hH hSC hs
  · intro hs
    simp only [runD, applyObsZD] at hs
    obtain ⟨H, hH, hs⟩ := bind_eq_ok hs
    rw [getDictAll_rel pred hr hN' 0 dH, Res.bind_ok] at hs
    obtain ⟨m, -, hs⟩ := bind_eq_ok hs
    simp only [hSe, Res.bind_ok] at hs
    obtain ⟨Hm, -, hs⟩ := bind_eq_ok hs
    obtain ⟨r', -, hs⟩ := bind_eq_ok hs
    simp only [stabilize_ok hSC.1, Res.bind_ok] at hs
    exact key H r' S hH hSC hs

/-- C66: a registered instance without any belief makes every joint observation undefined behaviour (a null
dereference), whoever takes part. -/
theorem c66_uninitialised_ub {p : ℕ} {i : Inst} (hp : (p, i) ∈ h) (hi : i.bel = []) (dH : SMap Mat) (R r : Mat) (t : Int) (cfg : Cfg) :
    runD fp near pred h (.jointR dH R r t cfg) = .ub ∧ runD fp near pred h (.jointZ dH r R t cfg) = .ub := by
  have key : allDims h = .ub := by
    clear dH R r t cfg
    induction h with
    | nil => simp at hp
    | cons e r ih =>
      unfold allDims
      rcases List.mem_cons.mp hp with rfl | hp
      · rw [show (Buf.latest (p, i).2.bel) = none by rw [hi]; rfl]
      · cases e.2.bel.latest with
        | none => rfl
        | some b => simp only; rw [ih hp]; rfl
  have k2 : stackHAll h dH = .ub := by unfold stackHAll; rw [key]; rfl
  constructor
  · simp only [runD, applyObsRD]; rw [k2]; rfl
  · simp only [runD, applyObsZD]; rw [k2]; rfl

/-- C66: Jacobians for instances that are not registered are ignored. -/
theorem c66_unknown_ignored (dH dH' : SMap Mat) (hk : ∀ p ∈ h.keys, dH'.find p = dH.find p) (hrow : lastRows dH' 0 = lastRows dH 0)
    (R r : Mat) (t : Int) (cfg : Cfg) :
    runD fp near pred h (.jointR dH' R r t cfg) = runD fp near pred h (.jointR dH R r t cfg) ∧
      runD fp near pred h (.jointZ dH' r R t cfg) = runD fp near pred h (.jointZ dH r R t cfg) := by
  have loop : ∀ (ds : List (ℕ × ℕ)), (∀ e ∈ ds, dH'.find e.1 = dH.find e.1) → ∀ m col H, stackAllLoop dH' m ds col H = stackAllLoop dH m ds col H := by
    intro ds
    induction ds with
    | nil => intro _ m col H; rfl
    | cons e r ih =>
      intro hd m col H
      unfold stackAllLoop
      rw [hd e List.mem_cons_self]
      congr 1
      funext H1
      exact ih (fun x hx => hd x (List.mem_cons_of_mem _ hx)) _ _ _
  have dk : ∀ (h : Hdl) ds, allDims h = .ok ds → ∀ e ∈ ds, e.1 ∈ h.keys := by
    intro h
    induction h with
    | nil => intro ds hds e he; simp only [allDims, Res.ok.injEq] at hds; rw [← hds] at he; simp at he
    | cons x r ih =>
      intro ds hds e he
      unfold allDims at hds
      cases hl : x.2.bel.latest with
      | none => rw [hl] at hds; simp at hds
      | some b =>
        rw [hl] at hds
        obtain ⟨ds', h1, h2⟩ := bind_eq_ok hds
        rw [← Res.ok.inj h2] at he
        unfold SMap.keys
        rw [List.map_cons]
        rcases List.mem_cons.mp he with rfl | he
        · exact List.mem_cons_self
        · exact List.mem_cons_of_mem _ (ih ds' h1 e he)
  have key : stackHAll h dH' = stackHAll h dH := by
    unfold stackHAll
    cases hds : allDims h with
    | throws => rfl
    | ub => rfl
    | ok ds =>
      rw [Res.bind_ok, Res.bind_ok, hrow]
      exact loop ds (fun e he => hk _ (dk h ds hds e he)) _ _ _
  constructor
  · simp only [runD, applyObsRD, key]
  · simp only [runD, applyObsZD, key]

end Hdl
end Ikf
