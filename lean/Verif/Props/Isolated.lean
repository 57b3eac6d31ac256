import Verif.Props.CrossCov
import Verif.Props.FactorStore
import Verif.Lemmas.Frame
import Verif.Props.KalmanMath
import Mathlib.Data.Matrix.ColumnRowPartitioned

/-!
# Isolated filters, property by property (C19, C22, C23, C24, C26)
-/

namespace Ikf
open Mat

/-- A read cross-covariance as a covariance: an empty matrix stands for an uncorrelated pair. -/
def asCov (n m : ℕ) (S : Mat) : Mat := if S.size = 0 then Mat.zero n m else S

namespace Hdl

/-- States reachable by in-order use from freshly initialised instances. -/
def Reach (fp : FP) (near : Mat → Mat) (pred : ℕ → Inst → Int → Inst × Bool) (dim : ℕ → ℕ) (h : Hdl) : Prop :=
  ∃ h0 c0 l, Init dim h0 c0 ∧ Runs fp near pred dim h0 l h

variable {fp : FP} {near : Mat → Mat} {pred : ℕ → Inst → Int → Inst × Bool} {dim : ℕ → ℕ} {h h' : Hdl} {c c' : Central}

theorem Reach.rel (hnear : NearOk near) (hr : Reach fp near pred dim h) : ∃ c, Rel dim h c := by
  obtain ⟨h0, c0, l, hi, hrun⟩ := hr
  obtain ⟨c, -, hr⟩ := runs_sim hnear hi.rel hrun
  exact ⟨c, hr⟩

/-- The read of a pair at the same time, as a covariance. -/
theorem Rel.read (hr : Rel dim h c) {p q : ℕ} {t : Int} (hpq : p ≠ q) (hp : Newest h p t) (hq : Newest h q t) :
    ∃ S, Hdl.getSigma h p q t = .ok S ∧ asCov (dim p) (dim q) S = c.cov p q := by
  obtain ⟨a1, a2⟩ := hp.rel hr
  obtain ⟨b1, b2⟩ := hq.rel hr
  rcases hr.getSigma a1 b1 hpq a2 b2 with ⟨g, g1, -⟩ | ⟨g, -, g2⟩
  · exact ⟨_, g, by unfold asCov; rw [if_neg g1]⟩
  · exact ⟨_, g, by unfold asCov; rw [if_pos (by rfl), g2]⟩

/-! ## C22 -/

/-- The state transition of instance `p` in a call, if it is a propagation of `p`. -/
def transition (p : ℕ) : Ev → Option Mat
  | .propKF id Phi _ _ _ => if id = p then some Phi else none
  | .propEKF id _ Phi _ _ _ => if id = p then some Phi else none
  | .propBel id _ Phi _ _ => if id = p then some Phi else none
  | _ => none

/-- The call is a propagation. -/
def IsProp : Ev → Prop
  | .propKF .. => True
  | .propEKF .. => True
  | .propBel .. => True
  | _ => False

/-- Specification: product of the transitions of the accepted propagations of `p`, newest leftmost. -/
def phiProd (n p : ℕ) : List (Ev × Bool) → Mat
  | [] => one n
  | (ev, true) :: l => match transition p ev with
    | some Phi => phiProd n p l * Phi
    | none => phiProd n p l
  | (_, false) :: l => phiProd n p l

theorem spec_phi {p q : ℕ} {l : List (Ev × Bool)} (hs : SpecRun dim near c l c') (hl : ∀ x ∈ l, IsProp x.1) (hpq : p ≠ q)
    (hsh : (c'.cov p q).Shape (dim p) (dim q)) :
    c'.cov p q = phiProd (dim p) p l * c.cov p q * (phiProd (dim q) q l).tr := by
  have tcov : ∀ (c : Central) (id : ℕ) (F m P : Mat) (t : Int) (fx : Bool) (A B : Mat),
      A * (c.transform id F m P t fx).cov p q * B.tr =
        (if id = p then A * F else A) * c.cov p q * (if id = q then B * F else B).tr := by
    intro c id F m P t fx A B
    simp only [Central.transform]
    by_cases h1 : id = p
    · subst h1
      rw [if_neg (fun x => hpq x.2.symm), if_pos rfl, if_pos rfl, if_neg hpq, Mat.mul_assoc A F]
    · have h1' : ¬ p = id := fun e => h1 e.symm
      by_cases h2 : id = q
      · subst h2
        rw [if_neg (fun x => h1' x.1), if_neg h1', if_pos rfl, if_neg h1, if_pos rfl, tr_mul, ← Mat.mul_assoc, ← Mat.mul_assoc]
      · have h2' : ¬ q = id := fun e => h2 e.symm
        rw [if_neg (fun x => h1' x.1), if_neg h1', if_neg h2', if_neg h1, if_neg h2]
  induction hs with
  | nil c => simp only [phiProd, tr_one]; rw [Mat.one_mul _ _ hsh.1, Mat.mul_one _ _ hsh.2]
  | @accept c c1 c2 ev l hst hr ih =>
    have ih' := ih (fun x hx => hl x (List.mem_cons_of_mem _ hx)) hsh
    have hp := hl _ List.mem_cons_self
    rw [ih']
    cases hst with
    | propKF id Phi Q ta tb =>
      rw [tcov]; simp only [phiProd, transition]
      by_cases h1 : id = p
      · have h2 : ¬ id = q := fun h2 => hpq (h1.symm.trans h2)
        simp only [if_pos h1, if_neg h2]
      · by_cases h2 : id = q
        · simp only [if_neg h1, if_pos h2]
        · simp only [if_neg h1, if_neg h2]
    | propEKF id mb Phi Q ta tb =>
      rw [tcov]; simp only [phiProd, transition]
      by_cases h1 : id = p
      · have h2 : ¬ id = q := fun h2 => hpq (h1.symm.trans h2)
        simp only [if_pos h1, if_neg h2]
      · by_cases h2 : id = q
        · simp only [if_neg h1, if_pos h2]
        · simp only [if_neg h1, if_neg h2]
    | propBel id bb Phi ta tb =>
      rw [tcov]; simp only [phiProd, transition]
      by_cases h1 : id = p
      · have h2 : ¬ id = q := fun h2 => hpq (h1.symm.trans h2)
        simp only [if_pos h1, if_neg h2]
      · by_cases h2 : id = q
        · simp only [if_neg h1, if_pos h2]
        · simp only [if_neg h1, if_neg h2]
    | privKF => exact absurd hp (by simp [IsProp])
    | privEKF => exact absurd hp (by simp [IsProp])
    | setCov => exact absurd hp (by simp [IsProp])
    | jointR => exact absurd hp (by simp [IsProp])
    | jointZ => exact absurd hp (by simp [IsProp])
  | @reject c c2 ev l hr ih =>
    rw [ih (fun x hx => hl x (List.mem_cons_of_mem _ hx)) hsh]
    rfl

/-- C22: from any reachable state, any number of propagations of any instances in any interleaving: the
cross-covariance read at the end is the product of the transitions of `p`, times the one read at the start,
times the transposed product of the transitions of `q`. -/
theorem c22_propagation (hnear : NearOk near) (hreach : Reach fp near pred dim h) {l : List (Ev × Bool)} (hl : ∀ x ∈ l, IsProp x.1)
    (hrun : Runs fp near pred dim h l h') {p q : ℕ} (hpq : p ≠ q) {t t' : Int} (hp : Newest h p t) (hq : Newest h q t)
    (hp' : Newest h' p t') (hq' : Newest h' q t') :
    ∃ S S', getSigma h p q t = .ok S ∧ getSigma h' p q t' = .ok S' ∧
      asCov (dim p) (dim q) S' = phiProd (dim p) p l * asCov (dim p) (dim q) S * (phiProd (dim q) q l).tr := by
  obtain ⟨c, hr⟩ := hreach.rel hnear
  obtain ⟨c', hs, hr'⟩ := runs_sim hnear hr hrun
  obtain ⟨S, g1, g2⟩ := hr.read hpq hp hq
  obtain ⟨S', g1', g2'⟩ := hr'.read hpq hp' hq'
  refine ⟨S, S', g1, g1', ?_⟩
  rw [g2, g2']
  exact spec_phi hs hl hpq (hr'.covS p q (hp'.rel hr').1 (hq'.rel hr').1)

/-! ## C23 -/

theorem Newest.of_rel (hr : Rel dim h c) {p : ℕ} {t : Int} (hp : (h.find p).isSome) (ht : c.tm p = t) : Newest h p t := by
  obtain ⟨i, hi⟩ := Option.isSome_iff_exists.mp hp
  obtain ⟨b, hb, -⟩ := hr.bel p hp
  have ho := (hr.ok.ord p i hi).bel
  rw [bl_of_find hi, Inst.beliefAt_eq, Buf.absMap_eq_some _ ho] at hb
  cases hl : i.bel.getLast? with
  | none => rw [List.getLast?_eq_none_iff] at hl; rw [hl] at hb; simp at hb
  | some e =>
    have g1 := ho.sorted.le_getLast hl _ hb
    have g2 := (hr.ok.upTo p i hi).bel e (List.mem_of_getLast? hl)
    simp only at g1
    exact ⟨i, e, hi, hl, by omega⟩

theorem sameDom_of_rel_transform {i j : Inst} {id : ℕ} (hi : h.find id = some i) : SameDom h (h.set id j) := sameDom_set1 hi

/-- A call never adds or removes an instance. -/
theorem step_dom (hr : Rel dim h c) (ev : Ev) (hw : Wf dim h ev) {ans : Bool} (hs : run fp near pred h ev = .ok (h', ans)) :
    SameDom h h' := by
  cases ans with
  | false => rw [rejected hr ev hw hs]; exact SameDom.refl h
  | true =>
    have one : ∀ (id : ℕ) (i : Inst) (hi : h.find id = some i) (x : Res (Inst × Bool))
        (hs : (x >>= fun r => Res.ok (SMap.set h id r.1, r.2)) = .ok (h', true)), SameDom h h' := by
      intro id i hi x hs
      cases x with
      | throws => simp at hs
      | ub => simp at hs
      | ok r =>
        rw [← (Prod.mk.inj (Res.ok.inj hs)).1]
        exact sameDom_set1 hi
    cases ev with
    | propKF id Phi Q ta tb =>
      obtain ⟨i, hi⟩ := Option.isSome_iff_exists.mp (hw.1.rel hr).1
      simp only [run, get_ok hi, Res.bind_ok] at hs
      exact one id i hi _ hs
    | propEKF id mb Phi Q ta tb =>
      obtain ⟨i, hi⟩ := Option.isSome_iff_exists.mp (hw.1.rel hr).1
      simp only [run, get_ok hi, Res.bind_ok] at hs
      cases hb : i.beliefAt ta with
      | none => rw [hb] at hs; simp at hs
      | some ba => rw [hb] at hs; exact one id i hi _ hs
    | propBel id bb Phi ta tb =>
      obtain ⟨i, hi⟩ := Option.isSome_iff_exists.mp (hw.1.rel hr).1
      simp only [run, get_ok hi, Res.bind_ok] at hs
      exact one id i hi _ hs
    | privKF id H R z t cfg =>
      obtain ⟨i, hi⟩ := Option.isSome_iff_exists.mp (Newest.rel hr hw).1
      simp only [run, get_ok hi, Res.bind_ok] at hs
      exact one id i hi _ hs
    | privEKF id H R r t cfg =>
      obtain ⟨i, hi⟩ := Option.isSome_iff_exists.mp (Newest.rel hr hw).1
      simp only [run, get_ok hi, Res.bind_ok] at hs
      cases hb : i.beliefAt t with
      | none => rw [hb] at hs; simp at hs
      | some b => rw [hb] at hs; exact one id i hi _ hs
    | setCov a b S t =>
      obtain ⟨hab, ha, hb, -⟩ := hw
      simp only [run] at hs
      rcases Nat.lt_or_gt_of_ne hab with hl | hl
      · obtain ⟨h1, e, -, d, -⟩ := setSigma_lt hr.ok hl S t (ha.rel hr).1 (hb.rel hr).1 (ha.rel hr).2.ge (hb.rel hr).2.ge
        rw [e, Res.bind_ok] at hs
        rw [← (Prod.mk.inj (Res.ok.inj hs)).1]; exact d
      · obtain ⟨h1, e, -, d, -⟩ := setSigma_gt hr.ok hl S t (ha.rel hr).1 (hb.rel hr).1 (ha.rel hr).2.ge (hb.rel hr).2.ge
        rw [e, Res.bind_ok] at hs
        rw [← (Prod.mk.inj (Res.ok.inj hs)).1]; exact d
    | jointR dH R r t cfg =>
      obtain ⟨hd, hN⟩ := hw
      have hp : Parts dim h c dH t := ⟨hd, fun p hpm => ((hN p hpm).rel hr).1, fun p hpm => ((hN p hpm).rel hr).2⟩
      simp only [run, applyObsR] at hs
      obtain ⟨H, hH, hs⟩ := bind_eq_ok hs
      rw [getDictBel_rel pred hr hp, Res.bind_ok] at hs
      simp only at hs
      split at hs
      · simp at hs
      · obtain ⟨S0, hS0, hs⟩ := bind_eq_ok hs
        obtain ⟨S, hS, hs⟩ := bind_eq_ok hs
        exact (correctJoint_frame hs).1
    | jointZ dH z R t cfg =>
      obtain ⟨hd, hN⟩ := hw
      have hp : Parts dim h c dH t := ⟨hd, fun p hpm => ((hN p hpm).rel hr).1, fun p hpm => ((hN p hpm).rel hr).2⟩
      simp only [run, applyObsZ] at hs
      obtain ⟨H, hH, hs⟩ := bind_eq_ok hs
      rw [getDictBel_rel pred hr hp, Res.bind_ok] at hs
      simp only at hs
      split at hs
      · simp at hs
      · obtain ⟨m, hm, hs⟩ := bind_eq_ok hs
        obtain ⟨S0, hS0, hs⟩ := bind_eq_ok hs
        obtain ⟨Hm, hHm, hs⟩ := bind_eq_ok hs
        obtain ⟨r, hr', hs⟩ := bind_eq_ok hs
        obtain ⟨S, hS, hs⟩ := bind_eq_ok hs
        exact (correctJoint_frame hs).1

/-- Specification: the Kalman gain for covariance `P`, with the `eps` the library adds to the innovation
covariance. -/
noncomputable def kalmanGain (H R P : Mat) (eps : ℝ) : Mat := P * H.tr * (H * P * H.tr + R + smul eps (one H.rows)).inv

theorem gainM_eq {H R r P : Mat} {n m : ℕ} (hO : ObsShape H R r P n m) (hP : P.tr = P) (hR : R.tr = R) (eps : ℝ) :
    gainM H R P eps = kalmanGain H R P eps := by
  have hsh : (H * P * H.tr + R).Shape m m := ((hO.H.mul hO.S).mul hO.H.tr).add
  have hsym : (H * P * H.tr + R).tr = H * P * H.tr + R := by
    have h1 : (H * P * H.tr).tr = H * P * H.tr := by rw [tr_mul, tr_mul, tr_tr, hP, Mat.mul_assoc]
    refine Mat.ext' (by rw [hsh.tr.1, hsh.1]) (by rw [hsh.tr.2, hsh.2]) ?_
    · intro i j _ _
      have e1 : ∀ i j, (H * P * H.tr).e j i = (H * P * H.tr).e i j := fun i j => congrFun (congrFun (congrArg Mat.e h1) i) j
      have e2 : ∀ i j, R.e j i = R.e i j := fun i j => congrFun (congrFun (congrArg Mat.e hR) i) j
      have hs := (hO.H.mul hO.S).mul hO.H.tr
      rw [tr_e, add_e _ _ (by rw [hO.R.1, hs.1]) (by rw [hO.R.2, hs.2]), add_e _ _ (by rw [hO.R.1, hs.1]) (by rw [hO.R.2, hs.2]), e1, e2]
  unfold gainM kalmanGain innov innov0 stabM
  congr 2
  have : smul (1 / 2) (H * P * H.tr + R + (H * P * H.tr + R).tr) = H * P * H.tr + R := by
    rw [hsym]
    refine Mat.ext' rfl rfl ?_
    intro i j _ _
    rw [smul_e, add_e _ _ rfl rfl]; ring
  rw [this, hsh.1, hO.H.1]

/-- What an accepted private observation of `id` does to the reads. -/
theorem priv_reads (hr : Rel dim h c) {id : ℕ} {t : Int} {F m P : Mat} {fx : Bool} (hN : Newest h id t) (hd : SameDom h h')
    (hr' : Rel dim h' (c.transform id F m P t fx)) (hoth : ∀ q, q ≠ id → h'.find q = h.find q)
    (hoth' : ∀ p q t', p ≠ id → fc h' p q t' = fc h p q t') :
    (∃ b', belief h' id t = some b' ∧ b'.mean = m ∧ b'.Sigma = P) ∧
    (∀ q, q ≠ id → Newest h q t → ∃ S S' T', getSigma h id q t = .ok S ∧ getSigma h' id q t = .ok S' ∧ getSigma h' q id t = .ok T' ∧
      asCov (dim id) (dim q) S' = F * asCov (dim id) (dim q) S ∧
      asCov (dim q) (dim id) T' = (F * asCov (dim id) (dim q) S).tr) ∧
    (∀ p q t', p ≠ id → q ≠ id → getSigma h' p q t' = getSigma h p q t') ∧
    (∀ q, q ≠ id → ∀ t', belief h' q t' = belief h q t') := by
  obtain ⟨hid, htm⟩ := hN.rel hr
  have hid' := sameDom_isSome hd hid
  have etm : (c.transform id F m P t fx).tm id = t := by simp [Central.transform]
  have hN' : Newest h' id t := Newest.of_rel hr' hid' etm
  refine ⟨?_, ?_, ?_, ?_⟩
  · obtain ⟨b, hb, h1, h2, -⟩ := hr'.bel id hid'
    rw [etm] at hb
    refine ⟨b, hb, ?_, ?_⟩
    · rw [h1]; simp [Central.transform]
    · rw [h2]; simp [Central.transform]
  · intro q hq hNq
    obtain ⟨hq1, hq2⟩ := hNq.rel hr
    have hNq' : Newest h' q t := Newest.of_rel hr' (sameDom_isSome hd hq1) (by simp [Central.transform, hq, hq2])
    obtain ⟨S, g1, g2⟩ := hr.read (Ne.symm hq) hN hNq
    obtain ⟨S', g1', g2'⟩ := hr'.read (Ne.symm hq) hN' hNq'
    obtain ⟨T', k1, k2⟩ := hr'.read hq hNq' hN'
    have e1 : (c.transform id F m P t fx).cov id q = F * c.cov id q := by simp [Central.transform, hq]
    refine ⟨S, S', T', g1, g1', k1, ?_, ?_⟩
    · rw [g2', g2, e1]
    · rw [k2, g2, hr'.symm id q hid' (sameDom_isSome hd hq1), e1]
  · intro p q t' hp hq
    exact getSigma_congr hd (hoth' p q t' hp) (hoth' q p t' hq)
  · intro q hq t'
    unfold belief; rw [hoth q hq]

/-- C23 (and the private update itself): in every reachable state, an accepted private observation
`z = H x + v` of instance `id` at its newest belief turns its mean and the cross-covariance with every
instance at the same time into what a centralised filter with gain `K` for `id` and zero gain for the
others gets; nothing else changes. -/
theorem c23_private (hnear : NearOk near) (hreach : Reach fp near pred dim h) {id : ℕ} {H R z : Mat} {t : Int} {cfg : Cfg}
    (hN : Newest h id t) (hR : R.tr = R) (hs : run fp near pred h (.privKF id H R z t cfg) = .ok (h', true)) :
    ∃ b, belief h id t = some b ∧
      (∃ b', belief h' id t = some b' ∧ b'.mean = b.mean + kalmanGain H R b.Sigma cfg.eps * (z - H * b.mean) ∧ b'.Sigma = postM H R b.Sigma cfg) ∧
      (∀ q, q ≠ id → Newest h q t → ∃ S S' T', getSigma h id q t = .ok S ∧ getSigma h' id q t = .ok S' ∧ getSigma h' q id t = .ok T' ∧
        asCov (dim id) (dim q) S' = (one (dim id) - kalmanGain H R b.Sigma cfg.eps * H) * asCov (dim id) (dim q) S ∧
        asCov (dim q) (dim id) T' = ((one (dim id) - kalmanGain H R b.Sigma cfg.eps * H) * asCov (dim id) (dim q) S).tr) ∧
      (∀ p q t', p ≠ id → q ≠ id → getSigma h' p q t' = getSigma h p q t') ∧
      (∀ q, q ≠ id → ∀ t', belief h' q t' = belief h q t') := by
  obtain ⟨c, hr⟩ := hreach.rel hnear
  obtain ⟨hid, htm⟩ := hN.rel hr
  obtain ⟨b, hb, -⟩ := hr.bel id hid
  obtain ⟨b1, b2, b3, b4, b5, b6, b7, b8⟩ := hr.stored hid hb
  rw [htm] at hb
  refine ⟨b, hb, ?_⟩
  have hd := step_dom hr (.privKF id H R z t cfg) hN hs
  obtain ⟨c', hst, hr'⟩ := accepted hnear hr (.privKF id H R z t cfg) hN hs
  obtain ⟨i, hi⟩ := Option.isSome_iff_exists.mp hid
  have hfr : (∀ q, q ≠ id → h'.find q = h.find q) := by
    intro q hq
    simp only [run, get_ok hi, Res.bind_ok] at hs
    obtain ⟨r, -, hs⟩ := bind_eq_ok hs
    rw [← (Prod.mk.inj (Res.ok.inj hs)).1, SMap.find_set, if_neg (fun e => hq e.symm)]
  have hfr' : ∀ p q t', p ≠ id → fc h' p q t' = fc h p q t' := fun p q t' hp => by unfold fc; rw [hfr p hp]
  cases hst with
  | privKF _ _ _ _ _ _ res hc hrj =>
    obtain ⟨hO, hres⟩ := Inst.correctionStep_accept (by rw [← b2]; exact b7) cfg res hc hrj
    have hO' := hO
    rw [← b2] at hO'
    have hg : gainM H R (c.cov id id) cfg.eps = kalmanGain H R b.Sigma cfg.eps := by
      rw [← b2]; exact gainM_eq hO' b8 hR cfg.eps
    have := priv_reads hr hN hd hr' hfr hfr'
    rw [hres] at this
    simp only at this
    rw [hg, ← b1, ← b2] at this
    exact this

/-- C23 with a residual instead of a measurement (`apply_private_observation(bel, H, R, r, cfg)`). -/
theorem c23_private_residual (hnear : NearOk near) (hreach : Reach fp near pred dim h) {id : ℕ} {H R r : Mat} {t : Int} {cfg : Cfg}
    (hN : Newest h id t) (hR : R.tr = R) (hs : run fp near pred h (.privEKF id H R r t cfg) = .ok (h', true)) :
    ∃ b, belief h id t = some b ∧
      (∃ b', belief h' id t = some b' ∧ b'.mean = b.mean + kalmanGain H R b.Sigma cfg.eps * r ∧ b'.Sigma = postM H R b.Sigma cfg) ∧
      (∀ q, q ≠ id → Newest h q t → ∃ S S' T', getSigma h id q t = .ok S ∧ getSigma h' id q t = .ok S' ∧ getSigma h' q id t = .ok T' ∧
        asCov (dim id) (dim q) S' = (one (dim id) - kalmanGain H R b.Sigma cfg.eps * H) * asCov (dim id) (dim q) S ∧
        asCov (dim q) (dim id) T' = ((one (dim id) - kalmanGain H R b.Sigma cfg.eps * H) * asCov (dim id) (dim q) S).tr) ∧
      (∀ p q t', p ≠ id → q ≠ id → getSigma h' p q t' = getSigma h p q t') ∧
      (∀ q, q ≠ id → ∀ t', belief h' q t' = belief h q t') := by
  obtain ⟨c, hr⟩ := hreach.rel hnear
  obtain ⟨hid, htm⟩ := hN.rel hr
  obtain ⟨b, hb, -⟩ := hr.bel id hid
  obtain ⟨b1, b2, b3, b4, b5, b6, b7, b8⟩ := hr.stored hid hb
  rw [htm] at hb
  refine ⟨b, hb, ?_⟩
  have hd := step_dom hr (.privEKF id H R r t cfg) hN hs
  obtain ⟨c', hst, hr'⟩ := accepted hnear hr (.privEKF id H R r t cfg) hN hs
  obtain ⟨i, hi⟩ := Option.isSome_iff_exists.mp hid
  have hfr : (∀ q, q ≠ id → h'.find q = h.find q) := by
    intro q hq
    simp only [run, get_ok hi, Res.bind_ok] at hs
    rw [show i.beliefAt t = some b by rw [← bl_of_find hi]; exact hb] at hs
    obtain ⟨r, -, hs⟩ := bind_eq_ok hs
    rw [← (Prod.mk.inj (Res.ok.inj hs)).1, SMap.find_set, if_neg (fun e => hq e.symm)]
  have hfr' : ∀ p q t', p ≠ id → fc h' p q t' = fc h p q t' := fun p q t' hp => by unfold fc; rw [hfr p hp]
  cases hst with
  | privEKF _ _ _ _ _ _ res hc hrj =>
    obtain ⟨hO, hres⟩ := Inst.correctionStep_accept (by rw [← b2]; exact b7) cfg res hc hrj
    have hO' := hO
    rw [← b2] at hO'
    have hg : gainM H R (c.cov id id) cfg.eps = kalmanGain H R b.Sigma cfg.eps := by
      rw [← b2]; exact gainM_eq hO' b8 hR cfg.eps
    have := priv_reads hr hN hd hr' hfr hfr'
    rw [hres] at this
    simp only at this
    rw [hg, ← b1, ← b2] at this
    exact this

/-- C23, the other case: a belief stored at `t` under another time stamp of its own (`initialize(bel, t)` and
`set_belief_at_t` keep the belief's stamp). An accepted private observation then corrects the belief but
none of the cross-covariance factors at `t`; those at the belief's own stamp are multiplied instead. -/
theorem c23_other_stamp {i j : Inst} (ho : i.Ord) {b : Belief} {t : Int} {H R r : Mat} {cfg : Cfg} (hst : b.stamp ≠ t) {n : ℕ}
    (hS : b.Sigma.Shape n n) (hm : b.mean.Shape n 1) (hF : ∀ J M, i.fac J b.stamp = some M → M.rows = n)
    (hs : i.privEKF b t H R r cfg = .ok (j, true)) :
    j.beliefAt t = some { b with mean := b.mean + gainM H R b.Sigma cfg.eps * r, Sigma := postM H R b.Sigma cfg } ∧
    (∀ J, j.getCCF t J = i.getCCF t J) ∧
    (∀ J M, i.fac J b.stamp = some M → j.getCCF b.stamp J = (one n - gainM H R b.Sigma cfg.eps * H) * M) := by
  unfold Inst.privEKF at hs
  obtain ⟨res, hc, hs⟩ := bind_eq_ok hs
  cases hr : res.rejected with
  | true => rw [hr] at hs; simp at hs
  | false =>
    obtain ⟨hO, hres⟩ := Inst.correctionStep_accept hS cfg res hc hr
    have hU : res.U.Shape n n := by rw [hres]; exact updM_shape hO _
    have hdx : res.dx.Shape n 1 := by rw [hres]; exact (gainM_shape hO _).mul hO.r
    rw [hr] at hs
    simp only [Bool.not_false, if_true] at hs
    rw [Inst.applyCorrection_ok ho b.stamp res.U (fun J M hM => by rw [hU.2, hF J M hM]), Res.bind_ok] at hs
    unfold Belief.correct at hs
    rw [hm.addC hdx, Res.bind_ok, Res.bind_ok] at hs
    have hj := (Prod.mk.inj (Res.ok.inj hs)).1
    have o1 := ho.mulFac b.stamp b.stamp res.U
    have hfac : ∀ J k, j.fac J k = (i.mulFac b.stamp b.stamp res.U).fac J k := by rw [← hj]; intro J k; rfl
    refine ⟨?_, ?_, ?_⟩
    · rw [← hj]
      have := Inst.beliefAt_setBelief o1 { b with mean := b.mean + res.dx, Sigma := res.Sapos } t t
      rw [if_pos rfl] at this
      have e : ({ b with mean := b.mean + res.dx, Sigma := res.Sapos } : Belief) =
          { b with mean := b.mean + gainM H R b.Sigma cfg.eps * r, Sigma := postM H R b.Sigma cfg } := by rw [hres]
      rw [← e]; exact this
    · intro J
      rw [Inst.getCCF_eq, Inst.getCCF_eq, hfac, Inst.fac_mulFac ho, if_neg (fun x => hst x.1.symm)]
    · intro J M hM
      have hU' : res.U = one n - gainM H R b.Sigma cfg.eps * H := by rw [hres]; exact updM_eq hS _
      rw [Inst.getCCF_eq, hfac, Inst.fac_mulFac ho, hM, if_pos ⟨rfl, rfl⟩, ← hU']; rfl

/-- What `(I - K H) Sigma_IJ` is: the centralised Joseph update of the two stacked states with the gain
`[K; 0]` has exactly this cross block, and leaves the other covariance. -/
theorem c23_zero_gain {n k m : ℕ} (P : Matrix (Fin n) (Fin n) ℝ) (C : Matrix (Fin n) (Fin k) ℝ) (D : Matrix (Fin k) (Fin k) ℝ)
    (H : Matrix (Fin m) (Fin n) ℝ) (R : Matrix (Fin m) (Fin m) ℝ) (K : Matrix (Fin n) (Fin m) ℝ) :
    let Kc : Matrix (Fin n ⊕ Fin k) (Fin m) ℝ := Matrix.fromRows K 0
    let Hc : Matrix (Fin m) (Fin n ⊕ Fin k) ℝ := Matrix.fromCols H 0
    let S := Matrix.fromBlocks P C C.transpose D
    (1 - Kc * Hc) * S * (1 - Kc * Hc).transpose + Kc * R * Kc.transpose =
      Matrix.fromBlocks ((1 - K * H) * P * (1 - K * H).transpose + K * R * K.transpose) ((1 - K * H) * C)
        (((1 - K * H) * C).transpose) D := by
  intro Kc Hc S
  have e1 : (1 - Kc * Hc) = Matrix.fromBlocks (1 - K * H) 0 0 1 := by
    simp only [Kc, Hc]
    rw [Matrix.fromRows_mul_fromCols, ← Matrix.fromBlocks_one]
    ext (i | i) (j | j) <;> simp [Matrix.fromBlocks]
  have e2 : Kc * R * Kc.transpose = Matrix.fromBlocks (K * R * K.transpose) 0 0 0 := by
    simp only [Kc]
    rw [Matrix.fromRows_mul, Matrix.transpose_fromRows, Matrix.fromRows_mul_fromCols]
    simp
  rw [e1, e2]
  simp only [S]
  rw [Matrix.fromBlocks_multiply, Matrix.fromBlocks_transpose, Matrix.fromBlocks_multiply, Matrix.fromBlocks_add]
  simp [Matrix.transpose_mul]

/-! ## C24 -/

/-- `C` is the covariance of `p` and `q` the user reads at `t`: the belief's own one for `p = q`, otherwise the
answer of `get_Sigma_IJ_at_t`. -/
def IsCov (dim : ℕ → ℕ) (h : Hdl) (p q : ℕ) (t : Int) (C : Mat) : Prop :=
  (p = q ∧ ∃ b, belief h p t = some b ∧ b.Sigma = C) ∨ (p ≠ q ∧ ∃ S, getSigma h p q t = .ok S ∧ asCov (dim p) (dim q) S = C)

/-- `m` is the mean of `p` at `t`. -/
def IsMean (h : Hdl) (p : ℕ) (t : Int) (m : Mat) : Prop := ∃ b, belief h p t = some b ∧ b.mean = m

theorem IsCov.unique {p q : ℕ} {t : Int} {C D : Mat} (h1 : IsCov dim h p q t C) (h2 : IsCov dim h p q t D) : C = D := by
  rcases h1 with ⟨e, b, hb, rfl⟩ | ⟨e, S, hS, rfl⟩
  · rcases h2 with ⟨_, b', hb', rfl⟩ | ⟨e', _⟩
    · rw [hb] at hb'; rw [Option.some.inj hb']
    · exact absurd e e'
  · rcases h2 with ⟨e', _⟩ | ⟨_, S', hS', rfl⟩
    · exact absurd e' e
    · rw [hS] at hS'; rw [Res.ok.inj hS']

theorem Rel.isCov (hr : Rel dim h c) {p q : ℕ} {t : Int} (hp : Newest h p t) (hq : Newest h q t) : IsCov dim h p q t (c.cov p q) := by
  by_cases hpq : p = q
  · subst hpq
    obtain ⟨h1, h2⟩ := hp.rel hr
    obtain ⟨b, hb, -, h3, -⟩ := hr.bel p h1
    rw [h2] at hb
    exact Or.inl ⟨rfl, b, hb, h3⟩
  · exact Or.inr ⟨hpq, hr.read hpq hp hq⟩

theorem Rel.isMean (hr : Rel dim h c) {p : ℕ} {t : Int} (hp : Newest h p t) : IsMean h p t (c.mu p) := by
  obtain ⟨h1, h2⟩ := hp.rel hr
  obtain ⟨b, hb, h3, -⟩ := hr.bel p h1
  rw [h2] at hb
  exact ⟨b, hb, h3⟩

/-- The belief of `p` at `t` is fixed. -/
def fixedAt (h : Hdl) (t : Int) (p : ℕ) : Bool := match belief h p t with
  | some b => b.fixed
  | none => false

/-- What a joint observation of the blocks `bs` with posterior covariance `P` and correction `dx` does to the
means `m` and covariances `C`. -/
structure JointEffect (dim : ℕ → ℕ) (h h' : Hdl) (t : Int) (bs : List (ℕ × ℕ)) (C C' : ℕ → ℕ → Mat) (m m' : ℕ → Mat) (P dx : Mat) : Prop where
  mean : ∀ p ∈ bs, m' p.1 = m p.1 + dx.block (off bs p.1) 0 p.2 1
  pair : ∀ p ∈ bs, ∀ q ∈ bs, C' p.1 q.1 = P.block (off bs p.1) (off bs q.1) p.2 q.2
  cross : ∀ p ∈ bs, ∀ q, q ∉ bs.map (·.1) → C' p.1 q = P.block (off bs p.1) (off bs p.1) p.2 p.2 * (C p.1 p.1).inv * C p.1 q
  cross' : ∀ p ∈ bs, ∀ q, q ∉ bs.map (·.1) → C' q p.1 = C q p.1 * (P.block (off bs p.1) (off bs p.1) p.2 p.2 * (C p.1 p.1).inv).tr
  others : ∀ p q, p ∉ bs.map (·.1) → q ∉ bs.map (·.1) → C' p q = C p q ∧ m' q = m q
  beliefs : ∀ q, q ∉ bs.map (·.1) → bels h' q = bels h q

theorem joint_effect {bs : List (ℕ × ℕ)} (hb : ∀ p ∈ bs, p.2 = dim p.1) (hn : (bs.map (·.1)).Nodup) (P dx : Mat) {t : Int}
    (hf : ∀ q, q ∉ bs.map (·.1) → bels h' q = bels h q) :
    JointEffect dim h h' t bs c.cov (c.joint bs P dx).cov c.mu (c.joint bs P dx).mu P dx := by
  have hl : ∀ p ∈ bs, (bs.lookup p.1).getD 0 = p.2 := by
    intro p hp
    rw [lookup_of_mem hn hp]; rfl
  have hi : ∀ p ∈ bs, p.1 ∈ bs.map (·.1) := fun p hp => List.mem_map.mpr ⟨p, hp, rfl⟩
  constructor
  · intro p hp
    simp only [Central.joint]
    rw [if_pos (hi p hp), hl p hp]
  · intro p hp q hq
    simp only [Central.joint]
    rw [if_pos ⟨hi p hp, hi q hq⟩, hl p hp, hl q hq]
  · intro p hp q hq
    simp only [Central.joint]
    rw [if_neg (fun x => hq x.2), if_pos (hi p hp), hl p hp]
  · intro p hp q hq
    simp only [Central.joint]
    rw [if_neg (fun x => hq x.1), if_neg hq, if_pos (hi p hp), hl p hp]
  · intro p q hp hq
    simp only [Central.joint]
    rw [if_neg (fun x => hp x.1), if_neg hp, if_neg hq, if_neg hq]
    exact ⟨rfl, rfl⟩
  · exact hf

theorem participants_read (hr : Rel dim h c) {dH : SMap Mat} {t : Int} (hN : ∀ p ∈ dH.keys, Newest h p t) :
    participants dim c dH = (dH.keys.filter (fun p => !fixedAt h t p)).map (fun p => (p, dim p)) := by
  unfold participants
  congr 1
  apply List.filter_congr
  intro p hp
  obtain ⟨h1, h2⟩ := (hN p hp).rel hr
  obtain ⟨b, hb, -, -, -, h5⟩ := hr.bel p h1
  rw [h2] at hb
  have : belief h p t = some b := hb
  rw [← h5]
  unfold fixedAt; rw [this]

theorem part_facts {dH : SMap Mat} (hs : dH.Sorted) (f : ℕ → Bool) :
    (∀ p ∈ (dH.keys.filter f).map (fun p => (p, dim p)), p.2 = dim p.1) ∧
    (((dH.keys.filter f).map (fun p => (p, dim p))).map (·.1)).Nodup := by
  constructor
  · intro p hp
    obtain ⟨x, -, rfl⟩ := List.mem_map.mp hp
    rfl
  · rw [List.map_map]
    have : ((fun x : ℕ × ℕ => x.1) ∘ fun p => (p, dim p)) = id := rfl
    rw [this, List.map_id]
    exact ((SMap.sorted_iff_keys dH).mp hs).nodup.filter _

/-- Everything `c24_joint` and `c24_joint_meas` say about the state after an accepted joint observation of
the unfixed participants `bs`, with stacked Jacobian `H`, residual `r`, prior covariance `S` of the stacked
states (with the 10^-12 the library adds to its diagonal): the posterior of one Kalman correction of the
stacked states is what is read afterwards. -/
theorem joint_reads (hr : Rel dim h c) {dH : SMap Mat} {t : Int} (hdH : dH.Sorted) (hN : ∀ p ∈ dH.keys, Newest h p t)
    {P dx : Mat} (hd : SameDom h h') (hf : ∀ q, q ∉ (participants dim c dH).map (·.1) → bels h' q = bels h q)
    (hr' : Rel dim h' (c.joint (participants dim c dH) P dx)) :
    ∃ C C' m m', (∀ p q, Newest h p t → Newest h q t → IsCov dim h p q t (C p q) ∧ IsMean h p t (m p)) ∧
      (∀ p q, Newest h p t → Newest h q t → IsCov dim h' p q t (C' p q) ∧ IsMean h' p t (m' p)) ∧
      C = c.cov ∧ m = c.mu ∧
      JointEffect dim h h' t ((dH.keys.filter (fun p => !fixedAt h t p)).map (fun p => (p, dim p))) C C' m m' P dx := by
  have hpr := participants_read hr hN
  obtain ⟨f1, f2⟩ := part_facts (dim := dim) hdH (fun p => !fixedAt h t p)
  have hnew : ∀ p, Newest h p t → Newest h' p t := by
    intro p hp
    obtain ⟨h1, h2⟩ := hp.rel hr
    exact Newest.of_rel hr' (sameDom_isSome hd h1) (by simp only [Central.joint]; exact h2)
  refine ⟨c.cov, _, c.mu, _, fun p q hp hq => ⟨hr.isCov hp hq, hr.isMean hp⟩,
    fun p q hp hq => ⟨hr'.isCov (hnew p hp) (hnew q hq), hr'.isMean (hnew p hp)⟩, rfl, rfl, ?_⟩
  rw [hpr] at hf ⊢
  exact joint_effect f1 f2 P dx hf

/-- An accepted joint observation: the domain and the beliefs of everybody else stay. -/
theorem joint_frame (hr : Rel dim h c) {dH : SMap Mat} {t : Int} (hdH : dH.Sorted) (hN : ∀ p ∈ dH.keys, Newest h p t)
    {H R r S : Mat} {cfg : Cfg} {ans : Bool} (hs : correctJoint near h (dict h dH t) H R r S t cfg = .ok (h', ans)) :
    ∀ q, q ∉ (participants dim c dH).map (·.1) → bels h' q = bels h q := by
  intro q hq
  have hp : Parts dim h c dH t := ⟨hdH, fun p hpm => ((hN p hpm).rel hr).1, fun p hpm => ((hN p hpm).rel hr).2⟩
  rw [participants_eq hr hp, bdims_keys] at hq
  exact (correctJoint_frame hs).2.1 q hq

/-- C24: in every reachable state, an accepted joint observation with residual `r` (all participants at their
newest belief) is one Kalman correction of the stacked state of the unfixed participants: their means and
all their pairwise covariances read afterwards are the blocks of its posterior; the cross-covariance of a
participant with anybody else is multiplied by posterior times inverse prior; everybody else keeps all
beliefs and their covariances. -/
theorem c24_joint (hnear : NearOk near) (hreach : Reach fp near pred dim h) {dH : SMap Mat} {R r : Mat} {t : Int} {cfg : Cfg}
    (hdH : dH.Sorted) (hN : ∀ p ∈ dH.keys, Newest h p t) (hs : run fp near pred h (.jointR dH R r t cfg) = .ok (h', true)) :
    ∃ C C' m m', (∀ p q, Newest h p t → Newest h q t → IsCov dim h p q t (C p q) ∧ IsMean h p t (m p)) ∧
      (∀ p q, Newest h p t → Newest h q t → IsCov dim h' p q t (C' p q) ∧ IsMean h' p t (m' p)) ∧
      ∃ H S res, SideBySide dH H ∧
        StackedCov ((dH.keys.filter (fun p => !fixedAt h t p)).map (fun p => (p, dim p))) C S ∧
        correctionStep H R r (stabM S (1 / 10^12)) cfg = .ok res ∧ res.rejected = false ∧
        JointEffect dim h h' t ((dH.keys.filter (fun p => !fixedAt h t p)).map (fun p => (p, dim p))) C C' m m'
          (fixPsd near res.Sapos) res.dx := by
  obtain ⟨c, hr⟩ := hreach.rel hnear
  have hd := step_dom hr (.jointR dH R r t cfg) ⟨hdH, hN⟩ hs
  obtain ⟨c', hst, hr'⟩ := accepted hnear hr (.jointR dH R r t cfg) ⟨hdH, hN⟩ hs
  have hfr : ∀ q, q ∉ (participants dim c dH).map (·.1) → bels h' q = bels h q := by
    have hp : Parts dim h c dH t := ⟨hdH, fun p hpm => ((hN p hpm).rel hr).1, fun p hpm => ((hN p hpm).rel hr).2⟩
    simp only [run, applyObsR] at hs
    obtain ⟨H, hH, hs⟩ := bind_eq_ok hs
    rw [getDictBel_rel pred hr hp, Res.bind_ok] at hs
    simp only at hs
    split at hs
    · simp at hs
    · obtain ⟨S0, hS0, hs⟩ := bind_eq_ok hs
      obtain ⟨S, hS, hs⟩ := bind_eq_ok hs
      exact joint_frame hr hdH hN hs
  cases hst with
  | jointR _ _ _ _ _ H S res hH hS hc hrj =>
    obtain ⟨C, C', m, m', g1, g2, g3, -, g5⟩ := joint_reads hr hdH hN hd hfr hr'
    refine ⟨C, C', m, m', g1, g2, H, S, res, hH, ?_, hc, hrj, g5⟩
    rw [g3, ← participants_read hr hN]; exact hS

/-- C24 for the version with a measurement `z`: the residual is `z - H m` with the stacked means. -/
theorem c24_joint_meas (hnear : NearOk near) (hreach : Reach fp near pred dim h) {dH : SMap Mat} {R z : Mat} {t : Int} {cfg : Cfg}
    (hdH : dH.Sorted) (hN : ∀ p ∈ dH.keys, Newest h p t) (hs : run fp near pred h (.jointZ dH z R t cfg) = .ok (h', true)) :
    ∃ C C' m m', (∀ p q, Newest h p t → Newest h q t → IsCov dim h p q t (C p q) ∧ IsMean h p t (m p)) ∧
      (∀ p q, Newest h p t → Newest h q t → IsCov dim h' p q t (C' p q) ∧ IsMean h' p t (m' p)) ∧
      ∃ H S x res, SideBySide dH H ∧
        StackedCov ((dH.keys.filter (fun p => !fixedAt h t p)).map (fun p => (p, dim p))) C S ∧
        StackedMean ((dH.keys.filter (fun p => !fixedAt h t p)).map (fun p => (p, dim p))) m x ∧
        correctionStep H R (z - H * x) (stabM S (1 / 10^12)) cfg = .ok res ∧ res.rejected = false ∧
        JointEffect dim h h' t ((dH.keys.filter (fun p => !fixedAt h t p)).map (fun p => (p, dim p))) C C' m m'
          (fixPsd near res.Sapos) res.dx := by
  obtain ⟨c, hr⟩ := hreach.rel hnear
  have hd := step_dom hr (.jointZ dH z R t cfg) ⟨hdH, hN⟩ hs
  obtain ⟨c', hst, hr'⟩ := accepted hnear hr (.jointZ dH z R t cfg) ⟨hdH, hN⟩ hs
  have hfr : ∀ q, q ∉ (participants dim c dH).map (·.1) → bels h' q = bels h q := by
    have hp : Parts dim h c dH t := ⟨hdH, fun p hpm => ((hN p hpm).rel hr).1, fun p hpm => ((hN p hpm).rel hr).2⟩
    simp only [run, applyObsZ] at hs
    obtain ⟨H, hH, hs⟩ := bind_eq_ok hs
    rw [getDictBel_rel pred hr hp, Res.bind_ok] at hs
    simp only at hs
    split at hs
    · simp at hs
    · obtain ⟨mm, hm, hs⟩ := bind_eq_ok hs
      obtain ⟨S0, hS0, hs⟩ := bind_eq_ok hs
      obtain ⟨Hm, hHm, hs⟩ := bind_eq_ok hs
      obtain ⟨r, hr', hs⟩ := bind_eq_ok hs
      obtain ⟨S, hS, hs⟩ := bind_eq_ok hs
      exact joint_frame hr hdH hN hs
  cases hst with
  | jointZ _ _ _ _ _ H S x res hH hS hx hc hrj =>
    obtain ⟨C, C', m, m', g1, g2, g3, g4, g5⟩ := joint_reads hr hdH hN hd hfr hr'
    refine ⟨C, C', m, m', g1, g2, H, S, x, res, hH, ?_, ?_, hc, hrj, g5⟩
    · rw [g3, ← participants_read hr hN]; exact hS
    · rw [g4, ← participants_read hr hN]; exact hx

/-! ## C26 -/

/-- A fixed belief, or one of an instance that does not take part, is not among those to correct. -/
theorem dict_fixed {dH : SMap Mat} {t : Int} {x : Hdl × SMap Belief} (hx : getDictBel pred h dH.keys t [] = .ok x) (p : ℕ)
    (hp : p ∉ dH.keys ∨ ∃ b, belief h p t = some b ∧ b.fixed = true) :
    x.1.find p = h.find p ∧ p ∉ (unfixed x.2).map (·.1) := by
  obtain ⟨f1, f2, f3⟩ := getDictBel_frame _ hx
  have hmem : ∀ e ∈ unfixed x.2, e.1 ∈ dH.keys ∧ (∃ i, x.1.find e.1 = some i ∧ i.beliefAt t = some e.2) ∧ e.2.fixed = false := by
    intro e he
    obtain ⟨h1, h2⟩ := mem_unfixed.mp he
    rcases f3 e h1 with h3 | ⟨h3, h4⟩
    · simp at h3
    · exact ⟨h3, h4, h2⟩
  rcases hp with hp | ⟨b, hb, hbf⟩
  · refine ⟨f2 p (Or.inl hp), ?_⟩
    intro hm
    obtain ⟨e, he, rfl⟩ := List.mem_map.mp hm
    exact hp (hmem e he).1
  · obtain ⟨i, hi, hib⟩ := Option.bind_eq_some_iff.mp hb
    have hex : i.bel.existAt t = true := by
      unfold Inst.beliefAt at hib
      obtain ⟨e, he, -⟩ := Option.map_eq_some_iff.mp hib
      rw [Buf.existAt_iff]
      unfold Buf.getAt at he
      exact ⟨e, List.mem_of_find?_eq_some he, by simpa using List.find?_some he⟩
    have e1 := f2 p (Or.inr ⟨i, hi, hex⟩)
    refine ⟨e1, ?_⟩
    intro hm
    obtain ⟨e, he, rfl⟩ := List.mem_map.mp hm
    obtain ⟨-, ⟨j, hj1, hj2⟩, hj3⟩ := hmem e he
    rw [e1, hi] at hj1
    rw [← Option.some.inj hj1, hib] at hj2
    rw [← Option.some.inj hj2, hbf] at hj3
    simp at hj3


/-- Fetching the beliefs does not touch an instance that does not take part or has a belief at `t`. -/
theorem dict_present {dH : SMap Mat} {t : Int} {x : Hdl × SMap Belief} (hx : getDictBel pred h dH.keys t [] = .ok x) (p : ℕ)
    (hp : p ∉ dH.keys ∨ (belief h p t).isSome) : x.1.find p = h.find p := by
  obtain ⟨f1, f2, f3⟩ := getDictBel_frame _ hx
  rcases hp with hp | hp
  · exact f2 p (Or.inl hp)
  · obtain ⟨b, hb⟩ := Option.isSome_iff_exists.mp hp
    obtain ⟨i, hi, hib⟩ := Option.bind_eq_some_iff.mp hb
    refine f2 p (Or.inr ⟨i, hi, ?_⟩)
    unfold Inst.beliefAt at hib
    obtain ⟨e, he, -⟩ := Option.map_eq_some_iff.mp hib
    rw [Buf.existAt_iff]
    unfold Buf.getAt at he
    exact ⟨e, List.mem_of_find?_eq_some he, by simpa using List.find?_some he⟩

/-- C26: whatever the state of the handler, the sizes of the matrices and the outcome, a joint observation
leaves the whole belief history of an instance whose belief at `t` is fixed, and of every instance that does
not take part. -/
theorem c26_fixed_residual {dH : SMap Mat} {R r : Mat} {t : Int} {cfg : Cfg} {ans : Bool}
    (hs : applyObsR near pred h dH R r t cfg = .ok (h', ans)) (p : ℕ)
    (hp : p ∉ dH.keys ∨ ∃ b, belief h p t = some b ∧ b.fixed = true) : bels h' p = bels h p := by
  unfold applyObsR at hs
  obtain ⟨H, hH, hs⟩ := bind_eq_ok hs
  obtain ⟨x, hx, hs⟩ := bind_eq_ok hs
  obtain ⟨e1, e2⟩ := dict_fixed hx p hp
  split at hs
  · rw [← (Prod.mk.inj (Res.ok.inj hs)).1]; unfold bels; rw [e1]
  · obtain ⟨S0, hS0, hs⟩ := bind_eq_ok hs
    obtain ⟨S, hS, hs⟩ := bind_eq_ok hs
    rw [(correctJoint_frame hs).2.1 p e2]; unfold bels; rw [e1]

theorem c26_fixed_meas {dH : SMap Mat} {R z : Mat} {t : Int} {cfg : Cfg} {ans : Bool}
    (hs : applyObsZ near pred h dH z R t cfg = .ok (h', ans)) (p : ℕ)
    (hp : p ∉ dH.keys ∨ ∃ b, belief h p t = some b ∧ b.fixed = true) : bels h' p = bels h p := by
  unfold applyObsZ at hs
  obtain ⟨H, hH, hs⟩ := bind_eq_ok hs
  obtain ⟨x, hx, hs⟩ := bind_eq_ok hs
  obtain ⟨e1, e2⟩ := dict_fixed hx p hp
  split at hs
  · rw [← (Prod.mk.inj (Res.ok.inj hs)).1]; unfold bels; rw [e1]
  · obtain ⟨m, hm, hs⟩ := bind_eq_ok hs
    obtain ⟨S0, hS0, hs⟩ := bind_eq_ok hs
    obtain ⟨Hm, hHm, hs⟩ := bind_eq_ok hs
    obtain ⟨r, hr, hs⟩ := bind_eq_ok hs
    obtain ⟨S, hS, hs⟩ := bind_eq_ok hs
    rw [(correctJoint_frame hs).2.1 p e2]; unfold bels; rw [e1]

/-- A fixed participant must be given a Jacobian without columns: if all Jacobians have the columns of their
instance and one participant (of positive size) is fixed, the observation is never accepted. -/
theorem c26_fixed_never_accepted (hnear : NearOk near) (hreach : Reach fp near pred dim h) {dH : SMap Mat} {t : Int}
    (hdH : dH.Sorted) (hN : ∀ p ∈ dH.keys, Newest h p t) (hcol : ∀ e ∈ dH, e.2.cols = dim e.1)
    {p : ℕ} (hp : p ∈ dH.keys) (hfix : fixedAt h t p = true) (R r : Mat) (cfg : Cfg) :
    run fp near pred h (.jointR dH R r t cfg) ≠ .ok (h', true) ∧ run fp near pred h (.jointZ dH r R t cfg) ≠ .ok (h', true) := by
  obtain ⟨c, hr⟩ := hreach.rel hnear
  have hlt : tot (participants dim c dH) < tot (dH.map fun e => (e.1, e.2.cols)) := by
    rw [participants_read hr hN]
    have hpos : 0 < dim p := hr.pos p ((hN p hp).rel hr).1
    have e1 : (dH.map fun e => (e.1, e.2.cols)) = dH.keys.map (fun p => (p, dim p)) := by
      unfold SMap.keys
      rw [List.map_map]
      apply List.map_congr_left
      intro e he
      simp [hcol e he]
    rw [e1]
    have key : ∀ (l : List ℕ), tot ((l.filter (fun p => !fixedAt h t p)).map (fun p => (p, dim p))) ≤ tot (l.map (fun p => (p, dim p))) ∧
        (p ∈ l → tot ((l.filter (fun p => !fixedAt h t p)).map (fun p => (p, dim p))) < tot (l.map (fun p => (p, dim p)))) := by
      intro l
      induction l with
      | nil => simp [tot]
      | cons a l ih =>
        obtain ⟨i1, i2⟩ := ih
        cases ha : fixedAt h t a with
        | true =>
          rw [List.filter_cons_of_neg (by simp [ha])]
          simp only [List.map_cons, tot, List.mem_cons]
          refine ⟨by omega, ?_⟩
          rintro (rfl | hm)
          · omega
          · have := i2 hm; omega
        | false =>
          rw [List.filter_cons_of_pos (by simp [ha])]
          simp only [List.map_cons, tot, List.mem_cons]
          refine ⟨by omega, ?_⟩
          rintro (rfl | hm)
          · rw [hfix] at ha; simp at ha
          · have := i2 hm; omega
    exact (key _).2 hp
  constructor
  · intro hs
    obtain ⟨c', hst, hr'⟩ := accepted hnear hr (.jointR dH R r t cfg) ⟨hdH, hN⟩ hs
    cases hst with
    | jointR _ _ _ _ _ H S res hH hS hc hrj =>
      obtain ⟨hO, -⟩ := Inst.correctionStep_accept (hS.1.stabM _) cfg res hc hrj
      have h1 := hO.H.2
      rw [hH.1] at h1
      omega
  · intro hs
    obtain ⟨c', hst, hr'⟩ := accepted hnear hr (.jointZ dH r R t cfg) ⟨hdH, hN⟩ hs
    cases hst with
    | jointZ _ _ _ _ _ H S x res hH hS hx hc hrj =>
      obtain ⟨hO, -⟩ := Inst.correctionStep_accept (hS.1.stabM _) cfg res hc hrj
      have h1 := hO.H.2
      rw [hH.1] at h1
      omega

/-! ## C19 -/

/-- C19, private observation with a residual, any instance and belief: if the correction is rejected the
answer is false and nothing changes; if the answer is false nothing has changed. -/
theorem c19_private_residual (i : Inst) (b : Belief) (t : Int) (H R r : Mat) (cfg : Cfg) :
    (∀ res, correctionStep H R r b.Sigma cfg = .ok res → res.rejected = true → i.privEKF b t H R r cfg = .ok (i, false)) ∧
    (∀ i', i.privEKF b t H R r cfg = .ok (i', false) → i' = i) := by
  refine ⟨fun res hc hrj => ?_, fun i' h' => Inst.privEKF_false i b t H R r cfg i' h'⟩
  unfold Inst.privEKF
  rw [hc, Res.bind_ok, hrj]; rfl

/-- C19, private observation with a measurement. -/
theorem c19_private_meas (i : Inst) (t : Int) (H R z : Mat) (cfg : Cfg) :
    (∀ b res, i.beliefAt t = some b → H.cols = b.mean.rows → z.rows = H.rows ∧ z.cols = b.mean.cols →
      correctionStep H R (z - H * b.mean) b.Sigma cfg = .ok res → res.rejected = true → i.privKF H R z t cfg = .ok (i, false)) ∧
    (i.beliefAt t = none → i.privKF H R z t cfg = .ok (i, false)) ∧
    (∀ i', i.privKF H R z t cfg = .ok (i', false) → i' = i) := by
  refine ⟨?_, ?_, ?_⟩
  · intro b res hb hd hz hc hrj
    unfold Inst.privKF
    rw [hb]
    simp only
    have e1 : H *! b.mean = .ok (H * b.mean) := by unfold Mat.mulC; rw [if_pos hd]
    have e2 : z -! (H * b.mean) = .ok (z - H * b.mean) := by
      unfold Mat.subC; rw [if_pos ⟨by rw [hz.1]; rfl, by rw [hz.2]; rfl⟩]
    rw [e1, Res.bind_ok, e2, Res.bind_ok]
    exact (c19_private_residual i b t H R _ cfg).1 res hc hrj
  · intro hb; unfold Inst.privKF; rw [hb]
  · intro i' h'
    unfold Inst.privKF at h'
    cases hb : i.beliefAt t with
    | none => rw [hb] at h'; exact (Prod.mk.inj (Res.ok.inj h')).1.symm
    | some b =>
      rw [hb] at h'
      simp only at h'
      obtain ⟨x, -, h'⟩ := bind_eq_ok h'
      obtain ⟨y, -, h'⟩ := bind_eq_ok h'
      exact Inst.privEKF_false i b t H R y cfg i' h'

/-- C19: `set(mean, Sigma)` of a belief succeeds exactly for a column vector and a square matrix of the same size
and then both are replaced; otherwise it answers false and the belief is unchanged. -/
theorem c19_belief_set (b : Belief) (m S : Mat) :
    (m.cols = 1 ∧ m.rows = S.rows ∧ S.rows = S.cols → b.set m S = ({ b with mean := m, Sigma := S }, true)) ∧
    (¬ (m.cols = 1 ∧ m.rows = S.rows ∧ S.rows = S.cols) → b.set m S = (b, false)) := by
  have h : checkDimMean m S = true ↔ (m.cols = 1 ∧ m.rows = S.rows ∧ S.rows = S.cols) := by
    unfold checkDimMean
    simp only [Bool.not_eq_true', Bool.or_eq_false_iff, bne_eq_false_iff_eq, and_assoc]
  unfold Belief.set
  constructor
  · intro x; rw [h.mpr x]; rfl
  · intro x
    rw [show checkDimMean m S = false from by simpa using fun y => x (h.mp y)]; rfl

/-- C19: an ill-dimensioned Jacobian, noise covariance or residual is rejected without effect. -/
theorem c19_private_dim (i : Inst) (b : Belief) (t : Int) (H R r : Mat) (cfg : Cfg)
    (hbad : ¬ (H.cols = b.Sigma.rows ∧ r.Shape H.rows 1 ∧ R.Shape H.rows H.rows)) : i.privEKF b t H R r cfg = .ok (i, false) := by
  obtain ⟨h1, h2⟩ := (c18_dimensions H R r b.Sigma cfg).1 hbad
  exact (c19_private_residual i b t H R r cfg).1 _ h1 h2

/-- With every participant present at `t`, fetching the beliefs changes nothing. -/
theorem getDictBel_same {t : Int} (ids : List ℕ) {acc : SMap Belief} {x : Hdl × SMap Belief}
    (hx : getDictBel pred h ids t acc = .ok x) (hall : ∀ p ∈ ids, (belief h p t).isSome) : x.1 = h := by
  induction ids generalizing acc with
  | nil => rw [← Res.ok.inj hx]
  | cons a l ih =>
    rw [getDictBel] at hx
    obtain ⟨y, hy, hx⟩ := bind_eq_ok hx
    unfold beliefPredict at hy
    obtain ⟨i, hi, hy⟩ := bind_eq_ok hy
    have hfi := get_eq_ok hi
    have hex : i.bel.existAt t = true := by
      obtain ⟨b, hb⟩ := Option.isSome_iff_exists.mp (hall a List.mem_cons_self)
      unfold belief at hb
      rw [hfi, Option.bind_some] at hb
      unfold Inst.beliefAt at hb
      obtain ⟨e, he, -⟩ := Option.map_eq_some_iff.mp hb
      rw [Buf.existAt_iff]
      unfold Buf.getAt at he
      exact ⟨e, List.mem_of_find?_eq_some he, by simpa using List.find?_some he⟩
    rw [if_pos hex] at hy
    have e1 := Res.ok.inj hy
    rw [← e1] at hx
    simp only at hx
    split at hx
    · rw [← Res.ok.inj hx]
    · exact ih hx (fun p hp => hall p (List.mem_cons_of_mem _ hp))

/-- C19, joint observation with a residual, in any state: if the answer is false (REJECTED), an instance
that does not take part or has a belief at `t` is unchanged as a whole: beliefs and cross-covariance factors.
If all participants have a belief at `t`, the whole handler is unchanged. -/
theorem c19_joint_residual {dH : SMap Mat} {R r : Mat} {t : Int} {cfg : Cfg}
    (hs : applyObsR near pred h dH R r t cfg = .ok (h', false)) :
    (∀ p, p ∉ dH.keys ∨ (belief h p t).isSome → h'.find p = h.find p) ∧
    ((∀ p ∈ dH.keys, (belief h p t).isSome) → h' = h) := by
  unfold applyObsR at hs
  obtain ⟨H, hH, hs⟩ := bind_eq_ok hs
  obtain ⟨x, hx, hs⟩ := bind_eq_ok hs
  have e : h' = x.1 := by
    split at hs
    · exact (Prod.mk.inj (Res.ok.inj hs)).1.symm
    · obtain ⟨S0, hS0, hs⟩ := bind_eq_ok hs
      obtain ⟨S, hS, hs⟩ := bind_eq_ok hs
      exact (correctJoint_frame hs).2.2 rfl
  exact ⟨fun p hp => by rw [e]; exact dict_present hx p hp, fun hall => by rw [e]; exact getDictBel_same _ hx hall⟩

/-- C19, joint observation with a measurement. -/
theorem c19_joint_meas {dH : SMap Mat} {R z : Mat} {t : Int} {cfg : Cfg}
    (hs : applyObsZ near pred h dH z R t cfg = .ok (h', false)) :
    (∀ p, p ∉ dH.keys ∨ (belief h p t).isSome → h'.find p = h.find p) ∧
    ((∀ p ∈ dH.keys, (belief h p t).isSome) → h' = h) := by
  unfold applyObsZ at hs
  obtain ⟨H, hH, hs⟩ := bind_eq_ok hs
  obtain ⟨x, hx, hs⟩ := bind_eq_ok hs
  have e : h' = x.1 := by
    split at hs
    · exact (Prod.mk.inj (Res.ok.inj hs)).1.symm
    · obtain ⟨m, hm, hs⟩ := bind_eq_ok hs
      obtain ⟨S0, hS0, hs⟩ := bind_eq_ok hs
      obtain ⟨Hm, hHm, hs⟩ := bind_eq_ok hs
      obtain ⟨r, hr, hs⟩ := bind_eq_ok hs
      obtain ⟨S, hS, hs⟩ := bind_eq_ok hs
      exact (correctJoint_frame hs).2.2 rfl
  exact ⟨fun p hp => by rw [e]; exact dict_present hx p hp, fun hall => by rw [e]; exact getDictBel_same _ hx hall⟩

/-- C19: the answer of a joint observation with a residual whose correction of the stacked state is rejected
is false. In a reachable state with all participants at their newest belief, `H` being the stacked Jacobian
and `S` the stacked covariance. -/
theorem c19_joint_rejected (hnear : NearOk near) (hreach : Reach fp near pred dim h) {dH : SMap Mat} {R r : Mat} {t : Int} {cfg : Cfg}
    (hdH : dH.Sorted) (hN : ∀ p ∈ dH.keys, Newest h p t) {ans : Bool} (hs : run fp near pred h (.jointR dH R r t cfg) = .ok (h', ans))
    (hrej : ∀ C H S res, (∀ p q, Newest h p t → Newest h q t → IsCov dim h p q t (C p q)) → SideBySide dH H →
      StackedCov ((dH.keys.filter (fun p => !fixedAt h t p)).map (fun p => (p, dim p))) C S →
      correctionStep H R r (stabM S (1 / 10^12)) cfg = .ok res → res.rejected = true) : ans = false ∧ h' = h := by
  cases ans with
  | false =>
    obtain ⟨c, hr⟩ := hreach.rel hnear
    exact ⟨rfl, rejected hr (.jointR dH R r t cfg) ⟨hdH, hN⟩ hs⟩
  | true =>
    obtain ⟨C, C', m, m', g1, -, H, S, res, hH, hS, hc, hrj, -⟩ := c24_joint hnear hreach hdH hN hs
    rw [hrej C H S res (fun p q hp hq => (g1 p q hp hq).1) hH hS hc] at hrj
    simp at hrj

end Hdl
end Ikf
