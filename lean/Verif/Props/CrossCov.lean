import Verif.Lemmas.Central

/-!
# Isolated filters against the centralised filter (C21, C22, C23, C24)

`run` executes one API call on the handler; `SpecStep` (Spec/Central.lean) is what the call does to a
centralised filter that keeps the whole covariance.
-/

namespace Ikf
open Mat
namespace Hdl

/-- Execution of one call (see `Ev`): the new state and the answer of the call. `fp` is the floating point
arithmetic of the horizon checks, `near` is `nearest_covariance`, `pred` is the user's `predict_to`.
The two calls that take a belief get the stored one. -/
noncomputable def run (fp : FP) (near : Mat → Mat) (pred : ℕ → Inst → Int → Inst × Bool) (h : Hdl) : Ev → Res (Hdl × Bool)
  | .propKF id Phi Q ta tb => do
    let i ← get h id
    let r ← i.propKF fp Phi Q ta tb
    .ok (h.set id r.1, r.2)
  | .propEKF id mb Phi Q ta tb => do
    let i ← get h id
    match i.beliefAt ta with
    | some ba => do
      let r ← i.propEKF fp ba mb Phi Q ta tb
      .ok (h.set id r.1, r.2)
    | none => .ok (h, false)
  | .propBel id bb Phi ta tb => do
    let i ← get h id
    let r ← i.propBel fp bb Phi ta tb
    .ok (h.set id r.1, r.2)
  | .privKF id H R z t cfg => do
    let i ← get h id
    let r ← i.privKF H R z t cfg
    .ok (h.set id r.1, r.2)
  | .privEKF id H R r t cfg => do
    let i ← get h id
    match i.beliefAt t with
    | some b => do
      let x ← i.privEKF b t H R r cfg
      .ok (h.set id x.1, x.2)
    | none => .ok (h, false)
  | .setCov a b S t => do
    let h' ← setSigma h a b S t
    .ok (h', true)
  | .jointR dH R r t cfg => applyObsR near pred h dH R r t cfg
  | .jointZ dH z R t cfg => applyObsZ near pred h dH z R t cfg

/-- The newest belief of instance `p` is at `t`. -/
def Newest (h : Hdl) (p : ℕ) (t : Int) : Prop := ∃ i e, h.find p = some i ∧ i.bel.getLast? = some e ∧ e.1 = t

/-- Calls of an in-order user: known instances, at the time of their newest belief, propagation goes
forward, noise covariances are symmetric, a directly given belief / cross-covariance has the right size.
Nothing is assumed about the sizes of Phi, H, R, z, r. -/
def Wf (dim : ℕ → ℕ) (h : Hdl) : Ev → Prop
  | .propKF id _ Q ta tb => Newest h id ta ∧ ta < tb ∧ Q.tr = Q
  | .propEKF id _ _ Q ta tb => Newest h id ta ∧ ta < tb ∧ Q.tr = Q
  | .propBel id bb _ ta tb => Newest h id ta ∧ ta < tb ∧ bb.Sigma.tr = bb.Sigma ∧
      bb.Sigma.rows = dim id ∧ bb.mean.rows = dim id ∧ bb.mean.cols = 1
  | .privKF id _ _ _ t _ => Newest h id t
  | .privEKF id _ _ _ t _ => Newest h id t
  | .setCov a b S t => a ≠ b ∧ Newest h a t ∧ Newest h b t ∧ S.rows = dim a ∧ S.cols = dim b
  | .jointR dH _ _ t _ => dH.Sorted ∧ ∀ p ∈ dH.keys, Newest h p t
  | .jointZ dH _ _ t _ => dH.Sorted ∧ ∀ p ∈ dH.keys, Newest h p t

/-- A sequence of calls with their answers; none of them throws or runs into undefined behaviour. -/
inductive Runs (fp : FP) (near : Mat → Mat) (pred : ℕ → Inst → Int → Inst × Bool) (dim : ℕ → ℕ) : Hdl → List (Ev × Bool) → Hdl → Prop
  | nil (h) : Runs fp near pred dim h [] h
  | step {h h1 h2 ev ans l} (hw : Wf dim h ev) (hs : run fp near pred h ev = .ok (h1, ans)) (r : Runs fp near pred dim h1 l h2) :
      Runs fp near pred dim h ((ev, ans) :: l) h2

variable {fp : FP} {near : Mat → Mat} {pred : ℕ → Inst → Int → Inst × Bool} {dim : ℕ → ℕ} {h h' : Hdl} {c : Central}

theorem Newest.rel (hr : Rel dim h c) {p : ℕ} {t : Int} (hn : Newest h p t) : (h.find p).isSome ∧ c.tm p = t := by
  obtain ⟨i, e, hi, hl, he⟩ := hn
  have hp : (h.find p).isSome := by rw [hi]; rfl
  refine ⟨hp, ?_⟩
  obtain ⟨b, hb, -⟩ := hr.bel p hp
  rw [bl_of_find hi, Inst.beliefAt_eq, Buf.absMap_eq_some _ (hr.ok.ord p i hi).bel] at hb
  have h1 := (hr.ok.ord p i hi).bel.sorted.le_getLast hl _ hb
  have h2 := (hr.ok.upTo p i hi).bel e (List.mem_of_getLast? hl)
  simp only at h1
  omega

theorem set_self {i : Inst} {id : ℕ} (hs : h.Sorted) (hi : h.find id = some i) : h.set id i = h := by
  have hm := SMap.mem_of_find hi
  clear hi
  induction h with
  | nil => simp at hm
  | cons e r ih =>
    rw [SMap.Sorted, List.pairwise_cons] at hs
    rcases List.mem_cons.mp hm with rfl | hm
    · rw [SMap.set, if_neg (by simp), if_pos rfl]
    · have := hs.1 _ hm
      simp only at this
      rw [SMap.set, if_neg (by omega), if_neg (by omega), ih hs.2 hm]

theorem symm_prop {S Phi Q : Mat} {n : ℕ} (hS : S.Shape n n) (hP : Phi.Shape n n) (hQ : Q.Shape n n) (h1 : S.tr = S) (h2 : Q.tr = Q) :
    (Phi * S * Phi.tr + Q).tr = Phi * S * Phi.tr + Q := by
  have hsh : (Phi * S * Phi.tr + Q).Shape n n := ((hP.mul hS).mul hP.tr).add
  apply toM_inj (n := n) (m := n) hsh.tr.1 hsh.tr.2 hsh.1 hsh.2
  have e1 := congrArg (fun A => A.toM n n) h1
  have e2 := congrArg (fun A => A.toM n n) h2
  simp only [toM_tr] at e1 e2
  rw [toM_tr, Shape.toM_add ((hP.mul hS).mul hP.tr) hQ, (hP.mul hS).toM_mul, hP.toM_mul, toM_tr, Matrix.transpose_add, e2,
    Matrix.transpose_mul, Matrix.transpose_mul, Matrix.transpose_transpose, e1, Matrix.mul_assoc]

theorem updM_eq {H R S : Mat} {n : ℕ} (hS : S.Shape n n) (eps : ℝ) : updM H R S eps = one n - gainM H R S eps * H := by
  unfold updM; rw [hS.1]

/-- C24 step: an accepted call takes the isolated filters to the state the centralised filter gets. -/
theorem accepted (hnear : NearOk near) (hr : Rel dim h c) (ev : Ev) (hw : Wf dim h ev) (hs : run fp near pred h ev = .ok (h', true)) :
    ∃ c', SpecStep dim near c ev c' ∧ Rel dim h' c' := by
  cases ev with
  | propKF id Phi Q ta tb =>
    obtain ⟨hN, hlt, hQs⟩ := hw
    obtain ⟨hid, htm⟩ := hN.rel hr
    obtain ⟨i, hi⟩ := Option.isSome_iff_exists.mp hid
    simp only [run, get_ok hi, Res.bind_ok] at hs
    cases hp : i.propKF fp Phi Q ta tb with
    | throws => rw [hp] at hs; simp at hs
    | ub => rw [hp] at hs; simp at hs
    | ok r =>
      obtain ⟨j, a⟩ := r
      rw [hp, Res.bind_ok] at hs
      obtain ⟨e1, e2⟩ := Prod.mk.inj (Res.ok.inj hs)
      simp only at e1 e2
      subst e2
      have ho := hr.ok.ord id i hi
      have hu := hr.ok.upTo id i hi
      rw [htm] at hu
      obtain ⟨ba, hba, -⟩ := hr.bel id hid
      obtain ⟨b1, b2, b3, b4, b5, b6, b7, b8⟩ := hr.stored hid hba
      rw [htm, bl_of_find hi] at hba
      obtain ⟨hP, hQ, hf⟩ := Inst.propKF_true fp ho Phi Q hu hlt ba hba b7 b6
        (fun J M hM => hr.rows id hid J M (by rw [htm, fc_of_find hi]; exact hM)) j hp
      refine ⟨_, SpecStep.propKF id Phi Q ta tb, ?_⟩
      rw [← e1]
      have := hr.transform hi hf.ord hf.upTo hf.bel rfl hP (hP.mul b6) ((hP.mul b7).mul hP.tr).add (symm_prop b7 hP hQ b8 hQs)
        (by rw [htm]; exact hf.fac)
      simp only [b1, b2, b4] at this
      exact this
  | propEKF id mb Phi Q ta tb =>
    obtain ⟨hN, hlt, hQs⟩ := hw
    obtain ⟨hid, htm⟩ := hN.rel hr
    obtain ⟨i, hi⟩ := Option.isSome_iff_exists.mp hid
    have ho := hr.ok.ord id i hi
    have hu := hr.ok.upTo id i hi
    rw [htm] at hu
    obtain ⟨ba, hba, -⟩ := hr.bel id hid
    obtain ⟨b1, b2, b3, b4, b5, b6, b7, b8⟩ := hr.stored hid hba
    rw [htm, bl_of_find hi] at hba
    simp only [run, get_ok hi, Res.bind_ok, hba] at hs
    cases hp : i.propEKF fp ba mb Phi Q ta tb with
    | throws => rw [hp] at hs; simp at hs
    | ub => rw [hp] at hs; simp at hs
    | ok r =>
      obtain ⟨j, a⟩ := r
      rw [hp, Res.bind_ok] at hs
      obtain ⟨e1, e2⟩ := Prod.mk.inj (Res.ok.inj hs)
      simp only at e1 e2
      subst e2
      obtain ⟨hP, hQ, hm, hj⟩ := Inst.propEKF_true fp ho ba mb Phi Q ta tb b7
        (fun J M hM => hr.rows id hid J M (by rw [htm, fc_of_find hi]; exact hM)) j hp
      have hf := Inst.propagated_facts fp ho hu hlt { ba with mean := mb, Sigma := Phi * ba.Sigma * Phi.tr + Q, stamp := tb } Phi
      rw [← hj] at hf
      refine ⟨_, SpecStep.propEKF id mb Phi Q ta tb, ?_⟩
      rw [← e1]
      have := hr.transform hi hf.ord hf.upTo hf.bel rfl hP hm ((hP.mul b7).mul hP.tr).add (symm_prop b7 hP hQ b8 hQs)
        (by rw [htm]; exact hf.fac)
      simp only [b2, b4] at this
      exact this
  | propBel id bb Phi ta tb =>
    obtain ⟨hN, hlt, hSs, hS, hm1, hm2⟩ := hw
    obtain ⟨hid, htm⟩ := hN.rel hr
    obtain ⟨i, hi⟩ := Option.isSome_iff_exists.mp hid
    simp only [run, get_ok hi, Res.bind_ok] at hs
    cases hp : i.propBel fp bb Phi ta tb with
    | throws => rw [hp] at hs; simp at hs
    | ub => rw [hp] at hs; simp at hs
    | ok r =>
      obtain ⟨j, a⟩ := r
      rw [hp, Res.bind_ok] at hs
      obtain ⟨e1, e2⟩ := Prod.mk.inj (Res.ok.inj hs)
      simp only at e1 e2
      subst e2
      have ho := hr.ok.ord id i hi
      have hu := hr.ok.upTo id i hi
      rw [htm] at hu
      obtain ⟨hP, hf⟩ := Inst.propBel_true fp ho bb Phi hu hlt hS
        (fun J M hM => hr.rows id hid J M (by rw [htm, fc_of_find hi]; exact hM)) j hp
      refine ⟨_, SpecStep.propBel id bb Phi ta tb, ?_⟩
      rw [← e1]
      exact hr.transform (b := { bb with stamp := tb }) hi hf.ord hf.upTo hf.bel rfl hP ⟨hm1, hm2⟩ ⟨hS, by rw [← hS, ← tr_rows bb.Sigma, hSs]⟩ hSs
        (by rw [htm]; exact hf.fac)
  | privKF id H R z t cfg =>
    obtain ⟨hid, htm⟩ := Newest.rel hr hw
    obtain ⟨i, hi⟩ := Option.isSome_iff_exists.mp hid
    have ho := hr.ok.ord id i hi
    have hu := hr.ok.upTo id i hi
    obtain ⟨b, hb, -⟩ := hr.bel id hid
    obtain ⟨b1, b2, b3, b4, b5, b6, b7, b8⟩ := hr.stored hid hb
    rw [htm, bl_of_find hi] at hb
    simp only [run, get_ok hi, Res.bind_ok, Inst.privKF, hb] at hs
    cases hHm : H *! b.mean with
    | throws => rw [hHm] at hs; simp at hs
    | ub => rw [hHm] at hs; simp at hs
    | ok hm =>
      cases hzr : z -! hm with
      | throws => rw [hHm, Res.bind_ok, hzr] at hs; simp at hs
      | ub => rw [hHm, Res.bind_ok, hzr] at hs; simp at hs
      | ok r =>
        have e0 : hm = H * b.mean := by
          unfold Mat.mulC at hHm; split at hHm
          · exact (Res.ok.inj hHm).symm
          · simp at hHm
        have e00 : r = z - H * b.mean := by
          unfold Mat.subC at hzr; split at hzr
          · rw [← e0]; exact (Res.ok.inj hzr).symm
          · simp at hzr
        rw [hHm, Res.bind_ok, hzr, Res.bind_ok] at hs
        cases hp : i.privEKF b t H R r cfg with
        | throws => rw [hp] at hs; simp at hs
        | ub => rw [hp] at hs; simp at hs
        | ok x =>
          obtain ⟨j, a⟩ := x
          rw [hp, Res.bind_ok] at hs
          obtain ⟨e1, e2⟩ := Prod.mk.inj (Res.ok.inj hs)
          simp only at e1 e2
          subst e2
          obtain ⟨res, hc, hrj, hO, hf⟩ := Inst.privEKF_true ho b t (by rw [b3, htm]) H R r cfg b7 b6
            (fun J M hM => hr.rows id hid J M (by rw [htm, fc_of_find hi]; exact hM)) j hp
          obtain ⟨-, hres⟩ := Inst.correctionStep_accept b7 cfg res hc hrj
          have hU : res.U = one (dim id) - gainM H R b.Sigma cfg.eps * H := by rw [hres]; exact updM_eq b7 _
          have hdx : res.dx.Shape (dim id) 1 := by rw [hres]; exact (gainM_shape hO _).mul hO.r
          have hPs : res.Sapos.Shape (dim id) (dim id) := by rw [hres]; exact postM_shape hO cfg
          have hPy : res.Sapos.tr = res.Sapos := by rw [hres]; exact postM_symm hO cfg
          have hUs : res.U.Shape (dim id) (dim id) := by rw [hres]; exact updM_shape hO _
          rw [b2, e00, b1] at hc
          refine ⟨_, SpecStep.privKF id H R z t cfg res hc hrj, ?_⟩
          rw [← e1]
          have := hr.transform (b := { b with mean := b.mean + res.dx, Sigma := res.Sapos }) hi hf.ord (hf.upTo t (by rw [← htm]; exact hu) le_rfl)
            (by have := hf.bel t; rw [if_pos rfl] at this; exact this) (by rw [← htm]; exact b3) hUs b6.add hPs hPy
            (by intro J; have := hf.fac J t; rw [if_pos rfl] at this; rw [htm]; exact this)
          simp only [b1, b4] at this
          rw [hU, b2] at this
          exact this
  | privEKF id H R r t cfg =>
    obtain ⟨hid, htm⟩ := Newest.rel hr hw
    obtain ⟨i, hi⟩ := Option.isSome_iff_exists.mp hid
    have ho := hr.ok.ord id i hi
    have hu := hr.ok.upTo id i hi
    obtain ⟨b, hb, -⟩ := hr.bel id hid
    obtain ⟨b1, b2, b3, b4, b5, b6, b7, b8⟩ := hr.stored hid hb
    rw [htm, bl_of_find hi] at hb
    simp only [run, get_ok hi, Res.bind_ok, hb] at hs
    cases hp : i.privEKF b t H R r cfg with
    | throws => rw [hp] at hs; simp at hs
    | ub => rw [hp] at hs; simp at hs
    | ok x =>
      obtain ⟨j, a⟩ := x
      rw [hp, Res.bind_ok] at hs
      obtain ⟨e1, e2⟩ := Prod.mk.inj (Res.ok.inj hs)
      simp only at e1 e2
      subst e2
      obtain ⟨res, hc, hrj, hO, hf⟩ := Inst.privEKF_true ho b t (by rw [b3, htm]) H R r cfg b7 b6
        (fun J M hM => hr.rows id hid J M (by rw [htm, fc_of_find hi]; exact hM)) j hp
      obtain ⟨-, hres⟩ := Inst.correctionStep_accept b7 cfg res hc hrj
      have hU : res.U = one (dim id) - gainM H R b.Sigma cfg.eps * H := by rw [hres]; exact updM_eq b7 _
      have hPs : res.Sapos.Shape (dim id) (dim id) := by rw [hres]; exact postM_shape hO cfg
      have hPy : res.Sapos.tr = res.Sapos := by rw [hres]; exact postM_symm hO cfg
      have hUs : res.U.Shape (dim id) (dim id) := by rw [hres]; exact updM_shape hO _
      rw [b2] at hc
      refine ⟨_, SpecStep.privEKF id H R r t cfg res hc hrj, ?_⟩
      rw [← e1]
      have := hr.transform (b := { b with mean := b.mean + res.dx, Sigma := res.Sapos }) hi hf.ord (hf.upTo t (by rw [← htm]; exact hu) le_rfl)
        (by have := hf.bel t; rw [if_pos rfl] at this; exact this) (by rw [← htm]; exact b3) hUs b6.add hPs hPy
        (by intro J; have := hf.fac J t; rw [if_pos rfl] at this; rw [htm]; exact this)
      simp only [b1, b4] at this
      rw [hU, b2] at this
      exact this
  | setCov a b S t =>
    obtain ⟨hab, hNa, hNb, hS1, hS2⟩ := hw
    obtain ⟨ha, hta⟩ := hNa.rel hr
    obtain ⟨hb, htb⟩ := hNb.rel hr
    obtain ⟨h1, e, hr'⟩ := hr.setSigma ha hb hab hta htb ⟨hS1, hS2⟩
    simp only [run, e, Res.bind_ok] at hs
    refine ⟨_, SpecStep.setCov a b S t, ?_⟩
    rw [← (Prod.mk.inj (Res.ok.inj hs)).1]
    exact hr'
  | jointR dH R r t cfg =>
    obtain ⟨hdH, hN⟩ := hw
    have hp : Parts dim h c dH t := ⟨hdH, fun p hpm => ((hN p hpm).rel hr).1, fun p hpm => ((hN p hpm).rel hr).2⟩
    simp only [run, applyObsR] at hs
    cases hH : stackH dH with
    | throws => rw [hH] at hs; simp at hs
    | ub => rw [hH] at hs; simp at hs
    | ok H =>
      rw [hH, Res.bind_ok, getDictBel_rel pred hr hp, Res.bind_ok] at hs
      simp only at hs
      split at hs
      · simp at hs
      · obtain ⟨S, hSe, hSC⟩ := stackSigma_spec (dict h dH t) (dict_sorted hp) (covOf hr hp)
        rw [← participants_eq hr hp] at hSC
        rw [hSe, Res.bind_ok, stabilize_ok hSC.1, Res.bind_ok] at hs
        unfold correctJoint at hs
        cases hc : correctionStep H R r (stabM S (1 / 10^12)) cfg with
        | throws => rw [hc] at hs; simp at hs
        | ub => rw [hc] at hs; simp at hs
        | ok res =>
          rw [hc, Res.bind_ok] at hs
          cases hrj : res.rejected with
          | true => rw [hrj] at hs; simp at hs
          | false =>
            rw [hrj] at hs
            simp only [Bool.not_false, if_true] at hs
            obtain ⟨hO, hres⟩ := Inst.correctionStep_accept (hSC.1.stabM _) cfg res hc hrj
            have hP : res.Sapos.Shape (tot (participants dim c dH)) (tot (participants dim c dH)) := by rw [hres]; exact postM_shape hO cfg
            have hPs : res.Sapos.tr = res.Sapos := by rw [hres]; exact postM_symm hO cfg
            have hdx : res.dx.Shape (tot (participants dim c dH)) 1 := by rw [hres]; exact (gainM_shape hO _).mul hO.r
            obtain ⟨hP1, hP2⟩ := fixPsd_facts hnear hP hPs
            by_cases hne : participants dim c dH = []
            · rw [participants_eq hr hp] at hne
              have hne' : unfixed (dict h dH t) = [] := by simpa using hne
              rw [commit_unfixed, hne'] at hs
              simp [commit, applyCorrections, splitRightUpper, unfixed] at hs
            · obtain ⟨h1, e, hr'⟩ := commit_rel hr hp hne hP1 hP2 hdx
              rw [e, Res.bind_ok] at hs
              refine ⟨_, SpecStep.jointR dH R r t cfg H S res (stackH_spec dH hdH H hH) hSC hc hrj, ?_⟩
              rw [← (Prod.mk.inj (Res.ok.inj hs)).1]
              exact hr'
  | jointZ dH z R t cfg =>
    obtain ⟨hdH, hN⟩ := hw
    have hp : Parts dim h c dH t := ⟨hdH, fun p hpm => ((hN p hpm).rel hr).1, fun p hpm => ((hN p hpm).rel hr).2⟩
    simp only [run, applyObsZ] at hs
    cases hH : stackH dH with
    | throws => rw [hH] at hs; simp at hs
    | ub => rw [hH] at hs; simp at hs
    | ok H =>
      rw [hH, Res.bind_ok, getDictBel_rel pred hr hp, Res.bind_ok] at hs
      simp only at hs
      split at hs
      · simp at hs
      · obtain ⟨S, hSe, hSC⟩ := stackSigma_spec (dict h dH t) (dict_sorted hp) (covOf hr hp)
        obtain ⟨m, hme, hmC⟩ := stackMean_spec (dict h dH t) (dict_sorted hp) c.mu
          (fun e he => (mem_dict hr hp (mem_unfixed.mp he).1).2.2.2.2.1)
          (fun e he => (mem_dict hr hp (mem_unfixed.mp he).1).2.2.2.2.2.2.2.2.2.1)
        rw [← participants_eq hr hp] at hSC hmC
        rw [hme, Res.bind_ok, hSe, Res.bind_ok] at hs
        cases hHm : H *! m with
        | throws => rw [hHm] at hs; simp at hs
        | ub => rw [hHm] at hs; simp at hs
        | ok hm =>
          cases hzr : z -! hm with
          | throws => rw [hHm, Res.bind_ok, hzr] at hs; simp at hs
          | ub => rw [hHm, Res.bind_ok, hzr] at hs; simp at hs
          | ok r =>
            have e0 : hm = H * m := by
              unfold Mat.mulC at hHm; split at hHm
              · exact (Res.ok.inj hHm).symm
              · simp at hHm
            have e00 : r = z - H * m := by
              unfold Mat.subC at hzr; split at hzr
              · rw [← e0]; exact (Res.ok.inj hzr).symm
              · simp at hzr
            rw [hHm, Res.bind_ok, hzr, Res.bind_ok, stabilize_ok hSC.1, Res.bind_ok] at hs
            unfold correctJoint at hs
            cases hc : correctionStep H R r (stabM S (1 / 10^12)) cfg with
            | throws => rw [hc] at hs; simp at hs
            | ub => rw [hc] at hs; simp at hs
            | ok res =>
              rw [hc, Res.bind_ok] at hs
              cases hrj : res.rejected with
              | true => rw [hrj] at hs; simp at hs
              | false =>
                rw [hrj] at hs
                simp only [Bool.not_false, if_true] at hs
                obtain ⟨hO, hres⟩ := Inst.correctionStep_accept (hSC.1.stabM _) cfg res hc hrj
                have hP : res.Sapos.Shape (tot (participants dim c dH)) (tot (participants dim c dH)) := by rw [hres]; exact postM_shape hO cfg
                have hPs : res.Sapos.tr = res.Sapos := by rw [hres]; exact postM_symm hO cfg
                have hdx : res.dx.Shape (tot (participants dim c dH)) 1 := by rw [hres]; exact (gainM_shape hO _).mul hO.r
                obtain ⟨hP1, hP2⟩ := fixPsd_facts hnear hP hPs
                rw [e00] at hc
                by_cases hne : participants dim c dH = []
                · rw [participants_eq hr hp] at hne
                  have hne' : unfixed (dict h dH t) = [] := by simpa using hne
                  rw [commit_unfixed, hne'] at hs
                  simp [commit, applyCorrections, splitRightUpper, unfixed] at hs
                · obtain ⟨h1, e, hr'⟩ := commit_rel hr hp hne hP1 hP2 hdx
                  rw [e, Res.bind_ok] at hs
                  refine ⟨_, SpecStep.jointZ dH z R t cfg H S m res (stackH_spec dH hdH H hH) hSC hmC hc hrj, ?_⟩
                  rw [← (Prod.mk.inj (Res.ok.inj hs)).1]
                  exact hr'

theorem correctJoint_false {d : SMap Belief} {H R r S : Mat} {t : Int} {cfg : Cfg}
    (hs : correctJoint near h d H R r S t cfg = .ok (h', false)) : h' = h := by
  unfold correctJoint at hs
  cases hc : correctionStep H R r S cfg with
  | throws => rw [hc] at hs; simp at hs
  | ub => rw [hc] at hs; simp at hs
  | ok res =>
    rw [hc, Res.bind_ok] at hs
    split at hs
    · cases h1 : commit h d (fixPsd near res.Sapos) res.dx t with
      | throws => rw [h1] at hs; simp at hs
      | ub => rw [h1] at hs; simp at hs
      | ok x => rw [h1] at hs; simp at hs
    · exact (Prod.mk.inj (Res.ok.inj hs)).1.symm

/-- A rejected call changes nothing at all. -/
theorem rejected (hr : Rel dim h c) (ev : Ev) (hw : Wf dim h ev) (hs : run fp near pred h ev = .ok (h', false)) : h' = h := by
  have one : ∀ (id : ℕ) (i : Inst) (hi : h.find id = some i) (x : Res (Inst × Bool)) (hx : ∀ j, x = .ok (j, false) → j = i)
      (hs : (x >>= fun r => Res.ok (SMap.set h id r.1, r.2)) = .ok (h', false)), h' = h := by
    intro id i hi x hx hs
    cases x with
    | throws => simp at hs
    | ub => simp at hs
    | ok r =>
      obtain ⟨j, a⟩ := r
      obtain ⟨e1, e2⟩ := Prod.mk.inj (Res.ok.inj hs)
      simp only at e1 e2
      subst e2
      rw [← e1, hx j rfl, set_self hr.ok.sorted hi]
  cases ev with
  | propKF id Phi Q ta tb =>
    obtain ⟨i, hi⟩ := Option.isSome_iff_exists.mp (hw.1.rel hr).1
    simp only [run, get_ok hi, Res.bind_ok] at hs
    exact one id i hi _ (fun j hj => Inst.propKF_false fp i Phi Q ta tb j hj) hs
  | propEKF id mb Phi Q ta tb =>
    obtain ⟨i, hi⟩ := Option.isSome_iff_exists.mp (hw.1.rel hr).1
    simp only [run, get_ok hi, Res.bind_ok] at hs
    cases hb : i.beliefAt ta with
    | none => rw [hb] at hs; exact (Prod.mk.inj (Res.ok.inj hs)).1.symm
    | some ba => rw [hb] at hs; exact one id i hi _ (fun j hj => Inst.propEKF_false fp i ba mb Phi Q ta tb j hj) hs
  | propBel id bb Phi ta tb =>
    obtain ⟨i, hi⟩ := Option.isSome_iff_exists.mp (hw.1.rel hr).1
    simp only [run, get_ok hi, Res.bind_ok] at hs
    exact one id i hi _ (fun j hj => Inst.propBel_false fp i bb Phi ta tb j hj) hs
  | privKF id H R z t cfg =>
    obtain ⟨i, hi⟩ := Option.isSome_iff_exists.mp (Newest.rel hr hw).1
    simp only [run, get_ok hi, Res.bind_ok] at hs
    exact one id i hi _ (fun j hj => by
      unfold Inst.privKF at hj
      cases hb : i.beliefAt t with
      | none => rw [hb] at hj; exact (Prod.mk.inj (Res.ok.inj hj)).1.symm
      | some b =>
        rw [hb] at hj
        simp only at hj
        cases h1 : H *! b.mean with
        | throws => rw [h1] at hj; simp at hj
        | ub => rw [h1] at hj; simp at hj
        | ok x =>
          rw [h1, Res.bind_ok] at hj
          cases h2 : z -! x with
          | throws => rw [h2] at hj; simp at hj
          | ub => rw [h2] at hj; simp at hj
          | ok y => rw [h2, Res.bind_ok] at hj; exact Inst.privEKF_false i b t H R y cfg j hj) hs
  | privEKF id H R r t cfg =>
    obtain ⟨i, hi⟩ := Option.isSome_iff_exists.mp (Newest.rel hr hw).1
    simp only [run, get_ok hi, Res.bind_ok] at hs
    cases hb : i.beliefAt t with
    | none => rw [hb] at hs; exact (Prod.mk.inj (Res.ok.inj hs)).1.symm
    | some b => rw [hb] at hs; exact one id i hi _ (fun j hj => Inst.privEKF_false i b t H R r cfg j hj) hs
  | setCov a b S t =>
    simp only [run] at hs
    cases h1 : setSigma h a b S t with
    | throws => rw [h1] at hs; simp at hs
    | ub => rw [h1] at hs; simp at hs
    | ok x => rw [h1] at hs; simp at hs
  | jointR dH R r t cfg =>
    obtain ⟨hdH, hN⟩ := hw
    have hp : Parts dim h c dH t := ⟨hdH, fun p hpm => ((hN p hpm).rel hr).1, fun p hpm => ((hN p hpm).rel hr).2⟩
    simp only [run, applyObsR] at hs
    cases hH : stackH dH with
    | throws => rw [hH] at hs; simp at hs
    | ub => rw [hH] at hs; simp at hs
    | ok H =>
      rw [hH, Res.bind_ok, getDictBel_rel pred hr hp, Res.bind_ok] at hs
      simp only at hs
      split at hs
      · exact (Prod.mk.inj (Res.ok.inj hs)).1.symm
      · obtain ⟨S, hSe, hSC⟩ := stackSigma_spec (dict h dH t) (dict_sorted hp) (covOf hr hp)
        rw [hSe, Res.bind_ok, stabilize_ok hSC.1, Res.bind_ok] at hs
        exact correctJoint_false hs
  | jointZ dH z R t cfg =>
    obtain ⟨hdH, hN⟩ := hw
    have hp : Parts dim h c dH t := ⟨hdH, fun p hpm => ((hN p hpm).rel hr).1, fun p hpm => ((hN p hpm).rel hr).2⟩
    simp only [run, applyObsZ] at hs
    cases hH : stackH dH with
    | throws => rw [hH] at hs; simp at hs
    | ub => rw [hH] at hs; simp at hs
    | ok H =>
      rw [hH, Res.bind_ok, getDictBel_rel pred hr hp, Res.bind_ok] at hs
      simp only at hs
      split at hs
      · exact (Prod.mk.inj (Res.ok.inj hs)).1.symm
      · obtain ⟨S, hSe, hSC⟩ := stackSigma_spec (dict h dH t) (dict_sorted hp) (covOf hr hp)
        cases h0 : stackMean (dict h dH t) with
        | throws => rw [h0] at hs; simp at hs
        | ub => rw [h0] at hs; simp at hs
        | ok m =>
          rw [h0, Res.bind_ok, hSe, Res.bind_ok] at hs
          cases h1 : H *! m with
          | throws => rw [h1] at hs; simp at hs
          | ub => rw [h1] at hs; simp at hs
          | ok x =>
            rw [h1, Res.bind_ok] at hs
            cases h2 : z -! x with
            | throws => rw [h2] at hs; simp at hs
            | ub => rw [h2] at hs; simp at hs
            | ok y =>
              rw [h2, Res.bind_ok, stabilize_ok hSC.1, Res.bind_ok] at hs
              exact correctJoint_false hs

theorem runs_sim (hnear : NearOk near) (hr : Rel dim h c) {l : List (Ev × Bool)} (hrun : Runs fp near pred dim h l h') :
    ∃ c', SpecRun dim near c l c' ∧ Rel dim h' c' := by
  induction hrun generalizing c with
  | nil h => exact ⟨c, SpecRun.nil c, hr⟩
  | @step h h1 h2 ev ans l hw hs _ ih =>
    cases ans with
    | true =>
      obtain ⟨c1, s1, r1⟩ := accepted hnear hr ev hw hs
      obtain ⟨c2, s2, r2⟩ := ih r1
      exact ⟨c2, SpecRun.accept s1 s2, r2⟩
    | false =>
      have e := rejected hr ev hw hs
      rw [e] at ih
      obtain ⟨c2, s2, r2⟩ := ih hr
      exact ⟨c2, SpecRun.reject s2, r2⟩

/-! ## Start and observation -/

/-- Freshly initialised instances (`initialize(bel, t)`, the belief stamped with `t`) and the centralised
filter with the same beliefs and no correlations. -/
structure Init (dim : ℕ → ℕ) (h : Hdl) (c : Central) : Prop where
  sorted : h.Sorted
  inst : ∀ p i, h.find p = some i → ∃ hor b, i = Inst.doInit ⟨[], [], hor⟩ b (c.tm p) ∧ b.stamp = c.tm p ∧
    0 < dim p ∧ b.mean.rows = dim p ∧ b.mean.cols = 1 ∧ b.Sigma.rows = dim p ∧ b.Sigma.tr = b.Sigma ∧
    c.mu p = b.mean ∧ c.cov p p = b.Sigma ∧ c.fix p = b.fixed
  uncorrelated : ∀ p q, p ≠ q → c.cov p q = Mat.zero (dim p) (dim q)

theorem Init.rel (hi : Init dim h c) : Rel dim h c := by
  have key : ∀ p, (h.find p).isSome → ∃ i b, h.find p = some i ∧ i.bel = [(c.tm p, b)] ∧ i.ccf = [] ∧ b.stamp = c.tm p ∧
    0 < dim p ∧ b.mean.Shape (dim p) 1 ∧ b.Sigma.Shape (dim p) (dim p) ∧ b.Sigma.tr = b.Sigma ∧
    c.mu p = b.mean ∧ c.cov p p = b.Sigma ∧ c.fix p = b.fixed := by
    intro p hp
    obtain ⟨i, hf⟩ := Option.isSome_iff_exists.mp hp
    obtain ⟨hor, b, e, h1, h2, h3, h4, h5, h6, h7, h8, h9⟩ := hi.inst p i hf
    exact ⟨i, b, hf, by rw [e]; rfl, by rw [e]; rfl, h1, h2, ⟨h3, h4⟩, ⟨h5, by rw [← h5, ← tr_rows b.Sigma, h6]⟩, h6, h7, h8, h9⟩
  have nofac : ∀ p q t, fc h p q t = none := by
    intro p q t
    cases hf : h.find p with
    | none => unfold fc; rw [hf]; rfl
    | some i =>
      obtain ⟨i', b, e1, e2, e3, -⟩ := key p (by rw [hf]; rfl)
      rw [fc_of_find e1]
      unfold Inst.fac
      rw [e3]; rfl
  constructor
  · refine ⟨hi.sorted, ?_, ?_⟩
    · intro p i hf
      obtain ⟨i', b, e1, e2, e3, -⟩ := key p (by rw [hf]; rfl)
      rw [hf] at e1; rw [Option.some.inj e1]
      refine ⟨by rw [e2]; exact List.pairwise_singleton _ _, by rw [e3]; exact List.Pairwise.nil, ?_⟩
      intro J bb hb; rw [e3] at hb; simp at hb
    · intro p i hf
      obtain ⟨i', b, e1, e2, e3, -⟩ := key p (by rw [hf]; rfl)
      rw [hf] at e1; rw [Option.some.inj e1]
      refine ⟨?_, ?_⟩
      · intro e he; rw [e2] at he; simp only [List.mem_singleton] at he; rw [he]
      · intro J bb hb; rw [e3] at hb; simp at hb
  · intro p hp
    obtain ⟨i, b, e1, e2, e3, h1, h2, h3, h4, h5, h6, h7, h8⟩ := key p hp
    refine ⟨b, ?_, h6.symm, h7.symm, h1, h8.symm⟩
    rw [bl_of_find e1, Inst.beliefAt_eq, e2]
    simp [Buf.absMap, Buf.getAt]
  · intro p hp
    obtain ⟨i, b, e1, e2, e3, h1, h2, -⟩ := key p hp
    exact h2
  · intro p hp
    obtain ⟨i, b, e1, e2, e3, h1, h2, h3, h4, h5, h6, h7, h8⟩ := key p hp
    rw [h6]; exact h3
  · intro p q hp hq
    by_cases hpq : p = q
    · subst hpq
      obtain ⟨i, b, e1, e2, e3, h1, h2, h3, h4, h5, h6, h7, h8⟩ := key p hp
      rw [h7]; exact h4
    · rw [hi.uncorrelated p q hpq]; exact ⟨rfl, rfl⟩
  · intro p q hp hq
    by_cases hpq : p = q
    · subst hpq
      obtain ⟨i, b, e1, e2, e3, h1, h2, h3, h4, h5, h6, h7, h8⟩ := key p hp
      rw [h7]; exact h5.symm
    · rw [hi.uncorrelated p q hpq, hi.uncorrelated q p (fun e => hpq e.symm), tr_zero]
  · intro p hp q M hM; rw [nofac] at hM; simp at hM
  · intro p q hp hq hpq
    right
    exact ⟨nofac _ _ _, nofac _ _ _, hi.uncorrelated p q hpq⟩

/-- C24 (with C22, C23 as special cases): start with freshly initialised instances, call the API in any
in-order way, any number of times, in any interleaving: the newest belief of every instance and the
cross-covariance of every two instances that are at the same time are those of the centralised filter.
(An empty matrix stands for an uncorrelated pair.) -/
theorem c24_centralised (hnear : NearOk near) {h0 : Hdl} {c0 : Central} (hi : Init dim h0 c0) {l : List (Ev × Bool)}
    (hrun : Runs fp near pred dim h0 l h) :
    ∃ c, SpecRun dim near c0 l c ∧
      (∀ p i, h.find p = some i → ∃ b, i.beliefAt (c.tm p) = some b ∧ i.bel.getLast? = some (c.tm p, b) ∧
        b.mean = c.mu p ∧ b.Sigma = c.cov p p) ∧
      ∀ p q t, p ≠ q → Newest h p t → Newest h q t →
        getSigma h p q t = .ok (c.cov p q) ∨ (getSigma h p q t = .ok Mat.empty ∧ c.cov p q = Mat.zero (dim p) (dim q)) := by
  obtain ⟨c, hs, hr⟩ := runs_sim hnear hi.rel hrun
  refine ⟨c, hs, ?_, ?_⟩
  · intro p i hf
    have hp : (h.find p).isSome := by rw [hf]; rfl
    obtain ⟨b, h1, h2, h3, -⟩ := hr.bel p hp
    rw [bl_of_find hf] at h1
    refine ⟨b, h1, ?_, h2, h3⟩
    have ho := (hr.ok.ord p i hf).bel
    rw [Inst.beliefAt_eq, Buf.absMap_eq_some _ ho] at h1
    cases hl : i.bel.getLast? with
    | none => rw [List.getLast?_eq_none_iff] at hl; rw [hl] at h1; simp at h1
    | some e =>
      have g1 := ho.sorted.le_getLast hl _ h1
      have g2 := (hr.ok.upTo p i hf).bel e (List.mem_of_getLast? hl)
      simp only at g1
      have g3 : e.1 = c.tm p := by omega
      have g4 := (Buf.absMap_eq_some _ ho e.1 e.2).mpr (List.mem_of_getLast? hl)
      rw [g3, (Buf.absMap_eq_some _ ho _ _).mpr h1] at g4
      rw [Option.some.inj g4, ← g3]
  · intro p q t hpq hNp hNq
    obtain ⟨a1, a2⟩ := hNp.rel hr
    obtain ⟨b1, b2⟩ := hNq.rel hr
    rcases hr.getSigma a1 b1 hpq a2 b2 with ⟨g, -⟩ | ⟨g, -, g2⟩
    · exact Or.inl g
    · exact Or.inr ⟨g, g2⟩

end Hdl
end Ikf
