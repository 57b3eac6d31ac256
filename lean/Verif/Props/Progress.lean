import Verif.Props.Isolated

/-!
# Well-dimensioned in-order use never fails (C57)
-/

namespace Ikf
open Mat

/-- The gate can be evaluated: switched off, or its confidence is one of the tabulated ones. -/
def GateOk (cfg : Cfg) : Prop := cfg.outlier = false ∨ cfg.conf ≤ 0 ∨ ∃ row, nisTable.lookup (round (cfg.conf * 1000)) = some row

/-- The default configuration is fine. -/
theorem GateOk.default : GateOk {} := by
  refine Or.inr (Or.inr ?_)
  have : round ((997 / 1000 : ℚ) * 1000) = 997 := by norm_num
  rw [← Option.isSome_iff_exists]
  show (nisTable.lookup (round ((997 / 1000 : ℚ) * 1000))).isSome = true
  rw [this]; rfl

theorem checkNIS_ok {S r : Mat} {m : ℕ} (hS : S.Shape m m) (hr : r.Shape m 1) {conf : ℚ}
    (hc : conf ≤ 0 ∨ ∃ row, nisTable.lookup (round (conf * 1000)) = some row) : ∃ b, checkNIS S r conf = .ok b := by
  unfold checkNIS
  split
  · rename_i hp
    rcases hc with hc | ⟨row, hrow⟩
    · exact absurd hc (by linarith)
    · have h1 : ∃ s, nis S r = .ok s := by
        unfold nis
        split
        · rw [hS.invC, Res.bind_ok, hr.tr.mulC hS.inv, Res.bind_ok, (hr.tr.mul hS.inv).mulC hr, Res.bind_ok]
          exact ⟨_, rfl⟩
        · exact ⟨_, rfl⟩
      obtain ⟨s, hs⟩ := h1
      have h2 : ∃ th, chi2inv conf r.rows = .ok th := by
        unfold chi2inv
        rw [hrow]
        simp only
        split
        · exact ⟨_, rfl⟩
        · exact ⟨_, rfl⟩
      obtain ⟨th, hth⟩ := h2
      rw [hs, Res.bind_ok, hth, Res.bind_ok]
      exact ⟨_, rfl⟩
  · exact ⟨_, rfl⟩

/-- A well-dimensioned correction yields a result. -/
theorem correctionStep_progress {H R r S : Mat} {n m : ℕ} (hO : ObsShape H R r S n m) {cfg : Cfg} (hg : GateOk cfg) :
    ∃ rej, correctionStep H R r S cfg = .ok ⟨postM H R S cfg, gainM H R S cfg.eps * r, updM H R S cfg.eps, rej⟩ ∧
      (cfg.outlier = false → rej = false) := by
  rw [correctionStep_eq hO]
  cases ho : cfg.outlier with
  | false =>
    rw [if_neg (by simp), Res.bind_ok]
    exact ⟨false, rfl, fun _ => rfl⟩
  | true =>
    rw [if_pos rfl]
    have hg' : cfg.conf ≤ 0 ∨ ∃ row, nisTable.lookup (round (cfg.conf * 1000)) = some row := by
      rcases hg with hg | hg
      · rw [hg] at ho; simp at ho
      · exact hg
    obtain ⟨b, hb⟩ := checkNIS_ok (innov_shape hO cfg.eps) hO.r hg'
    rw [hb, Res.bind_ok, Res.bind_ok]
    exact ⟨_, rfl, fun h => by simp at h⟩

namespace Hdl

/-- The matrices of a call fit the sizes `dim` of the instances; participants of a joint observation are not
fixed (their Jacobian would have to have no columns). -/
def Fits (dim : ℕ → ℕ) (h : Hdl) : Ev → Prop
  | .propKF id Phi Q _ _ => Phi.Shape (dim id) (dim id) ∧ Q.Shape (dim id) (dim id)
  | .propEKF id mb Phi Q _ _ => Phi.Shape (dim id) (dim id) ∧ Q.Shape (dim id) (dim id) ∧ mb.Shape (dim id) 1
  | .propBel id _ Phi _ _ => Phi.Shape (dim id) (dim id)
  | .privKF id H R z _ cfg => H.cols = dim id ∧ R.Shape H.rows H.rows ∧ z.Shape H.rows 1 ∧ GateOk cfg
  | .privEKF id H R r _ cfg => H.cols = dim id ∧ R.Shape H.rows H.rows ∧ r.Shape H.rows 1 ∧ GateOk cfg
  | .setCov _ _ _ _ => True
  | .jointR dH R r t cfg => dH ≠ [] ∧ (∃ m, (∀ e ∈ dH, e.2.Shape m (dim e.1) ∧ fixedAt h t e.1 = false) ∧ R.Shape m m ∧ r.Shape m 1) ∧ GateOk cfg
  | .jointZ dH z R t cfg => dH ≠ [] ∧ (∃ m, (∀ e ∈ dH, e.2.Shape m (dim e.1) ∧ fixedAt h t e.1 = false) ∧ R.Shape m m ∧ z.Shape m 1) ∧ GateOk cfg

/-- The call has no gate, or it is switched off. -/
def Ungated : Ev → Prop
  | .privKF _ _ _ _ _ cfg => cfg.outlier = false
  | .privEKF _ _ _ _ _ cfg => cfg.outlier = false
  | .jointR _ _ _ _ cfg => cfg.outlier = false
  | .jointZ _ _ _ _ cfg => cfg.outlier = false
  | _ => True

theorem stackHLoop_ok (m : ℕ) (d : SMap Mat) (col : ℕ) (H : Mat) (hr : ∀ e ∈ d, e.2.rows = m) (h1 : m ≤ H.rows) (h2 : col + tot (hcols d) ≤ H.cols) :
    ∃ G, stackHLoop m d col H = .ok G ∧ G.rows = H.rows ∧ G.cols = H.cols := by
  induction d generalizing col H with
  | nil => exact ⟨H, rfl, rfl, rfl⟩
  | cons e r ih =>
    simp only [hcols, List.map_cons, tot] at h2
    rw [stackHLoop]
    unfold Mat.setBlockC
    rw [if_pos ⟨by omega, by omega, hr e List.mem_cons_self, rfl⟩, Res.bind_ok]
    obtain ⟨G, g1, g2, g3⟩ := ih (col + e.2.cols) (H.setBlock 0 col e.2) (fun x hx => hr x (List.mem_cons_of_mem _ hx)) h1
      (by show _ ≤ H.cols; simp only [hcols]; omega)
    exact ⟨G, g1, g2, g3⟩

theorem dimsH_snd (d : SMap Mat) (a : ℕ × ℕ) (m : ℕ) (hd : ∀ e ∈ d, e.2.rows = m) (hne : d ≠ []) : (dimsH d a).2 = m := by
  induction d generalizing a with
  | nil => exact absurd rfl hne
  | cons e r ih =>
    rw [dimsH]
    cases r with
    | nil => exact hd e List.mem_cons_self
    | cons f r => exact ih _ (fun x hx => hd x (List.mem_cons_of_mem _ hx)) (by simp)

theorem stackH_ok (d : SMap Mat) (m : ℕ) (hd : ∀ e ∈ d, e.2.rows = m) (hne : d ≠ []) :
    ∃ H, stackH d = .ok H ∧ H.Shape m (tot (hcols d)) := by
  unfold stackH
  simp only
  rw [dimsH_snd d (0, 0) m hd hne]
  have e1 : (dimsH d (0, 0)).1 = tot (hcols d) := by rw [dimsH_fst]; simp
  rw [e1]
  obtain ⟨G, g1, g2, g3⟩ := stackHLoop_ok m d 0 (Mat.zero m (tot (hcols d))) hd (by rfl) (by simp [zero_cols])
  exact ⟨G, g1, by rw [g2]; rfl, by rw [g3]; rfl⟩

variable {fp : FP} {near : Mat → Mat} {pred : ℕ → Inst → Int → Inst × Bool} {dim : ℕ → ℕ} {h h' : Hdl} {c : Central}

theorem privEKF_progress {i : Inst} (ho : i.Ord) (b : Belief) (t : Int) (hst : b.stamp = t) (H R r : Mat) (cfg : Cfg) {n : ℕ}
    (hO : ObsShape H R r b.Sigma n H.rows) (hm : b.mean.Shape n 1) (hF : ∀ J M, i.fac J t = some M → M.rows = n) (hg : GateOk cfg) :
    ∃ j ans, i.privEKF b t H R r cfg = .ok (j, ans) ∧ (cfg.outlier = false → ans = true) := by
  obtain ⟨rej, e, hrej⟩ := correctionStep_progress hO hg
  unfold Inst.privEKF
  rw [e, Res.bind_ok]
  cases rej with
  | true => exact ⟨i, false, rfl, fun h => by simpa using hrej h⟩
  | false =>
    simp only [Bool.not_false, if_true]
    have hU := updM_shape hO cfg.eps
    rw [hst, Inst.applyCorrection_ok ho t _ (fun J M hM => by rw [hU.2, hF J M hM]), Res.bind_ok]
    unfold Belief.correct
    rw [hm.addC ((gainM_shape hO cfg.eps).mul hO.r), Res.bind_ok, Res.bind_ok]
    exact ⟨_, true, rfl, fun _ => rfl⟩

theorem correctJoint_progress (hnear : NearOk near) (hr : Rel dim h c) {dH : SMap Mat} {t : Int} (hp : Parts dim h c dH t)
    (hne : participants dim c dH ≠ []) {H R r S : Mat} {m : ℕ} {cfg : Cfg} (hg : GateOk cfg)
    (hO : ObsShape H R r S (tot (participants dim c dH)) m) :
    ∃ h' ans, correctJoint near h (dict h dH t) H R r S t cfg = .ok (h', ans) ∧ (cfg.outlier = false → ans = true) := by
  obtain ⟨rej, e, hrej⟩ := correctionStep_progress hO hg
  unfold correctJoint
  rw [e, Res.bind_ok]
  cases rej with
  | true => exact ⟨h, false, rfl, fun h => by simpa using hrej h⟩
  | false =>
    simp only [Bool.not_false, if_true]
    obtain ⟨hP1, hP2⟩ := fixPsd_facts hnear (postM_shape hO cfg) (postM_symm hO cfg)
    obtain ⟨h1, e, hr'⟩ := commit_rel hr hp hne hP1 hP2 ((gainM_shape hO cfg.eps).mul hO.r)
    rw [e, Res.bind_ok]
    exact ⟨_, true, rfl, fun _ => rfl⟩

theorem joint_sizes (hr : Rel dim h c) {dH : SMap Mat} {t : Int} (hN : ∀ p ∈ dH.keys, Newest h p t) {m : ℕ}
    (he : ∀ e ∈ dH, e.2.Shape m (dim e.1) ∧ fixedAt h t e.1 = false) : participants dim c dH = hcols dH := by
  rw [participants_read hr hN]
  have : dH.keys.filter (fun p => !fixedAt h t p) = dH.keys := by
    rw [List.filter_eq_self]
    intro p hp
    obtain ⟨e, hem, rfl⟩ := List.mem_map.mp hp
    rw [(he e hem).2]; rfl
  rw [this]
  unfold hcols SMap.keys
  rw [List.map_map]
  apply List.map_congr_left
  intro e hem
  simp [(he e hem).1.2]

theorem progress_rel (hnear : NearOk near) (hr : Rel dim h c) (ev : Ev) (hw : Wf dim h ev) (hf : Fits dim h ev) :
    ∃ h' ans, run fp near pred h ev = .ok (h', ans) ∧ (Ungated ev → ans = true) := by
  have inst : ∀ (id : ℕ) (t : Int), Newest h id t → ∃ i b, h.find id = some i ∧ i.Ord ∧ i.UpTo t ∧ i.beliefAt t = some b ∧ b.stamp = t ∧
      b.mean.Shape (dim id) 1 ∧ b.Sigma.Shape (dim id) (dim id) ∧ (∀ J M, i.fac J t = some M → M.rows = dim id) := by
    intro id t hN
    obtain ⟨hid, htm⟩ := hN.rel hr
    obtain ⟨i, hi⟩ := Option.isSome_iff_exists.mp hid
    obtain ⟨b, hb, -⟩ := hr.bel id hid
    obtain ⟨b1, b2, b3, b4, b5, b6, b7, b8⟩ := hr.stored hid hb
    refine ⟨i, b, hi, hr.ok.ord id i hi, by rw [← htm]; exact hr.ok.upTo id i hi, ?_, by rw [← htm]; exact b3, b6, b7, ?_⟩
    · rw [← htm, ← bl_of_find hi]; exact hb
    · intro J M hM; exact hr.rows id hid J M (by rw [htm, fc_of_find hi]; exact hM)
  cases ev with
  | propKF id Phi Q ta tb =>
    obtain ⟨i, b, hi, ho, hu, hb, hst, hm, hS, hF⟩ := inst id ta hw.1
    obtain ⟨hP, hQ⟩ := hf
    simp only [run, get_ok hi, Res.bind_ok]
    unfold Inst.propKF
    rw [hb]
    simp only
    rw [if_pos ((Inst.checkDimMean_iff _ _).mpr ⟨hm.2, by rw [hm.1, hP.1], by rw [hP.1, hP.2]⟩), hP.mulC hm, Res.bind_ok,
      Inst.propEKF_ok fp ho b _ Phi Q ta tb hS hP hQ (hP.mul hm) hF, Res.bind_ok]
    simp only [if_true]
    have hfa := Inst.propagated_facts fp ho hu hw.2.1 { b with mean := Phi * b.mean, Sigma := Phi * b.Sigma * Phi.tr + Q, stamp := tb } Phi
    have hlt := hw.2.1
    rw [Inst.addCorrection_ok hfa.ord ta tb Phi (fun J M hM => by rw [hP.2, hF J M (hfa.old J ta M (by omega) hM)]), Res.bind_ok, Res.bind_ok]
    exact ⟨_, true, rfl, fun _ => rfl⟩
  | propEKF id mb Phi Q ta tb =>
    obtain ⟨i, b, hi, ho, hu, hb, hst, hm, hS, hF⟩ := inst id ta hw.1
    obtain ⟨hP, hQ, hmb⟩ := hf
    simp only [run, get_ok hi, Res.bind_ok, hb]
    rw [Inst.propEKF_ok fp ho b mb Phi Q ta tb hS hP hQ hmb hF, Res.bind_ok]
    exact ⟨_, true, rfl, fun _ => rfl⟩
  | propBel id bb Phi ta tb =>
    obtain ⟨i, b, hi, ho, hu, hb, hst, hm, hS, hF⟩ := inst id ta hw.1
    have hP : Phi.Shape (dim id) (dim id) := hf
    simp only [run, get_ok hi, Res.bind_ok]
    unfold Inst.propBel
    have hd : checkDimPhi bb.Sigma Phi = true := by
      unfold checkDimPhi
      simp [hw.2.2.2.1, hP.1, hP.2]
    rw [if_pos hd, Inst.addCorrection_ok (ho.setBelief _ _) ta tb Phi (fun J M hM => by rw [hP.2, hF J M hM]), Res.bind_ok, Res.bind_ok]
    exact ⟨_, true, rfl, fun _ => rfl⟩
  | privKF id H R z t cfg =>
    obtain ⟨i, b, hi, ho, hu, hb, hst, hm, hS, hF⟩ := inst id t hw
    obtain ⟨hH, hR, hz, hg⟩ := hf
    have hHs : H.Shape H.rows (dim id) := ⟨rfl, hH⟩
    simp only [run, get_ok hi, Res.bind_ok]
    unfold Inst.privKF
    rw [hb]
    simp only
    rw [hHs.mulC hm, Res.bind_ok, hz.subC (hHs.mul hm), Res.bind_ok]
    obtain ⟨j, ans, e, ha⟩ := privEKF_progress ho b t hst H R (z - H * b.mean) cfg (n := dim id) ⟨hHs, hR, hz.sub, hS⟩ hm hF hg
    rw [e, Res.bind_ok]
    exact ⟨_, ans, rfl, ha⟩
  | privEKF id H R r t cfg =>
    obtain ⟨i, b, hi, ho, hu, hb, hst, hm, hS, hF⟩ := inst id t hw
    obtain ⟨hH, hR, hz, hg⟩ := hf
    have hHs : H.Shape H.rows (dim id) := ⟨rfl, hH⟩
    simp only [run, get_ok hi, Res.bind_ok, hb]
    obtain ⟨j, ans, e, ha⟩ := privEKF_progress ho b t hst H R r cfg (n := dim id) ⟨hHs, hR, hz, hS⟩ hm hF hg
    rw [e, Res.bind_ok]
    exact ⟨_, ans, rfl, ha⟩
  | setCov a b S t =>
    obtain ⟨hab, ha, hb, hS1, hS2⟩ := hw
    obtain ⟨h1, e, -⟩ := hr.setSigma (ha.rel hr).1 (hb.rel hr).1 hab (ha.rel hr).2 (hb.rel hr).2 ⟨hS1, hS2⟩
    simp only [run, e, Res.bind_ok]
    exact ⟨_, true, rfl, fun _ => rfl⟩
  | jointR dH R r t cfg =>
    obtain ⟨hdH, hN⟩ := hw
    obtain ⟨hne, ⟨m, he, hR, hrr⟩, hg⟩ := hf
    have hp : Parts dim h c dH t := ⟨hdH, fun p hpm => ((hN p hpm).rel hr).1, fun p hpm => ((hN p hpm).rel hr).2⟩
    obtain ⟨H, hH, hHs⟩ := stackH_ok dH m (fun e hem => (he e hem).1.1) hne
    have hpe := joint_sizes hr hN he
    have hpne : participants dim c dH ≠ [] := by rw [hpe]; unfold hcols; simpa using hne
    simp only [run, applyObsR]
    rw [hH, Res.bind_ok, getDictBel_rel pred hr hp, Res.bind_ok]
    simp only
    rw [if_neg (by simpa [dict, SMap.keys] using hne)]
    obtain ⟨S, hSe, hSC⟩ := stackSigma_spec (dict h dH t) (dict_sorted hp) (covOf hr hp)
    rw [← participants_eq hr hp] at hSC
    rw [hSe, Res.bind_ok, stabilize_ok hSC.1, Res.bind_ok]
    exact correctJoint_progress hnear hr hp hpne hg ⟨by rw [hpe]; exact hHs, hR, hrr, hSC.1.stabM _⟩
  | jointZ dH z R t cfg =>
    obtain ⟨hdH, hN⟩ := hw
    obtain ⟨hne, ⟨m, he, hR, hrr⟩, hg⟩ := hf
    have hp : Parts dim h c dH t := ⟨hdH, fun p hpm => ((hN p hpm).rel hr).1, fun p hpm => ((hN p hpm).rel hr).2⟩
    obtain ⟨H, hH, hHs⟩ := stackH_ok dH m (fun e hem => (he e hem).1.1) hne
    have hpe := joint_sizes hr hN he
    have hpne : participants dim c dH ≠ [] := by rw [hpe]; unfold hcols; simpa using hne
    simp only [run, applyObsZ]
    rw [hH, Res.bind_ok, getDictBel_rel pred hr hp, Res.bind_ok]
    simp only
    rw [if_neg (by simpa [dict, SMap.keys] using hne)]
    obtain ⟨S, hSe, hSC⟩ := stackSigma_spec (dict h dH t) (dict_sorted hp) (covOf hr hp)
    obtain ⟨x, hme, hmC⟩ := stackMean_spec (dict h dH t) (dict_sorted hp) c.mu
      (fun e he => (mem_dict hr hp (mem_unfixed.mp he).1).2.2.2.2.1)
      (fun e he => (mem_dict hr hp (mem_unfixed.mp he).1).2.2.2.2.2.2.2.2.2.1)
    rw [← participants_eq hr hp] at hSC hmC
    rw [← hpe] at hHs
    rw [hme, Res.bind_ok, hSe, Res.bind_ok, hHs.mulC hmC.1, Res.bind_ok, hrr.subC (hHs.mul hmC.1), Res.bind_ok, stabilize_ok hSC.1, Res.bind_ok]
    exact correctJoint_progress hnear hr hp hpne hg ⟨hHs, hR, hrr.sub, hSC.1.stabM _⟩

/-- C57: in every reachable state, an in-order call with fitting matrices terminates with an answer: it does
not throw and there is no undefined behaviour. Without a gate it is accepted. -/
theorem c57_progress (hnear : NearOk near) (hreach : Reach fp near pred dim h) (ev : Ev) (hw : Wf dim h ev) (hf : Fits dim h ev) :
    ∃ h' ans, run fp near pred h ev = .ok (h', ans) ∧ (Ungated ev → ans = true) := by
  obtain ⟨c, hr⟩ := hreach.rel hnear
  exact progress_rel hnear hr ev hw hf

end Hdl
end Ikf
