import Verif.Lemmas.CollabInter
import Verif.Props.Isolated
import Verif.Spec.Collab

/-!
# Joint observations over all agents
-/

namespace Ikf
open Mat
namespace Collab

variable {T : Agents.Tables} {a b : ℕ} {n : Net} {h : Hdl} {dim : ℕ → ℕ} {c : Central} {dH : SMap Mat} {t : Int}
  {near : Mat → Mat} {pred : ℕ → Inst → Int → Inst × Bool} {fp : FP}

/-- One handler with the repaired prior, answer by answer. -/
theorem refR_spec (hnear : Hdl.NearOk near) (hr : Hdl.Rel dim h c) (hp : Hdl.Parts dim h c dH t) (hfix : ∀ p ∈ dH.keys, c.fix p = false)
    (hk : dH.keys ≠ []) {R r : Mat} {cfg : Cfg} {y : Hdl × Bool} (hy : refR near pred h dH R r t cfg = .ok y) :
    ∃ H S res, SideBySide dH H ∧ StackedCov (participants dim c dH) c.cov S ∧
      correctionStep H R r (Hdl.fixPsd near (stabM S (1 / 10^12))) cfg = .ok res ∧
      (res.rejected = true → y = (h, false)) ∧
      (res.rejected = false → ∃ h', Hdl.SameDom h h' ∧ Hdl.Rel dim h' (c.joint (participants dim c dH) (Hdl.fixPsd near res.Sapos) res.dx) ∧ y = (h', true)) := by
  unfold refR at hy
  obtain ⟨H, hH, hy⟩ := Hdl.bind_eq_ok hy
  rw [Hdl.getDictBel_rel pred hr hp, Res.bind_ok] at hy
  dsimp only at hy
  have hde : (Hdl.dict h dH t).isEmpty = false := by
    unfold Hdl.dict; simpa using hk
  rw [hde, if_neg (by simp)] at hy
  obtain ⟨S, hSe, hSC⟩ := Hdl.stackSigma_spec (Hdl.dict h dH t) (Hdl.dict_sorted hp) (Hdl.covOf hr hp)
  rw [← Hdl.participants_eq hr hp] at hSC
  rw [hSe, Res.bind_ok, stabilize_ok hSC.1, Res.bind_ok] at hy
  unfold Hdl.correctJoint at hy
  obtain ⟨res, hres, hy⟩ := Hdl.bind_eq_ok hy
  refine ⟨H, S, res, Hdl.stackH_spec dH hp.sorted H hH, hSC, hres, ?_, ?_⟩
  · intro hrj
    rw [hrj, if_neg (by simp)] at hy
    exact (Res.ok.inj hy).symm
  · intro hrj
    rw [hrj, if_pos (show (!false) = true from rfl)] at hy
    obtain ⟨hP0, -⟩ := Hdl.fixPsd_facts hnear (hSC.1.stabM (1 / 10^12)) (stabM_tr' hSC.1 _)
    obtain ⟨hO, hres'⟩ := Inst.correctionStep_accept hP0 cfg res hres hrj
    have hP : res.Sapos.Shape (tot (participants dim c dH)) (tot (participants dim c dH)) := by rw [hres']; exact postM_shape hO cfg
    have hPs : res.Sapos.tr = res.Sapos := by rw [hres']; exact Hdl.postM_symm hO cfg
    have hdx : res.dx.Shape (tot (participants dim c dH)) 1 := by rw [hres']; exact (gainM_shape hO _).mul hO.r
    obtain ⟨hP1, hP2⟩ := Hdl.fixPsd_facts hnear hP hPs
    have hne : participants dim c dH ≠ [] := by
      unfold participants
      rw [List.filter_eq_self.mpr (fun p hpm => by rw [hfix p hpm]; rfl)]
      simpa using hk
    obtain ⟨h', hc, hr'⟩ := Hdl.commit_rel hr hp hne hP1 hP2 hdx
    rw [hc, Res.bind_ok] at hy
    exact ⟨h', (Hdl.commit_frame hc).1, hr', (Res.ok.inj hy).symm⟩

theorem refZ_spec (hnear : Hdl.NearOk near) (hr : Hdl.Rel dim h c) (hp : Hdl.Parts dim h c dH t) (hfix : ∀ p ∈ dH.keys, c.fix p = false)
    (hk : dH.keys ≠ []) {R z : Mat} {cfg : Cfg} {y : Hdl × Bool} (hy : refZ near pred h dH z R t cfg = .ok y) :
    ∃ H S m res, SideBySide dH H ∧ StackedCov (participants dim c dH) c.cov S ∧ StackedMean (participants dim c dH) c.mu m ∧
      correctionStep H R (z - H * m) (Hdl.fixPsd near (stabM S (1 / 10^12))) cfg = .ok res ∧
      (res.rejected = true → y = (h, false)) ∧
      (res.rejected = false → ∃ h', Hdl.SameDom h h' ∧ Hdl.Rel dim h' (c.joint (participants dim c dH) (Hdl.fixPsd near res.Sapos) res.dx) ∧ y = (h', true)) := by
  unfold refZ at hy
  obtain ⟨H, hH, hy⟩ := Hdl.bind_eq_ok hy
  rw [Hdl.getDictBel_rel pred hr hp, Res.bind_ok] at hy
  dsimp only at hy
  have hde : (Hdl.dict h dH t).isEmpty = false := by
    unfold Hdl.dict; simpa using hk
  rw [hde, if_neg (by simp)] at hy
  obtain ⟨S, hSe, hSC⟩ := Hdl.stackSigma_spec (Hdl.dict h dH t) (Hdl.dict_sorted hp) (Hdl.covOf hr hp)
  obtain ⟨m, hme, hmC⟩ := Hdl.stackMean_spec (Hdl.dict h dH t) (Hdl.dict_sorted hp) c.mu
    (fun e he => (Hdl.mem_dict hr hp (Hdl.mem_unfixed.mp he).1).2.2.2.2.1)
    (fun e he => (Hdl.mem_dict hr hp (Hdl.mem_unfixed.mp he).1).2.2.2.2.2.2.2.2.2.1)
  rw [← Hdl.participants_eq hr hp] at hSC hmC
  rw [hme, Res.bind_ok, hSe, Res.bind_ok] at hy
  obtain ⟨Hm, hHm, hy⟩ := Hdl.bind_eq_ok hy
  obtain ⟨r, hzr, hy⟩ := Hdl.bind_eq_ok hy
  have e0 : Hm = H * m := by
    unfold Mat.mulC at hHm; split at hHm
    · exact (Res.ok.inj hHm).symm
    · simp at hHm
  have e00 : r = z - H * m := by
    unfold Mat.subC at hzr; split at hzr
    · rw [← e0]; exact (Res.ok.inj hzr).symm
    · simp at hzr
  rw [stabilize_ok hSC.1, Res.bind_ok] at hy
  unfold Hdl.correctJoint at hy
  obtain ⟨res, hres, hy⟩ := Hdl.bind_eq_ok hy
  refine ⟨H, S, m, res, Hdl.stackH_spec dH hp.sorted H hH, hSC, hmC, by rw [← e00]; exact hres, ?_, ?_⟩
  · intro hrj
    rw [hrj, if_neg (by simp)] at hy
    exact (Res.ok.inj hy).symm
  · intro hrj
    rw [hrj, if_pos (show (!false) = true from rfl)] at hy
    obtain ⟨hP0, -⟩ := Hdl.fixPsd_facts hnear (hSC.1.stabM (1 / 10^12)) (stabM_tr' hSC.1 _)
    obtain ⟨hO, hres'⟩ := Inst.correctionStep_accept hP0 cfg res hres hrj
    have hP : res.Sapos.Shape (tot (participants dim c dH)) (tot (participants dim c dH)) := by rw [hres']; exact postM_shape hO cfg
    have hPs : res.Sapos.tr = res.Sapos := by rw [hres']; exact Hdl.postM_symm hO cfg
    have hdx : res.dx.Shape (tot (participants dim c dH)) 1 := by rw [hres']; exact (gainM_shape hO _).mul hO.r
    obtain ⟨hP1, hP2⟩ := Hdl.fixPsd_facts hnear hP hPs
    have hne : participants dim c dH ≠ [] := by
      unfold participants
      rw [List.filter_eq_self.mpr (fun p hpm => by rw [hfix p hpm]; rfl)]
      simpa using hk
    obtain ⟨h', hc, hr'⟩ := Hdl.commit_rel hr hp hne hP1 hP2 hdx
    rw [hc, Res.bind_ok] at hy
    exact ⟨h', (Hdl.commit_frame hc).1, hr', (Res.ok.inj hy).symm⟩

/-! ## Calls -/

/-- The call `ev` made on agent `a`: on one of its instances, `set_Sigma_IJ_at_t` (CI:100-129) or one of the
`apply_observation` overloads (CI:218-315, CI:317-384). -/
noncomputable def Net.run (T : Agents.Tables) (fp : FP) (near : Mat → Mat) (pred : ℕ → Inst → Int → Inst × Bool) (lk : Link) (n : Net)
    (a : ℕ) : Ev → Res (Net × Bool)
  | .setCov I J S t => do
    let n' ← Net.setSigma T a n I J S t
    .ok (n', true)
  | .jointR dH R r t cfg => Net.applyObsR T a near pred lk n dH R r t cfg
  | .jointZ dH z R t cfg => Net.applyObsZ T a near pred n dH z R t cfg
  | ev => do
    let x ← Hdl.run fp near pred (n a) ev
    .ok (Function.update n a x.1, x.2)

/-- Every agent works on its own instances with the calls of one handler. -/
theorem run_own (hd : Dist T n h) (ev : Ev) {id : ℕ} (ho : Agents.agentOf T id = a)
    (hev : (∃ Phi Q ta tb, ev = .propKF id Phi Q ta tb) ∨ (∃ mb Phi Q ta tb, ev = .propEKF id mb Phi Q ta tb) ∨
      (∃ bb Phi ta tb, ev = .propBel id bb Phi ta tb) ∨ (∃ H R z t cfg, ev = .privKF id H R z t cfg) ∨
      (∃ H R r t cfg, ev = .privEKF id H R r t cfg)) :
    RR (fun x y => Dist T (Function.update n a x.1) y.1 ∧ x.2 = y.2) (Hdl.run fp near pred (n a) ev) (Hdl.run fp near pred h ev) := by
  have hg : Hdl.get (n a) id = Hdl.get h id := by
    unfold Hdl.get
    have := hd.own id
    rw [ho] at this
    rw [this]
  have hset : ∀ i : Inst, Dist T (Function.update n a ((n a).set id i)) (h.set id i) := by
    intro i
    have := hd.set id i
    rw [ho] at this
    exact this
  have hself : Dist T (Function.update n a (n a)) h := by rw [Function.update_eq_self]; exact hd
  rcases hev with ⟨Phi, Q, ta, tb, rfl⟩ | ⟨mb, Phi, Q, ta, tb, rfl⟩ | ⟨bb, Phi, ta, tb, rfl⟩ | ⟨H, R, z, t, cfg, rfl⟩ | ⟨H, R, r, t, cfg, rfl⟩
  · simp only [Hdl.run, hg]
    exact RR.bind_same _ fun i _ => RR.bind_same _ fun x _ => ⟨hset _, rfl⟩
  · simp only [Hdl.run, hg]
    refine RR.bind_same _ fun i _ => ?_
    cases i.beliefAt ta with
    | none => exact ⟨hself, rfl⟩
    | some ba => exact RR.bind_same _ fun x _ => ⟨hset _, rfl⟩
  · simp only [Hdl.run, hg]
    exact RR.bind_same _ fun i _ => RR.bind_same _ fun x _ => ⟨hset _, rfl⟩
  · simp only [Hdl.run, hg]
    exact RR.bind_same _ fun i _ => RR.bind_same _ fun x _ => ⟨hset _, rfl⟩
  · simp only [Hdl.run, hg]
    refine RR.bind_same _ fun i _ => ?_
    cases i.beliefAt t with
    | none => exact ⟨hself, rfl⟩
    | some ba => exact RR.bind_same _ fun x _ => ⟨hset _, rfl⟩

/-- The newest belief of `p`, at the agent that holds it, is at `t`. -/
def NewestAt (T : Agents.Tables) (n : Net) (p : ℕ) (t : Int) : Prop := Hdl.Newest (n (Agents.agentOf T p)) p t

/-- The newest belief of `p` is not fixed. -/
def Free (T : Agents.Tables) (n : Net) (p : ℕ) : Prop :=
  ∀ i e, (n (Agents.agentOf T p)).find p = some i → i.bel.getLast? = some e → e.2.fixed = false

/-- In-order calls on agent `a` (compare `Hdl.Wf`). Participants of an observation that involves another agent are not
fixed. -/
def Net.Wf (T : Agents.Tables) (dim : ℕ → ℕ) (n : Net) (a : ℕ) : Ev → Prop
  | .propKF id Phi Q ta tb => Agents.agentOf T id = a ∧ Hdl.Wf dim (n a) (.propKF id Phi Q ta tb)
  | .propEKF id mb Phi Q ta tb => Agents.agentOf T id = a ∧ Hdl.Wf dim (n a) (.propEKF id mb Phi Q ta tb)
  | .propBel id bb Phi ta tb => Agents.agentOf T id = a ∧ Hdl.Wf dim (n a) (.propBel id bb Phi ta tb)
  | .privKF id H R z t cfg => Agents.agentOf T id = a ∧ Hdl.Wf dim (n a) (.privKF id H R z t cfg)
  | .privEKF id H R r t cfg => Agents.agentOf T id = a ∧ Hdl.Wf dim (n a) (.privEKF id H R r t cfg)
  | .setCov I J S t => I ≠ J ∧ NewestAt T n I t ∧ NewestAt T n J t ∧ S.rows = dim I ∧ S.cols = dim J
  | .jointR dH _ _ t _ => dH.Sorted ∧ (∀ p ∈ dH.keys, NewestAt T n p t) ∧
      (¬ AllAt (Agents.agentOf T) a dH → ∀ p ∈ dH.keys, Free T n p)
  | .jointZ dH _ _ t _ => dH.Sorted ∧ (∀ p ∈ dH.keys, NewestAt T n p t) ∧
      (¬ AllAt (Agents.agentOf T) a dH → ∀ p ∈ dH.keys, Free T n p)

theorem NewestAt.union (hd : Dist T n h) {p : ℕ} {t : Int} (hn : NewestAt T n p t) : Hdl.Newest h p t := by
  unfold NewestAt Hdl.Newest at hn
  rw [hd.own] at hn
  exact hn

theorem newest_local (hd : Dist T n h) {p : ℕ} {t : Int} (ho : Agents.agentOf T p = a) (hn : Hdl.Newest (n a) p t) : Hdl.Newest h p t := by
  subst ho; exact NewestAt.union hd hn

theorem free_fix (hd : Dist T n h) (hr : Hdl.Rel dim h c) {p : ℕ} {t : Int} (hn : NewestAt T n p t) (hf : Free T n p) : c.fix p = false := by
  obtain ⟨hp, ht⟩ := Hdl.Newest.rel hr (hn.union hd)
  obtain ⟨i, hi⟩ := Option.isSome_iff_exists.mp hp
  obtain ⟨b, hb, -, -, -, hfx⟩ := hr.bel p hp
  rw [← hfx]
  have ho := (hr.ok.ord p i hi).bel
  rw [Hdl.bl_of_find hi, Inst.beliefAt_eq, Buf.absMap_eq_some _ ho] at hb
  cases hl : i.bel.getLast? with
  | none => rw [List.getLast?_eq_none_iff] at hl; rw [hl] at hb; simp at hb
  | some e =>
    have g1 := ho.sorted.le_getLast hl _ hb
    have g2 := (hr.ok.upTo p i hi).bel e (List.mem_of_getLast? hl)
    simp only at g1
    have g3 : e.1 = c.tm p := by omega
    have g4 := (Buf.absMap_eq_some _ ho e.1 e.2).mpr (List.mem_of_getLast? hl)
    rw [g3, (Buf.absMap_eq_some _ ho _ _).mpr hb] at g4
    rw [Option.some.inj g4]
    exact hf i e (by rw [hd.own, hi]) hl

theorem holds_iff (hd : Dist T n h) {p : ℕ} (hp : (h.find p).isSome) : holds n a p = true ↔ Agents.agentOf T p = a := by
  unfold holds
  rw [hd]
  constructor
  · intro hh
    by_contra hne
    rw [if_neg hne] at hh; simp at hh
  · intro e; rw [if_pos e]; exact hp

end Collab
end Ikf
