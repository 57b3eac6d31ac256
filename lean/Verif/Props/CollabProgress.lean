import Verif.Props.Collab
import Verif.Props.Progress

/-!
# Collaborating agents: every well-dimensioned in-order call gets an answer (C70)
-/

namespace Ikf
open Mat
namespace Collab

variable {T : Agents.Tables} {a b : ℕ} {n n' : Net} {h : Hdl} {dim : ℕ → ℕ} {c : Central} {dH : SMap Mat} {t : Int}
  {near : Mat → Mat} {pred : ℕ → Inst → Int → Inst × Bool} {fp : FP}

/-- Reachable by in-order calls of all agents from freshly initialised instances; all messages are delivered. -/
def NReach (T : Agents.Tables) (fp : FP) (near : Mat → Mat) (pred : ℕ → Inst → Int → Inst × Bool) (dim : ℕ → ℕ) (n : Net) : Prop :=
  ∃ n0 h0 c0 l, Dist T n0 h0 ∧ Hdl.Init dim h0 c0 ∧ NRuns T fp near pred dim n0 l n

/-- The matrices of a call fit the sizes `dim` of the instances; participants of a joint observation are not fixed. -/
def Net.Fits (T : Agents.Tables) (dim : ℕ → ℕ) (n : Net) (a : ℕ) : Ev → Prop
  | .jointR dH R r t cfg => dH ≠ [] ∧
      (∃ m, (∀ e ∈ dH, e.2.Shape m (dim e.1) ∧ Hdl.fixedAt (n (Agents.agentOf T e.1)) t e.1 = false) ∧ R.Shape m m ∧ r.Shape m 1) ∧ GateOk cfg
  | .jointZ dH z R t cfg => dH ≠ [] ∧
      (∃ m, (∀ e ∈ dH, e.2.Shape m (dim e.1) ∧ Hdl.fixedAt (n (Agents.agentOf T e.1)) t e.1 = false) ∧ R.Shape m m ∧ z.Shape m 1) ∧ GateOk cfg
  | ev => Hdl.Fits dim (n a) ev

/-- Joint observation with residual, of instances that are all held by one other agent. -/
def Foreign (own : ℕ → ℕ) (a : ℕ) : Ev → Prop
  | .jointR dH _ _ _ _ => ∃ b, b ≠ a ∧ ∀ p ∈ dH.keys, own p = b
  | _ => False

theorem NReach.rel (hnear : Hdl.NearOk near) (hr : NReach T fp near pred dim n) : ∃ h c, Dist T n h ∧ Hdl.Rel dim h c := by
  obtain ⟨n0, h0, c0, l, hd, hi, hrun⟩ := hr
  obtain ⟨h, c, -, hd', -, hr'⟩ := nruns_sim hnear hd hi.rel hrun
  exact ⟨h, c, hd', hr'⟩

theorem fixedAt_own (hd : Dist T n h) (t : Int) (p : ℕ) : Hdl.fixedAt (n (Agents.agentOf T p)) t p = Hdl.fixedAt h t p := by
  unfold Hdl.fixedAt Hdl.belief
  rw [hd.own]

theorem refR_progress (hnear : Hdl.NearOk near) (hr : Hdl.Rel dim h c) (hN : ∀ p ∈ dH.keys, Hdl.Newest h p t) (hdH : dH.Sorted) {R r : Mat} {m : ℕ} {cfg : Cfg}
    (hne : dH ≠ []) (he : ∀ e ∈ dH, e.2.Shape m (dim e.1) ∧ Hdl.fixedAt h t e.1 = false) (hR : R.Shape m m) (hrr : r.Shape m 1) (hg : GateOk cfg) :
    ∃ h' ans, refR near pred h dH R r t cfg = .ok (h', ans) ∧ (cfg.outlier = false → ans = true) := by
  have hp : Hdl.Parts dim h c dH t := ⟨hdH, fun p hpm => ((hN p hpm).rel hr).1, fun p hpm => ((hN p hpm).rel hr).2⟩
  obtain ⟨H, hH, hHs⟩ := Hdl.stackH_ok dH m (fun e hem => (he e hem).1.1) hne
  have hpe := Hdl.joint_sizes hr hN he
  have hpne : participants dim c dH ≠ [] := by rw [hpe]; unfold Hdl.hcols; simpa using hne
  unfold refR
  rw [hH, Res.bind_ok, Hdl.getDictBel_rel pred hr hp, Res.bind_ok]
  simp only
  rw [if_neg (by simpa [Hdl.dict, SMap.keys] using hne)]
  obtain ⟨S, hSe, hSC⟩ := Hdl.stackSigma_spec (Hdl.dict h dH t) (Hdl.dict_sorted hp) (Hdl.covOf hr hp)
  rw [← Hdl.participants_eq hr hp] at hSC
  rw [hSe, Res.bind_ok, stabilize_ok hSC.1, Res.bind_ok]
  obtain ⟨hP0, -⟩ := Hdl.fixPsd_facts hnear (hSC.1.stabM (1 / 10^12)) (stabM_tr' hSC.1 _)
  exact Hdl.correctJoint_progress hnear hr hp hpne hg ⟨by rw [hpe]; exact hHs, hR, hrr, hP0⟩

theorem refZ_progress (hnear : Hdl.NearOk near) (hr : Hdl.Rel dim h c) (hN : ∀ p ∈ dH.keys, Hdl.Newest h p t) (hdH : dH.Sorted) {R z : Mat} {m : ℕ} {cfg : Cfg}
    (hne : dH ≠ []) (he : ∀ e ∈ dH, e.2.Shape m (dim e.1) ∧ Hdl.fixedAt h t e.1 = false) (hR : R.Shape m m) (hrr : z.Shape m 1) (hg : GateOk cfg) :
    ∃ h' ans, refZ near pred h dH z R t cfg = .ok (h', ans) ∧ (cfg.outlier = false → ans = true) := by
  have hp : Hdl.Parts dim h c dH t := ⟨hdH, fun p hpm => ((hN p hpm).rel hr).1, fun p hpm => ((hN p hpm).rel hr).2⟩
  obtain ⟨H, hH, hHs⟩ := Hdl.stackH_ok dH m (fun e hem => (he e hem).1.1) hne
  have hpe := Hdl.joint_sizes hr hN he
  have hpne : participants dim c dH ≠ [] := by rw [hpe]; unfold Hdl.hcols; simpa using hne
  unfold refZ
  rw [hH, Res.bind_ok, Hdl.getDictBel_rel pred hr hp, Res.bind_ok]
  simp only
  rw [if_neg (by simpa [Hdl.dict, SMap.keys] using hne)]
  obtain ⟨S, hSe, hSC⟩ := Hdl.stackSigma_spec (Hdl.dict h dH t) (Hdl.dict_sorted hp) (Hdl.covOf hr hp)
  obtain ⟨x, hme, hmC⟩ := Hdl.stackMean_spec (Hdl.dict h dH t) (Hdl.dict_sorted hp) c.mu
    (fun e he => (Hdl.mem_dict hr hp (Hdl.mem_unfixed.mp he).1).2.2.2.2.1)
    (fun e he => (Hdl.mem_dict hr hp (Hdl.mem_unfixed.mp he).1).2.2.2.2.2.2.2.2.2.1)
  rw [← Hdl.participants_eq hr hp] at hSC hmC
  rw [← hpe] at hHs
  rw [hme, Res.bind_ok, hSe, Res.bind_ok, hHs.mulC hmC.1, Res.bind_ok, hrr.subC (hHs.mul hmC.1), Res.bind_ok, stabilize_ok hSC.1, Res.bind_ok]
  obtain ⟨hP0, -⟩ := Hdl.fixPsd_facts hnear (hSC.1.stabM (1 / 10^12)) (stabM_tr' hSC.1 _)
  exact Hdl.correctJoint_progress hnear hr hp hpne hg ⟨hHs, hR, hrr.sub, hP0⟩

theorem foreign_iff {own : ℕ → ℕ} (hk : dH.keys ≠ []) :
    (OneOther own a dH ∧ ∀ p ∈ dH.keys, own p ≠ a) ↔ ∃ b, b ≠ a ∧ ∀ p ∈ dH.keys, own p = b := by
  constructor
  · rintro ⟨⟨b, hb, -, hall⟩, hn⟩
    exact ⟨b, hb, fun p hp => (hall p hp).resolve_left (hn p hp)⟩
  · rintro ⟨b, hb, hall⟩
    obtain ⟨p, hp⟩ := List.exists_mem_of_ne_nil _ hk
    exact ⟨⟨b, hb, ⟨p, hp, hall p hp⟩, fun q hq => Or.inr (hall q hq)⟩, fun q hq e => hb (by rw [← hall q hq, e])⟩

theorem net_progress (hnear : Hdl.NearOk near) (hd : Dist T n h) (hr : Hdl.Rel dim h c) (ev : Ev) (hw : Net.Wf T dim n a ev) (hf : Net.Fits T dim n a ev) :
    ∃ n' ans, Net.run T fp near pred {} n a ev = .ok (n', ans) ∧ (Hdl.Ungated ev → (ans = false ↔ Foreign (Agents.agentOf T) a ev)) := by
  have single : ∀ (ev : Ev) (id : ℕ) (ho : Agents.agentOf T id = a) (hwf : Hdl.Wf dim h ev) (hf : Hdl.Fits dim h ev)
      (hev : (∃ Phi Q ta tb, ev = .propKF id Phi Q ta tb) ∨ (∃ mb Phi Q ta tb, ev = .propEKF id mb Phi Q ta tb) ∨
        (∃ bb Phi ta tb, ev = .propBel id bb Phi ta tb) ∨ (∃ H R z t cfg, ev = .privKF id H R z t cfg) ∨
        (∃ H R r t cfg, ev = .privEKF id H R r t cfg)),
      ∃ n' ans, (do let x ← Hdl.run fp near pred (n a) ev; Res.ok (Function.update n a x.1, x.2)) = .ok (n', ans) ∧
        (Hdl.Ungated ev → (ans = false ↔ Foreign (Agents.agentOf T) a ev)) := by
    intro ev id ho hwf hf hev
    obtain ⟨h', ans, e, hu⟩ := Hdl.progress_rel (fp := fp) (pred := pred) hnear hr ev hwf hf
    obtain ⟨x, hx, -, hxy⟩ := (run_own (fp := fp) (near := near) (pred := pred) hd ev ho hev).ok_right e
    refine ⟨Function.update n a x.1, x.2, by rw [hx]; rfl, ?_⟩
    intro hg
    have hF : ¬ Foreign (Agents.agentOf T) a ev := by
      rcases hev with ⟨_, _, _, _, rfl⟩ | ⟨_, _, _, _, _, rfl⟩ | ⟨_, _, _, _, rfl⟩ | ⟨_, _, _, _, _, rfl⟩ | ⟨_, _, _, _, _, rfl⟩ <;> exact fun hf => hf
    have := hu hg
    rw [hxy]
    simp only [this]
    simp [hF]
  cases ev with
  | propKF id Phi Q ta tb =>
    exact single _ id hw.1 ⟨newest_local hd hw.1 hw.2.1, hw.2.2⟩ hf (Or.inl ⟨_, _, _, _, rfl⟩)
  | propEKF id mb Phi Q ta tb =>
    exact single _ id hw.1 ⟨newest_local hd hw.1 hw.2.1, hw.2.2⟩ hf (Or.inr (Or.inl ⟨_, _, _, _, _, rfl⟩))
  | propBel id bb Phi ta tb =>
    exact single _ id hw.1 ⟨newest_local hd hw.1 hw.2.1, hw.2.2⟩ hf (Or.inr (Or.inr (Or.inl ⟨_, _, _, _, rfl⟩)))
  | privKF id H R z t cfg =>
    exact single _ id hw.1 (newest_local hd hw.1 hw.2) hf (Or.inr (Or.inr (Or.inr (Or.inl ⟨_, _, _, _, _, rfl⟩))))
  | privEKF id H R r t cfg =>
    exact single _ id hw.1 (newest_local hd hw.1 hw.2) hf (Or.inr (Or.inr (Or.inr (Or.inr ⟨_, _, _, _, _, rfl⟩))))
  | setCov I J S t =>
    obtain ⟨hab, hNa, hNb, hS1, hS2⟩ := hw
    obtain ⟨ha, hta⟩ := (hNa.union hd).rel hr
    obtain ⟨hb, htb⟩ := (hNb.union hd).rel hr
    obtain ⟨h1, e, hr'⟩ := hr.setSigma ha hb hab hta htb ⟨hS1, hS2⟩
    obtain ⟨n1, hn1, hd1⟩ := (G.setSigma_sim (netSim T a) hd (I := I) (J := J) trivial trivial S t).ok_right e
    have : Net.setSigma T a n I J S t = G.setSigma ⟨Net.get T a, Net.put T a⟩ n I J S t := rfl
    refine ⟨n1, true, ?_, fun _ => by simp [Foreign]⟩
    simp only [Net.run]
    rw [this, hn1, Res.bind_ok]
  | jointR dH R r t cfg =>
    obtain ⟨hdH, hN, hfree⟩ := hw
    obtain ⟨hne, ⟨m, he, hR, hrr⟩, hg⟩ := hf
    have hN' : ∀ p ∈ dH.keys, Hdl.Newest h p t := fun p hpm => (hN p hpm).union hd
    have he' : ∀ e ∈ dH, e.2.Shape m (dim e.1) ∧ Hdl.fixedAt h t e.1 = false := fun e hem => by
      rw [← fixedAt_own hd]; exact he e hem
    have hp : Hdl.Parts dim h c dH t := ⟨hdH, fun p hpm => ((hN' p hpm).rel hr).1, fun p hpm => ((hN' p hpm).rel hr).2⟩
    have hkne : dH.keys ≠ [] := by unfold SMap.keys; simpa using hne
    obtain ⟨s1, s2, -, s4⟩ := Agents.split_spec (holds n a) T dH.keys ([], [], []) List.Pairwise.nil
    rw [List.nil_append] at s1 s2
    obtain ⟨f1, f2⟩ := remote_facts (a := a) hd hp
    have hone := one_agent_iff (a := a) hd hp
    have hq : (fun p => ((n a).find p).isSome) = holds n a := rfl
    simp only [Net.run, Net.applyObsR, Agents.applyObsDict, hq]
    have hfor := foreign_iff (own := Agents.agentOf T) (a := a) hkne
    by_cases hall : AllAt (Agents.agentOf T) a dH
    · rw [if_pos (by rw [s1, f1.mpr hall]; rfl)]
      obtain ⟨h', ans, e, hu⟩ := Hdl.progress_rel (fp := fp) (pred := pred) hnear hr (.jointR dH R r t cfg) ⟨hdH, hN'⟩ ⟨hne, ⟨m, he', hR, hrr⟩, hg⟩
      obtain ⟨x, hx, -, hxy⟩ := (hdl_applyObsR (localSim T a n) near pred dH R r t cfg hall
        (by rw [Function.update_eq_self]; exact hd)).ok_right e
      refine ⟨_, _, by rw [hx]; rfl, ?_⟩
      intro hgg
      have h1 := hu hgg
      simp only at hxy
      rw [hxy, h1]
      simp only [Bool.true_eq_false, false_iff]
      rintro ⟨b, hb, hb2⟩
      obtain ⟨p, hpm⟩ := List.exists_mem_of_ne_nil _ hkne
      exact hb (by rw [← hb2 p hpm, hall p hpm])
    · have hfix : ∀ p ∈ dH.keys, c.fix p = false := fun p hpm => free_fix hd hr (hN p hpm) (hfree hall p hpm)
      have hrne : dH.keys.filter (fun p => !holds n a p) ≠ [] := fun e => hall (f1.mp e)
      rw [if_neg (by rw [s1]; exact fun e => hrne (List.length_eq_zero_iff.mp e)), s1, s2]
      by_cases ho : OneOther (Agents.agentOf T) a dH
      · rw [if_pos (hone.mpr ho)]
        have ho' := ho
        obtain ⟨b, hba, ⟨k, hk, hkb⟩, hob⟩ := ho
        have hhead : Agents.agentOf T ((dH.keys.filter (fun p => !holds n a p)).headD 0) = b := by
          obtain ⟨p0, r0, hpr⟩ := List.exists_cons_of_ne_nil hrne
          rw [hpr]
          have hm0 : p0 ∈ dH.keys.filter (fun p => !holds n a p) := by rw [hpr]; exact List.mem_cons_self
          obtain ⟨u, v⟩ := List.mem_filter.mp hm0
          refine (hob p0 u).resolve_left (fun e => ?_)
          rw [(holds_iff hd (hp.reg p0 u)).mpr e] at v
          simp at v
        rw [hhead]
        obtain ⟨H, hH, hHs⟩ := Hdl.stackH_ok dH m (fun e hem => (he' e hem).1.1) hne
        by_cases hle : dH.keys.filter (holds n a) = []
        · have hna := f2.mp hle
          refine ⟨n, false, ?_, fun _ => ?_⟩
          · rw [hle]
            unfold interR
            simp only [hH, getBF, getBels, fccLoop, Res.bind_ok, List.isEmpty_nil, if_true, Function.update_eq_self]
          · simp only [true_iff]
            exact hfor.mp ⟨ho', hna⟩
        · have h2 : Two T n a b dH := by
            refine ⟨hle, hrne, fun p hpm hf => (hob p hpm).resolve_left (fun e => ?_)⟩
            rw [(holds_iff hd (hp.reg p hpm)).mpr e] at hf
            simp at hf
          have hpe := Hdl.joint_sizes hr hN' he'
          obtain ⟨y, hy⟩ := interR_ex (pred := pred) hr hp hd hfix h2 hnear {} rfl R r cfg hH (fun S hS => by
            obtain ⟨rej, e, -⟩ := correctionStep_progress (H := H) (R := R) (r := r) ⟨by rw [hpe]; exact hHs, hR, hrr, hS⟩ hg
            exact ⟨_, e⟩)
          refine ⟨_, _, by rw [hy]; rfl, ?_⟩
          intro hgg
          obtain ⟨H1, S, res, hH1, hSC, hres, hrej, hacc⟩ := interR_spec hr hp hd hfix h2 hnear {} rfl R r cfg hy
          have hy2 : y.2.2 = true := by
            cases hrj : res.rejected with
            | true => rw [hrej hrj]
            | false =>
              obtain ⟨h', l', rm', -, -, -, e⟩ := hacc hrj
              rw [e]
          rw [hy2]
          simp only [Bool.true_eq_false, false_iff]
          intro hfg
          exact hle (f2.mpr (hfor.mpr hfg).2)
      · rw [if_neg (fun e => ho (hone.mp e))]
        have hu : AllUnfixed pred h dH.keys t := by
          intro x hx e he
          rw [Hdl.getDictBel_rel pred hr hp] at hx
          rw [← Res.ok.inj hx] at he
          exact dict_unfixed hr hp hd hfix e he
        obtain ⟨h', ans, e, hu'⟩ := refR_progress (pred := pred) hnear hr hN' hdH hne he' hR hrr hg
        obtain ⟨y, hy, -, hxy⟩ := (net_generalR (a := a) hd near pred dH R r t cfg hu).ok_right e
        refine ⟨_, _, hy, ?_⟩
        intro hgg
        simp only at hxy
        rw [hxy, hu' hgg]
        simp only [Bool.true_eq_false, false_iff]
        intro hfg
        exact ho (hfor.mpr hfg).1
  | jointZ dH z R t cfg =>
    obtain ⟨hdH, hN, hfree⟩ := hw
    obtain ⟨hne, ⟨m, he, hR, hrr⟩, hg⟩ := hf
    have hN' : ∀ p ∈ dH.keys, Hdl.Newest h p t := fun p hpm => (hN p hpm).union hd
    have he' : ∀ e ∈ dH, e.2.Shape m (dim e.1) ∧ Hdl.fixedAt h t e.1 = false := fun e hem => by
      rw [← fixedAt_own hd]; exact he e hem
    have hp : Hdl.Parts dim h c dH t := ⟨hdH, fun p hpm => ((hN' p hpm).rel hr).1, fun p hpm => ((hN' p hpm).rel hr).2⟩
    simp only [Net.run, Net.applyObsZ]
    have hallB : (dH.keys.all (fun p => ((n a).find p).isSome) = true) ↔ AllAt (Agents.agentOf T) a dH := by
      rw [List.all_eq_true]
      exact forall₂_congr fun p hpm => holds_iff hd (hp.reg p hpm)
    by_cases hall : AllAt (Agents.agentOf T) a dH
    · rw [if_pos (hallB.mpr hall)]
      obtain ⟨h', ans, e, hu⟩ := Hdl.progress_rel (fp := fp) (pred := pred) hnear hr (.jointZ dH z R t cfg) ⟨hdH, hN'⟩ ⟨hne, ⟨m, he', hR, hrr⟩, hg⟩
      obtain ⟨x, hx, -, hxy⟩ := (hdl_applyObsZ (localSim T a n) near pred dH z R t cfg hall
        (by rw [Function.update_eq_self]; exact hd)).ok_right e
      refine ⟨_, _, by rw [hx]; rfl, ?_⟩
      intro hgg
      simp only at hxy
      rw [hxy, hu hgg]
      simp [Foreign]
    · rw [if_neg (fun e => hall (hallB.mp e))]
      have hfix : ∀ p ∈ dH.keys, c.fix p = false := fun p hpm => free_fix hd hr (hN p hpm) (hfree hall p hpm)
      have hu : AllUnfixed pred h dH.keys t := by
        intro x hx e he
        rw [Hdl.getDictBel_rel pred hr hp] at hx
        rw [← Res.ok.inj hx] at he
        exact dict_unfixed hr hp hd hfix e he
      obtain ⟨h', ans, e, hu'⟩ := refZ_progress (pred := pred) hnear hr hN' hdH hne he' hR hrr hg
      obtain ⟨y, hy, -, hxy⟩ := (net_generalZ (a := a) hd near pred dH z R t cfg hu).ok_right e
      refine ⟨_, _, hy, ?_⟩
      intro hgg
      simp only at hxy
      rw [hxy, hu' hgg]
      simp [Foreign]

/-- C70. In every state the agents reach by in-order calls with delivered messages, an in-order call of any agent with
fitting matrices gets an answer: it does not throw and there is no undefined behaviour. Without a gate the answer is
`true`, except for a joint observation with residual of instances that are all held by one other agent. -/
theorem c70_agents_progress (hnear : Hdl.NearOk near) (hreach : NReach T fp near pred dim n) (ev : Ev) (hw : Net.Wf T dim n a ev)
    (hf : Net.Fits T dim n a ev) :
    ∃ n' ans, Net.run T fp near pred {} n a ev = .ok (n', ans) ∧ (Hdl.Ungated ev → (ans = false ↔ Foreign (Agents.agentOf T) a ev)) := by
  obtain ⟨h, c, hd, hr⟩ := hreach.rel hnear
  exact net_progress hnear hd hr ev hw hf

end Collab
end Ikf
