import Verif.Lemmas.CollabRun

/-!
# Collaborating agents against the centralised filter (C69, C70)
-/

namespace Ikf
open Mat
namespace Collab

variable {T : Agents.Tables} {a b : ℕ} {n n' : Net} {h : Hdl} {dim : ℕ → ℕ} {c : Central} {dH : SMap Mat} {t : Int}
  {near : Mat → Mat} {pred : ℕ → Inst → Int → Inst × Bool} {fp : FP}

theorem remote_factsP {ids : List ℕ} (hh : ∀ p ∈ ids, holds n a p = true ↔ Agents.agentOf T p = a) :
    (ids.filter (fun p => !holds n a p) = [] ↔ ∀ p ∈ ids, Agents.agentOf T p = a) ∧
    (ids.filter (holds n a) = [] ↔ ∀ p ∈ ids, Agents.agentOf T p ≠ a) := by
  constructor
  · rw [List.filter_eq_nil_iff]
    constructor
    · intro hn p hpm
      have := hn p hpm
      exact (hh p hpm).mp (by simpa using this)
    · intro hn p hpm
      have := (hh p hpm).mpr (hn p hpm)
      simp [this]
  · rw [List.filter_eq_nil_iff]
    constructor
    · intro hn p hpm e
      exact hn p hpm ((hh p hpm).mpr e)
    · intro hn p hpm e
      exact hn p hpm ((hh p hpm).mp e)

theorem remote_factsL (hd : Dist T n h) {ids : List ℕ} (hreg : ∀ p ∈ ids, (h.find p).isSome) :
    (ids.filter (fun p => !holds n a p) = [] ↔ ∀ p ∈ ids, Agents.agentOf T p = a) ∧
    (ids.filter (holds n a) = [] ↔ ∀ p ∈ ids, Agents.agentOf T p ≠ a) := remote_factsP fun p hpm => holds_iff hd (hreg p hpm)

theorem remote_facts (hd : Dist T n h) (hp : Hdl.Parts dim h c dH t) :
    (dH.keys.filter (fun p => !holds n a p) = [] ↔ AllAt (Agents.agentOf T) a dH) ∧
    (dH.keys.filter (holds n a) = [] ↔ ∀ p ∈ dH.keys, Agents.agentOf T p ≠ a) := remote_factsL hd hp.reg

theorem one_agent_iffP {ids : List ℕ} (hh : ∀ p ∈ ids, holds n a p = true ↔ Agents.agentOf T p = a) :
    (Agents.split (holds n a) T ids ([], [], [])).1.length = 1 ↔ OneOtherL (Agents.agentOf T) a ids := by
  obtain ⟨-, -, h3, h4⟩ := Agents.split_spec (holds n a) T ids ([], [], []) List.Pairwise.nil
  rw [Agents.length_one_iff _ h3]
  have hrem : ∀ k ∈ ids, holds n a k = false ↔ Agents.agentOf T k ≠ a := by
    intro k hk
    rw [Ne, ← hh k hk]; simp
  constructor
  · rintro ⟨⟨b, hb⟩, hall⟩
    rcases (h4 b).mp hb with h5 | ⟨k, hk, hl, rfl⟩
    · simp at h5
    · refine ⟨_, (hrem k hk).mp hl, ⟨k, hk, rfl⟩, ?_⟩
      intro p hpm
      by_cases hpa : Agents.agentOf T p = a
      · exact Or.inl hpa
      · exact Or.inr (hall _ ((h4 _).mpr (Or.inr ⟨p, hpm, (hrem p hpm).mpr hpa, rfl⟩)) _ hb)
  · rintro ⟨b, hba, ⟨k, hk, rfl⟩, hall⟩
    refine ⟨⟨_, (h4 _).mpr (Or.inr ⟨k, hk, (hrem k hk).mpr hba, rfl⟩)⟩, ?_⟩
    have : ∀ x ∈ (Agents.split (holds n a) T ids ([], [], [])).1, x = Agents.agentOf T k := by
      intro x hx
      rcases (h4 x).mp hx with h5 | ⟨q, hq, hl, rfl⟩
      · simp at h5
      · exact (hall q hq).resolve_left ((hrem q hq).mp hl)
    intro x hx y hy
    rw [this x hx, this y hy]

theorem one_agent_iffL (hd : Dist T n h) {ids : List ℕ} (hreg : ∀ p ∈ ids, (h.find p).isSome) :
    (Agents.split (holds n a) T ids ([], [], [])).1.length = 1 ↔ OneOtherL (Agents.agentOf T) a ids :=
  one_agent_iffP fun p hpm => holds_iff hd (hreg p hpm)

theorem one_agent_iff (hd : Dist T n h) (hp : Hdl.Parts dim h c dH t) :
    (Agents.split (holds n a) T dH.keys ([], [], [])).1.length = 1 ↔ OneOther (Agents.agentOf T) a dH := one_agent_iffL hd hp.reg

/-- One call of one agent. -/
theorem step_sim (hnear : Hdl.NearOk near) (hd : Dist T n h) (hr : Hdl.Rel dim h c) (ev : Ev) (hw : Net.Wf T dim n a ev) {ans : Bool}
    (hs : Net.run T fp near pred {} n a ev = .ok (n', ans)) :
    ∃ h' c', CStep (Agents.agentOf T) dim near c a ev ans c' ∧ Dist T n' h' ∧ Hdl.SameDom h h' ∧ Hdl.Rel dim h' c' ∧ (ans = false → h' = h) := by
  -- calls on one instance
  have single : ∀ (ev : Ev) (id : ℕ) (ho : Agents.agentOf T id = a) (hwf : Hdl.Wf dim h ev)
      (hev : (∃ Phi Q ta tb, ev = .propKF id Phi Q ta tb) ∨ (∃ mb Phi Q ta tb, ev = .propEKF id mb Phi Q ta tb) ∨
        (∃ bb Phi ta tb, ev = .propBel id bb Phi ta tb) ∨ (∃ H R z t cfg, ev = .privKF id H R z t cfg) ∨
        (∃ H R r t cfg, ev = .privEKF id H R r t cfg))
      (hs : (do let x ← Hdl.run fp near pred (n a) ev; Res.ok (Function.update n a x.1, x.2)) = .ok (n', ans)),
      ∃ h' c', CStep (Agents.agentOf T) dim near c a ev ans c' ∧ Dist T n' h' ∧ Hdl.SameDom h h' ∧ Hdl.Rel dim h' c' ∧ (ans = false → h' = h) := by
    intro ev id ho hwf hev hs
    obtain ⟨x, hx, hs⟩ := Hdl.bind_eq_ok hs
    obtain ⟨e1, e2⟩ := Prod.mk.inj (Res.ok.inj hs)
    obtain ⟨y, hy, hdy, hxy⟩ := (run_own (fp := fp) (near := near) (pred := pred) hd ev ho hev).ok_left hx
    rw [e1] at hdy
    rw [e2] at hxy
    obtain ⟨h', ans'⟩ := y
    simp only at hxy hdy
    subst hxy
    have hl : ∀ dH R r t cfg, (ev = .jointR dH R r t cfg ∨ ev = .jointZ dH r R t cfg) → AllAt (Agents.agentOf T) a dH := by
      rintro dH R r t cfg (rfl | rfl) <;> simp at hev
    have hsd := Hdl.step_dom hr ev hwf hy
    cases ans with
    | true =>
      obtain ⟨c', s, hr'⟩ := Hdl.accepted hnear hr ev hwf hy
      exact ⟨h', c', .accept hl s, hdy, hsd, hr', by simp⟩
    | false =>
      have := Hdl.rejected hr ev hwf hy
      subst this
      exact ⟨_, c, .refuse hl, hdy, hsd, hr, fun _ => rfl⟩
  cases ev with
  | propKF id Phi Q ta tb =>
    exact single _ id hw.1 ⟨newest_local hd hw.1 hw.2.1, hw.2.2⟩ (Or.inl ⟨_, _, _, _, rfl⟩) hs
  | propEKF id mb Phi Q ta tb =>
    exact single _ id hw.1 ⟨newest_local hd hw.1 hw.2.1, hw.2.2⟩ (Or.inr (Or.inl ⟨_, _, _, _, _, rfl⟩)) hs
  | propBel id bb Phi ta tb =>
    exact single _ id hw.1 ⟨newest_local hd hw.1 hw.2.1, hw.2.2⟩ (Or.inr (Or.inr (Or.inl ⟨_, _, _, _, rfl⟩))) hs
  | privKF id H R z t cfg =>
    exact single _ id hw.1 (newest_local hd hw.1 hw.2) (Or.inr (Or.inr (Or.inr (Or.inl ⟨_, _, _, _, _, rfl⟩)))) hs
  | privEKF id H R r t cfg =>
    exact single _ id hw.1 (newest_local hd hw.1 hw.2) (Or.inr (Or.inr (Or.inr (Or.inr ⟨_, _, _, _, _, rfl⟩)))) hs
  | setCov I J S t =>
    obtain ⟨hab, hNa, hNb, hS1, hS2⟩ := hw
    obtain ⟨ha, hta⟩ := (hNa.union hd).rel hr
    obtain ⟨hb, htb⟩ := (hNb.union hd).rel hr
    obtain ⟨h1, e, hr'⟩ := hr.setSigma ha hb hab hta htb ⟨hS1, hS2⟩
    obtain ⟨n1, hn1, hd1⟩ := (G.setSigma_sim (netSim T a) hd (I := I) (J := J) trivial trivial S t).ok_right e
    simp only [Net.run] at hs
    obtain ⟨n2, hn2, hs⟩ := Hdl.bind_eq_ok hs
    obtain ⟨e1, e2⟩ := Prod.mk.inj (Res.ok.inj hs)
    have : Net.setSigma T a n I J S t = G.setSigma ⟨Net.get T a, Net.put T a⟩ n I J S t := rfl
    rw [this, hn1] at hn2
    rw [← e1, ← e2, ← Res.ok.inj hn2]
    refine ⟨h1, _, .accept ?_ (.setCov I J S t), hd1, Hdl.sameDom_of_bels (fun q => Hdl.setSigma_bels e q), hr', by simp⟩
    rintro dH R r t cfg (he | he) <;> simp at he
  | jointR dH R r t cfg =>
    obtain ⟨hdH, hN, hfree⟩ := hw
    have hp : Hdl.Parts dim h c dH t :=
      ⟨hdH, fun p hpm => (((hN p hpm).union hd).rel hr).1, fun p hpm => (((hN p hpm).union hd).rel hr).2⟩
    obtain ⟨s1, s2, -, s4⟩ := Agents.split_spec (holds n a) T dH.keys ([], [], []) List.Pairwise.nil
    rw [List.nil_append] at s1 s2
    obtain ⟨f1, f2⟩ := remote_facts (a := a) hd hp
    have hone := one_agent_iff (a := a) hd hp
    have hq : (fun p => ((n a).find p).isSome) = holds n a := rfl
    simp only [Net.run, Net.applyObsR, Agents.applyObsDict, hq] at hs
    by_cases hall : AllAt (Agents.agentOf T) a dH
    · rw [if_pos (by rw [s1, f1.mpr hall]; rfl)] at hs
      obtain ⟨x, hx, hs⟩ := Hdl.bind_eq_ok hs
      obtain ⟨e1, e2⟩ := Prod.mk.inj (Res.ok.inj hs)
      obtain ⟨y, hy, hdy, hxy⟩ := (hdl_applyObsR (localSim T a n) near pred dH R r t cfg hall
        (by rw [Function.update_eq_self]; exact hd)).ok_left hx
      rw [e1] at hdy
      rw [e2] at hxy
      obtain ⟨h', ans'⟩ := y
      simp only at hxy hdy
      subst hxy
      have hl : ∀ dH' R' r' t' cfg', (Ev.jointR dH R r t cfg = .jointR dH' R' r' t' cfg' ∨ Ev.jointR dH R r t cfg = .jointZ dH' r' R' t' cfg') →
          AllAt (Agents.agentOf T) a dH' := by
        rintro dH' R' r' t' cfg' (he | he)
        · simp only [Ev.jointR.injEq] at he; rw [← he.1]; exact hall
        · simp at he
      have hwf : Hdl.Wf dim h (.jointR dH R r t cfg) := ⟨hdH, fun p hpm => (hN p hpm).union hd⟩
      have hsd := Hdl.step_dom (fp := fp) hr (.jointR dH R r t cfg) hwf hy
      cases ans with
      | true =>
        obtain ⟨c', s, hr'⟩ := Hdl.accepted (fp := fp) hnear hr (.jointR dH R r t cfg) hwf hy
        exact ⟨h', c', .accept hl s, hdy, hsd, hr', by simp⟩
      | false =>
        have := Hdl.rejected (fp := fp) hr (.jointR dH R r t cfg) hwf hy
        subst this
        exact ⟨_, c, .refuse hl, hdy, hsd, hr, fun _ => rfl⟩
    · have hfix : ∀ p ∈ dH.keys, c.fix p = false := fun p hpm => free_fix hd hr (hN p hpm) (hfree hall p hpm)
      have hrne : dH.keys.filter (fun p => !holds n a p) ≠ [] := fun e => hall (f1.mp e)
      have hkne : dH.keys ≠ [] := fun e => hrne (by rw [e]; rfl)
      rw [if_neg (by rw [s1]; exact fun e => hrne (List.length_eq_zero_iff.mp e)), s1, s2] at hs
      by_cases ho : OneOther (Agents.agentOf T) a dH
      · rw [if_pos (hone.mpr ho)] at hs
        obtain ⟨x, hx, hs⟩ := Hdl.bind_eq_ok hs
        obtain ⟨e1, e2⟩ := Prod.mk.inj (Res.ok.inj hs)
        obtain ⟨b, hba, ⟨k, hk, hkb⟩, hob⟩ := ho
        have hhead : Agents.agentOf T ((dH.keys.filter (fun p => !holds n a p)).headD 0) = b := by
          obtain ⟨p0, r0, hpr⟩ := List.exists_cons_of_ne_nil hrne
          rw [hpr]
          have hm0 : p0 ∈ dH.keys.filter (fun p => !holds n a p) := by rw [hpr]; exact List.mem_cons_self
          obtain ⟨u, v⟩ := List.mem_filter.mp hm0
          refine (hob p0 u).resolve_left (fun e => ?_)
          rw [(holds_iff hd (hp.reg p0 u)).mpr e] at v
          simp at v
        rw [hhead] at hx e1
        by_cases hle : dH.keys.filter (holds n a) = []
        · -- nothing is held by `a`
          have hna := f2.mp hle
          have hx' : x = (n a, n b, false) := by
            rw [hle] at hx
            unfold interR at hx
            obtain ⟨H, hH, hx⟩ := Hdl.bind_eq_ok hx
            simp only [getBF, getBels, fccLoop, Res.bind_ok, List.isEmpty_nil, if_true] at hx
            exact (Res.ok.inj hx).symm
          rw [hx'] at e1 e2
          refine ⟨h, c, ?_, ?_, Hdl.SameDom.refl h, hr, fun _ => rfl⟩
          · rw [← e2]
            exact .noneR dH R r t cfg ⟨b, hba, ⟨k, hk, hkb⟩, hob⟩ hna
          · rw [← e1]
            simp only [Function.update_eq_self]
            exact hd
        · have h2 : Two T n a b dH := by
            refine ⟨hle, hrne, fun p hpm hf => (hob p hpm).resolve_left (fun e => ?_)⟩
            rw [(holds_iff hd (hp.reg p hpm)).mpr e] at hf
            simp at hf
          obtain ⟨H, S, res, hH, hSC, hres, hrej, hacc⟩ := interR_spec hr hp hd hfix h2 hnear {} rfl R r cfg hx
          have hside := Hdl.stackH_spec dH hdH H hH
          cases hrj : res.rejected with
          | true =>
            have hx' := hrej hrj
            rw [hx'] at e1 e2
            refine ⟨h, c, ?_, ?_, Hdl.SameDom.refl h, hr, fun _ => rfl⟩
            · refine .rejR dH R r t cfg H S res ans hall hside hSC hres hrj ?_
              rw [← e2]
              simp only [true_iff]
              exact ⟨b, hba, ⟨k, hk, hkb⟩, hob⟩
            · rw [← e1]
              simp only [Function.update_eq_self]
              exact hd
          | false =>
            obtain ⟨h', l', rm', hsd, hr', hd', hx'⟩ := hacc hrj
            rw [hx'] at e1 e2
            refine ⟨h', _, ?_, ?_, hsd, hr', fun e => by rw [← e2] at e; simp at e⟩
            · rw [← e2]
              refine .obsR dH R r t cfg H S res hall (fun _ => ?_) hside hSC hres hrj
              obtain ⟨p, hm⟩ := List.exists_mem_of_ne_nil _ hle
              obtain ⟨u, v⟩ := List.mem_filter.mp hm
              exact ⟨p, u, (holds_iff hd (hp.reg p u)).mp v⟩
            · rw [← e1]; exact hd'
      · rw [if_neg (fun e => ho (hone.mp e))] at hs
        have hu : AllUnfixed pred h dH.keys t := by
          intro x hx e he
          rw [Hdl.getDictBel_rel pred hr hp] at hx
          rw [← Res.ok.inj hx] at he
          exact dict_unfixed hr hp hd hfix e he
        obtain ⟨y, hy, hdy, hxy⟩ := (net_generalR hd near pred dH R r t cfg hu).ok_left hs
        obtain ⟨H, S, res, hside, hSC, hres, hrej, hacc⟩ := refR_spec hnear hr hp hfix hkne hy
        cases hrj : res.rejected with
        | true =>
          rw [hrej hrj] at hdy hxy
          refine ⟨h, c, .rejR dH R r t cfg H S res ans hall hside hSC hres hrj ?_, hdy, Hdl.SameDom.refl h, hr, fun _ => rfl⟩
          simp only at hxy
          rw [hxy]
          simp [ho]
        | false =>
          obtain ⟨h', hsd, hr', hy'⟩ := hacc hrj
          rw [hy'] at hdy hxy
          simp only at hxy
          subst hxy
          exact ⟨h', _, .obsR dH R r t cfg H S res hall (fun e => absurd e ho) hside hSC hres hrj, hdy, hsd, hr', by simp⟩
  | jointZ dH z R t cfg =>
    obtain ⟨hdH, hN, hfree⟩ := hw
    have hp : Hdl.Parts dim h c dH t :=
      ⟨hdH, fun p hpm => (((hN p hpm).union hd).rel hr).1, fun p hpm => (((hN p hpm).union hd).rel hr).2⟩
    simp only [Net.run, Net.applyObsZ] at hs
    have hallB : (dH.keys.all (fun p => ((n a).find p).isSome) = true) ↔ AllAt (Agents.agentOf T) a dH := by
      rw [List.all_eq_true]
      exact forall₂_congr fun p hpm => holds_iff hd (hp.reg p hpm)
    by_cases hall : AllAt (Agents.agentOf T) a dH
    · rw [if_pos (hallB.mpr hall)] at hs
      obtain ⟨x, hx, hs⟩ := Hdl.bind_eq_ok hs
      obtain ⟨e1, e2⟩ := Prod.mk.inj (Res.ok.inj hs)
      obtain ⟨y, hy, hdy, hxy⟩ := (hdl_applyObsZ (localSim T a n) near pred dH z R t cfg hall
        (by rw [Function.update_eq_self]; exact hd)).ok_left hx
      rw [e1] at hdy
      rw [e2] at hxy
      obtain ⟨h', ans'⟩ := y
      simp only at hxy hdy
      subst hxy
      have hl : ∀ dH' R' r' t' cfg', (Ev.jointZ dH z R t cfg = .jointR dH' R' r' t' cfg' ∨ Ev.jointZ dH z R t cfg = .jointZ dH' r' R' t' cfg') →
          AllAt (Agents.agentOf T) a dH' := by
        rintro dH' R' r' t' cfg' (he | he)
        · simp at he
        · simp only [Ev.jointZ.injEq] at he; rw [← he.1]; exact hall
      have hwf : Hdl.Wf dim h (.jointZ dH z R t cfg) := ⟨hdH, fun p hpm => (hN p hpm).union hd⟩
      have hsd := Hdl.step_dom (fp := fp) hr (.jointZ dH z R t cfg) hwf hy
      cases ans with
      | true =>
        obtain ⟨c', s, hr'⟩ := Hdl.accepted (fp := fp) hnear hr (.jointZ dH z R t cfg) hwf hy
        exact ⟨h', c', .accept hl s, hdy, hsd, hr', by simp⟩
      | false =>
        have := Hdl.rejected (fp := fp) hr (.jointZ dH z R t cfg) hwf hy
        subst this
        exact ⟨_, c, .refuse hl, hdy, hsd, hr, fun _ => rfl⟩
    · rw [if_neg (fun e => hall (hallB.mp e))] at hs
      have hfix : ∀ p ∈ dH.keys, c.fix p = false := fun p hpm => free_fix hd hr (hN p hpm) (hfree hall p hpm)
      have hkne : dH.keys ≠ [] := fun e => hall (by intro p hpm; rw [e] at hpm; simp at hpm)
      have hu : AllUnfixed pred h dH.keys t := by
        intro x hx e he
        rw [Hdl.getDictBel_rel pred hr hp] at hx
        rw [← Res.ok.inj hx] at he
        exact dict_unfixed hr hp hd hfix e he
      obtain ⟨y, hy, hdy, hxy⟩ := (net_generalZ hd near pred dH z R t cfg hu).ok_left hs
      obtain ⟨H, S, m, res, hside, hSC, hmC, hres, hrej, hacc⟩ := refZ_spec hnear hr hp hfix hkne hy
      cases hrj : res.rejected with
      | true =>
        rw [hrej hrj] at hdy hxy
        simp only at hxy
        subst hxy
        exact ⟨h, c, .rejZ dH z R t cfg H S m res hall hside hSC hmC hres hrj, hdy, Hdl.SameDom.refl h, hr, fun _ => rfl⟩
      | false =>
        obtain ⟨h', hsd, hr', hy'⟩ := hacc hrj
        rw [hy'] at hdy hxy
        simp only at hxy
        subst hxy
        exact ⟨h', _, .obsZ dH z R t cfg H S m res hall hside hSC hmC hres hrj, hdy, hsd, hr', by simp⟩

/-- Calls of all agents (agent, call, answer), in any interleaving; all messages are delivered and no call throws or
runs into undefined behaviour. -/
inductive NRuns (T : Agents.Tables) (fp : FP) (near : Mat → Mat) (pred : ℕ → Inst → Int → Inst × Bool) (dim : ℕ → ℕ) :
    Net → List (ℕ × Ev × Bool) → Net → Prop
  | nil (n : Net) : NRuns T fp near pred dim n [] n
  | step {n n1 n2 : Net} {a : ℕ} {ev : Ev} {ans : Bool} {l : List (ℕ × Ev × Bool)} (hw : Net.Wf T dim n a ev) (hs : Net.run T fp near pred {} n a ev = .ok (n1, ans))
      (r : NRuns T fp near pred dim n1 l n2) : NRuns T fp near pred dim n ((a, ev, ans) :: l) n2

theorem nruns_sim (hnear : Hdl.NearOk near) (hd : Dist T n h) (hr : Hdl.Rel dim h c) {l : List (ℕ × Ev × Bool)}
    (hrun : NRuns T fp near pred dim n l n') :
    ∃ h' c', CSpecRun (Agents.agentOf T) dim near c l c' ∧ Dist T n' h' ∧ Hdl.SameDom h h' ∧ Hdl.Rel dim h' c' := by
  induction hrun generalizing h c with
  | nil n => exact ⟨h, c, .nil c, hd, Hdl.SameDom.refl h, hr⟩
  | step hw hs _ ih =>
    obtain ⟨h1, c1, s1, d1, k1, r1, -⟩ := step_sim hnear hd hr _ hw hs
    obtain ⟨h2, c2, s2, d2, k2, r2⟩ := ih d1 r1
    exact ⟨h2, c2, .cons s1 s2, d2, k1.trans k2, r2⟩

/-- What can be read from the agents, if their union `h` represents `c`. -/
theorem net_view {n0 : Net} {h0 : Hdl} (hd : Dist T n0 h0) (hdn : Dist T n h) (hsd : Hdl.SameDom h0 h) (hr : Hdl.Rel dim h c) :
      (∀ a p, ((n a).find p).isSome = ((n0 a).find p).isSome) ∧
      (∀ a p i, (n a).find p = some i → Agents.agentOf T p = a ∧ ∃ b, i.beliefAt (c.tm p) = some b ∧
        i.bel.getLast? = some (c.tm p, b) ∧ b.mean = c.mu p ∧ b.Sigma = c.cov p p) ∧
      ∀ a p q t, p ≠ q → NewestAt T n p t → NewestAt T n q t →
        Net.getSigma T a n p q t = .ok (c.cov p q) ∨
          (Net.getSigma T a n p q t = .ok Mat.empty ∧ c.cov p q = Mat.zero (dim p) (dim q)) := by
  refine ⟨?_, ?_, ?_⟩
  · intro a p
    rw [hdn, hd]
    split
    · exact hsd p
    · rfl
  · intro a p i hf
    have ho : Agents.agentOf T p = a := hdn.local (by rw [hf]; rfl)
    have hh : h.find p = some i := by rw [← hdn.own, ho, hf]
    refine ⟨ho, ?_⟩
    have hp : (h.find p).isSome := by rw [hh]; rfl
    obtain ⟨b, h1, h2, h3, -⟩ := hr.bel p hp
    rw [Hdl.bl_of_find hh] at h1
    refine ⟨b, h1, ?_, h2, h3⟩
    have ho := (hr.ok.ord p i hh).bel
    rw [Inst.beliefAt_eq, Buf.absMap_eq_some _ ho] at h1
    cases hl : i.bel.getLast? with
    | none => rw [List.getLast?_eq_none_iff] at hl; rw [hl] at h1; simp at h1
    | some e =>
      have g1 := ho.sorted.le_getLast hl _ h1
      have g2 := (hr.ok.upTo p i hh).bel e (List.mem_of_getLast? hl)
      simp only at g1
      have g3 : e.1 = c.tm p := by omega
      have g4 := (Buf.absMap_eq_some _ ho e.1 e.2).mpr (List.mem_of_getLast? hl)
      rw [g3, (Buf.absMap_eq_some _ ho _ _).mpr h1] at g4
      rw [Option.some.inj g4, ← g3]
  · intro a p q t hpq hNp hNq
    obtain ⟨a1, a2⟩ := (hNp.union hdn).rel hr
    obtain ⟨b1, b2⟩ := (hNq.union hdn).rel hr
    have hg : Net.getSigma T a n p q t = Hdl.getSigma h p q t := G.getSigma_sim (netSim T a) hdn trivial trivial t
    rw [hg]
    rcases hr.getSigma a1 b1 hpq a2 b2 with ⟨g, -⟩ | ⟨g, -, g2⟩
    · exact Or.inl g
    · exact Or.inr ⟨g, g2⟩

/-- C69. Any number of agents, each holding some of the instances (freshly initialised), make any in-order calls in any
interleaving, while all messages are delivered: every agent holds the same instances as before; their newest beliefs,
and the cross-covariance any agent reads for any two instances that are at the same time, whoever holds them, are those
of one centralised filter on which the same calls are made. -/
theorem c69_agents_centralised (hnear : Hdl.NearOk near) {n0 : Net} {h0 : Hdl} {c0 : Central} (hd : Dist T n0 h0) (hi : Hdl.Init dim h0 c0)
    {l : List (ℕ × Ev × Bool)} (hrun : NRuns T fp near pred dim n0 l n) :
    ∃ c, CSpecRun (Agents.agentOf T) dim near c0 l c ∧
      (∀ a p, ((n a).find p).isSome = ((n0 a).find p).isSome) ∧
      (∀ a p i, (n a).find p = some i → Agents.agentOf T p = a ∧ ∃ b, i.beliefAt (c.tm p) = some b ∧
        i.bel.getLast? = some (c.tm p, b) ∧ b.mean = c.mu p ∧ b.Sigma = c.cov p p) ∧
      ∀ a p q t, p ≠ q → NewestAt T n p t → NewestAt T n q t →
        Net.getSigma T a n p q t = .ok (c.cov p q) ∨
          (Net.getSigma T a n p q t = .ok Mat.empty ∧ c.cov p q = Mat.zero (dim p) (dim q)) := by
  obtain ⟨h, c, hs, hdn, hsd, hr⟩ := nruns_sim hnear hd hi.rel hrun
  exact ⟨c, hs, net_view hd hdn hsd hr⟩

end Collab
end Ikf
