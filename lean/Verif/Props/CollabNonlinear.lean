import Verif.Lemmas.CollabH
import Verif.Spec.CollabH
import Verif.Props.CollabProgress

/-!
# Joint observations with a measurement function between agents (C73)
-/

namespace Ikf
open Mat
namespace Collab

variable {T : Agents.Tables} {a b : ℕ} {n n' : Net} {h : Hdl} {dim : ℕ → ℕ} {c : Central} {t : Int}
  {near : Mat → Mat} {pj : Belief → Mat → Mat} {pred : ℕ → Inst → Int → Inst × Bool} {fp : FP}
  {hf : SMap Belief → List ℕ → Mat → SMap Mat × Mat} {ids : List ℕ} {R z : Mat} {cfg : Cfg}

/-- A call of agent `a` with its answer. -/
noncomputable def Net.runH (T : Agents.Tables) (fp : FP) (near : Mat → Mat) (pj : Belief → Mat → Mat) (pred : ℕ → Inst → Int → Inst × Bool)
    (lk : Link) (n : Net) (a : ℕ) : HEv → Res (Net × HAns)
  | .base ev => do
    let x ← Net.run T fp near pred lk n a ev
    .ok (x.1, .done x.2)
  | .obsH hf ids R z t cfg => do
    let x ← Net.applyObsH T a near pj pred hf lk n R z t ids cfg
    .ok (x.1.1, .meas x.2 x.1.2)

/-- The user works in order: the participants are distinct and at time `t`, at least one is held by another agent; the
measurement function returns a map (ordered) of Jacobians of participants. -/
def Net.WfH (T : Agents.Tables) (dim : ℕ → ℕ) (n : Net) (a : ℕ) : HEv → Prop
  | .base ev => Net.Wf T dim n a ev
  | .obsH hf ids _ z t _ => ids.Nodup ∧ (∀ p ∈ ids, NewestAt T n p t) ∧ (¬ ∀ p ∈ ids, Agents.agentOf T p = a) ∧
      ∀ bel, (hf bel ids z).1.Sorted ∧ ∀ k ∈ (hf bel ids z).1.keys, k ∈ ids

/-- The participants in order, as keys. -/
def keysMap (ks : List ℕ) : SMap Mat := ks.map fun p => (p, Mat.empty)

theorem keysMap_keys (ks : List ℕ) : (keysMap ks).keys = ks := by
  unfold keysMap SMap.keys
  rw [List.map_map]
  exact List.map_id ks

theorem exists_sorted (ids : List ℕ) (hn : ids.Nodup) : ∃ ks : List ℕ, ks.Pairwise (· < ·) ∧ ks.Perm ids := by
  refine ⟨ids.mergeSort (· ≤ ·), ?_, List.mergeSort_perm _ _⟩
  have h1 : (ids.mergeSort (· ≤ ·)).Pairwise (fun a b => decide (a ≤ b) = true) :=
    List.pairwise_mergeSort (le := fun a b => decide (a ≤ b)) (fun a b c h1 h2 => by simp at *; omega) (fun a b => by simp; omega) ids
  have h2 : (ids.mergeSort (· ≤ ·)).Nodup := (List.mergeSort_perm _ _).nodup_iff.mpr hn
  exact (h1.and h2).imp fun {x y} h => lt_of_le_of_ne (by simpa using h.1) h.2

/-- Removing the fixed participants from the Jacobians. -/
theorem dropFixed_filter {dH J : SMap Mat} (hr : Hdl.Rel dim h c) (hp : Hdl.Parts dim h c dH t) (hJ : J.Sorted) (hk : ∀ k ∈ J.keys, k ∈ dH.keys) :
    dropFixed (Hdl.dict h dH t) J = J.filter (fun e => !c.fix e.1) := by
  have hs : SMap.Sorted (J.filter (fun e => !c.fix e.1)) := List.Pairwise.filter _ hJ
  refine SMap.ext_find (sorted_dropFixed _ hJ) hs fun p => ?_
  rw [find_dropFixed]
  have hex : (∃ e ∈ Hdl.dict h dH t, e.1 = p ∧ e.2.fixed = true) ↔ p ∈ dH.keys ∧ c.fix p = true := by
    constructor
    · rintro ⟨e, he, rfl, hx⟩
      have := Hdl.mem_dict hr hp he
      exact ⟨this.1, by rw [← this.2.2.2.2.2.2.2.1]; exact hx⟩
    · rintro ⟨h1, h2⟩
      have he : (p, Hdl.blD h t p) ∈ Hdl.dict h dH t := List.mem_map.mpr ⟨p, h1, rfl⟩
      exact ⟨_, he, rfl, by rw [(Hdl.mem_dict hr hp he).2.2.2.2.2.2.2.1]; exact h2⟩
  rw [if_congr hex rfl rfl]
  ext v
  rw [SMap.find_eq_some hs, List.mem_filter, ← SMap.find_eq_some hJ]
  by_cases h1 : p ∈ dH.keys ∧ c.fix p = true
  · rw [if_pos h1]; simp [h1.2]
  · rw [if_neg h1]
    constructor
    · intro hf
      refine ⟨hf, ?_⟩
      have : p ∈ dH.keys := hk p ((SMap.find_isSome_iff J p).mp (by rw [hf]; rfl))
      have hc : c.fix p = false := by
        cases hc : c.fix p with
        | false => rfl
        | true => exact absurd ⟨this, hc⟩ h1
      simp [hc]
    · exact fun h => h.1

/-- Everything the observation of agent `a` needs. -/
theorem obsH_parts (hd : Dist T n h) (hr : Hdl.Rel dim h c) (hN : ∀ p ∈ ids, NewestAt T n p t) {ks : List ℕ} (hks : ks.Pairwise (· < ·)) (hperm : ks.Perm ids) :
    Hdl.Parts dim h c (keysMap ks) t ∧ participants dim c (keysMap ks) = freeOf dim c ks ∧
      Estimates c t ks (Hdl.dict h (keysMap ks) t) ∧ ids.Perm (keysMap ks).keys := by
  have hp : Hdl.Parts dim h c (keysMap ks) t := by
    refine ⟨?_, ?_, ?_⟩
    · rw [SMap.sorted_iff_keys, keysMap_keys]; exact hks
    · intro p hpm; rw [keysMap_keys] at hpm; exact (((hN p (hperm.mem_iff.mp hpm)).union hd).rel hr).1
    · intro p hpm; rw [keysMap_keys] at hpm; exact (((hN p (hperm.mem_iff.mp hpm)).union hd).rel hr).2
  refine ⟨hp, by unfold participants freeOf; rw [keysMap_keys], ⟨?_, ?_⟩, by rw [keysMap_keys]; exact hperm.symm⟩
  · exact (dict_keys hr hp hd).trans (keysMap_keys ks)
  · intro e he
    have := Hdl.mem_dict hr hp he
    exact ⟨this.2.2.2.2.1, this.2.2.2.2.2.1, this.2.2.2.2.2.2.1, this.2.2.2.2.2.2.2.1⟩

/-- One observation with a measurement function. -/
theorem obsH_sim (hnear : Hdl.NearOk near) (hd : Dist T n h) (hr : Hdl.Rel dim h c) (hw : Net.WfH T dim n a (.obsH hf ids R z t cfg))
    {r : Mat} {st : Status} (hs : Net.applyObsH T a near pj pred hf {} n R z t ids cfg = .ok ((n', r), st)) :
    ∃ h' c', CStepH (Agents.agentOf T) dim near c a (.obsH hf ids R z t cfg) (.meas st r) c' ∧ Dist T n' h' ∧ Hdl.SameDom h h' ∧ Hdl.Rel dim h' c' ∧
      (st ≠ .processed → h' = h) := by
  obtain ⟨hnd, hN, hall, hJ⟩ := hw
  obtain ⟨ks, hks, hperm⟩ := exists_sorted ids hnd
  obtain ⟨hp, hpart, hest, hpk⟩ := obsH_parts hd hr hN hks hperm
  have hreg : ∀ p ∈ ids, (h.find p).isSome := fun p hpm => (((hN p hpm).union hd).rel hr).1
  obtain ⟨s1, s2, -, -⟩ := Agents.split_spec (holds n a) T ids ([], [], []) List.Pairwise.nil
  rw [List.nil_append] at s1 s2
  obtain ⟨f1, f2⟩ := remote_factsL (a := a) hd hreg
  have hone := one_agent_iffL (a := a) hd hreg
  have hrne : ids.filter (fun p => !holds n a p) ≠ [] := fun e => hall (f1.mp e)
  have hq : (fun p => ((n a).find p).isSome) = holds n a := rfl
  simp only [Net.applyObsH, Agents.applyObsH, hq] at hs
  rw [if_neg (by rw [s1]; exact fun e => hrne (List.length_eq_zero_iff.mp e)), s1, s2] at hs
  by_cases ho : OneOtherL (Agents.agentOf T) a ids
  · rw [if_pos (hone.mpr ho)] at hs
    obtain ⟨x, hx, hs⟩ := Hdl.bind_eq_ok hs
    obtain ⟨e0, e2⟩ := Prod.mk.inj (Res.ok.inj hs)
    obtain ⟨e1, e3⟩ := Prod.mk.inj e0
    have ho' := ho
    obtain ⟨b, hba, ⟨k, hk, hkb⟩, hob⟩ := ho
    have hhead : Agents.agentOf T ((ids.filter (fun p => !holds n a p)).headD 0) = b := by
      obtain ⟨p0, r0, hpr⟩ := List.exists_cons_of_ne_nil hrne
      rw [hpr]
      have hm0 : p0 ∈ ids.filter (fun p => !holds n a p) := by rw [hpr]; exact List.mem_cons_self
      obtain ⟨u, v⟩ := List.mem_filter.mp hm0
      refine (hob p0 u).resolve_left (fun e => ?_)
      rw [(holds_iff hd (hreg p0 u)).mpr e] at v
      simp at v
    rw [hhead] at hx e1
    by_cases hle : ids.filter (holds n a) = []
    · have hna := f2.mp hle
      have hx' : x = (n a, n b, .outOfOrder, Mat.zero 0 1) := by
        rw [hle] at hx
        unfold interH at hx
        simp only [getBF, getBels, fccLoop, Res.bind_ok, List.isEmpty_nil, if_true] at hx
        exact (Res.ok.inj hx).symm
      rw [hx'] at e1 e2 e3
      refine ⟨h, c, ?_, ?_, Hdl.SameDom.refl h, hr, fun _ => rfl⟩
      · rw [← e2, ← e3]
        exact .none hf ids R z t cfg ho' hna
      · rw [← e1]
        simp only [Function.update_eq_self]
        exact hd
    · have hfilt : ∀ q : ℕ → Bool, ids.filter q ≠ [] → (keysMap ks).keys.filter q ≠ [] := by
        intro q hne e
        obtain ⟨p, hm⟩ := List.exists_mem_of_ne_nil _ hne
        obtain ⟨u, v⟩ := List.mem_filter.mp hm
        have : p ∈ (keysMap ks).keys.filter q := List.mem_filter.mpr ⟨hpk.mem_iff.mp u, v⟩
        rw [e] at this; simp at this
      have h2 : Two T n a b (keysMap ks) := by
        refine ⟨hfilt _ hle, hfilt _ hrne, fun p hpm hf' => (hob p (hpk.mem_iff.mpr hpm)).resolve_left (fun e => ?_)⟩
        rw [(holds_iff hd (hp.reg p hpm)).mpr e] at hf'
        simp at hf'
      obtain ⟨H, S, res, hH, hSC, hres, hrej, hacc⟩ := interH_spec hr hp hd h2 hpk hnear hf {} rfl R z cfg hx
      obtain ⟨j1, j2⟩ := hJ (Hdl.dict h (keysMap ks) t)
      have hdf := dropFixed_filter hr hp j1 (fun k hk => hpk.mem_iff.mp (j2 k hk))
      rw [hdf] at hH
      have hside := Hdl.stackH_spec _ (List.Pairwise.filter _ j1) H hH
      have hown : ∃ p ∈ ids, Agents.agentOf T p = a := by
        obtain ⟨p, hm⟩ := List.exists_mem_of_ne_nil _ hle
        obtain ⟨u, v⟩ := List.mem_filter.mp hm
        exact ⟨p, u, (holds_iff hd (hreg p u)).mp v⟩
      rw [hpart] at hSC
      have hlin : Linearised dim near c hf ids R z t cfg ks (hf (Hdl.dict h (keysMap ks) t) ids z).2 res :=
        ⟨hks, hperm, _, (hf (Hdl.dict h (keysMap ks) t) ids z).1, H, S, hest, rfl, hside, hSC, hres⟩
      cases hrj : res.rejected with
      | true =>
        have hx' := hrej hrj
        rw [hx'] at e1 e2 e3
        refine ⟨h, c, ?_, ?_, Hdl.SameDom.refl h, hr, fun _ => rfl⟩
        · rw [← e2, ← e3]
          exact .rej hf ids R z t cfg ks _ res ho' hown hlin hrj
        · rw [← e1]
          simp only [Function.update_eq_self]
          exact hd
      | false =>
        obtain ⟨-, h', l', rm', hsd, hr', hd', hx'⟩ := hacc hrj
        rw [if_pos rfl] at hx'
        rw [hx'] at e1 e2 e3
        rw [hpart] at hr'
        refine ⟨h', _, ?_, ?_, hsd, hr', fun e => absurd e2.symm e⟩
        · rw [← e2, ← e3]
          exact .obs hf ids R z t cfg ks _ res ho' hown hlin hrj
        · rw [← e1]; exact hd'
  · rw [if_neg (fun e => ho (hone.mp e))] at hs
    obtain ⟨e0, e2⟩ := Prod.mk.inj (Res.ok.inj hs)
    obtain ⟨e1, e3⟩ := Prod.mk.inj e0
    refine ⟨h, c, ?_, ?_, Hdl.SameDom.refl h, hr, fun _ => rfl⟩
    · rw [← e2, ← e3]
      exact .many hf ids R z t cfg hall ho
    · rw [← e1]; exact hd

/-- Calls of all agents (agent, call, answer), in any interleaving; all messages are delivered and no call throws or
runs into undefined behaviour. -/
inductive HRuns (T : Agents.Tables) (fp : FP) (near : Mat → Mat) (pj : Belief → Mat → Mat) (pred : ℕ → Inst → Int → Inst × Bool) (dim : ℕ → ℕ) :
    Net → List (ℕ × HEv × HAns) → Net → Prop
  | nil (n : Net) : HRuns T fp near pj pred dim n [] n
  | step {n n1 n2 : Net} {a : ℕ} {ev : HEv} {ans : HAns} {l : List (ℕ × HEv × HAns)} (hw : Net.WfH T dim n a ev)
      (hs : Net.runH T fp near pj pred {} n a ev = .ok (n1, ans)) (r : HRuns T fp near pj pred dim n1 l n2) :
      HRuns T fp near pj pred dim n ((a, ev, ans) :: l) n2

theorem hruns_sim (hnear : Hdl.NearOk near) (hd : Dist T n h) (hr : Hdl.Rel dim h c) {l : List (ℕ × HEv × HAns)}
    (hrun : HRuns T fp near pj pred dim n l n') :
    ∃ h' c', CSpecRunH (Agents.agentOf T) dim near c l c' ∧ Dist T n' h' ∧ Hdl.SameDom h h' ∧ Hdl.Rel dim h' c' := by
  induction hrun generalizing h c with
  | nil n => exact ⟨h, c, .nil c, hd, Hdl.SameDom.refl h, hr⟩
  | @step m m1 m2 a ev ans l hw hs _ ih =>
    have : ∃ h1 c1, CStepH (Agents.agentOf T) dim near c a ev ans c1 ∧ Dist T m1 h1 ∧ Hdl.SameDom h h1 ∧ Hdl.Rel dim h1 c1 := by
      cases ev with
      | base ev =>
        simp only [Net.runH] at hs
        obtain ⟨x, hx, hs⟩ := Hdl.bind_eq_ok hs
        obtain ⟨e1, e2⟩ := Prod.mk.inj (Res.ok.inj hs)
        obtain ⟨h1, c1, s1, d1, k1, r1, -⟩ := step_sim hnear hd hr ev hw hx
        rw [e1] at d1
        exact ⟨h1, c1, by rw [← e2]; exact .base s1, d1, k1, r1⟩
      | obsH hf ids R z t cfg =>
        simp only [Net.runH] at hs
        obtain ⟨x, hx, hs⟩ := Hdl.bind_eq_ok hs
        obtain ⟨e1, e2⟩ := Prod.mk.inj (Res.ok.inj hs)
        obtain ⟨h1, c1, s1, d1, k1, r1, -⟩ := obsH_sim hnear hd hr hw (r := x.1.2) (st := x.2) hx
        rw [e1] at d1
        exact ⟨h1, c1, by rw [← e2]; exact s1, d1, k1, r1⟩
    obtain ⟨h1, c1, s1, d1, k1, r1⟩ := this
    obtain ⟨h2, c2, s2, d2, k2, r2⟩ := ih d1 r1
    exact ⟨h2, c2, .cons s1 s2, d2, k1.trans k2, r2⟩

/-- C73. Any number of agents, each holding some of the instances (freshly initialised), make any in-order calls in any
interleaving, now also joint observations with a measurement function across agents; all messages are delivered. Every
agent holds the same instances as before; their newest beliefs, and the cross-covariance any agent reads, are those of one
centralised filter that evaluates the same measurement function at its own estimates. -/
theorem c73_agents_nonlinear (hnear : Hdl.NearOk near) {n0 : Net} {h0 : Hdl} {c0 : Central} (hd : Dist T n0 h0) (hi : Hdl.Init dim h0 c0)
    {l : List (ℕ × HEv × HAns)} (hrun : HRuns T fp near pj pred dim n0 l n) :
    ∃ c, CSpecRunH (Agents.agentOf T) dim near c0 l c ∧
      (∀ a p, ((n a).find p).isSome = ((n0 a).find p).isSome) ∧
      (∀ a p i, (n a).find p = some i → Agents.agentOf T p = a ∧ ∃ b, i.beliefAt (c.tm p) = some b ∧
        i.bel.getLast? = some (c.tm p, b) ∧ b.mean = c.mu p ∧ b.Sigma = c.cov p p) ∧
      ∀ a p q t, p ≠ q → NewestAt T n p t → NewestAt T n q t →
        Net.getSigma T a n p q t = .ok (c.cov p q) ∨
          (Net.getSigma T a n p q t = .ok Mat.empty ∧ c.cov p q = Mat.zero (dim p) (dim q)) := by
  obtain ⟨h, c, hs, hdn, hsd, hr⟩ := hruns_sim hnear hd hi.rel hrun
  exact ⟨c, hs, net_view hd hdn hsd hr⟩

/-! ## Answers, lost messages -/

/-- Reachable by in-order calls of all agents, with measurement functions too; all messages are delivered. -/
def HReach (T : Agents.Tables) (fp : FP) (near : Mat → Mat) (pj : Belief → Mat → Mat) (pred : ℕ → Inst → Int → Inst × Bool) (dim : ℕ → ℕ) (n : Net) : Prop :=
  ∃ n0 h0 c0 l, Dist T n0 h0 ∧ Hdl.Init dim h0 c0 ∧ HRuns T fp near pj pred dim n0 l n

theorem HReach.rel (hnear : Hdl.NearOk near) (hr : HReach T fp near pj pred dim n) : ∃ h c, Dist T n h ∧ Hdl.Rel dim h c := by
  obtain ⟨n0, h0, c0, l, hd, hi, hrun⟩ := hr
  obtain ⟨h, c, -, hd', -, hr'⟩ := hruns_sim hnear hd hi.rel hrun
  exact ⟨h, c, hd', hr'⟩

/-- The measurement function returns Jacobians of all participants, with fitting sizes. -/
def FitsH (dim : ℕ → ℕ) (hf : SMap Belief → List ℕ → Mat → SMap Mat × Mat) (ids : List ℕ) (R z : Mat) : Prop :=
  ∃ m, R.Shape m m ∧ ∀ bel, (∀ p ∈ ids, p ∈ (hf bel ids z).1.keys) ∧ (∀ e ∈ (hf bel ids z).1, e.2.Shape m (dim e.1)) ∧ (hf bel ids z).2.Shape m 1

theorem fix_free (hd : Dist T n h) (hr : Hdl.Rel dim h c) {p : ℕ} (hn : NewestAt T n p t) : c.fix p = false ↔ Free T n p := by
  refine ⟨fun hf i e hi he => ?_, free_fix hd hr hn⟩
  obtain ⟨hp, ht⟩ := Hdl.Newest.rel hr (hn.union hd)
  rw [hd.own] at hi
  obtain ⟨b, hb, -, -, -, hfx⟩ := hr.bel p hp
  have ho := (hr.ok.ord p i hi).bel
  rw [Hdl.bl_of_find hi, Inst.beliefAt_eq, Buf.absMap_eq_some _ ho] at hb
  have g1 := ho.sorted.le_getLast he _ hb
  have g2 := (hr.ok.upTo p i hi).bel e (List.mem_of_getLast? he)
  simp only at g1
  have g3 : e.1 = c.tm p := by omega
  have g4 := (Buf.absMap_eq_some _ ho e.1 e.2).mpr (List.mem_of_getLast? he)
  rw [g3, (Buf.absMap_eq_some _ ho _ _).mpr hb] at g4
  rw [← Option.some.inj g4, hfx, hf]

/-- A joint observation with participants at agent `a` and one other agent is the update between the two. -/
theorem obsH_case (hd : Dist T n h) (hr : Hdl.Rel dim h c) (hw : Net.WfH T dim n a (.obsH hf ids R z t cfg))
    (ho : OneOtherL (Agents.agentOf T) a ids) (hl : ∃ p ∈ ids, Agents.agentOf T p = a) :
    ∃ b, b ≠ a ∧ ∃ ks : List ℕ, ks.Pairwise (· < ·) ∧ ks.Perm ids ∧ Hdl.Parts dim h c (keysMap ks) t ∧ participants dim c (keysMap ks) = freeOf dim c ks ∧
      ids.Perm (keysMap ks).keys ∧ Two T n a b (keysMap ks) ∧
      ∀ near pj pred lk, Net.applyObsH T a near pj pred hf lk n R z t ids cfg = (do
        let x ← interH near pred hf lk (n a) (n b) R z t ids cfg (ids.filter (fun p => !holds n a p)) (ids.filter (holds n a))
        .ok ((Function.update (Function.update n a x.1) b x.2.1, x.2.2.2), x.2.2.1)) := by
  obtain ⟨hnd, hN, hall, hJ⟩ := hw
  obtain ⟨ks, hks, hperm⟩ := exists_sorted ids hnd
  obtain ⟨hp, hpart, hest, hpk⟩ := obsH_parts hd hr hN hks hperm
  have hreg : ∀ p ∈ ids, (h.find p).isSome := fun p hpm => (((hN p hpm).union hd).rel hr).1
  obtain ⟨s1, s2, -, -⟩ := Agents.split_spec (holds n a) T ids ([], [], []) List.Pairwise.nil
  rw [List.nil_append] at s1 s2
  obtain ⟨f1, f2⟩ := remote_factsL (a := a) hd hreg
  have hone := one_agent_iffL (a := a) hd hreg
  have hrne : ids.filter (fun p => !holds n a p) ≠ [] := fun e => hall (f1.mp e)
  have hle : ids.filter (holds n a) ≠ [] := by
    obtain ⟨p, hpm, hpa⟩ := hl
    exact fun e => f2.mp e p hpm hpa
  have ho' := ho
  obtain ⟨b, hba, ⟨k, hk, hkb⟩, hob⟩ := ho
  have hhead : Agents.agentOf T ((ids.filter (fun p => !holds n a p)).headD 0) = b := by
    obtain ⟨p0, r0, hpr⟩ := List.exists_cons_of_ne_nil hrne
    rw [hpr]
    have hm0 : p0 ∈ ids.filter (fun p => !holds n a p) := by rw [hpr]; exact List.mem_cons_self
    obtain ⟨u, v⟩ := List.mem_filter.mp hm0
    refine (hob p0 u).resolve_left (fun e => ?_)
    rw [(holds_iff hd (hreg p0 u)).mpr e] at v
    simp at v
  have hfilt : ∀ q : ℕ → Bool, ids.filter q ≠ [] → (keysMap ks).keys.filter q ≠ [] := by
    intro q hne e
    obtain ⟨p, hm⟩ := List.exists_mem_of_ne_nil _ hne
    obtain ⟨u, v⟩ := List.mem_filter.mp hm
    have : p ∈ (keysMap ks).keys.filter q := List.mem_filter.mpr ⟨hpk.mem_iff.mp u, v⟩
    rw [e] at this; simp at this
  refine ⟨b, hba, ks, hks, hperm, hp, hpart, hpk, ⟨hfilt _ hle, hfilt _ hrne, fun p hpm hf' => (hob p (hpk.mem_iff.mpr hpm)).resolve_left (fun e => ?_)⟩, ?_⟩
  · rw [(holds_iff hd (hp.reg p hpm)).mpr e] at hf'
    simp at hf'
  · intro near pj pred lk
    have hq : (fun p => ((n a).find p).isSome) = holds n a := rfl
    simp only [Net.applyObsH, Agents.applyObsH, hq]
    rw [if_neg (by rw [s1]; exact fun e => hrne (List.length_eq_zero_iff.mp e)), s1, s2, if_pos (hone.mpr ho'), hhead]

/-- Columns of the Jacobians of the free participants. -/
theorem hcols_free {J : SMap Mat} {m : ℕ} {ks : List ℕ} (hks : ks.Pairwise (· < ·)) (hJ : J.Sorted) (hk : ∀ k, k ∈ J.keys ↔ k ∈ ks)
    (hs : ∀ e ∈ J, e.2.Shape m (dim e.1)) : Hdl.hcols (J.filter (fun e => !c.fix e.1)) = freeOf dim c ks := by
  have hkeys : J.keys = ks := by
    have h1 := (SMap.sorted_iff_keys J).mp hJ
    exact List.Perm.eq_of_pairwise (fun a b _ _ x y => absurd x (not_lt.mpr y.le)) h1 hks
      ((List.perm_ext_iff_of_nodup (h1.imp fun h => h.ne) (hks.imp fun h => h.ne)).mpr hk)
  rw [← hkeys]
  unfold Hdl.hcols freeOf SMap.keys
  rw [List.filter_map, List.map_map]
  apply List.map_congr_left
  intro e he
  have := hs e (List.mem_filter.mp he).1
  simp only [Function.comp]
  rw [this.2]

theorem room_iff (hd : Dist T n h) (hr : Hdl.Rel dim h c) (hN : ∀ p ∈ ids, NewestAt T n p t) {dH : SMap Mat} (hp : Hdl.Parts dim h c dH t)
    (hpk : ids.Perm dH.keys) :
    Room h dH t n a ↔ ∃ p ∈ ids, Free T n p ∧ (Agents.agentOf T p ≠ a ∨ ∃ q ∈ ids, q ≠ p ∧ Free T n q) := by
  have hm : ∀ p, p ∈ (dU h dH t).map (·.1) ↔ p ∈ ids ∧ Free T n p := fun p => by
    rw [mem_dU hr hp hd, ← hpk.mem_iff]
    exact and_congr_right fun hpm => fix_free hd hr (hN p hpm)
  have hreg : ∀ p ∈ ids, (h.find p).isSome := fun p hpm => (((hN p hpm).union hd).rel hr).1
  have hnd : ((dU h dH t).map (·.1)).Nodup := by
    have := (SMap.sorted_iff_keys _).mp (Hdl.unfixed_sorted (Hdl.dict_sorted (h := h) hp))
    exact this.imp fun h => h.ne
  unfold Room
  have hlen : (dU h dH t).length = ((dU h dH t).map (·.1)).length := by simp
  have hh : (∀ e ∈ dU h dH t, holds n a e.1 = false) ↔ ∀ p ∈ (dU h dH t).map (·.1), holds n a p = false := by simp
  have he : dU h dH t ≠ [] ↔ (dU h dH t).map (·.1) ≠ [] := by simp
  rw [hlen, hh, he]
  generalize (dU h dH t).map (·.1) = L at *
  constructor
  · rintro ⟨hne, h2 | hrem⟩
    · match L, h2 with
      | p :: q :: r, _ =>
        obtain ⟨u1, u2⟩ := (hm p).mp (by simp)
        obtain ⟨v1, v2⟩ := (hm q).mp (by simp)
        exact ⟨p, u1, u2, Or.inr ⟨q, v1, fun e => by simp [e] at hnd, v2⟩⟩
    · obtain ⟨p, hpm⟩ := List.exists_mem_of_ne_nil _ hne
      obtain ⟨u, v⟩ := (hm p).mp hpm
      refine ⟨p, u, v, Or.inl fun e => ?_⟩
      have := hrem p hpm
      rw [(holds_iff hd (hreg p u)).mpr e] at this
      simp at this
  · rintro ⟨p, u, v, hor⟩
    have hpm := (hm p).mpr ⟨u, v⟩
    refine ⟨List.ne_nil_of_mem hpm, ?_⟩
    have two : ∀ q ∈ L, q ≠ p → 2 ≤ L.length := by
      intro q hq hne
      match L, hpm, hq with
      | [x], h1, h2 => simp at h1 h2; exact absurd (h2.trans h1.symm) hne
      | _ :: _ :: _, _, _ => simp
    rcases hor with hor | ⟨q, q1, q2, q3⟩
    · by_cases hex : ∃ q ∈ L, q ≠ p
      · obtain ⟨q, q1, q2⟩ := hex
        exact Or.inl (two q q1 q2)
      · right
        intro q hq
        have : q = p := by by_contra hne; exact hex ⟨q, hq, hne⟩
        subst this
        by_contra hx
        exact hor ((holds_iff hd (hreg q u)).mp (by simpa using hx))
    · exact Or.inl (two q ((hm q).mpr ⟨q1, q3⟩) q2)

/-- C73. An in-order observation with a measurement function of fitting sizes, with participants at agent `a` and one other
agent, gets an answer if a participant of the other agent is free, or two participants are free; without a gate it is
PROCESSED. If the only free participant is held by `a`, an accepted observation throws. -/
theorem c73_answer_partial (hnear : Hdl.NearOk near) (hreach : HReach T fp near pj pred dim n) (hw : Net.WfH T dim n a (.obsH hf ids R z t cfg))
    (hfit : FitsH dim hf ids R z) (hg : GateOk cfg) (ho : OneOtherL (Agents.agentOf T) a ids) (hl : ∃ p ∈ ids, Agents.agentOf T p = a) :
    ((∃ p ∈ ids, Free T n p ∧ (Agents.agentOf T p ≠ a ∨ ∃ q ∈ ids, q ≠ p ∧ Free T n q)) →
      ∃ n' r st, Net.applyObsH T a near pj pred hf {} n R z t ids cfg = .ok ((n', r), st) ∧ (cfg.outlier = false → st = .processed)) ∧
    (∀ p ∈ ids, Free T n p → Agents.agentOf T p = a → (∀ q ∈ ids, q ≠ p → ¬ Free T n q) → cfg.outlier = false →
      Net.applyObsH T a near pj pred hf {} n R z t ids cfg = .throws) := by
  obtain ⟨h, c, hd, hr⟩ := hreach.rel hnear
  obtain ⟨b, hba, ks, hks, hperm, hp, hpart, hpk, h2, hrun⟩ := obsH_case hd hr hw ho hl
  obtain ⟨hnd, hN, hall, hJ⟩ := hw
  obtain ⟨m, hR, hfit⟩ := hfit
  obtain ⟨g1, g2, g3⟩ := hfit (Hdl.dict h (keysMap ks) t)
  obtain ⟨j1, j2⟩ := hJ (Hdl.dict h (keysMap ks) t)
  have hdf := dropFixed_filter hr hp j1 (fun k hk => hpk.mem_iff.mp (j2 k hk))
  have hc := hcols_free (c := c) hks j1 (fun k => ⟨fun hk => hperm.mem_iff.mpr (j2 k hk), fun hk => g1 k (hperm.mem_iff.mp hk)⟩) g2
  have prep : (∃ p ∈ ids, Free T n p) → ∃ H, Hdl.stackH (dropFixed (Hdl.dict h (keysMap ks) t) (hf (Hdl.dict h (keysMap ks) t) ids z).1) = .ok H ∧
      ∀ S, StackedCov (participants dim c (keysMap ks)) c.cov S → ∃ res,
        correctionStep H R (hf (Hdl.dict h (keysMap ks) t) ids z).2 (Hdl.fixPsd near (stabM S (1 / 10^12))) cfg = .ok res ∧
        (cfg.outlier = false → res.rejected = false) := by
    rintro ⟨p, hpm, hpf⟩
    have hfix := (fix_free hd hr (hN p hpm)).mpr hpf
    have hne : (hf (Hdl.dict h (keysMap ks) t) ids z).1.filter (fun e => !c.fix e.1) ≠ [] := by
      obtain ⟨e, he, hep⟩ := List.mem_map.mp (g1 p hpm)
      refine List.ne_nil_of_mem (List.mem_filter.mpr ⟨he, ?_⟩)
      rw [hep, hfix]; rfl
    obtain ⟨H, hH, hHs⟩ := Hdl.stackH_ok _ m (fun e he => (g2 e (List.mem_filter.mp he).1).1) hne
    rw [hc, ← hpart] at hHs
    rw [← hdf] at hH
    refine ⟨H, hH, fun S hSC => ?_⟩
    obtain ⟨hP0, -⟩ := Hdl.fixPsd_facts hnear (hSC.1.stabM (1 / 10^12)) (stabM_tr' hSC.1 _)
    obtain ⟨rej, e, hu⟩ := correctionStep_progress ⟨hHs, hR, g3, hP0⟩ hg
    exact ⟨_, e, hu⟩
  have hroom := room_iff (a := a) hd hr hN hp hpk
  constructor
  · intro hex
    obtain ⟨p, hpm, hpf, -⟩ := id hex
    obtain ⟨H, hH, hst⟩ := prep ⟨p, hpm, hpf⟩
    obtain ⟨S, hSC, hin⟩ := interH_ex (pred := pred) hr hp hd h2 hpk hnear hf {} rfl R z cfg hH
    obtain ⟨res, hres, -⟩ := hst S hSC
    obtain ⟨y, hy⟩ := (hin res hres).1 (Or.inr (hroom.mpr hex))
    refine ⟨_, _, _, by rw [hrun, hy]; rfl, fun hg0 => ?_⟩
    obtain ⟨H', S', res', hH', hSC', hres', -, hacc⟩ := interH_spec hr hp hd h2 hpk hnear hf {} rfl R z cfg hy
    rw [hH] at hH'
    obtain ⟨res2, e2, hu2⟩ := hst S' hSC'
    rw [← Res.ok.inj hH', e2] at hres'
    obtain ⟨-, h', l', rm', -, -, -, ey⟩ := hacc (by rw [← Res.ok.inj hres']; exact hu2 hg0)
    rw [ey]; rfl
  · intro p hpm hpf hpa hoth hg0
    obtain ⟨H, hH, hst⟩ := prep ⟨p, hpm, hpf⟩
    obtain ⟨S, hSC, hin⟩ := interH_ex (pred := pred) hr hp hd h2 hpk hnear hf {} rfl R z cfg hH
    obtain ⟨res, hres, hu⟩ := hst S hSC
    rw [hrun, (hin res hres).2 (hu hg0)]
    · rfl
    · rw [hroom]
      rintro ⟨q, hq, hqf, hqa⟩
      have : q = p := by by_contra hne; exact hoth q hq hne hqf
      subst this
      rcases hqa with hqa | ⟨q', u, v, w⟩
      · exact hqa hpa
      · exact hoth q' u v w

/-- C73. The request for the beliefs of the other agent is lost: nothing changes and the status is OUTOFORDER. -/
theorem c73_lost_request (hnear : Hdl.NearOk near) (hreach : HReach T fp near pj pred dim n) (hw : Net.WfH T dim n a (.obsH hf ids R z t cfg))
    (ho : OneOtherL (Agents.agentOf T) a ids) (hl : ∃ p ∈ ids, Agents.agentOf T p = a) {lk : Link} (hlk : lk.recv = false) :
    Net.applyObsH T a near pj pred hf lk n R z t ids cfg = .ok ((n, Mat.zero 0 1), .outOfOrder) := by
  obtain ⟨h, c, hd, hr⟩ := hreach.rel hnear
  obtain ⟨b, hba, ks, hks, hperm, hp, hpart, hpk, h2, hrun⟩ := obsH_case hd hr hw ho hl
  have hreg : ∀ p ∈ ids, (h.find p).isSome := fun p hpm => (((hw.2.1 p hpm).union hd).rel hr).1
  obtain ⟨f1, f2⟩ := remote_factsL (a := a) hd hreg
  obtain ⟨pr, hpr⟩ := List.exists_mem_of_ne_nil _ (fun e => hw.2.2.1 (f1.mp e))
  obtain ⟨pl, hpl0, hpla⟩ := hl
  have hpl : pl ∈ ids.filter (holds n a) := List.mem_filter.mpr ⟨hpl0, (holds_iff hd (hreg pl hpl0)).mpr hpla⟩
  obtain ⟨lb, lF, hgl, hlb, hlbf, -, -⟩ := getBF_any pred t (Hdl.blD h t) (n a) (ids.filter (holds n a))
    (ids.filter (fun p => !holds n a p) ++ ids.filter (holds n a)) (hw.1.filter _)
    (fun I hI => ⟨pr, List.mem_append_left _ hpr, fun e => by
        have u := (List.mem_filter.mp hI).2
        have v := (List.mem_filter.mp hpr).2
        rw [← e, u] at v; simp at v⟩)
    (fun p hm => by
        obtain ⟨u, v⟩ := List.mem_filter.mp hm
        refine stored_at hr hp hd (hpk.mem_iff.mp u) ?_
        have := hd.own p
        rw [hd.local (a := a) v] at this
        exact this)
  have hlbne : lb.isEmpty = false := by
    cases lb with
    | nil => have := hlbf pl; rw [if_pos hpl] at this; simp [SMap.find] at this
    | cons => rfl
  rw [hrun]
  unfold interH
  dsimp only
  rw [hgl, Res.bind_ok]
  dsimp only
  rw [hlbne, if_neg (by simp), hlk, if_neg (by simp), Res.bind_ok]
  simp only [Function.update_eq_self]

/-- C73. The posterior is not delivered to the other agent: an observation that would have been PROCESSED is answered
OUTOFORDER and the other agent is as before, but the calling agent is as if it had been delivered. (An outlier is not sent.) -/
theorem c73_lost_posterior (hnear : Hdl.NearOk near) (hreach : HReach T fp near pj pred dim n) (hw : Net.WfH T dim n a (.obsH hf ids R z t cfg))
    (ho : OneOtherL (Agents.agentOf T) a ids) (hl : ∃ p ∈ ids, Agents.agentOf T p = a) {r : Mat} {st : Status}
    (hs : Net.applyObsH T a near pj pred hf {} n R z t ids cfg = .ok ((n', r), st)) :
    (st = .processed ∧ Net.applyObsH T a near pj pred hf { send := false } n R z t ids cfg = .ok ((Function.update n a (n' a), Mat.zero 0 1), .outOfOrder)) ∨
      (st = .rejected ∧ n' = n ∧ Net.applyObsH T a near pj pred hf { send := false } n R z t ids cfg = .ok ((n, r), .rejected)) := by
  obtain ⟨h, c, hd, hr⟩ := hreach.rel hnear
  obtain ⟨b, hba, ks, hks, hperm, hp, hpart, hpk, h2, hrun⟩ := obsH_case hd hr hw ho hl
  obtain ⟨S, rb, hSC, hrbs, hrbf, hU⟩ := interH_unfold hr hp hd h2 hpk
  rw [hrun, hU near pred hf {} rfl R z cfg] at hs
  rw [hrun, hU near pred hf { send := false } rfl R z cfg]
  obtain ⟨x, hx, hs⟩ := Hdl.bind_eq_ok hs
  obtain ⟨H, g1, hx⟩ := Hdl.bind_eq_ok hx
  obtain ⟨res, g2, hx⟩ := Hdl.bind_eq_ok hx
  rw [g1, Res.bind_ok, g2, Res.bind_ok]
  cases hrj : res.rejected with
  | true =>
    rw [hrj, if_neg (by simp)] at hx
    right
    rw [if_neg (by simp), Res.bind_ok]
    rw [← Res.ok.inj hx] at hs
    obtain ⟨e1, e2⟩ := Prod.mk.inj (Res.ok.inj hs)
    obtain ⟨e0, e1⟩ := Prod.mk.inj e1
    simp only [Function.update_eq_self] at e0 ⊢
    exact ⟨e2.symm, e0.symm, by rw [← e1]⟩
  | false =>
    rw [hrj, if_pos (show (!false) = true from rfl)] at hx
    dsimp only at hx
    left
    rw [if_pos (show (!false) = true from rfl)]
    obtain ⟨l1, g3, hx⟩ := Hdl.bind_eq_ok hx
    obtain ⟨G, g4, hx⟩ := Hdl.bind_eq_ok hx
    obtain ⟨l2, g5, hx⟩ := Hdl.bind_eq_ok hx
    obtain ⟨y, g6, hx⟩ := Hdl.bind_eq_ok hx
    rw [if_pos rfl] at hx
    obtain ⟨rm', g7, hx⟩ := Hdl.bind_eq_ok hx
    dsimp only
    rw [g3, Res.bind_ok, g4, Res.bind_ok, g5, Res.bind_ok, g6, Res.bind_ok, if_neg (by simp), Res.bind_ok]
    rw [← Res.ok.inj hx] at hs
    obtain ⟨e1, e2⟩ := Prod.mk.inj (Res.ok.inj hs)
    obtain ⟨e0, e1⟩ := Prod.mk.inj e1
    refine ⟨e2.symm, ?_⟩
    rw [← e0]
    simp only
    rw [Function.update_of_ne (Ne.symm hba), Function.update_self]
    congr 3
    rw [Function.update_comm (Ne.symm hba), Function.update_eq_self]

end Collab
end Ikf
