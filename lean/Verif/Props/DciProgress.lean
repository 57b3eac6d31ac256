import Verif.Props.Dci

/-!
# Agents with covariance intersection: answers (C75), lost messages (C74)
-/

namespace Ikf
open Mat
namespace Collab

variable {T : Agents.Tables} {a b : ℕ} {n n' : Net} {h : Hdl} {dim : ℕ → ℕ} {c : ℕ → Central} {t : Int}
  {near : Mat → Mat} {pj : Belief → Mat → Mat} {pred : ℕ → Inst → Int → Inst × Bool} {fp : FP}
  {hf : SMap Belief → List ℕ → Mat → SMap Mat × Mat} {ids : List ℕ} {R z : Mat} {cfg : Cfg}

/-- Reachable by in-order calls of all agents. -/
def DReach (T : Agents.Tables) (fp : FP) (near : Mat → Mat) (pj : Belief → Mat → Mat) (pred : ℕ → Inst → Int → Inst × Bool) (dim : ℕ → ℕ) (n : Net) : Prop :=
  ∃ (n0 : Net) (c0 : ℕ → Central) (l : List (ℕ × HEv × HAns)), Placed T n0 ∧ (∀ a, Hdl.Init dim (n0 a) (c0 a)) ∧ DRuns T fp near pj pred dim n0 l n

theorem DReach.rel (hnear : Hdl.NearOk near) (hr : DReach T fp near pj pred dim n) : ∃ c : ℕ → Central, Placed T n ∧ ∀ a, Hdl.Rel dim (n a) (c a) := by
  obtain ⟨n0, c0, l, hp, hi, hrun⟩ := hr
  obtain ⟨c, -, -, hp', hr'⟩ := druns_sim hnear hp (fun a => (hi a).rel) hrun
  exact ⟨c, hp', hr'⟩

/-- C74. Whatever an agent does in order: every other agent is as before. -/
theorem c74_others_untouched (hnear : Hdl.NearOk near) (hreach : DReach T fp near pj pred dim n) {ev : HEv} {ans : HAns} (hw : Net.WfDci T dim n a ev)
    (hs : Net.runDci T fp near pj pred {} n a ev = .ok (n', ans)) (x : ℕ) (hx : x ≠ a) : n' x = n x := by
  obtain ⟨c, hpl, hr⟩ := hreach.rel hnear
  obtain ⟨h', c', e, -⟩ := stepDci_sim hnear hpl hr hw hs
  rw [e, Function.update_of_ne hx]

/-- C74. The request for the beliefs of the other agent is not answered: nothing changes and the status is OUTOFORDER. -/
theorem c74_lost_request (hnear : Hdl.NearOk near) (hreach : DReach T fp near pj pred dim n) (hw : Net.WfDci T dim n a (.obsH hf ids R z t cfg))
    (ho : OtherIs (Agents.agentOf T) a b ids) (hl : ∃ p ∈ ids, Agents.agentOf T p = a) {lk : Link} (hlk : lk.recv = false) :
    Net.applyObsDci T a near pj pred hf lk n R z t ids cfg = .ok ((n, Mat.zero 0 1), .outOfOrder) := by
  obtain ⟨c, hpl, hr⟩ := hreach.rel hnear
  obtain ⟨ka, kb, -, -, -, -, -, -, -, -, lF, rF, hlost, -⟩ := dci_case hpl hr hw.1 hw.2.1 ho hl near pj pred hf R z cfg
  exact hlost lk hlk

theorem fix_freeD (hr : ∀ a, Hdl.Rel dim (n a) (c a)) {p : ℕ} (hn : NewestAt T n p t) (ho : Agents.agentOf T p = a) :
    (c a).fix p = false ↔ Free T n p := by
  subst ho
  obtain ⟨hp, ht⟩ := Hdl.Newest.rel (hr _) hn
  obtain ⟨b, hb, -, -, -, hfx⟩ := (hr _).bel p hp
  have key : ∀ i e, (n (Agents.agentOf T p)).find p = some i → i.bel.getLast? = some e → e.2 = b := by
    intro i e hi he
    have ho := ((hr _).ok.ord p i hi).bel
    rw [Hdl.bl_of_find hi, Inst.beliefAt_eq, Buf.absMap_eq_some _ ho] at hb
    have g1 := ho.sorted.le_getLast he _ hb
    have g2 := ((hr _).ok.upTo p i hi).bel e (List.mem_of_getLast? he)
    simp only at g1
    have g3 : e.1 = (c (Agents.agentOf T p)).tm p := by omega
    have g4 := (Buf.absMap_eq_some _ ho e.1 e.2).mpr (List.mem_of_getLast? he)
    rw [g3, (Buf.absMap_eq_some _ ho _ _).mpr hb] at g4
    exact (Option.some.inj g4).symm
  constructor
  · intro hf i e hi he
    rw [key i e hi he, hfx, hf]
  · intro hfree
    obtain ⟨i, e, hi, he, -⟩ := hn
    rw [← hfx, ← key i e hi he]
    exact hfree i e hi he

/-- Columns of the Jacobians of one side. -/
theorem hcols_side {J : SMap Mat} {m : ℕ} {ks : List ℕ} (hks : ks.Pairwise (· < ·)) (hJ : J.Sorted) (hk : ∀ k ∈ ks, k ∈ J.keys)
    (hs : ∀ e ∈ J, e.2.Shape m (dim e.1)) : Hdl.hcols (J.filter (fun e => decide (e.1 ∈ ks))) = ks.map (fun p => (p, dim p)) := by
  have hkeys : SMap.keys (J.filter (fun e => decide (e.1 ∈ ks))) = ks := by
    have h1 : (SMap.keys (J.filter (fun e => decide (e.1 ∈ ks)))).Pairwise (· < ·) := (SMap.sorted_iff_keys _).mp (List.Pairwise.filter _ hJ)
    refine List.Perm.eq_of_pairwise (fun a b _ _ x y => absurd x (not_lt.mpr y.le)) h1 hks
      ((List.perm_ext_iff_of_nodup (h1.imp fun h => h.ne) (hks.imp fun h => h.ne)).mpr fun p => ?_)
    unfold SMap.keys
    simp only [List.mem_map, List.mem_filter, decide_eq_true_eq]
    constructor
    · rintro ⟨e, ⟨-, he⟩, rfl⟩; exact he
    · intro hp
      obtain ⟨e, he, rfl⟩ := List.mem_map.mp (hk p hp)
      exact ⟨e, ⟨he, hp⟩, rfl⟩
  refine Eq.trans ?_ (congrArg (List.map fun p => (p, dim p)) hkeys)
  unfold Hdl.hcols SMap.keys
  rw [List.map_map]
  apply List.map_congr_left
  intro e he
  have := hs e (List.mem_filter.mp he).1
  simp only [Function.comp]
  rw [this.2]

/-- The Jacobians of the free participants of one side. -/
theorem stack_side {J : SMap Mat} {m : ℕ} {ks : List ℕ} (hks : ks.Pairwise (· < ·)) (hJ : J.Sorted) (hk : ∀ k ∈ ks, k ∈ J.keys)
    (hs : ∀ e ∈ J, e.2.Shape m (dim e.1)) :
    ∃ H, Hdl.stackH (J.filter (fun e => decide (e.1 ∈ ks))) = .ok H ∧ H.cols = tot (ks.map fun p => (p, dim p)) ∧ (ks ≠ [] → H.rows = m) ∧ (ks = [] → H.rows = 0) := by
  by_cases hne : ks = []
  · subst hne
    refine ⟨Mat.zero 0 0, ?_, rfl, fun h => absurd rfl h, fun _ => rfl⟩
    have : J.filter (fun e => decide (e.1 ∈ ([] : List ℕ))) = [] := by simp
    rw [this]
    rfl
  · have hJne : J.filter (fun e => decide (e.1 ∈ ks)) ≠ [] := by
      intro e
      have := hcols_side hks hJ hk hs
      rw [e] at this
      exact hne (List.map_eq_nil_iff.mp this.symm)
    obtain ⟨H, hH, hHs⟩ := Hdl.stackH_ok _ m (fun e he => (hs e (List.mem_filter.mp he).1).1) hJne
    rw [hcols_side hks hJ hk hs] at hHs
    exact ⟨H, hH, hHs.2, fun _ => hHs.1, fun e => absurd e hne⟩

/-- C75. An in-order observation of agent `a` with a measurement function of fitting sizes (at least one row) and instances
of one other agent `b`:
1. if one of the two agents contributes a single instance and that one is free, the call throws;
2. otherwise it gets an answer: PROCESSED without a gate if both agents contribute a free instance, REJECTED if all the
   instances of one agent are fixed. -/
theorem c75_answer_partial (hnear : Hdl.NearOk near) (hreach : DReach T fp near pj pred dim n) (hw : Net.WfDci T dim n a (.obsH hf ids R z t cfg))
    (hfit : FitsH dim hf ids R z) (hm : 0 < R.rows) (hg : GateOk cfg) (ho : OtherIs (Agents.agentOf T) a b ids) (hl : ∃ p ∈ ids, Agents.agentOf T p = a) :
    ((∃ p ∈ ids, Free T n p ∧ ∀ q ∈ ids, Agents.agentOf T q = Agents.agentOf T p → q = p) →
      Net.applyObsDci T a near pj pred hf {} n R z t ids cfg = .throws) ∧
    ((¬ ∃ p ∈ ids, Free T n p ∧ ∀ q ∈ ids, Agents.agentOf T q = Agents.agentOf T p → q = p) →
      ∃ n' r st, Net.applyObsDci T a near pj pred hf {} n R z t ids cfg = .ok ((n', r), st) ∧
        ((∃ p ∈ ids, Agents.agentOf T p = a ∧ Free T n p) → (∃ p ∈ ids, Agents.agentOf T p = b ∧ Free T n p) → cfg.outlier = false → st = .processed) ∧
        ((∀ p ∈ ids, Agents.agentOf T p = a → ¬ Free T n p) ∨ (∀ p ∈ ids, Agents.agentOf T p = b → ¬ Free T n p) → st = .rejected ∧ n' = n)) := by
  obtain ⟨c, hpl, hr⟩ := hreach.rel hnear
  obtain ⟨ka, kb, hka, hkb, hma, hmb, hpa, hpb, hPa, hPb, lF, rF, -, hrun, hsa, hsb⟩ := dci_case hpl hr hw.1 hw.2.1 ho hl near pj pred hf R z cfg
  obtain ⟨hnd, hN, hall, hJ⟩ := hw
  obtain ⟨m, hR, hfit⟩ := hfit
  have hm0 : 0 < m := by rw [← hR.1]; exact hm
  have hfr : ∀ x, ∀ p ∈ ids, Agents.agentOf T p = x → ((c x).fix p = false ↔ Free T n p) := fun x p hp hx => fix_freeD hr (hN p hp) hx
  set Da := Hdl.dict (n a) (keysMap ka) t with hDa
  set Db := Hdl.dict (n b) (keysMap kb) t with hDb
  obtain ⟨g1, g2, g3⟩ := hfit (insertAll (insertAll [] Da) Db)
  have hJs := hJ (insertAll (insertAll [] Da) Db)
  obtain ⟨Hi, hHi, hic, hir, hir0⟩ := stack_side (hka.filter fun p => !(c a).fix p) hJs
    (fun k hk => g1 k ((hma k).mp (List.mem_filter.mp hk).1).1) g2
  obtain ⟨Hj, hHj, hjc, hjr, hjr0⟩ := stack_side (hkb.filter fun p => !(c b).fix p) hJs
    (fun k hk => g1 k ((hmb k).mp (List.mem_filter.mp hk).1).1) g2
  rw [← side_jac (hr a) hPa hpa hJs, ← hDa] at hHi
  rw [← side_jac (hr b) hPb hpb hJs, ← hDb] at hHj
  rw [hrun {} rfl]
  -- a single instance of one side
  have sing : ∀ (x : ℕ) (ks : List ℕ), ks.Pairwise (· < ·) → (∀ p, p ∈ ks ↔ p ∈ ids ∧ Agents.agentOf T p = x) →
      ((∃ p, ks = [p] ∧ (c x).fix p = false) ↔ ∃ p ∈ ids, Agents.agentOf T p = x ∧ Free T n p ∧ ∀ q ∈ ids, Agents.agentOf T q = Agents.agentOf T p → q = p) := by
    intro x ks hks hmem
    constructor
    · rintro ⟨p, rfl, hfx⟩
      obtain ⟨u, v⟩ := (hmem p).mp (by simp)
      refine ⟨p, u, v, (hfr x p u v).mp hfx, fun q hq e => ?_⟩
      have := (hmem q).mpr ⟨hq, by rw [e]; exact v⟩
      simpa using this
    · rintro ⟨p, hp, hx, hfree, huniq⟩
      refine ⟨p, ?_, (hfr x p hp hx).mpr hfree⟩
      refine List.perm_singleton.mp ((List.perm_ext_iff_of_nodup (hks.imp fun h => h.ne) (by simp)).mpr fun q => ?_)
      rw [hmem, List.mem_singleton]
      exact ⟨fun ⟨u, v⟩ => huniq q u (by rw [v, hx]), fun e => by rw [e]; exact ⟨hp, hx⟩⟩
  have hsingle : (∃ p ∈ ids, Free T n p ∧ ∀ q ∈ ids, Agents.agentOf T q = Agents.agentOf T p → q = p) ↔
      (∃ p, ka = [p] ∧ (c a).fix p = false) ∨ (∃ p, kb = [p] ∧ (c b).fix p = false) := by
    rw [sing a ka hka hma, sing b kb hkb hmb]
    constructor
    · rintro ⟨p, hp, h1, h2⟩
      exact (ho.2.2 p hp).imp (fun e => ⟨p, hp, e, h1, h2⟩) (fun e => ⟨p, hp, e, h1, h2⟩)
    · rintro (⟨p, hp, -, h1, h2⟩ | ⟨p, hp, -, h1, h2⟩) <;> exact ⟨p, hp, h1, h2⟩
  rw [hsingle]
  have nonempty : ∀ (x : ℕ) (ks : List ℕ), (∀ p, p ∈ ks ↔ p ∈ ids ∧ Agents.agentOf T p = x) →
      (ks.filter (fun p => !(c x).fix p) ≠ [] ↔ ∃ p ∈ ids, Agents.agentOf T p = x ∧ Free T n p) := by
    intro x ks hmem
    constructor
    · intro hne
      obtain ⟨p, hp⟩ := List.exists_mem_of_ne_nil _ hne
      obtain ⟨u, v⟩ := List.mem_filter.mp hp
      obtain ⟨u1, u2⟩ := (hmem p).mp u
      exact ⟨p, u1, u2, (hfr x p u1 u2).mp (by simpa using v)⟩
    · rintro ⟨p, u1, u2, u3⟩
      refine List.ne_nil_of_mem (List.mem_filter.mpr ⟨(hmem p).mpr ⟨u1, u2⟩, ?_⟩)
      rw [(hfr x p u1 u2).mpr u3]; rfl
  have hra := nonempty a ka hma
  have hrb := nonempty b kb hmb
  unfold dciTail
  dsimp only
  rw [hHi, Res.bind_ok, hHj, Res.bind_ok]
  constructor
  · rintro (h1 | h1)
    · rcases hsa with ⟨-, hno⟩ | ⟨-, hth⟩
      · exact absurd h1 hno
      · rw [hth]; rfl
    · rcases hsa with ⟨⟨Sa, hSa, hea⟩, -⟩ | ⟨-, hth⟩
      · rcases hsb with ⟨-, hno⟩ | ⟨-, hth⟩
        · exact absurd h1 hno
        · obtain ⟨Si0, e1, -⟩ := Hdl.bind_eq_ok (hea near)
          rw [e1, Res.bind_ok, hth]; rfl
      · rw [hth]; rfl
  · intro hno
    rw [not_or] at hno
    rcases hsa with ⟨⟨Sa, hSa, hea⟩, -⟩ | ⟨hx, -⟩
    swap
    · exact absurd hx hno.1
    rcases hsb with ⟨⟨Sb, hSb, heb⟩, -⟩ | ⟨hx, -⟩
    swap
    · exact absurd hx hno.2
    obtain ⟨Si0, e1, e2⟩ := Hdl.bind_eq_ok (hea near)
    obtain ⟨Sj0, e3, e4⟩ := Hdl.bind_eq_ok (heb near)
    rw [e1, Res.bind_ok, e3, Res.bind_ok, e2, Res.bind_ok, e4, Res.bind_ok]
    obtain ⟨f1, f2⟩ := Hdl.fixPsd_facts hnear (hSa.1.stabM (1 / 10^12)) (stabM_tr' hSa.1 _)
    obtain ⟨f3, f4⟩ := Hdl.fixPsd_facts hnear (hSb.1.stabM (1 / 10^12)) (stabM_tr' hSb.1 _)
    have hpart : participants dim (c a) (keysMap ka) = freeOf dim (c a) ka := by unfold participants freeOf; rw [keysMap_keys]
    by_cases hfa : ka.filter (fun p => !(c a).fix p) = []
    · -- nobody free here
      have hd : ¬ (checkDimObs Hi R (hf (insertAll (insertAll [] Da) Db) ids z).2 (Hdl.fixPsd near (stabM Sa (1 / 10^12))) = true) := by
        rw [checkDimObs_iff]
        rintro ⟨-, -, -, e, -⟩
        rw [hir0 hfa, hR.1] at e; omega
      unfold ciCorrection
      rw [if_neg (by rw [Bool.and_eq_true]; exact fun e => hd e.1), Res.bind_ok, if_neg (by simp [CorrRes.dflt]), Res.bind_ok]
      refine ⟨_, _, _, rfl, fun hex => absurd hfa (hra.mpr hex), fun _ => ⟨rfl, by rw [Function.update_eq_self]⟩⟩
    · by_cases hfb : kb.filter (fun p => !(c b).fix p) = []
      · have hd : ¬ (checkDimObs Hj R (hf (insertAll (insertAll [] Da) Db) ids z).2 (Hdl.fixPsd near (stabM Sb (1 / 10^12))) = true) := by
          rw [checkDimObs_iff]
          rintro ⟨-, -, -, e, -⟩
          rw [hjr0 hfb, hR.1] at e; omega
        unfold ciCorrection
        rw [if_neg (by rw [Bool.and_eq_true]; exact fun e => hd e.2), Res.bind_ok, if_neg (by simp [CorrRes.dflt]), Res.bind_ok]
        refine ⟨_, _, _, rfl, fun _ hex => absurd hfb (hrb.mpr hex), fun _ => ⟨rfl, by rw [Function.update_eq_self]⟩⟩
      · have oi : ObsShape Hi R (hf (insertAll (insertAll [] Da) Db) ids z).2 (Hdl.fixPsd near (stabM Sa (1 / 10^12))) (tot (freeOf dim (c a) ka)) m :=
          ⟨⟨hir hfa, hic⟩, hR, g3, f1⟩
        have oj : ObsShape Hj R (hf (insertAll (insertAll [] Da) Db) ids z).2 (Hdl.fixPsd near (stabM Sb (1 / 10^12))) (tot (freeOf dim (c b) kb)) m :=
          ⟨⟨hjr hfb, hjc⟩, hR, g3, f3⟩
        obtain ⟨res, hres, hu⟩ := ciCorrection_progress oi oj (995 / 1000) hg
        rw [hres, Res.bind_ok]
        have hxa := hra.mp hfa
        have hxb := hrb.mp hfb
        have hnone : ¬ ((∀ p ∈ ids, Agents.agentOf T p = a → ¬ Free T n p) ∨ (∀ p ∈ ids, Agents.agentOf T p = b → ¬ Free T n p)) := by
          obtain ⟨p, p1, p2, p3⟩ := hxa
          obtain ⟨q, q1, q2, q3⟩ := hxb
          rintro (hx | hx)
          · exact hx p p1 p2 p3
          · exact hx q q1 q2 q3
        cases hrj : res.rejected with
        | true =>
          rw [if_neg (by simp), Res.bind_ok]
          exact ⟨_, _, _, rfl, fun _ _ h0 => by rw [hu h0] at hrj; simp at hrj, fun hx => absurd hx hnone⟩
        | false =>
          rw [if_pos (show (!false) = true from rfl)]
          obtain ⟨r1, r2, r3⟩ := ciCorrection_accept f1 f3 f2 hres hrj
          obtain ⟨q1, q2⟩ := Hdl.fixPsd_facts hnear r1 r2
          have hne : participants dim (c a) (keysMap ka) ≠ [] := by
            rw [hpart]; exact fun e => hfa (List.map_eq_nil_iff.mp e)
          rw [← hpart] at q1 r3
          obtain ⟨h2, e5, -⟩ := Hdl.commit_rel (hr a) hPa hne q1 q2 r3
          rw [Hdl.commit_unfixed] at e5
          rw [e5, Res.bind_ok, Res.bind_ok]
          exact ⟨_, _, _, rfl, fun _ _ _ => rfl, fun hx => absurd hx hnone⟩

end Collab
end Ikf
