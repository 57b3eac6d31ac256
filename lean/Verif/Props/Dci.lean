import Verif.Lemmas.Dci

/-!
# Agents with covariance intersection (C74)
-/

namespace Ikf
open Mat
namespace Collab

variable {T : Agents.Tables} {a b : ℕ} {n n' : Net} {h : Hdl} {dim : ℕ → ℕ} {c : ℕ → Central} {t : Int}
  {near : Mat → Mat} {pj : Belief → Mat → Mat} {pred : ℕ → Inst → Int → Inst × Bool} {fp : FP}
  {hf : SMap Belief → List ℕ → Mat → SMap Mat × Mat} {ids : List ℕ} {R z : Mat} {cfg : Cfg}

/-- Every agent holds only instances that the directory assigns to it. -/
def Placed (T : Agents.Tables) (n : Net) : Prop := ∀ a p, ((n a).find p).isSome → Agents.agentOf T p = a

/-- A call of agent `a` with its answer. -/
noncomputable def Net.runDci (T : Agents.Tables) (fp : FP) (near : Mat → Mat) (pj : Belief → Mat → Mat) (pred : ℕ → Inst → Int → Inst × Bool)
    (lk : Link) (n : Net) (a : ℕ) : HEv → Res (Net × HAns)
  | .base ev => do
    let x ← Hdl.run fp near pred (n a) ev
    .ok (Function.update n a x.1, .done x.2)
  | .obsH hf ids R z t cfg => do
    let x ← Net.applyObsDci T a near pj pred hf lk n R z t ids cfg
    .ok (x.1.1, .meas x.2 x.1.2)

/-- The user works in order: calls on the own instances as for one handler; the participants of an observation are distinct
and at time `t`, at least one is held by another agent; the measurement function returns a map (ordered) of Jacobians. -/
def Net.WfDci (T : Agents.Tables) (dim : ℕ → ℕ) (n : Net) (a : ℕ) : HEv → Prop
  | .base ev => Hdl.Wf dim (n a) ev
  | .obsH hf ids _ z t _ => ids.Nodup ∧ (∀ p ∈ ids, NewestAt T n p t) ∧ (¬ ∀ p ∈ ids, Agents.agentOf T p = a) ∧ ∀ bel, (hf bel ids z).1.Sorted

/-! ## Both sides -/

/-- What one side delivers: beliefs and factors; the covariance, unless the side has a single participant and that one is
free. -/
theorem side_all {c : Central} {ks : List ℕ} (hr : Hdl.Rel dim h c) (hne : ids ≠ []) (hN : ∀ p ∈ ids, (h.find p).isSome ∧ c.tm p = t)
    (hks : ks.Pairwise (· < ·)) (hperm : ks.Perm ids) (pred : ℕ → Inst → Int → Inst × Bool) :
    ∃ lF, getBF pred h ids ids t = .ok (h, some (Hdl.dict h (keysMap ks) t, lF)) ∧
      ((∃ S, StackedCov (freeOf dim c ks) c.cov S ∧
        ∀ near, (stackSigmaL (Hdl.unfixed (Hdl.dict h (keysMap ks) t)) (dropFixed (Hdl.dict h (keysMap ks) t) lF) >>= correctCov near) =
          .ok (Hdl.fixPsd near (stabM S (1 / 10^12)))) ∧ ¬ (∃ p, ids = [p] ∧ c.fix p = false) ∨
      (∃ p, ids = [p] ∧ c.fix p = false) ∧
        stackSigmaL (Hdl.unfixed (Hdl.dict h (keysMap ks) t)) (dropFixed (Hdl.dict h (keysMap ks) t) lF) = .throws) := by
  match ids, hne with
  | x :: y :: r, _ =>
    obtain ⟨lF, S, e1, e2, e3⟩ := side_prior hr hN hks hperm (by simp) pred
    exact ⟨lF, e1, Or.inl ⟨⟨S, e2, e3⟩, by simp⟩⟩
  | [p], _ =>
    have hk : ks = [p] := List.perm_singleton.mp hperm
    subst hk
    obtain ⟨h1, h2⟩ := hN p (by simp)
    have hd : Hdl.dict h (keysMap [p]) t = [(p, Hdl.blD h t p)] := rfl
    obtain ⟨hp, -⟩ := side_parts hr hN hks hperm
    have hfx := (Hdl.mem_dict hr hp (e := (p, Hdl.blD h t p)) (by rw [hd]; simp)).2.2.2.2.2.2.2.1
    simp only at hfx
    refine ⟨[], by rw [hd]; exact side_single hr h1 h2 pred, ?_⟩
    rw [hd]
    cases hc : c.fix p with
    | true =>
      left
      rw [hc] at hfx
      have hu : Hdl.unfixed [(p, Hdl.blD h t p)] = [] := by simp [Hdl.unfixed, hfx]
      have hdf : dropFixed [(p, Hdl.blD h t p)] ([] : SMap (SMap Mat)) = [] := by simp [dropFixed, SMap.erase]
      have hS : StackedCov (freeOf dim c [p]) c.cov (Mat.zero 0 0) := by
        have : freeOf dim c [p] = [] := by simp [freeOf, hc]
        rw [this]
        exact ⟨⟨rfl, rfl⟩, by simp⟩
      refine ⟨⟨Mat.zero 0 0, hS, fun near => ?_⟩, by simp [hc]⟩
      rw [hu, hdf]
      have : stackSigmaL [] [] = .ok (Mat.zero 0 0) := rfl
      rw [this, Res.bind_ok]
      unfold correctCov
      rw [stabilize_ok (n := 0) ⟨rfl, rfl⟩, Res.bind_ok]
    | false =>
      right
      rw [hc] at hfx
      refine ⟨⟨p, rfl, hc⟩, ?_⟩
      have hu : Hdl.unfixed [(p, Hdl.blD h t p)] = [(p, Hdl.blD h t p)] := by simp [Hdl.unfixed, hfx]
      have hdf : dropFixed [(p, Hdl.blD h t p)] ([] : SMap (SMap Mat)) = [] := by simp [dropFixed, hfx]
      rw [hu, hdf]
      unfold stackSigmaL
      rw [if_neg (by simp)]

/-- The estimates of both sides. -/
theorem both_estimates {ca cb : Central} {ha hb : Hdl} (own : ℕ → ℕ) (hca : c a = ca) (hcb : c b = cb) (hra : Hdl.Rel dim ha ca) (hrb : Hdl.Rel dim hb cb)
    {ka kb : List ℕ} (hpa : Hdl.Parts dim ha ca (keysMap ka) t) (hpb : Hdl.Parts dim hb cb (keysMap kb) t)
    (hia : ∀ p, p ∈ ka → own p = a) (hib : ∀ p, p ∈ kb → own p = b) (hids : ∀ p, p ∈ ids ↔ p ∈ ka ∨ p ∈ kb) :
    EstimatesAt own c t ids (insertAll (insertAll [] (Hdl.dict ha (keysMap ka) t)) (Hdl.dict hb (keysMap kb) t)) := by
  have hs := sorted_insertAll (Hdl.dict hb (keysMap kb) t) (sorted_insertAll (Hdl.dict ha (keysMap ka) t) (m := []) List.Pairwise.nil)
  have hfind : ∀ p, SMap.find (insertAll (insertAll [] (Hdl.dict ha (keysMap ka) t)) (Hdl.dict hb (keysMap kb) t)) p =
      if p ∈ ka then some (Hdl.blD ha t p) else if p ∈ kb then some (Hdl.blD hb t p) else none := by
    intro p
    rw [find_insertAll, find_insertAll, SMap.find_nil]
    unfold Hdl.dict
    rw [SMap.find_map (Hdl.blD ha t), SMap.find_map (Hdl.blD hb t), keysMap_keys, keysMap_keys]
    by_cases h1 : p ∈ ka
    · simp [h1]
    · simp [h1]
  refine ⟨(SMap.sorted_iff_keys _).mp hs, fun p => ?_, fun e he => ?_⟩
  · rw [hids, ← SMap.find_isSome_iff, hfind]
    by_cases h1 : p ∈ ka
    · simp [h1]
    · by_cases h2 : p ∈ kb
      · simp [h1, h2]
      · simp [h1, h2]
  · have hfe := (SMap.find_eq_some hs _ _).mpr he
    rw [hfind] at hfe
    by_cases h1 : e.1 ∈ ka
    · rw [if_pos h1] at hfe
      have hm : e ∈ Hdl.dict ha (keysMap ka) t := List.mem_map.mpr ⟨e.1, by rw [keysMap_keys]; exact h1, by rw [Option.some.inj hfe]⟩
      have := Hdl.mem_dict hra hpa hm
      rw [hia _ h1, hca]
      exact ⟨this.2.2.2.2.1, this.2.2.2.2.2.1, this.2.2.2.2.2.2.1, this.2.2.2.2.2.2.2.1⟩
    · rw [if_neg h1] at hfe
      by_cases h2 : e.1 ∈ kb
      · rw [if_pos h2] at hfe
        have hm : e ∈ Hdl.dict hb (keysMap kb) t := List.mem_map.mpr ⟨e.1, by rw [keysMap_keys]; exact h2, by rw [Option.some.inj hfe]⟩
        have := Hdl.mem_dict hrb hpb hm
        rw [hib _ h2, hcb]
        exact ⟨this.2.2.2.2.1, this.2.2.2.2.2.1, this.2.2.2.2.2.2.1, this.2.2.2.2.2.2.2.1⟩
      · rw [if_neg h2] at hfe; simp at hfe

theorem holds_placed (hpl : Placed T n) {p : ℕ} (hN : NewestAt T n p t) : holds n a p = true ↔ Agents.agentOf T p = a := by
  constructor
  · exact hpl a p
  · rintro rfl
    obtain ⟨i, e, hi, -, -⟩ := hN
    unfold holds
    rw [hi]; rfl

/-- The observation of agent `a` with instances of agent `b`, unfolded. -/
theorem dci_case (hpl : Placed T n) (hr : ∀ a, Hdl.Rel dim (n a) (c a)) (hnd : ids.Nodup) (hN : ∀ p ∈ ids, NewestAt T n p t)
    (ho : OtherIs (Agents.agentOf T) a b ids) (hl : ∃ p ∈ ids, Agents.agentOf T p = a) (near : Mat → Mat) (pj : Belief → Mat → Mat)
    (pred : ℕ → Inst → Int → Inst × Bool) (hf : SMap Belief → List ℕ → Mat → SMap Mat × Mat) (R z : Mat) (cfg : Cfg) :
    ∃ ka kb : List ℕ, ka.Pairwise (· < ·) ∧ kb.Pairwise (· < ·) ∧
      (∀ p, p ∈ ka ↔ p ∈ ids ∧ Agents.agentOf T p = a) ∧ (∀ p, p ∈ kb ↔ p ∈ ids ∧ Agents.agentOf T p = b) ∧
      ka.Perm (ids.filter (holds n a)) ∧ kb.Perm (ids.filter (fun p => !holds n a p)) ∧
      Hdl.Parts dim (n a) (c a) (keysMap ka) t ∧ Hdl.Parts dim (n b) (c b) (keysMap kb) t ∧ ∃ lF rF,
      (∀ lk : Link, lk.recv = false → Net.applyObsDci T a near pj pred hf lk n R z t ids cfg = .ok ((n, Mat.zero 0 1), .outOfOrder)) ∧
      (∀ lk : Link, lk.recv = true → Net.applyObsDci T a near pj pred hf lk n R z t ids cfg =
        (dciTail near hf (n a) (Hdl.dict (n a) (keysMap ka) t) (Hdl.dict (n b) (keysMap kb) t) lF rF R z t ids cfg
          (ids.filter (fun p => !holds n a p)) (ids.filter (holds n a)) >>= fun y => Res.ok ((Function.update n a y.1, y.2.2), y.2.1))) ∧
      ((∃ S, StackedCov (freeOf dim (c a) ka) (c a).cov S ∧
        ∀ near, (stackSigmaL (Hdl.unfixed (Hdl.dict (n a) (keysMap ka) t)) (dropFixed (Hdl.dict (n a) (keysMap ka) t) lF) >>= correctCov near) =
          .ok (Hdl.fixPsd near (stabM S (1 / 10^12)))) ∧ ¬ (∃ p, ka = [p] ∧ (c a).fix p = false) ∨
      (∃ p, ka = [p] ∧ (c a).fix p = false) ∧
        stackSigmaL (Hdl.unfixed (Hdl.dict (n a) (keysMap ka) t)) (dropFixed (Hdl.dict (n a) (keysMap ka) t) lF) = .throws) ∧
      ((∃ S, StackedCov (freeOf dim (c b) kb) (c b).cov S ∧
        ∀ near, (stackSigmaL (Hdl.unfixed (Hdl.dict (n b) (keysMap kb) t)) (dropFixed (Hdl.dict (n b) (keysMap kb) t) rF) >>= correctCov near) =
          .ok (Hdl.fixPsd near (stabM S (1 / 10^12)))) ∧ ¬ (∃ p, kb = [p] ∧ (c b).fix p = false) ∨
      (∃ p, kb = [p] ∧ (c b).fix p = false) ∧
        stackSigmaL (Hdl.unfixed (Hdl.dict (n b) (keysMap kb) t)) (dropFixed (Hdl.dict (n b) (keysMap kb) t) rF) = .throws) := by
  have hh : ∀ a, ∀ p ∈ ids, holds n a p = true ↔ Agents.agentOf T p = a := fun a p hpm => holds_placed hpl (hN p hpm)
  obtain ⟨hba, ⟨k, hk, hkb⟩, hob⟩ := id ho
  obtain ⟨l0, hl0, hl0a⟩ := hl
  have hlne : ids.filter (holds n a) ≠ [] := List.ne_nil_of_mem (List.mem_filter.mpr ⟨hl0, (hh a l0 hl0).mpr hl0a⟩)
  have hma : ∀ p, p ∈ ids.filter (holds n a) ↔ p ∈ ids ∧ Agents.agentOf T p = a := fun p => by
    rw [List.mem_filter]; exact and_congr_right fun hpm => hh a p hpm
  have hmb : ∀ p, p ∈ ids.filter (fun p => !holds n a p) ↔ p ∈ ids ∧ Agents.agentOf T p = b := fun p => by
    rw [List.mem_filter]
    refine and_congr_right fun hpm => ?_
    constructor
    · intro hx
      refine (hob p hpm).resolve_left fun e => ?_
      rw [(hh a p hpm).mpr e] at hx; simp at hx
    · intro hx
      have : holds n a p = false := by
        cases hv : holds n a p with
        | false => rfl
        | true => exact absurd (hx.symm.trans ((hh a p hpm).mp hv)) hba
      rw [this]; rfl
  have hrne : ids.filter (fun p => !holds n a p) ≠ [] := List.ne_nil_of_mem ((hmb k).mpr ⟨hk, hkb⟩)
  have hNa : ∀ x, ∀ p, (p ∈ ids ∧ Agents.agentOf T p = x) → ((n x).find p).isSome ∧ (c x).tm p = t := by
    rintro x p ⟨h1, rfl⟩
    exact Hdl.Newest.rel (hr _) (hN p h1)
  obtain ⟨ka, hka, hpa⟩ := exists_sorted _ (hnd.filter (holds n a))
  obtain ⟨kb, hkb', hpb⟩ := exists_sorted _ (hnd.filter (fun p => !holds n a p))
  obtain ⟨lF, hgl, hsl⟩ := side_all (hr a) hlne (fun p hpm => hNa a p ((hma p).mp hpm)) hka hpa pred
  obtain ⟨rF, hgr, hsr⟩ := side_all (hr b) hrne (fun p hpm => hNa b p ((hmb p).mp hpm)) hkb' hpb pred
  have sing : ∀ (ks L : List ℕ) (f : ℕ → Prop), ks.Perm L → ((∃ p, L = [p] ∧ f p) ↔ ∃ p, ks = [p] ∧ f p) := by
    intro ks L f hp
    constructor
    · rintro ⟨p, rfl, x⟩; exact ⟨p, List.perm_singleton.mp hp, x⟩
    · rintro ⟨p, rfl, x⟩; exact ⟨p, List.perm_singleton.mp hp.symm, x⟩
  rw [sing ka _ (fun p => (c a).fix p = false) hpa] at hsl
  rw [sing kb _ (fun p => (c b).fix p = false) hpb] at hsr
  obtain ⟨s1, s2, -, -⟩ := Agents.split_spec (holds n a) T ids ([], [], []) List.Pairwise.nil
  rw [List.nil_append] at s1 s2
  have hone := one_agent_iffP (T := T) (hh a)
  have hq : (fun p => ((n a).find p).isSome) = holds n a := rfl
  have hhead : Agents.agentOf T ((ids.filter (fun p => !holds n a p)).headD 0) = b := by
    obtain ⟨p0, r0, hpr⟩ := List.exists_cons_of_ne_nil hrne
    rw [hpr]
    exact ((hmb p0).mp (by rw [hpr]; exact List.mem_cons_self)).2
  have hdne : ∀ (h : Hdl) (ks : List ℕ), ks ≠ [] → (Hdl.dict h (keysMap ks) t).isEmpty = false := by
    intro h ks hne
    obtain ⟨x, r, rfl⟩ := List.exists_cons_of_ne_nil hne
    rfl
  have hkane : ka ≠ [] := fun e => hlne (by rw [e] at hpa; exact List.nil_perm.mp hpa)
  have hkbne : kb ≠ [] := fun e => hrne (by rw [e] at hpb; exact List.nil_perm.mp hpb)
  have hrun : ∀ lk, Net.applyObsDci T a near pj pred hf lk n R z t ids cfg =
      (interDci near pred hf lk (n a) (n b) R z t ids cfg (ids.filter (fun p => !holds n a p)) (ids.filter (holds n a)) >>= fun x =>
        Res.ok ((Function.update (Function.update n a x.1) b x.2.1, x.2.2.2), x.2.2.1)) := by
    intro lk
    simp only [Net.applyObsDci, Agents.applyObsH, hq]
    rw [if_neg (by rw [s1]; exact fun e => hrne (List.length_eq_zero_iff.mp e)), s1, s2, if_pos (hone.mpr ⟨b, ho⟩), hhead]
  refine ⟨ka, kb, hka, hkb', fun p => by rw [hpa.mem_iff]; exact hma p, fun p => by rw [hpb.mem_iff]; exact hmb p, hpa, hpb,
    (side_parts (hr a) (fun p hpm => hNa a p ((hma p).mp hpm)) hka hpa).1,
    (side_parts (hr b) (fun p hpm => hNa b p ((hmb p).mp hpm)) hkb' hpb).1, lF, rF, ?_, ?_, hsl, hsr⟩
  · intro lk hlk
    rw [hrun]
    unfold interDci
    rw [hgl, Res.bind_ok]
    dsimp only
    rw [hdne _ _ hkane, hlk, if_neg (by simp), if_neg (by simp), Res.bind_ok]
    simp only [Function.update_eq_self]
  · intro lk hlk
    rw [hrun]
    unfold interDci
    rw [hgl, Res.bind_ok]
    dsimp only
    rw [hdne _ _ hkane, hlk, if_neg (by simp), if_pos rfl, hgr, Res.bind_ok]
    dsimp only
    rw [hdne _ _ hkbne, if_neg (by simp)]
    cases dciTail near hf (n a) (Hdl.dict (n a) (keysMap ka) t) (Hdl.dict (n b) (keysMap kb) t) lF rF R z t ids cfg
          (ids.filter (fun p => !holds n a p)) (ids.filter (holds n a)) with
    | throws => rfl
    | ub => rfl
    | ok y =>
      simp only [Res.bind_ok]
      congr 3
      rw [Function.update_comm (Ne.symm hba), Function.update_eq_self]

theorem freeAt (own : ℕ → ℕ) {ks : List ℕ} (hks : ks.Pairwise (· < ·)) (hk : ∀ p, p ∈ ks ↔ p ∈ ids ∧ own p = a) :
    FreeAt own c ids a (ks.filter fun p => !(c a).fix p) := by
  refine ⟨hks.filter _, fun p => ?_⟩
  rw [List.mem_filter, hk]
  simp [and_assoc]

/-- The computation after both sides have delivered. -/
theorem dciTail_spec (hnear : Hdl.NearOk near) (own : ℕ → ℕ) (hr : ∀ a, Hdl.Rel dim (n a) (c a)) {ka kb loc remote : List ℕ}
    (hka : ka.Pairwise (· < ·)) (hkb : kb.Pairwise (· < ·)) (hma : ∀ p, p ∈ ka ↔ p ∈ ids ∧ own p = a) (hmb : ∀ p, p ∈ kb ↔ p ∈ ids ∧ own p = b)
    (hpa : ka.Perm loc) (hpb : kb.Perm remote) (hids : ∀ p ∈ ids, own p = a ∨ own p = b)
    (hPa : Hdl.Parts dim (n a) (c a) (keysMap ka) t) (hPb : Hdl.Parts dim (n b) (c b) (keysMap kb) t) {lF rF : SMap (SMap Mat)} {Sa Sb : Mat}
    (hSa : StackedCov (freeOf dim (c a) ka) (c a).cov Sa) (hSb : StackedCov (freeOf dim (c b) kb) (c b).cov Sb)
    (hea : (stackSigmaL (Hdl.unfixed (Hdl.dict (n a) (keysMap ka) t)) (dropFixed (Hdl.dict (n a) (keysMap ka) t) lF) >>= correctCov near) =
          .ok (Hdl.fixPsd near (stabM Sa (1 / 10^12))))
    (heb : (stackSigmaL (Hdl.unfixed (Hdl.dict (n b) (keysMap kb) t)) (dropFixed (Hdl.dict (n b) (keysMap kb) t) rF) >>= correctCov near) =
          .ok (Hdl.fixPsd near (stabM Sb (1 / 10^12))))
    (hJ : ∀ bel, (hf bel ids z).1.Sorted) {y : Hdl × Status × Mat}
    (hy : dciTail near hf (n a) (Hdl.dict (n a) (keysMap ka) t) (Hdl.dict (n b) (keysMap kb) t) lF rF R z t ids cfg remote loc = .ok y) :
    ∃ r res, Intersected own dim near c a b hf ids R z t cfg (ka.filter fun p => !(c a).fix p) r res ∧
      (res.rejected = true → y = (n a, .rejected, r)) ∧
      (res.rejected = false → ∃ h', y = (h', .processed, r) ∧ Hdl.SameDom (n a) h' ∧
        Hdl.Rel dim h' ((c a).joint (freeOf dim (c a) ka) (Hdl.fixPsd near res.Sapos) res.dx)) := by
  set Da := Hdl.dict (n a) (keysMap ka) t with hDa
  set Db := Hdl.dict (n b) (keysMap kb) t with hDb
  unfold dciTail at hy
  dsimp only at hy
  set Hr := hf (insertAll (insertAll [] Da) Db) ids z with hHr
  have hJs : Hr.1.Sorted := hJ _
  obtain ⟨Hi, g1, hy⟩ := Hdl.bind_eq_ok hy
  obtain ⟨Hj, g2, hy⟩ := Hdl.bind_eq_ok hy
  obtain ⟨Si0, g3, hy⟩ := Hdl.bind_eq_ok hy
  obtain ⟨Sj0, g4, hy⟩ := Hdl.bind_eq_ok hy
  rw [g3, Res.bind_ok] at hea
  rw [g4, Res.bind_ok] at heb
  rw [hea, heb, Res.bind_ok, Res.bind_ok] at hy
  obtain ⟨res, g5, hy⟩ := Hdl.bind_eq_ok hy
  rw [hDa, side_jac (hr a) hPa hpa hJs] at g1
  rw [hDb, side_jac (hr b) hPb hpb hJs] at g2
  have hest : EstimatesAt own c t ids (insertAll (insertAll [] Da) Db) :=
    both_estimates own rfl rfl (hr a) (hr b) hPa hPb (fun p hp => ((hma p).mp hp).2) (fun p hp => ((hmb p).mp hp).2) (fun p => by
      rw [hma, hmb]
      exact ⟨fun hp => (hids p hp).imp (fun e => ⟨hp, e⟩) (fun e => ⟨hp, e⟩), fun hp => hp.elim (·.1) (·.1)⟩)
  refine ⟨Hr.2, res, ⟨freeAt own hka hma, _, Hr.1, kb.filter (fun p => !(c b).fix p), Hi, Hj, Sa, Sb, hest, rfl, freeAt own hkb hmb,
    Hdl.stackH_spec _ (List.Pairwise.filter _ hJs) Hi g1, Hdl.stackH_spec _ (List.Pairwise.filter _ hJs) Hj g2, hSa, hSb, g5⟩, ?_, ?_⟩
  · intro hrj
    rw [hrj, if_neg (by simp)] at hy
    exact (Res.ok.inj hy).symm
  · intro hrj
    rw [hrj, if_pos (show (!false) = true from rfl)] at hy
    obtain ⟨h', g6, hy⟩ := Hdl.bind_eq_ok hy
    have hpart : participants dim (c a) (keysMap ka) = freeOf dim (c a) ka := by unfold participants freeOf; rw [keysMap_keys]
    obtain ⟨f1, f2⟩ := Hdl.fixPsd_facts hnear (hSa.1.stabM (1 / 10^12)) (stabM_tr' hSa.1 _)
    obtain ⟨f3, -⟩ := Hdl.fixPsd_facts hnear (hSb.1.stabM (1 / 10^12)) (stabM_tr' hSb.1 _)
    obtain ⟨r1, r2, r3⟩ := ciCorrection_accept f1 f3 f2 g5 hrj
    obtain ⟨q1, q2⟩ := Hdl.fixPsd_facts hnear r1 r2
    refine ⟨h', (Res.ok.inj hy).symm, ?_, ?_⟩
    · have := (Hdl.commit_frame g6).1
      exact this
    · have hne : participants dim (c a) (keysMap ka) ≠ [] := by
        intro e
        rw [Hdl.participants_eq (hr a) hPa, ← hDa] at e
        have e' : Hdl.unfixed Da = [] := List.map_eq_nil_iff.mp e
        rw [e'] at g6
        simp [Hdl.commit, Hdl.applyCorrections, Hdl.splitRightUpper, Hdl.unfixed] at g6
      rw [← Hdl.commit_unfixed] at g6
      rw [← hpart] at q1 r3
      obtain ⟨h2, e2, hrel⟩ := Hdl.commit_rel (hr a) hPa hne q1 q2 r3
      rw [← hDa, g6] at e2
      rw [Res.ok.inj e2, ← hpart]
      exact hrel

/-- One observation of agent `a` with a measurement function. -/
theorem obsDci_sim (hnear : Hdl.NearOk near) (hpl : Placed T n) (hr : ∀ a, Hdl.Rel dim (n a) (c a)) (hw : Net.WfDci T dim n a (.obsH hf ids R z t cfg))
    {r : Mat} {st : Status} (hs : Net.applyObsDci T a near pj pred hf {} n R z t ids cfg = .ok ((n', r), st)) :
    ∃ h' c', n' = Function.update n a h' ∧ DStep (Agents.agentOf T) dim near c a (.obsH hf ids R z t cfg) (.meas st r) (Function.update c a c') ∧
      Hdl.SameDom (n a) h' ∧ Hdl.Rel dim h' c' ∧ (st ≠ .processed → h' = n a) := by
  obtain ⟨hnd, hN, hall, hJ⟩ := hw
  have hh : ∀ p ∈ ids, holds n a p = true ↔ Agents.agentOf T p = a := fun p hpm => holds_placed hpl (hN p hpm)
  obtain ⟨f1, f2⟩ := remote_factsP (T := T) hh
  have hone := one_agent_iffP (T := T) hh
  by_cases ho : OneOtherL (Agents.agentOf T) a ids
  · have ho' := ho
    obtain ⟨b, hob⟩ := ho
    by_cases hl : ∃ p ∈ ids, Agents.agentOf T p = a
    · obtain ⟨ka, kb, hka, hkb, hma, hmb, hpa, hpb, hPa, hPb, lF, rF, -, hrun, hsa, hsb⟩ := dci_case hpl hr hnd hN hob hl near pj pred hf R z cfg
      rw [hrun {} rfl] at hs
      obtain ⟨y, hy, hs⟩ := Hdl.bind_eq_ok hs
      obtain ⟨e0, e2⟩ := Prod.mk.inj (Res.ok.inj hs)
      obtain ⟨e1, e3⟩ := Prod.mk.inj e0
      rcases hsa with ⟨⟨Sa, hSa, hea⟩, -⟩ | ⟨-, hth⟩
      swap
      · exfalso
        unfold dciTail at hy
        obtain ⟨Hi, g1, hy⟩ := Hdl.bind_eq_ok hy
        obtain ⟨Hj, g2, hy⟩ := Hdl.bind_eq_ok hy
        rw [hth] at hy; simp at hy
      rcases hsb with ⟨⟨Sb, hSb, heb⟩, -⟩ | ⟨-, hth⟩
      swap
      · exfalso
        unfold dciTail at hy
        obtain ⟨Hi, g1, hy⟩ := Hdl.bind_eq_ok hy
        obtain ⟨Hj, g2, hy⟩ := Hdl.bind_eq_ok hy
        obtain ⟨Si0, g3, hy⟩ := Hdl.bind_eq_ok hy
        rw [hth] at hy; simp at hy
      obtain ⟨r', res, hint, hrej, hacc⟩ := dciTail_spec hnear (Agents.agentOf T) hr hka hkb hma hmb hpa hpb hob.2.2 hPa hPb hSa hSb (hea near) (heb near) hJ hy
      cases hrj : res.rejected with
      | true =>
        have hy' := hrej hrj
        rw [hy'] at e1 e2 e3
        refine ⟨n a, c a, e1.symm, ?_, Hdl.SameDom.refl _, hr a, fun _ => rfl⟩
        rw [Function.update_eq_self, ← e2, ← e3]
        exact .rej hf ids R z t cfg b _ r' res hob hint hrj
      | false =>
        obtain ⟨h', hy', hsd, hr'⟩ := hacc hrj
        rw [hy'] at e1 e2 e3
        refine ⟨h', _, e1.symm, ?_, hsd, hr', fun e => absurd e2.symm e⟩
        rw [← e2, ← e3]
        exact .obs hf ids R z t cfg b _ r' res hob hint hrj
    · have hna : ∀ p ∈ ids, Agents.agentOf T p ≠ a := fun p hpm e => hl ⟨p, hpm, e⟩
      obtain ⟨s1, s2, -, -⟩ := Agents.split_spec (holds n a) T ids ([], [], []) List.Pairwise.nil
      rw [List.nil_append] at s1 s2
      have hrne : ids.filter (fun p => !holds n a p) ≠ [] := fun e => hall (f1.mp e)
      have hq : (fun p => ((n a).find p).isSome) = holds n a := rfl
      simp only [Net.applyObsDci, Agents.applyObsH, hq] at hs
      rw [if_neg (by rw [s1]; exact fun e => hrne (List.length_eq_zero_iff.mp e)), s1, s2, if_pos (hone.mpr ho'), f2.mpr hna] at hs
      unfold interDci at hs
      simp only [getBF, getBels, fccLoop, Res.bind_ok, List.isEmpty_nil, if_true, Function.update_eq_self] at hs
      obtain ⟨e0, e2⟩ := Prod.mk.inj (Res.ok.inj hs)
      obtain ⟨e1, e3⟩ := Prod.mk.inj e0
      refine ⟨n a, c a, by rw [← e1, Function.update_eq_self], ?_, Hdl.SameDom.refl _, hr a, fun _ => rfl⟩
      rw [Function.update_eq_self, ← e2, ← e3]
      exact .none hf ids R z t cfg ho' hna
  · obtain ⟨s1, s2, -, -⟩ := Agents.split_spec (holds n a) T ids ([], [], []) List.Pairwise.nil
    rw [List.nil_append] at s1 s2
    have hrne : ids.filter (fun p => !holds n a p) ≠ [] := fun e => hall (f1.mp e)
    have hq : (fun p => ((n a).find p).isSome) = holds n a := rfl
    simp only [Net.applyObsDci, Agents.applyObsH, hq] at hs
    rw [if_neg (by rw [s1]; exact fun e => hrne (List.length_eq_zero_iff.mp e)), if_neg (fun e => ho (hone.mp e))] at hs
    obtain ⟨e0, e2⟩ := Prod.mk.inj (Res.ok.inj hs)
    obtain ⟨e1, e3⟩ := Prod.mk.inj e0
    refine ⟨n a, c a, by rw [← e1, Function.update_eq_self], ?_, Hdl.SameDom.refl _, hr a, fun _ => rfl⟩
    rw [Function.update_eq_self, ← e2, ← e3]
    exact .many hf ids R z t cfg hall ho

/-- Calls of all agents (agent, call, answer), in any interleaving; all messages are delivered and no call throws or runs
into undefined behaviour. -/
inductive DRuns (T : Agents.Tables) (fp : FP) (near : Mat → Mat) (pj : Belief → Mat → Mat) (pred : ℕ → Inst → Int → Inst × Bool) (dim : ℕ → ℕ) :
    Net → List (ℕ × HEv × HAns) → Net → Prop
  | nil (n : Net) : DRuns T fp near pj pred dim n [] n
  | step {n n1 n2 : Net} {a : ℕ} {ev : HEv} {ans : HAns} {l : List (ℕ × HEv × HAns)} (hw : Net.WfDci T dim n a ev)
      (hs : Net.runDci T fp near pj pred {} n a ev = .ok (n1, ans)) (r : DRuns T fp near pj pred dim n1 l n2) :
      DRuns T fp near pj pred dim n ((a, ev, ans) :: l) n2

/-- One call: only the calling agent changes. -/
theorem stepDci_sim (hnear : Hdl.NearOk near) (hpl : Placed T n) (hr : ∀ a, Hdl.Rel dim (n a) (c a)) {ev : HEv} {ans : HAns} (hw : Net.WfDci T dim n a ev)
    (hs : Net.runDci T fp near pj pred {} n a ev = .ok (n', ans)) :
    ∃ h' c', n' = Function.update n a h' ∧ DStep (Agents.agentOf T) dim near c a ev ans (Function.update c a c') ∧
      Hdl.SameDom (n a) h' ∧ Hdl.Rel dim h' c' := by
  cases ev with
  | base ev =>
    simp only [Net.runDci] at hs
    obtain ⟨x, hx, hs⟩ := Hdl.bind_eq_ok hs
    obtain ⟨e1, e2⟩ := Prod.mk.inj (Res.ok.inj hs)
    obtain ⟨h', ok⟩ := x
    simp only at e1 e2
    have hsd := Hdl.step_dom (hr a) ev hw hx
    cases ok with
    | true =>
      obtain ⟨c', s, hr'⟩ := Hdl.accepted hnear (hr a) ev hw hx
      exact ⟨h', c', e1.symm, by rw [← e2]; exact .accept s, hsd, hr'⟩
    | false =>
      have := Hdl.rejected (hr a) ev hw hx
      subst this
      exact ⟨_, c a, e1.symm, by rw [Function.update_eq_self, ← e2]; exact .refuse, hsd, hr a⟩
  | obsH hf ids R z t cfg =>
    simp only [Net.runDci] at hs
    obtain ⟨x, hx, hs⟩ := Hdl.bind_eq_ok hs
    obtain ⟨e1, e2⟩ := Prod.mk.inj (Res.ok.inj hs)
    obtain ⟨h', c', g1, g2, g3, g4, -⟩ := obsDci_sim hnear hpl hr hw (r := x.1.2) (st := x.2) (n' := x.1.1) hx
    exact ⟨h', c', by rw [← e1]; exact g1, by rw [← e2]; exact g2, g3, g4⟩

theorem druns_sim (hnear : Hdl.NearOk near) (hpl : Placed T n) (hr : ∀ a, Hdl.Rel dim (n a) (c a)) {l : List (ℕ × HEv × HAns)}
    (hrun : DRuns T fp near pj pred dim n l n') :
    ∃ c', DSpecRun (Agents.agentOf T) dim near c l c' ∧ (∀ a, Hdl.SameDom (n a) (n' a)) ∧ Placed T n' ∧ ∀ a, Hdl.Rel dim (n' a) (c' a) := by
  induction hrun generalizing c with
  | nil n => exact ⟨c, .nil c, fun a => Hdl.SameDom.refl _, hpl, hr⟩
  | @step m m1 m2 a ev ans l hw hs _ ih =>
    obtain ⟨h1, c1, e1, s1, k1, r1⟩ := stepDci_sim hnear hpl hr hw hs
    subst e1
    have k : ∀ x, Hdl.SameDom (m x) (Function.update m a h1 x) := by
      intro x
      by_cases hx : x = a
      · subst hx; rw [Function.update_self]; exact k1
      · rw [Function.update_of_ne hx]; exact Hdl.SameDom.refl _
    have hr1 : ∀ x, Hdl.Rel dim (Function.update m a h1 x) (Function.update c a c1 x) := by
      intro x
      by_cases hx : x = a
      · subst hx; rw [Function.update_self, Function.update_self]; exact r1
      · rw [Function.update_of_ne hx, Function.update_of_ne hx]; exact hr x
    obtain ⟨c2, s2, k2, p2, r2⟩ := ih (fun x p hx => hpl x p (by rw [← k x p]; exact hx)) hr1
    exact ⟨c2, .cons s1 s2, fun x => (k x).trans (k2 x), p2, r2⟩

/-- C74. Any number of agents, each holding some of the instances (freshly initialised), make any in-order calls in any
interleaving: calls on their own instances and observations with a measurement function that involve instances of one
other agent, treated by covariance intersection. Every agent keeps the same instances, and their newest beliefs, and the
cross-covariances it reads for them, are those of its own centralised filter; an observation with instances of another
agent corrects the filter of the calling agent only. -/
theorem c74_agents (hnear : Hdl.NearOk near) {n0 : Net} {c0 : ℕ → Central} (hpl : Placed T n0) (hi : ∀ a, Hdl.Init dim (n0 a) (c0 a))
    {l : List (ℕ × HEv × HAns)} (hrun : DRuns T fp near pj pred dim n0 l n) :
    ∃ c, DSpecRun (Agents.agentOf T) dim near c0 l c ∧
      (∀ a p, ((n a).find p).isSome = ((n0 a).find p).isSome) ∧
      (∀ a p i, (n a).find p = some i → Agents.agentOf T p = a ∧ ∃ b, i.beliefAt ((c a).tm p) = some b ∧
        i.bel.getLast? = some ((c a).tm p, b) ∧ b.mean = (c a).mu p ∧ b.Sigma = (c a).cov p p) ∧
      ∀ a p q t, p ≠ q → Hdl.Newest (n a) p t → Hdl.Newest (n a) q t →
        Hdl.getSigma (n a) p q t = .ok ((c a).cov p q) ∨
          (Hdl.getSigma (n a) p q t = .ok Mat.empty ∧ (c a).cov p q = Mat.zero (dim p) (dim q)) := by
  obtain ⟨c, hs, hsd, hpl', hr⟩ := druns_sim hnear hpl (fun a => (hi a).rel) hrun
  refine ⟨c, hs, fun a p => hsd a p, ?_, ?_⟩
  · intro a p i hfi
    have hp : ((n a).find p).isSome := by rw [hfi]; rfl
    refine ⟨hpl' a p hp, ?_⟩
    obtain ⟨b, h1, h2, h3, -⟩ := (hr a).bel p hp
    rw [Hdl.bl_of_find hfi] at h1
    refine ⟨b, h1, ?_, h2, h3⟩
    have ho := ((hr a).ok.ord p i hfi).bel
    rw [Inst.beliefAt_eq, Buf.absMap_eq_some _ ho] at h1
    cases hl : i.bel.getLast? with
    | none => rw [List.getLast?_eq_none_iff] at hl; rw [hl] at h1; simp at h1
    | some e =>
      have g1 := ho.sorted.le_getLast hl _ h1
      have g2 := ((hr a).ok.upTo p i hfi).bel e (List.mem_of_getLast? hl)
      simp only at g1
      have g3 : e.1 = (c a).tm p := by omega
      have g4 := (Buf.absMap_eq_some _ ho e.1 e.2).mpr (List.mem_of_getLast? hl)
      rw [g3, (Buf.absMap_eq_some _ ho _ _).mpr h1] at g4
      rw [Option.some.inj g4, ← g3]
  · intro a p q t hpq hNp hNq
    obtain ⟨a1, a2⟩ := hNp.rel (hr a)
    obtain ⟨b1, b2⟩ := hNq.rel (hr a)
    rcases (hr a).getSigma a1 b1 hpq a2 b2 with ⟨g, -⟩ | ⟨g, -, g2⟩
    · exact Or.inl g
    · exact Or.inr ⟨g, g2⟩

end Collab
end Ikf
