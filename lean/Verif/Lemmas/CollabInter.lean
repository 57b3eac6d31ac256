import Verif.Lemmas.CollabPrior
import Verif.Lemmas.Frame

/-!
# The update between two agents against the centralised filter
-/

namespace Ikf
open Mat
namespace Collab

variable {T : Agents.Tables} {a b : ℕ} {n : Net} {h : Hdl} {dim : ℕ → ℕ} {c : Central} {dH : SMap Mat} {t : Int}
  {near : Mat → Mat} {pred : ℕ → Inst → Int → Inst × Bool}

/-- What agent `a` holds. -/
def holds (n : Net) (a : ℕ) (p : ℕ) : Bool := ((n a).find p).isSome

/-- The participants: some at `a`, the other ones at the one agent `b`. -/
structure Two (T : Agents.Tables) (n : Net) (a b : ℕ) (dH : SMap Mat) : Prop where
  left : dH.keys.filter (holds n a) ≠ []
  right : dH.keys.filter (fun p => !holds n a p) ≠ []
  owner : ∀ p ∈ dH.keys, holds n a p = false → Agents.agentOf T p = b

theorem Two.ne (hd : Dist T n h) (hp : Hdl.Parts dim h c dH t) (h2 : Two T n a b dH) : a ≠ b := by
  rintro rfl
  obtain ⟨p, hm⟩ := List.exists_mem_of_ne_nil _ h2.right
  obtain ⟨h1, h3⟩ := List.mem_filter.mp hm
  have hf : holds n a p = false := by simpa using h3
  have := hd.own p
  rw [h2.owner p h1 hf] at this
  unfold holds at hf
  rw [this, hp.reg p h1] at hf
  simp at hf

theorem stabM_tr' {S : Mat} {n : ℕ} (h : S.Shape n n) (eps : ℝ) : (stabM S eps).tr = stabM S eps := by
  apply toM_inj (n := n) (m := n) (h.stabM eps).tr.1 (h.stabM eps).tr.2 (h.stabM eps).1 (h.stabM eps).2
  rw [toM_tr, toM_stabM h, Matrix.transpose_add, Matrix.transpose_smul, Matrix.transpose_add, Matrix.transpose_transpose,
    Matrix.transpose_smul, Matrix.transpose_one, add_comm (S.toM n n).transpose]

theorem total_tot (d : SMap Belief) : total d = tot (Hdl.bdims d) := (tot_dims d).symm

theorem instD_find {h l : Hdl} {p : ℕ} (e : l.find p = h.find p) : instD l p = instD h p := by unfold instD; rw [e]

section
variable (hr : Hdl.Rel dim h c) (hp : Hdl.Parts dim h c dH t) (hd : Dist T n h) (hfix : ∀ p ∈ dH.keys, c.fix p = false)
  (h2 : Two T n a b dH)
include hr hp hd

theorem dict_keys : (Hdl.dict h dH t).map (·.1) = dH.keys := by
  unfold Hdl.dict; rw [List.map_map]
  have : ((fun x : ℕ × Belief => x.1) ∘ fun p => (p, Hdl.blD h t p)) = id := rfl
  rw [this, List.map_id]

theorem stored_at {x : ℕ} {p : ℕ} (hk : p ∈ dH.keys) (hx : (n x).find p = h.find p) :
    ∃ i, (n x).find p = some i ∧ i.bel.existAt t = true ∧ i.beliefAt t = some (Hdl.blD h t p) := by
  have hb := hr.blD (hp.reg p hk) (hp.tm p hk)
  obtain ⟨i, hi⟩ := Option.isSome_iff_exists.mp (hp.reg p hk)
  rw [Hdl.bl_of_find hi] at hb
  refine ⟨i, by rw [hx, hi], ?_, hb⟩
  rw [Inst.beliefAt_eq, Buf.absMap_eq_some _ (hr.ok.ord p i hi).bel] at hb
  rw [Buf.existAt_iff]
  exact ⟨_, hb, rfl⟩

include hfix in
theorem dict_unfixed : ∀ e ∈ Hdl.dict h dH t, e.2.fixed = false := by
  intro e he
  have := Hdl.mem_dict hr hp he
  rw [this.2.2.2.2.2.2.2.1]
  exact hfix _ this.1

include hfix h2 in
theorem sides : Sides (Hdl.dict h dH t) ((dH.keys.filter (fun p => !holds n a p)).map (fun p => (p, Hdl.blD h t p)))
    (dH.keys.filter (fun p => !holds n a p)) (dH.keys.filter (holds n a)) t (holds n a) (n a) (n b) h := by
  have hkeys : (Hdl.dict h dH t).map (·.1) = dH.keys := dict_keys hr hp hd
  constructor
  · exact Hdl.dict_sorted hp
  · intro e
    rw [e, List.map_nil] at hkeys
    exact h2.left (by rw [← hkeys]; rfl)
  · left
    have : (Hdl.dict h dH t).length = dH.keys.length := by unfold Hdl.dict; rw [List.length_map]
    rw [this, List.length_eq_length_filter_add (holds n a)]
    have h1 := List.length_pos_iff.mpr h2.left
    have h3 := List.length_pos_iff.mpr h2.right
    omega
  · exact dict_unfixed hr hp hd hfix
  · exact fun p h => h
  · intro e he hq
    have hm := Hdl.mem_dict hr hp he
    have ho := hd.local (a := a) hq
    have := hd.own e.1
    rw [ho] at this
    exact ⟨this, hq⟩
  · intro e he hq
    have hm := Hdl.mem_dict hr hp he
    have := hd.own e.1
    rw [h2.owner e.1 hm.1 hq] at this
    exact this
  · intro e he hq
    have hm := Hdl.mem_dict hr hp he
    have := hd.own e.1
    rw [h2.owner e.1 hm.1 hq] at this
    obtain ⟨i, h1, -, h3⟩ := stored_at hr hp hd hm.1 this
    refine ⟨i, h1, ?_⟩
    obtain ⟨p, hpm, rfl⟩ := List.mem_map.mp he
    exact h3
  · exact SMap.sorted_map (Hdl.blD h t) (((SMap.sorted_iff_keys dH).mp hp.sorted).sublist List.filter_sublist)
  · intro e he
    obtain ⟨p, hpm, rfl⟩ := List.mem_map.mp he
    obtain ⟨u, v⟩ := List.mem_filter.mp hpm
    refine ⟨by simpa using v, fun hn => absurd ?_ hn⟩
    rw [hkeys]; exact u
  · exact ((SMap.sorted_iff_keys dH).mp hp.sorted).imp (fun h e => by rw [e] at h; exact lt_irrefl _ h) |>.filter _
  · intro p
    rw [hkeys, List.mem_filter]
  · intro p
    rw [hkeys, List.mem_filter]
    simp

include hfix h2 in
/-- The prior of the inter-agent update: the stacked covariance of the participants. -/
theorem inter_prior : ∃ S, StackedCov (participants dim c dH) c.cov S ∧
    (stackSigmaL
        (insertAll (insertAll [] ((dH.keys.filter (holds n a)).map (fun p => (p, Hdl.blD h t p))))
          ((dH.keys.filter (fun p => !holds n a p)).map (fun p => (p, Hdl.blD h t p))))
        (insertAll (insertAll [] ((dH.keys.filter (holds n a)).map (fun p => (p, sendRow (instD (n a) p) t p
            (dH.keys.filter (fun p => !holds n a p) ++ dH.keys.filter (holds n a)) []))))
          ((dH.keys.filter (fun p => !holds n a p)).map (fun p => (p, sendRow (instD (n b) p) t p
            (dH.keys.filter (fun p => !holds n a p) ++ dH.keys.filter (holds n a)) [])))) >>= fun S0 =>
      stabilize S0 (1 / 10^12)) = .ok (stabM S (1 / 10^12)) := by
  have hs := sides hr hp hd hfix h2
  have hk : dH.keys.Pairwise (· < ·) := (SMap.sorted_iff_keys dH).mp hp.sorted
  have hmem : ∀ p, p ∈ dH.keys ↔ p ∈ dH.keys.filter (holds n a) ∨ p ∈ dH.keys.filter (fun p => !holds n a p) := by
    intro p
    rw [List.mem_filter, List.mem_filter]
    cases holds n a p <;> simp
  set parts := dH.keys.filter (fun p => !holds n a p) ++ dH.keys.filter (holds n a) with hparts
  have hnd : dH.keys.Nodup := hk.imp fun h e => by rw [e] at h; exact lt_irrefl _ h
  have hperm : parts.Perm dH.keys := by
    rw [hparts]
    refine List.perm_append_comm.trans ?_
    exact List.filter_append_perm _ _
  have e1 : (dH.keys.filter (holds n a)).map (fun p => (p, sendRow (instD (n a) p) t p parts [])) =
      (dH.keys.filter (holds n a)).map (fun p => (p, sendRow (instD h p) t p parts [])) := by
    refine List.map_congr_left fun p hm => ?_
    obtain ⟨u, v⟩ := List.mem_filter.mp hm
    have := hd.own p
    rw [hd.local (a := a) v] at this
    rw [instD_find this]
  have e2 : (dH.keys.filter (fun p => !holds n a p)).map (fun p => (p, sendRow (instD (n b) p) t p parts [])) =
      (dH.keys.filter (fun p => !holds n a p)).map (fun p => (p, sendRow (instD h p) t p parts [])) := by
    refine List.map_congr_left fun p hm => ?_
    obtain ⟨u, v⟩ := List.mem_filter.mp hm
    have := hd.own p
    rw [h2.owner p u (by simpa using v)] at this
    rw [instD_find this]
  rw [e1, e2, insertAll_two (Hdl.blD h t) hk hmem, insertAll_two (fun p => sendRow (instD h p) t p parts []) hk hmem]
  obtain ⟨S, hSe, hSC⟩ := Hdl.stackSigma_spec (Hdl.dict h dH t) (Hdl.dict_sorted hp) (Hdl.covOf hr hp)
  rw [← Hdl.participants_eq hr hp] at hSC
  refine ⟨S, hSC, ?_⟩
  unfold stackSigmaL
  rw [if_pos (by rw [List.length_map, List.length_map])]
  show (stackRowsL _ (Hdl.dict h dH t) (Hdl.dict h dH t) 0 (Mat.zero (dimAll (Hdl.dict h dH t)) (dimAll (Hdl.dict h dH t))) >>= _) = _
  have hu := dict_unfixed hr hp hd hfix
  have hkd : ∀ e ∈ Hdl.dict h dH t, e.1 ∈ dH.keys := fun e he => (Hdl.mem_dict hr hp he).1
  rw [dims_eq _ hu, stackRowsL_eq h t _ dH.keys ?_ hp.reg _ hkd hu ?_ _ hkd hu]
  · unfold Hdl.stackSigma at hSe
    obtain ⟨M, hM, hS2⟩ := Hdl.bind_eq_ok hSe
    rw [hM, Res.bind_ok]
    have := stabilize_symm M (1 / 10^12)
    rw [hS2, Res.bind_ok] at this
    rw [← this, stabilize_ok hSC.1]
  · intro I hI
    refine ⟨sendRow (instD h I) t I parts [], ?_, ?_⟩
    · rw [SMap.find_map (fun p => sendRow (instD h p) t p parts []), if_pos hI]
    · intro J hJ hne
      rw [find_sendRow, SMap.find_nil]
      simp only
      rw [if_pos ⟨hperm.mem_iff.mpr hJ, hne⟩]
  · intro I hI
    rw [SMap.find_map (fun p => sendRow (instD h p) t p parts []), if_pos hI, Option.getD_some,
      length_sendRow _ _ _ _ (hperm.nodup_iff.mpr hnd) (hperm.mem_iff.mpr hI), hperm.length_eq]
    unfold Hdl.dict; rw [List.length_map]

include hfix h2 in
/-- The update between agents `a` and `b`, with its messages resolved. -/
theorem interR_unfold_all : ∃ S, StackedCov (participants dim c dH) c.cov S ∧
    ∀ (near : Mat → Mat) (pred : ℕ → Inst → Int → Inst × Bool) (lk : Link) (_ : lk.recv = true) (R r : Mat) (cfg : Cfg),
      interR near pred lk (n a) (n b) dH R r t cfg (dH.keys.filter (fun p => !holds n a p)) (dH.keys.filter (holds n a)) =
        (do
          let H ← Hdl.stackH dH
          let res ← correctionStep H R r (Hdl.fixPsd near (stabM S (1 / 10^12))) cfg
          if !res.rejected then do
            let P := Hdl.fixPsd near res.Sapos
            let l1 ← applyCorrL P t (Hdl.dict h dH t) 0 (n a)
            let G ← splitL P (Hdl.dict h dH t)
            let l2 ← setFCCs t G (dH.keys.filter (holds n a)) l1
            let x ← correctL P res.dx t (Hdl.dict h dH t) 0 (l2, (dH.keys.filter (fun p => !holds n a p)).map (fun p => (p, Hdl.blD h t p)))
            if lk.send then do
              let rm' ← remoteSet t (pick G (dH.keys.filter (fun p => !holds n a p))) x.2 (n b)
              .ok (x.1, rm', true)
            else .ok (x.1, n b, false)
          else .ok (n a, n b, true)) := by
  have hk : dH.keys.Pairwise (· < ·) := (SMap.sorted_iff_keys dH).mp hp.sorted
  have hmem : ∀ p, p ∈ dH.keys ↔ p ∈ dH.keys.filter (holds n a) ∨ p ∈ dH.keys.filter (fun p => !holds n a p) := by
    intro p
    rw [List.mem_filter, List.mem_filter]
    cases holds n a p <;> simp
  obtain ⟨pl, hpl⟩ := List.exists_mem_of_ne_nil _ h2.left
  obtain ⟨pr, hpr⟩ := List.exists_mem_of_ne_nil _ h2.right
  have hlr : ∀ {x y}, x ∈ dH.keys.filter (holds n a) → y ∈ dH.keys.filter (fun p => !holds n a p) → x ≠ y := by
    intro x y hx hy e
    subst e
    have u := (List.mem_filter.mp hx).2
    have v := (List.mem_filter.mp hy).2
    rw [u] at v; simp at v
  obtain ⟨S, hSC, hprior⟩ := inter_prior hr hp hd hfix h2
  have hdict : insertAll (insertAll [] ((dH.keys.filter (holds n a)).map (fun p => (p, Hdl.blD h t p))))
      ((dH.keys.filter (fun p => !holds n a p)).map (fun p => (p, Hdl.blD h t p))) = Hdl.dict h dH t := insertAll_two (Hdl.blD h t) hk hmem
  obtain ⟨S0, hS0, hS1⟩ := Hdl.bind_eq_ok hprior
  refine ⟨S, hSC, ?_⟩
  intro near pred lk hrecv R r cfg
  have hgl : getBF pred (n a) (dH.keys.filter (holds n a)) (dH.keys.filter (fun p => !holds n a p) ++ dH.keys.filter (holds n a)) t = _ :=
    getBF_stored pred t (Hdl.blD h t) (n a) _ _ (hk.sublist List.filter_sublist)
      (fun I hI => ⟨pr, List.mem_append_left _ hpr, hlr hI hpr⟩)
      (fun p hm => by
        obtain ⟨u, v⟩ := List.mem_filter.mp hm
        refine stored_at hr hp hd u ?_
        have := hd.own p
        rw [hd.local (a := a) v] at this
        exact this)
  have hgr : getBF pred (n b) (dH.keys.filter (fun p => !holds n a p)) (dH.keys.filter (fun p => !holds n a p) ++ dH.keys.filter (holds n a)) t = _ :=
    getBF_stored pred t (Hdl.blD h t) (n b) _ _ (hk.sublist List.filter_sublist)
      (fun I hI => ⟨pl, List.mem_append_right _ hpl, fun e => hlr hpl hI e.symm⟩)
      (fun p hm => by
        obtain ⟨u, v⟩ := List.mem_filter.mp hm
        refine stored_at hr hp hd u ?_
        have := hd.own p
        rw [h2.owner p u (by simpa using v)] at this
        exact this)
  unfold interR
  cases hH : Hdl.stackH dH with
  | throws => rfl
  | ub => rfl
  | ok H =>
    rw [Res.bind_ok, Res.bind_ok, hgl, Res.bind_ok]
    dsimp only
    rw [if_neg (by simpa using h2.left), if_pos hrecv, hgr, Res.bind_ok]
    dsimp only
    rw [if_neg (by simpa using h2.right)]
    unfold interTail
    dsimp only
    rw [hS0, Res.bind_ok, hS1, Res.bind_ok, hdict]

include hfix h2 in
theorem interR_unfold (near : Mat → Mat) (pred : ℕ → Inst → Int → Inst × Bool) (lk : Link) (hrecv : lk.recv = true) (R r : Mat) (cfg : Cfg) :
    ∃ S, StackedCov (participants dim c dH) c.cov S ∧
      interR near pred lk (n a) (n b) dH R r t cfg (dH.keys.filter (fun p => !holds n a p)) (dH.keys.filter (holds n a)) =
        (do
          let H ← Hdl.stackH dH
          let res ← correctionStep H R r (Hdl.fixPsd near (stabM S (1 / 10^12))) cfg
          if !res.rejected then do
            let P := Hdl.fixPsd near res.Sapos
            let l1 ← applyCorrL P t (Hdl.dict h dH t) 0 (n a)
            let G ← splitL P (Hdl.dict h dH t)
            let l2 ← setFCCs t G (dH.keys.filter (holds n a)) l1
            let x ← correctL P res.dx t (Hdl.dict h dH t) 0 (l2, (dH.keys.filter (fun p => !holds n a p)).map (fun p => (p, Hdl.blD h t p)))
            if lk.send then do
              let rm' ← remoteSet t (pick G (dH.keys.filter (fun p => !holds n a p))) x.2 (n b)
              .ok (x.1, rm', true)
            else .ok (x.1, n b, false)
          else .ok (n a, n b, true)) := by
  obtain ⟨S, hS, hU⟩ := interR_unfold_all hr hp hd hfix h2
  exact ⟨S, hS, hU near pred lk hrecv R r cfg⟩

include hfix h2 in
/-- The update between agents `a` and `b`, answer by answer. -/
theorem interR_spec (hnear : Hdl.NearOk near) (lk : Link) (hrecv : lk.recv = true) (R r : Mat) (cfg : Cfg) {y : Hdl × Hdl × Bool}
    (hy : interR near pred lk (n a) (n b) dH R r t cfg (dH.keys.filter (fun p => !holds n a p)) (dH.keys.filter (holds n a)) = .ok y) :
    ∃ H S res, Hdl.stackH dH = .ok H ∧ StackedCov (participants dim c dH) c.cov S ∧
      correctionStep H R r (Hdl.fixPsd near (stabM S (1 / 10^12))) cfg = .ok res ∧
      (res.rejected = true → y = (n a, n b, true)) ∧
      (res.rejected = false → ∃ h' l' rm', Hdl.SameDom h h' ∧ Hdl.Rel dim h' (c.joint (participants dim c dH) (Hdl.fixPsd near res.Sapos) res.dx) ∧
        Dist T (Function.update (Function.update n a l') b rm') h' ∧ y = (l', if lk.send then rm' else n b, lk.send)) := by
  have hs := sides hr hp hd hfix h2
  have hne := h2.ne hd hp
  obtain ⟨S, hSC, hU⟩ := interR_unfold hr hp hd hfix h2 near pred lk hrecv R r cfg
  rw [hU] at hy
  obtain ⟨H, hH, hy⟩ := Hdl.bind_eq_ok hy
  obtain ⟨res, hres, hy⟩ := Hdl.bind_eq_ok hy
  refine ⟨H, S, res, hH, hSC, hres, ?_, ?_⟩
  · intro hrj
    rw [hrj, if_neg (by simp)] at hy
    exact (Res.ok.inj hy).symm
  · intro hrj
    rw [hrj, if_pos (show (!false) = true from rfl)] at hy
    dsimp only at hy
    have hSs := stabM_tr' hSC.1 (1 / 10^12)
    obtain ⟨hP0, -⟩ := Hdl.fixPsd_facts hnear (hSC.1.stabM (1 / 10^12)) hSs
    obtain ⟨hO, hres'⟩ := Inst.correctionStep_accept hP0 cfg res hres hrj
    have hP : res.Sapos.Shape (tot (participants dim c dH)) (tot (participants dim c dH)) := by rw [hres']; exact postM_shape hO cfg
    have hPs : res.Sapos.tr = res.Sapos := by rw [hres']; exact Hdl.postM_symm hO cfg
    have hdx : res.dx.Shape (tot (participants dim c dH)) 1 := by rw [hres']; exact (gainM_shape hO _).mul hO.r
    obtain ⟨hP1, hP2⟩ := Hdl.fixPsd_facts hnear hP hPs
    have hpe := Hdl.participants_eq hr hp
    have hpe' : participants dim c dH = Hdl.bdims (Hdl.dict h dH t) := by rw [hpe, unfixed_self hs.unfixed]
    have hne' : participants dim c dH ≠ [] := by
      rw [hpe']; intro e
      exact hs.ne (List.map_eq_nil_iff.mp e)
    obtain ⟨h', hc, hr'⟩ := Hdl.commit_rel hr hp hne' hP1 hP2 hdx
    have hN : total (Hdl.dict h dH t) ≤ tot (participants dim c dH) := by rw [total_tot, hpe']
    obtain ⟨⟨l', rm'⟩, hic⟩ := interCommit_ex hP1 hdx hN hs hc
    obtain ⟨h'', hc2, k1, k2, k3, k4, k5⟩ := interCommit_sim hP1 hdx hN hs hic
    rw [hc] at hc2
    rw [← Res.ok.inj hc2] at k1 k3 k5
    refine ⟨h', l', rm', (Hdl.commit_frame hc).1, hr', ?_, ?_⟩
    · have hkeys : (Hdl.dict h dH t).map (·.1) = dH.keys := dict_keys hr hp hd
      rw [hkeys] at k1 k2 k3 k4 k5
      intro x p
      by_cases hm : p ∈ dH.keys
      · cases hq : holds n a p with
        | true =>
          have ho : Agents.agentOf T p = a := hd.local (a := a) hq
          by_cases hxb : x = b
          · subst hxb
            rw [Function.update_self, k4 p (Or.inr hq), hd, ho, if_neg hne, if_neg hne]
          · rw [Function.update_of_ne hxb]
            by_cases hxa : x = a
            · subst hxa
              rw [Function.update_self, k1 p hm hq, if_pos ho]
            · rw [Function.update_of_ne hxa, hd, ho, if_neg (fun e => hxa e.symm), if_neg (fun e => hxa e.symm)]
        | false =>
          have ho := h2.owner p hm hq
          by_cases hxb : x = b
          · subst hxb
            rw [Function.update_self, k3 p hm hq, if_pos ho]
          · rw [Function.update_of_ne hxb]
            by_cases hxa : x = a
            · subst hxa
              rw [Function.update_self, k2 p (Or.inr hq), hd, ho, if_neg (fun e => hxb e.symm), if_neg (fun e => hxb e.symm)]
            · rw [Function.update_of_ne hxa, hd, ho, if_neg (fun e => hxb e.symm), if_neg (fun e => hxb e.symm)]
      · have hx : ((Function.update (Function.update n a l') b rm') x).find p = (n x).find p := by
          by_cases hxb : x = b
          · subst hxb
            rw [Function.update_self, k4 p (Or.inl hm)]
          · rw [Function.update_of_ne hxb]
            by_cases hxa : x = a
            · subst hxa
              rw [Function.update_self, k2 p (Or.inl hm)]
            · rw [Function.update_of_ne hxa]
        rw [hx, hd, k5 p hm]
    · unfold interCommit at hic
      obtain ⟨l1, i1, hic⟩ := Hdl.bind_eq_ok hic
      obtain ⟨G, i2, hic⟩ := Hdl.bind_eq_ok hic
      obtain ⟨l2, i3, hic⟩ := Hdl.bind_eq_ok hic
      obtain ⟨z, i4, hic⟩ := Hdl.bind_eq_ok hic
      obtain ⟨rm2, i5, hic⟩ := Hdl.bind_eq_ok hic
      rw [i1, Res.bind_ok, i2, Res.bind_ok, i3, Res.bind_ok, i4, Res.bind_ok] at hy
      obtain ⟨j1, j2⟩ := Prod.mk.inj (Res.ok.inj hic)
      cases hsd : lk.send with
      | true =>
        rw [hsd, if_pos rfl, i5, Res.bind_ok, j1, j2] at hy
        rw [if_pos rfl]; exact (Res.ok.inj hy).symm
      | false =>
        rw [hsd, if_neg (by simp), j1] at hy
        rw [if_neg (by simp)]; exact (Res.ok.inj hy).symm

include hfix h2 in
/-- With fitting matrices the update between the two agents goes through. -/
theorem interR_ex (hnear : Hdl.NearOk near) (lk : Link) (hrecv : lk.recv = true) (R r : Mat) (cfg : Cfg) {H : Mat} (hH : Hdl.stackH dH = .ok H)
    (hres : ∀ S : Mat, S.Shape (tot (participants dim c dH)) (tot (participants dim c dH)) → ∃ res, correctionStep H R r S cfg = .ok res) :
    ∃ y, interR near pred lk (n a) (n b) dH R r t cfg (dH.keys.filter (fun p => !holds n a p)) (dH.keys.filter (holds n a)) = .ok y := by
  have hs := sides hr hp hd hfix h2
  obtain ⟨S, hSC, hU⟩ := interR_unfold hr hp hd hfix h2 near pred lk hrecv R r cfg
  obtain ⟨hP0, -⟩ := Hdl.fixPsd_facts hnear (hSC.1.stabM (1 / 10^12)) (stabM_tr' hSC.1 _)
  obtain ⟨res, hres⟩ := hres _ hP0
  rw [hU, hH, Res.bind_ok, hres, Res.bind_ok]
  cases hrj : res.rejected with
  | true => exact ⟨_, rfl⟩
  | false =>
    rw [if_pos (show (!false) = true from rfl)]
    obtain ⟨hO, hres'⟩ := Inst.correctionStep_accept hP0 cfg res hres hrj
    have hP : res.Sapos.Shape (tot (participants dim c dH)) (tot (participants dim c dH)) := by rw [hres']; exact postM_shape hO cfg
    have hPs : res.Sapos.tr = res.Sapos := by rw [hres']; exact Hdl.postM_symm hO cfg
    have hdx : res.dx.Shape (tot (participants dim c dH)) 1 := by rw [hres']; exact (gainM_shape hO _).mul hO.r
    obtain ⟨hP1, hP2⟩ := Hdl.fixPsd_facts hnear hP hPs
    have hpe' : participants dim c dH = Hdl.bdims (Hdl.dict h dH t) := by rw [Hdl.participants_eq hr hp, unfixed_self hs.unfixed]
    have hne' : participants dim c dH ≠ [] := by
      rw [hpe']; intro e
      exact hs.ne (List.map_eq_nil_iff.mp e)
    obtain ⟨h', hc, hr'⟩ := Hdl.commit_rel hr hp hne' hP1 hP2 hdx
    have hN : total (Hdl.dict h dH t) ≤ tot (participants dim c dH) := by rw [total_tot, hpe']
    obtain ⟨⟨l', rm'⟩, hic⟩ := interCommit_ex hP1 hdx hN hs hc
    unfold interCommit at hic
    obtain ⟨l1, i1, hic⟩ := Hdl.bind_eq_ok hic
    obtain ⟨G, i2, hic⟩ := Hdl.bind_eq_ok hic
    obtain ⟨l2, i3, hic⟩ := Hdl.bind_eq_ok hic
    obtain ⟨z, i4, hic⟩ := Hdl.bind_eq_ok hic
    obtain ⟨rm2, i5, hic⟩ := Hdl.bind_eq_ok hic
    dsimp only
    rw [i1, Res.bind_ok, i2, Res.bind_ok, i3, Res.bind_ok, i4, Res.bind_ok]
    cases lk.send with
    | true => rw [if_pos rfl, i5, Res.bind_ok]; exact ⟨_, rfl⟩
    | false => rw [if_neg (by simp)]; exact ⟨_, rfl⟩

end
end Collab
end Ikf
