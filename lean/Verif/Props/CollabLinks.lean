import Verif.Props.CollabProgress

/-!
# Collaborating agents: lost messages and answers (C71, C72)
-/

namespace Ikf
open Mat
namespace Collab

variable {T : Agents.Tables} {a b : ℕ} {n n' : Net} {h : Hdl} {dim : ℕ → ℕ} {c : Central} {dH : SMap Mat} {t : Int}
  {near : Mat → Mat} {pred : ℕ → Inst → Int → Inst × Bool} {fp : FP}

/-- A joint observation with participants at agent `a` and one other agent is the update between the two. -/
theorem inter_case (hd : Dist T n h) (hr : Hdl.Rel dim h c) {R r : Mat} {cfg : Cfg} (hw : Net.Wf T dim n a (.jointR dH R r t cfg))
    (ho : OneOther (Agents.agentOf T) a dH) (hl : ∃ p ∈ dH.keys, Agents.agentOf T p = a) :
    ∃ b, b ≠ a ∧ Two T n a b dH ∧ Hdl.Parts dim h c dH t ∧ (∀ p ∈ dH.keys, c.fix p = false) ∧
      ∀ fp near pred lk, Net.run T fp near pred lk n a (.jointR dH R r t cfg) = (do
        let x ← interR near pred lk (n a) (n b) dH R r t cfg (dH.keys.filter (fun p => !holds n a p)) (dH.keys.filter (holds n a))
        .ok (Function.update (Function.update n a x.1) b x.2.1, x.2.2)) := by
  obtain ⟨hdH, hN, hfree⟩ := hw
  have hp : Hdl.Parts dim h c dH t :=
    ⟨hdH, fun p hpm => (((hN p hpm).union hd).rel hr).1, fun p hpm => (((hN p hpm).union hd).rel hr).2⟩
  obtain ⟨s1, s2, -, s4⟩ := Agents.split_spec (holds n a) T dH.keys ([], [], []) List.Pairwise.nil
  rw [List.nil_append] at s1 s2
  obtain ⟨f1, f2⟩ := remote_facts (a := a) hd hp
  have hone := one_agent_iff (a := a) hd hp
  have hall : ¬ AllAt (Agents.agentOf T) a dH := by
    obtain ⟨b, hba, ⟨k, hk, hkb⟩, -⟩ := ho
    intro hall
    exact hba (by rw [← hkb, hall k hk])
  have hfix : ∀ p ∈ dH.keys, c.fix p = false := fun p hpm => free_fix hd hr (hN p hpm) (hfree hall p hpm)
  have hrne : dH.keys.filter (fun p => !holds n a p) ≠ [] := fun e => hall (f1.mp e)
  have ho' := ho
  obtain ⟨b, hba, ⟨k, hk, hkb⟩, hob⟩ := ho
  have hle : dH.keys.filter (holds n a) ≠ [] := by
    obtain ⟨p, hpm, hpa⟩ := hl
    exact fun e => f2.mp e p hpm hpa
  have hhead : Agents.agentOf T ((dH.keys.filter (fun p => !holds n a p)).headD 0) = b := by
    obtain ⟨p0, r0, hpr⟩ := List.exists_cons_of_ne_nil hrne
    rw [hpr]
    have hm0 : p0 ∈ dH.keys.filter (fun p => !holds n a p) := by rw [hpr]; exact List.mem_cons_self
    obtain ⟨u, v⟩ := List.mem_filter.mp hm0
    refine (hob p0 u).resolve_left (fun e => ?_)
    rw [(holds_iff hd (hp.reg p0 u)).mpr e] at v
    simp at v
  refine ⟨b, hba, ⟨hle, hrne, fun p hpm hf => (hob p hpm).resolve_left (fun e => ?_)⟩, hp, hfix, ?_⟩
  · rw [(holds_iff hd (hp.reg p hpm)).mpr e] at hf
    simp at hf
  · intro fp near pred lk
    have hq : (fun p => ((n a).find p).isSome) = holds n a := rfl
    simp only [Net.run, Net.applyObsR, Agents.applyObsDict, hq]
    rw [if_neg (by rw [s1]; exact fun e => hrne (List.length_eq_zero_iff.mp e)), if_pos (hone.mpr ho'), s1, s2, hhead]

/-- C71. The request for the beliefs of the other agent is lost: nothing changes and the answer is `false`. -/
theorem c71_lost_request_partial (hnear : Hdl.NearOk near) (hreach : NReach T fp near pred dim n) {R r : Mat} {cfg : Cfg}
    (hw : Net.Wf T dim n a (.jointR dH R r t cfg)) (hf : Net.Fits T dim n a (.jointR dH R r t cfg))
    (ho : OneOther (Agents.agentOf T) a dH) (hl : ∃ p ∈ dH.keys, Agents.agentOf T p = a) {lk : Link} (hlk : lk.recv = false) :
    Net.run T fp near pred lk n a (.jointR dH R r t cfg) = .ok (n, false) := by
  obtain ⟨h, c, hd, hr⟩ := hreach.rel hnear
  obtain ⟨b, hba, h2, hp, hfix, hrun⟩ := inter_case hd hr hw ho hl
  obtain ⟨hne, ⟨m, he, -, -⟩, -⟩ := hf
  obtain ⟨H, hH, -⟩ := Hdl.stackH_ok dH m (fun e hem => (he e hem).1.1) hne
  have hk : dH.keys.Pairwise (· < ·) := (SMap.sorted_iff_keys dH).mp hp.sorted
  obtain ⟨pr, hpr⟩ := List.exists_mem_of_ne_nil _ h2.right
  have hgl : getBF pred (n a) (dH.keys.filter (holds n a)) (dH.keys.filter (fun p => !holds n a p) ++ dH.keys.filter (holds n a)) t = _ :=
    getBF_stored pred t (Hdl.blD h t) (n a) _ _ (hk.sublist List.filter_sublist)
      (fun I hI => ⟨pr, List.mem_append_left _ hpr, fun e => by
        have u := (List.mem_filter.mp hI).2
        have v := (List.mem_filter.mp hpr).2
        rw [← e, u] at v; simp at v⟩)
      (fun p hm => by
        obtain ⟨u, v⟩ := List.mem_filter.mp hm
        refine stored_at hr hp hd u ?_
        have := hd.own p
        rw [hd.local (a := a) v] at this
        exact this)
  rw [hrun]
  unfold interR
  rw [hH, Res.bind_ok, hgl, Res.bind_ok]
  dsimp only
  rw [if_neg (by simpa using h2.left), hlk, if_neg (by simp), Res.bind_ok]
  simp only [Function.update_eq_self]

/-- C71. The posterior is not delivered to the other agent: an observation that would have been accepted is answered
`false` and the other agent is as before, but the calling agent is as if it had been delivered. (An outlier is not sent.) -/
theorem c71_lost_posterior (hnear : Hdl.NearOk near) (hreach : NReach T fp near pred dim n) {R r : Mat} {cfg : Cfg}
    (hw : Net.Wf T dim n a (.jointR dH R r t cfg)) (ho : OneOther (Agents.agentOf T) a dH) (hl : ∃ p ∈ dH.keys, Agents.agentOf T p = a)
    {ans : Bool} (hs : Net.run T fp near pred {} n a (.jointR dH R r t cfg) = .ok (n', ans)) :
    Net.run T fp near pred { send := false } n a (.jointR dH R r t cfg) = .ok (Function.update n a (n' a), false) ∨
      (n' = n ∧ Net.run T fp near pred { send := false } n a (.jointR dH R r t cfg) = .ok (n, true)) := by
  obtain ⟨h, c, hd, hr⟩ := hreach.rel hnear
  obtain ⟨b, hba, h2, hp, hfix, hrun⟩ := inter_case hd hr hw ho hl
  obtain ⟨S, hSC, hU⟩ := interR_unfold_all hr hp hd hfix h2
  rw [hrun, hU near pred {} rfl R r cfg] at hs
  rw [hrun, hU near pred { send := false } rfl R r cfg]
  obtain ⟨x, hx, hs⟩ := Hdl.bind_eq_ok hs
  obtain ⟨H, g1, hx⟩ := Hdl.bind_eq_ok hx
  obtain ⟨res, g2, hx⟩ := Hdl.bind_eq_ok hx
  rw [g1, Res.bind_ok, g2, Res.bind_ok]
  cases hrj : res.rejected with
  | true =>
    rw [hrj, if_neg (by simp)] at hx
    right
    rw [if_neg (by simp), Res.bind_ok]
    rw [← Res.ok.inj hx] at hs
    have := (Prod.mk.inj (Res.ok.inj hs)).1
    simp only [Function.update_eq_self] at this ⊢
    exact ⟨this.symm, trivial⟩
  | false =>
    rw [hrj, if_pos (show (!false) = true from rfl)] at hx
    dsimp only at hx
    left
    rw [if_pos (show (!false) = true from rfl)]
    obtain ⟨l1, g3, hx⟩ := Hdl.bind_eq_ok hx
    obtain ⟨G, g4, hx⟩ := Hdl.bind_eq_ok hx
    obtain ⟨l2, g5, hx⟩ := Hdl.bind_eq_ok hx
    obtain ⟨y, g6, hx⟩ := Hdl.bind_eq_ok hx
    rw [if_pos rfl] at hx
    obtain ⟨rm', g7, hx⟩ := Hdl.bind_eq_ok hx
    dsimp only
    rw [g3, Res.bind_ok, g4, Res.bind_ok, g5, Res.bind_ok, g6, Res.bind_ok, if_neg (by simp), Res.bind_ok]
    rw [← Res.ok.inj hx] at hs
    have := (Prod.mk.inj (Res.ok.inj hs)).1
    rw [← this]
    simp only
    rw [Function.update_of_ne (Ne.symm hba), Function.update_self]
    congr 2
    rw [Function.update_comm (Ne.symm hba), Function.update_eq_self]

/-! ## Answers -/

/-- C72. The answer `false` means that nothing changed, at no agent (messages delivered). -/
theorem c72_false_unchanged (hnear : Hdl.NearOk near) (hreach : NReach T fp near pred dim n) {ev : Ev} (hw : Net.Wf T dim n a ev)
    (hs : Net.run T fp near pred {} n a ev = .ok (n', false)) : ∀ x p, (n' x).find p = (n x).find p := by
  obtain ⟨h, c, hd, hr⟩ := hreach.rel hnear
  obtain ⟨h', c', -, hd', -, -, he⟩ := step_sim hnear hd hr ev hw hs
  intro x p
  rw [hd', hd, he rfl]

/-- C72. The answer `true` of a joint observation means that it passed the gate and was applied, if not exactly one other
agent is involved, or if the measurement (not the residual) was given. -/
theorem c72_true_applied_partial (hnear : Hdl.NearOk near) (hreach : NReach T fp near pred dim n) {ev : Ev} (hw : Net.Wf T dim n a ev)
    (hs : Net.run T fp near pred {} n a ev = .ok (n', true))
    (hev : (∃ dH R r t cfg, ev = .jointR dH R r t cfg ∧ ¬ OneOther (Agents.agentOf T) a dH) ∨ ∃ dH z R t cfg, ev = .jointZ dH z R t cfg) :
    ∃ h c h' c', Dist T n h ∧ Hdl.Rel dim h c ∧ Dist T n' h' ∧ Hdl.Rel dim h' c' ∧
      ∃ dH R r cfg H S S' res, SideBySide dH H ∧ StackedCov (participants dim c dH) c.cov S ∧
        (S' = stabM S (1 / 10^12) ∨ S' = Hdl.fixPsd near (stabM S (1 / 10^12))) ∧ correctionStep H R r S' cfg = .ok res ∧ res.rejected = false ∧
        c' = c.joint (participants dim c dH) (Hdl.fixPsd near res.Sapos) res.dx ∧
        ((∃ t, ev = .jointR dH R r t cfg) ∨ ∃ t z m, ev = .jointZ dH z R t cfg ∧ StackedMean (participants dim c dH) c.mu m ∧ r = z - H * m) := by
  obtain ⟨h, c, hd, hr⟩ := hreach.rel hnear
  obtain ⟨h', c', hstep, hd', -, hr', -⟩ := step_sim hnear hd hr ev hw hs
  refine ⟨h, c, h', c', hd, hr, hd', hr', ?_⟩
  rcases hev with ⟨dH, R, r, t, cfg, rfl, ho⟩ | ⟨dH, z, R, t, cfg, rfl⟩
  · cases hstep with
    | accept hl hsp =>
      cases hsp with
      | jointR _ _ _ _ _ H S res hH hS hres hrej => exact ⟨dH, R, r, cfg, H, S, _, res, hH, hS, Or.inl rfl, hres, hrej, rfl, Or.inl ⟨t, rfl⟩⟩
    | obsR _ _ _ _ _ H S res _ _ hH hS hres hrej => exact ⟨dH, R, r, cfg, H, S, _, res, hH, hS, Or.inr rfl, hres, hrej, rfl, Or.inl ⟨t, rfl⟩⟩
    | rejR _ _ _ _ _ H S res _ _ hH hS hres hrej ha => exact absurd (ha.mp rfl) ho
  · cases hstep with
    | accept hl hsp =>
      cases hsp with
      | jointZ _ _ _ _ _ H S m res hH hS hm hres hrej => exact ⟨dH, R, _, cfg, H, S, _, res, hH, hS, Or.inl rfl, hres, hrej, rfl, Or.inr ⟨t, z, m, rfl, hm, rfl⟩⟩
    | obsZ _ _ _ _ _ H S m res _ hH hS hm hres hrej => exact ⟨dH, R, _, cfg, H, S, _, res, hH, hS, Or.inr rfl, hres, hrej, rfl, Or.inr ⟨t, z, m, rfl, hm, rfl⟩⟩

/-- C72. With participants at the caller and exactly one other agent, the answer is always `true`, also when the gate
rejects the observation. -/
theorem c72_one_other_always_true (hnear : Hdl.NearOk near) (hreach : NReach T fp near pred dim n) {R r : Mat} {cfg : Cfg}
    (hw : Net.Wf T dim n a (.jointR dH R r t cfg)) (ho : OneOther (Agents.agentOf T) a dH) (hl : ∃ p ∈ dH.keys, Agents.agentOf T p = a)
    {ans : Bool} (hs : Net.run T fp near pred {} n a (.jointR dH R r t cfg) = .ok (n', ans)) : ans = true := by
  obtain ⟨h, c, hd, hr⟩ := hreach.rel hnear
  obtain ⟨b, hba, h2, hp, hfix, hrun⟩ := inter_case hd hr hw ho hl
  rw [hrun] at hs
  obtain ⟨x, hx, hs⟩ := Hdl.bind_eq_ok hs
  obtain ⟨H, S, res, hH, hSC, hres, hrej, hacc⟩ := interR_spec hr hp hd hfix h2 hnear {} rfl R r cfg hx
  have := (Prod.mk.inj (Res.ok.inj hs)).2
  rw [← this]
  cases hrj : res.rejected with
  | true => rw [hrej hrj]
  | false =>
    obtain ⟨h', l', rm', -, -, -, e⟩ := hacc hrj
    rw [e]

end Collab
end Ikf
