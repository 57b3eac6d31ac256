import Verif.Model.Schmidt
import Verif.Props.Progress

/-! # The Schmidt-Kalman handler: lemmas -/

namespace Ikf
open Mat
namespace Hdl

/-- Specification: `G` is `K` with the rows of the non-essential blocks set to zero. -/
def IsSchmidtGain (bs : List (ℕ × ℕ)) (ess : ℕ → Bool) (K G : Mat) : Prop :=
  G.Shape K.rows K.cols ∧ ∀ p ∈ bs, ∀ i < p.2, ∀ j, G.e (off bs p.1 + i) j = if ess p.1 then K.e (off bs p.1 + i) j else 0

/-- Specification: the Joseph form for an arbitrary gain. -/
noncomputable def josephM (H R S G : Mat) : Mat := (one S.rows - G * H) * S * (one S.rows - G * H).tr + G * R * G.tr

theorem schmidtGain_spec {m : ℕ} {K : Mat} {D : SMap Belief} (hD : (D.map (·.1)).Nodup) (hK : K.Shape (tot (bdims D)) m)
    (r l : SMap Belief) (hlr : l ++ r = D) (G : Mat) (hG : G.Shape (tot (bdims D)) m)
    (h0 : ∀ e ∈ r, ∀ i < e.2.dim, ∀ j, G.e (off (bdims D) e.1 + i) j = 0)
    (h1 : ∀ e ∈ l, ∀ i < e.2.dim, ∀ j, G.e (off (bdims D) e.1 + i) j = if e.2.essential then K.e (off (bdims D) e.1 + i) j else 0) :
    ∃ G', schmidtGain K m r (tot (bdims l)) G = .ok G' ∧ G'.Shape (tot (bdims D)) m ∧
      ∀ e ∈ D, ∀ i < e.2.dim, ∀ j, G'.e (off (bdims D) e.1 + i) j = if e.2.essential then K.e (off (bdims D) e.1 + i) j else 0 := by
  induction r generalizing l G with
  | nil =>
    rw [List.append_nil] at hlr
    exact ⟨G, rfl, hG, by rw [← hlr]; rw [← hlr] at h1; exact h1⟩
  | cons e r ih =>
    have he : e ∈ D := by rw [← hlr]; simp
    have hn' : ((bdims D).map (·.1)).Nodup := by rw [bdims_keys]; exact hD
    have hoff : off (bdims D) e.1 = tot (bdims l) := by rw [← hlr]; exact off_bdims l e r (by rw [hlr]; exact hD)
    have hem : (e.1, e.2.dim) ∈ bdims D := List.mem_map.mpr ⟨e, he, rfl⟩
    have hle := off_add_le hn' hem
    simp only at hle
    have hlr' : (l ++ [e]) ++ r = D := by rw [← hlr]; simp
    have hnd := hD
    rw [← hlr] at hnd
    simp only [List.map_append, List.map_cons, List.nodup_append, List.nodup_cons, List.mem_cons] at hnd
    have hner : ∀ x ∈ r, x.1 ≠ e.1 := fun x hx hxe => hnd.2.1.1 (by rw [← hxe]; exact List.mem_map_of_mem hx)
    have hnel : ∀ x ∈ l, x.1 ≠ e.1 := fun x hx hxe => hnd.2.2 x.1 (List.mem_map_of_mem hx) e.1 (Or.inl rfl) hxe
    rw [schmidtGain]
    cases hess : e.2.essential with
    | false =>
      simp only [Bool.false_eq_true, if_false]
      rw [tot_bdims_snoc]
      refine ih (l ++ [e]) hlr' G hG (fun x hx => h0 x (List.mem_cons_of_mem _ hx)) ?_
      intro x hx i hi j
      rcases List.mem_append.mp hx with hx | hx
      · exact h1 x hx i hi j
      · obtain rfl : x = e := by simpa using hx
        rw [hess]; simp only [Bool.false_eq_true, if_false]
        exact h0 x List.mem_cons_self i hi j
    | true =>
      simp only [if_true]
      rw [← hoff, blockC_ok (by rw [hK.1]; exact hle) (by rw [hK.2]; omega), Res.bind_ok]
      set B := K.block (off (bdims D) e.1) 0 e.2.dim m with hB
      have hBs : B.Shape e.2.dim m := ⟨rfl, rfl⟩
      have hset : G.setBlockC (off (bdims D) e.1) 0 e.2.dim m B = .ok (G.setBlock (off (bdims D) e.1) 0 B) := by
        unfold Mat.setBlockC
        rw [if_pos ⟨by rw [hG.1]; exact hle, by rw [hG.2]; omega, hBs.1, hBs.2⟩]
      rw [hset, Res.bind_ok, hoff, tot_bdims_snoc, ← hoff]
      have hv := Mat.setBlock_e (A := G) (B := B) (i0 := off (bdims D) e.1) (j0 := 0) (by rw [hBs.1, hG.1]; exact hle) (by rw [hBs.2, hG.2]; omega)
      have hsame : ∀ x ∈ D, x.1 ≠ e.1 → ∀ i < x.2.dim, ∀ j, (G.setBlock (off (bdims D) e.1) 0 B).e (off (bdims D) x.1 + i) j = G.e (off (bdims D) x.1 + i) j := by
        intro x hx hxe i hi j
        rw [hv]
        split
        · rename_i hcond
          exfalso
          have hxm : (x.1, x.2.dim) ∈ bdims D := List.mem_map.mpr ⟨x, hx, rfl⟩
          have := off_disjoint hn' hxm hem (i := i) (j := off (bdims D) x.1 + i - off (bdims D) e.1) hi
            (by have := hcond.2.1; rw [hBs.1] at this; simp only; omega) (by simp only; omega)
          exact hxe (Prod.mk.inj this.1).1
        · rfl
      refine ih (l ++ [e]) hlr' _ ⟨hG.1, hG.2⟩ ?_ ?_
      · intro x hx i hi j
        rw [hsame x (by rw [← hlr]; simp [hx]) (hner x hx) i hi j]
        exact h0 x (List.mem_cons_of_mem _ hx) i hi j
      · intro x hx i hi j
        rcases List.mem_append.mp hx with hx | hx
        · rw [hsame x (by rw [← hlr]; simp [hx]) (hnel x hx) i hi j]
          exact h1 x hx i hi j
        · obtain rfl : x = e := by simpa using hx
          rw [hess, if_pos rfl, hv]
          by_cases hj : j < m
          · rw [if_pos ⟨by omega, by rw [hBs.1]; omega, by omega, by rw [hBs.2]; omega⟩]
            show (K.block _ 0 _ m).e _ _ = _
            rw [Mat.block_e, if_pos ⟨by omega, by omega⟩]
            congr 1 <;> omega
          · rw [K.out _ j (Or.inr (by rw [hK.2]; omega))]
            rw [if_neg (fun hh => hj (by have := hh.2.2.2; rw [hBs.2] at this; omega)), G.out _ j (Or.inr (by rw [hG.2]; omega))]

/-- The gain of a whole dictionary. -/
theorem schmidtGain_ok {m : ℕ} {K : Mat} {D : SMap Belief} (hD : (D.map (·.1)).Nodup) (hK : K.Shape (tot (bdims D)) m) (ess : ℕ → Bool)
    (he : ∀ e ∈ D, e.2.essential = ess e.1) :
    ∃ G, schmidtGain K m D 0 (Mat.zero K.rows K.cols) = .ok G ∧ IsSchmidtGain (bdims D) ess K G := by
  obtain ⟨G, h1, h2, h3⟩ := schmidtGain_spec hD hK D [] rfl (Mat.zero K.rows K.cols) hK (fun _ _ _ _ _ => by rw [zero_e]) (by simp)
  refine ⟨G, h1, ⟨by rw [h2.1, hK.1], by rw [h2.2, hK.2]⟩, ?_⟩
  intro p hp i hi j
  obtain ⟨e, hem, rfl⟩ := List.mem_map.mp hp
  simp only at hi ⊢
  rw [h3 e hem i hi j, he e hem]

theorem IsSchmidtGain.unique {bs : List (ℕ × ℕ)} (hn : (bs.map (·.1)).Nodup) {ess : ℕ → Bool} {K G G' : Mat} (hK : K.rows = tot bs)
    (h : IsSchmidtGain bs ess K G) (h' : IsSchmidtGain bs ess K G') : G = G' := by
  refine Mat.ext' (by rw [h.1.1, h'.1.1]) (by rw [h.1.2, h'.1.2]) ?_
  intro i j hi hj
  obtain ⟨p, hp, k, hk, rfl⟩ := off_cover hn (k := i) (by rw [← hK, ← h.1.1]; exact hi)
  rw [h.2 p hp k hk j, h'.2 p hp k hk j]

theorem josephM_shape {H R r S G : Mat} {n m : ℕ} (h : ObsShape H R r S n m) (hG : G.Shape n m) : (josephM H R S G).Shape n n := by
  unfold josephM
  rw [h.S.1]
  exact (((Shape.one n).sub.mul h.S).mul (Shape.one n).sub.tr).add

/-- `correction_step` on fitting shapes. -/
theorem schmidtStep_eq {h : Hdl} {t : Int} {H R r S : Mat} {D : SMap Belief} {n m : ℕ} (hS : stackSigma h D t = .ok S)
    (hO : ObsShape H R r S n m) (cfg : Cfg) {G : Mat}
    (hG : schmidtGain (gainM H R S cfg.eps) m D 0 (Mat.zero n m) = .ok G) (hGs : G.Shape n m) :
    schmidtStep h t H R r D cfg =
      ((if cfg.outlier then do
        let good ← checkNIS (innov H R S cfg.eps) r cfg.conf
        .ok (!good)
      else .ok false : Res Bool) >>= fun rej =>
      .ok ⟨symM (josephM H R S G), G * r, one n - G * H, rej⟩) := by
  unfold schmidtStep
  rw [hS, Res.bind_ok, if_pos hO.check]
  have hS0 := innov0_shape hO
  have hSi := innov_shape hO cfg.eps
  have hK := gainM_shape hO cfg.eps
  rw [hO.H.mulC hO.S, Res.bind_ok, (hO.H.mul hO.S).mulC hO.H.tr, Res.bind_ok,
    ((hO.H.mul hO.S).mul hO.H.tr).addC hO.R, Res.bind_ok]
  rw [show (H * S * H.tr + R) = innov0 H R S from rfl, stabilize_ok hS0, Res.bind_ok]
  rw [show stabM (innov0 H R S) cfg.eps = innov H R S cfg.eps from rfl]
  congr 1
  funext rej
  have hU : (one n - G * H).Shape n n := (Shape.one n).sub
  rw [hO.S.mulC hO.H.tr, Res.bind_ok, hSi.invC, Res.bind_ok, (hO.S.mul hO.H.tr).mulC hSi.inv, Res.bind_ok]
  rw [show S * H.tr * (innov H R S cfg.eps).inv = gainM H R S cfg.eps from rfl, hK.1, hK.2, hO.H.1, hG, Res.bind_ok,
    hGs.mulC hO.r, Res.bind_ok, hGs.mulC hO.H, Res.bind_ok, hO.S.1, (Shape.one n).subC (hGs.mul hO.H), Res.bind_ok,
    hU.mulC hO.S, Res.bind_ok, (hU.mul hO.S).mulC hU.tr, Res.bind_ok, hGs.mulC hO.R, Res.bind_ok, (hGs.mul hO.R).mulC hGs.tr, Res.bind_ok,
    ((hU.mul hO.S).mul hU.tr).addC ((hGs.mul hO.R).mul hGs.tr), Res.bind_ok]
  have hJ : (one n - G * H) * S * (one n - G * H).tr + G * R * G.tr = josephM H R S G := by unfold josephM; rw [hO.S.1]
  rw [hJ, symmetrize_ok (josephM_shape hO hGs), Res.bind_ok]

/-- The loop of the overridden `correct_beliefs_implace`. -/
theorem correctBeliefsS_spec {T : ℕ → Int} {P dx : Mat} {t : Int} {D : SMap Belief} (hD : (D.map (·.1)).Nodup)
    (hP : P.Shape (tot (bdims D)) (tot (bdims D))) (hx : dx.Shape (tot (bdims D)) 1)
    (hm : ∀ e ∈ D, e.2.mean.Shape e.2.dim 1) (ht : ∀ e ∈ D, t ≤ T e.1)
    (r l : SMap Belief) (hlr : l ++ r = D) (h : Hdl) (hk : HOk T h) (hreg : ∀ e ∈ D, (h.find e.1).isSome) :
    ∃ h', correctBeliefsS P dx t r (tot (bdims l)) h = .ok h' ∧ HOk T h' ∧ SameDom h h' ∧ (∀ a b t', fc h' a b t' = fc h a b t') ∧
      (∀ e ∈ r, e.2.essential = true → bl h' e.1 t = some { e.2 with
        mean := e.2.mean + dx.block (off (bdims D) e.1) 0 e.2.dim 1,
        Sigma := P.block (off (bdims D) e.1) (off (bdims D) e.1) e.2.dim e.2.dim }) ∧
      ∀ a t', ¬ (t' = t ∧ ∃ e ∈ r, e.1 = a ∧ e.2.essential = true) → bl h' a t' = bl h a t' := by
  induction r generalizing l h with
  | nil => exact ⟨h, rfl, hk, SameDom.refl h, fun _ _ _ => rfl, by simp, fun _ _ _ => rfl⟩
  | cons e r ih =>
    have he : e ∈ D := by rw [← hlr]; simp
    have hn' : ((bdims D).map (·.1)).Nodup := by rw [bdims_keys]; exact hD
    have hoff : off (bdims D) e.1 = tot (bdims l) := by rw [← hlr]; exact off_bdims l e r (by rw [hlr]; exact hD)
    have hem : (e.1, e.2.dim) ∈ bdims D := List.mem_map.mpr ⟨e, he, rfl⟩
    have hle := off_add_le hn' hem
    simp only at hle
    have hlr' : (l ++ [e]) ++ r = D := by rw [← hlr]; simp
    have hne : e.1 ∉ r.map (·.1) := by
      rw [← hlr] at hD
      simp only [List.map_append, List.map_cons, List.nodup_append, List.nodup_cons] at hD
      exact hD.2.1.1
    unfold correctBeliefsS
    cases hess : e.2.essential with
    | false =>
      simp only [Bool.false_eq_true, if_false]
      rw [tot_bdims_snoc]
      obtain ⟨h', g1, g2, g3, g4, g5, g6⟩ := ih (l ++ [e]) hlr' h hk hreg
      refine ⟨h', g1, g2, g3, g4, ?_, ?_⟩
      · intro x hxm hxe
        rcases List.mem_cons.mp hxm with rfl | hxm
        · rw [hess] at hxe; cases hxe
        · exact g5 x hxm hxe
      · intro a t' hno
        exact g6 a t' (fun hh => hno ⟨hh.1, by obtain ⟨x, hx1, hx2⟩ := hh.2; exact ⟨x, List.mem_cons_of_mem _ hx1, hx2⟩⟩)
    | true =>
      obtain ⟨i, hi⟩ := Option.isSome_iff_exists.mp (hreg e he)
      have ho := hk.ord _ i hi
      simp only [if_true]
      rw [← hoff, blockC_ok (by rw [hP.1]; exact hle) (by rw [hP.2]; exact hle), Res.bind_ok,
        blockC_ok (by rw [hx.1]; exact hle) (by rw [hx.2]), Res.bind_ok]
      unfold Belief.correct
      have hdb : (dx.block (off (bdims D) e.1) 0 e.2.dim 1).Shape e.2.dim 1 := ⟨rfl, rfl⟩
      rw [(hm e he).addC hdb, Res.bind_ok, Res.bind_ok, get_ok hi, Res.bind_ok, hoff, tot_bdims_snoc, ← hoff]
      generalize hb : ({ e.2 with mean := e.2.mean + dx.block (off (bdims D) e.1) 0 e.2.dim 1,
                                   Sigma := P.block (off (bdims D) e.1) (off (bdims D) e.1) e.2.dim e.2.dim } : Belief) = b
      have hk1 : HOk T (h.set e.1 (i.setBelief b t)) := hk.set1 (ho.setBelief _ _) ((hk.upTo _ i hi).setBelief ho b t (ht e he))
      have hd1 : SameDom h (h.set e.1 (i.setBelief b t)) := sameDom_set1 hi
      have hf1 : ∀ a c t', fc (h.set e.1 (i.setBelief b t)) a c t' = fc h a c t' := by
        intro a c t'
        rw [fc_set1]
        split
        · rename_i hpa; rw [← hpa, fc_of_find hi]; rfl
        · rfl
      have hb1 : ∀ a t', bl (h.set e.1 (i.setBelief b t)) a t' = if t' = t ∧ a = e.1 then some b else bl h a t' := by
        intro a t'
        rw [bl_set1]
        by_cases hpa : e.1 = a
        · subst hpa
          rw [if_pos rfl, Inst.beliefAt_setBelief ho, bl_of_find hi]
          by_cases htt : t' = t
          · rw [if_pos htt, if_pos ⟨htt, rfl⟩]
          · rw [if_neg htt, if_neg (fun hh => htt hh.1)]
        · rw [if_neg hpa, if_neg (fun hh => hpa hh.2.symm)]
      obtain ⟨h', g1, g2, g3, g4, g5, g6⟩ := ih (l ++ [e]) hlr' _ hk1 (fun x hx => sameDom_isSome hd1 (hreg x hx))
      refine ⟨h', g1, g2, hd1.trans g3, fun a c t' => (g4 a c t').trans (hf1 a c t'), ?_, ?_⟩
      · intro x hxm hxe
        rcases List.mem_cons.mp hxm with rfl | hxm
        · rw [g6 _ _ (fun hh => by obtain ⟨y, hy1, hy2, -⟩ := hh.2; exact hne (by rw [← hy2]; exact List.mem_map_of_mem hy1)), hb1,
            if_pos ⟨rfl, rfl⟩, hb]
        · exact g5 x hxm hxe
      · intro a t' hno
        rw [g6 a t' (fun hh => hno ⟨hh.1, by obtain ⟨x, hx1, hx2⟩ := hh.2; exact ⟨x, List.mem_cons_of_mem _ hx1, hx2⟩⟩), hb1, if_neg]
        rintro ⟨x1, x2⟩
        exact hno ⟨x1, e, List.mem_cons_self, x2.symm, hess⟩

end Hdl

/-- Specification: the joint correction of the Schmidt-Kalman filter: that of the ordinary filter, except that the
non-essential participants keep their mean and their own covariance. -/
noncomputable def Central.jointS (c : Central) (bs : List (ℕ × ℕ)) (ess : ℕ → Bool) (P dx : Mat) : Central :=
  { c.joint bs P dx with
    mu := fun p => if ess p then (c.joint bs P dx).mu p else c.mu p
    cov := fun p q => if p = q ∧ ess p = false then c.cov p q else (c.joint bs P dx).cov p q }

namespace Hdl
variable {dim : ℕ → ℕ} {h h' : Hdl} {c : Central} {dH : SMap Mat} {t : Int}

/-- The belief of `p` at `t` is essential. -/
def essentialAt (h : Hdl) (t : Int) (p : ℕ) : Bool := match bl h p t with
  | some b => b.essential
  | none => true

/-- Committing an accepted Schmidt correction. -/
theorem commitS_rel (hr : Rel dim h c) (hp : Parts dim h c dH t) (hfx : ∀ p ∈ dH.keys, c.fix p = false) (hne : participants dim c dH ≠ []) {P dx : Mat}
    (hP : P.Shape (tot (participants dim c dH)) (tot (participants dim c dH))) (hsym : P.tr = P)
    (hx : dx.Shape (tot (participants dim c dH)) 1) :
    ∃ h', commitS h (dict h dH t) P dx t = .ok h' ∧ Rel dim h' (c.jointS (participants dim c dH) (essentialAt h t) P dx) := by
  obtain ⟨h3, e3, r3⟩ := commit_rel hr hp hne hP hsym hx
  have hmem : ∀ e ∈ dict h dH t, _ := fun e he => mem_dict hr hp he
  have hu : unfixed (dict h dH t) = dict h dH t := by
    unfold unfixed; rw [List.filter_eq_self]; intro e he
    have := hmem e he
    rw [this.2.2.2.2.2.2.2.1, hfx _ this.1]; rfl
  have hpe := participants_eq hr hp
  rw [hu] at hpe
  unfold commit at e3
  obtain ⟨h1, e1, e3⟩ := bind_eq_ok e3
  obtain ⟨h2, e2, e3⟩ := bind_eq_ok e3
  have hDs := dict_sorted (h := h) hp
  have hD := Sorted.nodup hDs
  have hb2 : ∀ q, bels h2 q = bels h q := fun q => by rw [splitRightUpper_bels e2, applyCorrections_bels _ e1]
  have hd2 : SameDom h h2 := sameDom_of_bels hb2
  have hbl2 : ∀ q t', bl h2 q t' = bl h q t' := by
    intro q t'
    have := hb2 q
    unfold bels at this
    unfold bl
    cases ha : h2.find q with
    | none => cases hb : h.find q with
      | none => rfl
      | some j => rw [ha, hb] at this; cases this
    | some i => cases hb : h.find q with
      | none => rw [ha, hb] at this; cases this
      | some j =>
        rw [ha, hb] at this
        have : i.bel = j.bel := Option.some.inj this
        simp only [Option.bind_some]
        unfold Inst.beliefAt
        rw [this]
  rw [hpe] at hP hx
  -- orderliness before the beliefs are corrected
  have hk2 : HOk c.tm h2 := by
    obtain ⟨h1', x1, x2, x3, -, -⟩ := applyCorrections_spec (T := c.tm) hD (fun e he => (mem_unfixed.mp (by rw [hu]; exact he)).2) hP
      (fun e he => (hmem e he).2.2.2.2.2.2.2.2.2.2) (fun e he => (hmem e he).2.2.1.ge)
      (fun p => P.block (off (bdims (dict h dH t)) p) (off (bdims (dict h dH t)) p) (dim p) (dim p) * (c.cov p p).inv)
      (fun e he => by rw [(hmem e he).2.2.2.2.2.1, (hmem e he).2.2.2.2.2.2.2.2.1]) (dict h dH t) [] rfl h hr.ok (fun e he => (hmem e he).2.1)
      (fun e he q M hM => by
        rw [(hmem e he).2.2.2.2.2.2.2.2.1]
        exact hr.rows e.1 (hmem e he).2.1 q M (by rw [(hmem e he).2.2.1]; exact hM))
    simp only [List.map_nil, tot] at x1
    rw [x1] at e1
    obtain rfl := Res.ok.inj e1
    have hbs : (bdims (dict h dH t)).Pairwise (fun a b => a.1 < b.1) := by
      rw [List.pairwise_map]; exact hDs
    have hmemb : ∀ p ∈ bdims (dict h dH t), ∃ e ∈ dict h dH t, (e.1, e.2.dim) = p := fun p hp => by
      obtain ⟨e, he, hep⟩ := List.mem_map.mp hp; exact ⟨e, he, hep⟩
    obtain ⟨h2', y1, y2, -⟩ := splitRows_spec (T := c.tm) (P := P) (t := t) hbs hP
      (fun p hp => by obtain ⟨e, he, rfl⟩ := hmemb p hp; exact (hmem e he).2.2.1.ge) (bdims (dict h dH t)) [] rfl h1' x2
      (fun p hp => by obtain ⟨e, he, rfl⟩ := hmemb p hp; exact sameDom_isSome x3 (hmem e he).2.1)
    unfold splitRightUpper at e2
    rw [hu] at e2
    simp only at e2
    split at e2
    · simp at e2
    · simp only [tot] at y1
      rw [y1] at e2
      rw [← Res.ok.inj e2]; exact y2
  obtain ⟨h3', g1, g2, g3, g4, g5, g6⟩ := correctBeliefs_spec (T := c.tm) (P := P) (dx := dx) (t := t) hD
    (fun e he => (mem_unfixed.mp (by rw [hu]; exact he)).2) hP hx (fun e he => (hmem e he).2.2.2.2.2.2.2.2.2.1)
    (fun e he => (hmem e he).2.2.1.ge) (dict h dH t) [] rfl h2 hk2 (fun e he => sameDom_isSome hd2 (hmem e he).2.1)
  obtain ⟨h', s1, s2, s3, s4, s5, s6⟩ := correctBeliefsS_spec (T := c.tm) (P := P) (dx := dx) (t := t) hD
    hP hx (fun e he => (hmem e he).2.2.2.2.2.2.2.2.2.1)
    (fun e he => (hmem e he).2.2.1.ge) (dict h dH t) [] rfl h2 hk2 (fun e he => sameDom_isSome hd2 (hmem e he).2.1)
  simp only [List.map_nil, tot] at g1 s1
  rw [g1] at e3
  obtain rfl := Res.ok.inj e3
  refine ⟨h', ?_, ?_⟩
  · unfold commitS; rw [e1, Res.bind_ok, e2, Res.bind_ok, s1]
  have hfc : ∀ a b t', fc h' a b t' = fc h3' a b t' := fun a b t' => by rw [s4, g4]
  have hdom : ∀ p, (h'.find p).isSome → (h3'.find p).isSome := fun p hp' => by rw [g3 p, ← s3 p]; exact hp'
  have hdom0 : ∀ p, (h'.find p).isSome → (h.find p).isSome := fun p hp' => by rw [← hd2 p, ← s3 p]; exact hp'
  have hessD : ∀ e ∈ dict h dH t, e.2.essential = essentialAt h t e.1 := by
    intro e he
    unfold essentialAt; rw [(hmem e he).2.2.2.1]
  -- blocks of the diagonal
  have hin : ∀ p, p ∈ (participants dim c dH).map (·.1) → ∃ e ∈ dict h dH t, e.1 = p := by
    intro p hpm
    rw [hpe, bdims_keys] at hpm
    obtain ⟨e, he, rfl⟩ := List.mem_map.mp hpm
    exact ⟨e, he, rfl⟩
  have hnot : ∀ p, p ∉ (participants dim c dH).map (·.1) → ∀ t', bl h' p t' = bl h p t' := by
    intro p hpm t'
    rw [s6 p t', hbl2]
    rintro ⟨-, e, he, rfl, -⟩
    exact hpm (by rw [hpe, bdims_keys]; exact List.mem_map_of_mem he)
  refine ⟨s2, ?_, fun p hp' => r3.pos p (hdom p hp'), ?_, ?_, ?_, ?_, ?_⟩
  · intro p hp'
    obtain ⟨b, hb, hb'⟩ := r3.bel p (hdom p hp')
    have htmj : (c.joint (participants dim c dH) P dx).tm = c.tm := rfl
    have htm' : (c.jointS (participants dim c dH) (essentialAt h t) P dx).tm = c.tm := rfl
    have hfx' : (c.jointS (participants dim c dH) (essentialAt h t) P dx).fix = c.fix := rfl
    rw [htmj] at hb
    by_cases hess : essentialAt h t p = true
    · refine ⟨b, ?_, ?_⟩
      · rw [htm']
        by_cases hpm : p ∈ (participants dim c dH).map (·.1)
        · obtain ⟨e, he, rfl⟩ := hin p hpm
          rw [(hmem e he).2.2.1] at hb ⊢
          rw [g5 e he] at hb
          rw [s5 e he (by rw [hessD e he]; exact hess)]; exact hb
        · rw [hnot p hpm]
          rw [g6 p _ (fun hh => hpm (by rw [hpe, bdims_keys]; exact hh.2)), hbl2] at hb
          exact hb
      · simp only [Central.jointS, hess, if_true, Bool.true_eq_false, and_false, if_false]
        exact hb'
    · have hess' : essentialAt h t p = false := by simpa using hess
      obtain ⟨b0, q1, q2, q3, q4, q5⟩ := hr.bel p (hdom0 p hp')
      refine ⟨b0, ?_, ?_⟩
      · rw [htm', s6 p, hbl2]; exact q1
        rintro ⟨-, e, he, rfl, hee⟩
        rw [hessD e he, hess'] at hee; cases hee
      · simp only [Central.jointS, hess', Bool.false_eq_true, if_false, and_self, if_true]
        exact ⟨q2, q3, q4, q5⟩
  · intro p hp'
    simp only [Central.jointS]
    split
    · exact r3.muS p (hdom p hp')
    · exact hr.muS p (hdom0 p hp')
  · intro p q hp' hq'
    simp only [Central.jointS]
    split
    · exact hr.covS p q (hdom0 p hp') (hdom0 q hq')
    · exact r3.covS p q (hdom p hp') (hdom q hq')
  · intro p q hp' hq'
    simp only [Central.jointS]
    by_cases hpq : p = q
    · subst hpq
      split
      · exact hr.symm p p (hdom0 p hp') (hdom0 p hp')
      · exact r3.symm p p (hdom p hp') (hdom p hp')
    · rw [if_neg (fun hh => hpq hh.1.symm), if_neg (fun hh => hpq hh.1)]
      exact r3.symm p q (hdom p hp') (hdom q hq')
  · intro p hp' q M hM
    rw [hfc] at hM
    exact r3.rows p (hdom p hp') q M hM
  · intro p q hp' hq' hpq
    simp only [Central.jointS]
    rw [if_neg (fun hh => hpq hh.1), hfc, hfc]
    exact r3.pair p q (hdom p hp') (hdom q hq') hpq

end Hdl
end Ikf
