import Verif.Props.SchmidtJoint

/-! # The Schmidt-Kalman handler: progress, concrete runs, fixed participants (C44) -/

namespace Ikf
open Mat
namespace Hdl

section
variable {fp : FP} {near : Mat → Mat} {pred : ℕ → Inst → Int → Inst × Bool} {dim : ℕ → ℕ} {h h' : Hdl} {c : Central}

theorem correctJointS_progress (hnear : NearOk near) (hr : Rel dim h c) {dH : SMap Mat} {t : Int} (hp : Parts dim h c dH t)
    (hfx : ∀ p ∈ dH.keys, c.fix p = false) (hne : participants dim c dH ≠ []) {H R r S : Mat} {m : ℕ} {cfg : Cfg} (hg : GateOk cfg)
    (hSe : stackSigma h (dict h dH t) t = .ok S) (hO : ObsShape H R r S (tot (participants dim c dH)) m) :
    ∃ h' ans, correctJointS near h (dict h dH t) H R r t cfg = .ok (h', ans) ∧ (cfg.outlier = false → ans = true) := by
  have hu : unfixed (dict h dH t) = dict h dH t := by
    unfold unfixed; rw [List.filter_eq_self]; intro e he
    have := mem_dict hr hp he
    rw [this.2.2.2.2.2.2.2.1, hfx _ this.1]; rfl
  have hpe := participants_eq hr hp
  rw [hu] at hpe
  have hK := gainM_shape hO cfg.eps
  obtain ⟨G, hG, hGg⟩ := schmidtGain_ok (Sorted.nodup (dict_sorted (h := h) hp)) (by rw [← hpe]; exact hK) (essentialAt h t)
    (fun e he => by unfold essentialAt; rw [(mem_dict hr hp he).2.2.2.1])
  rw [hK.1, hK.2] at hG
  have hGs : G.Shape (tot (participants dim c dH)) m := ⟨by rw [hGg.1.1, hK.1], by rw [hGg.1.2, hK.2]⟩
  unfold correctJointS
  rw [schmidtStep_eq hSe hO cfg hG hGs]
  have commitOk : ∃ h1, commitS h (dict h dH t) (fixPsd near (symM (josephM H R S G))) (G * r) t = .ok h1 := by
    have hJ := josephM_shape hO hGs
    obtain ⟨hP1, hP2⟩ := fixPsd_facts hnear hJ.symM (symM_tr hJ)
    obtain ⟨h2, e2, -⟩ := commitS_rel hr hp hfx hne hP1 hP2 (hGs.mul hO.r)
    exact ⟨h2, e2⟩
  obtain ⟨h1, e1⟩ := commitOk
  have gateOk : ∃ rej, ((if cfg.outlier then do
        let good ← checkNIS (innov H R S cfg.eps) r cfg.conf
        .ok (!good)
      else .ok false : Res Bool)) = .ok rej ∧ (cfg.outlier = false → rej = false) := by
    cases ho : cfg.outlier with
    | false => exact ⟨false, by simp, fun _ => rfl⟩
    | true =>
      obtain ⟨b, hb⟩ := checkNIS_ok (innov_shape hO cfg.eps) hO.r (conf := cfg.conf) (by
        rcases hg with hg | hg
        · rw [ho] at hg; cases hg
        · exact hg)
      exact ⟨!b, by simp [hb], by simp⟩
  obtain ⟨rej, g1, g2⟩ := gateOk
  rw [g1, Res.bind_ok, Res.bind_ok]
  cases rej with
  | true => exact ⟨h, false, rfl, fun ho => by simpa using g2 ho⟩
  | false =>
    simp only [Bool.not_false, if_true]
    rw [e1, Res.bind_ok]
    exact ⟨h1, true, rfl, fun _ => rfl⟩

/-- C44: in every reachable state a joint observation of unfixed participants with fitting matrices terminates with an
answer, and without a gate it is accepted. -/
theorem c44_progress (hnear : NearOk near) (hreach : ReachS fp near pred dim h) {dH : SMap Mat} {R r : Mat} {t : Int} {cfg : Cfg}
    (hw : Wf dim h (.jointR dH R r t cfg)) (hf : Fits dim h (.jointR dH R r t cfg)) :
    ∃ h' ans, runS fp near pred h (.jointR dH R r t cfg) = .ok (h', ans) ∧ (cfg.outlier = false → ans = true) := by
  obtain ⟨c, hr⟩ := hreach.rel hnear
  obtain ⟨hdH, hN⟩ := hw
  obtain ⟨hne, ⟨m, he, hR, hrr⟩, hg⟩ := hf
  have hp : Parts dim h c dH t := ⟨hdH, fun p hpm => ((hN p hpm).rel hr).1, fun p hpm => ((hN p hpm).rel hr).2⟩
  obtain ⟨H, hH, hHs⟩ := stackH_ok dH m (fun e hem => (he e hem).1.1) hne
  have hpe := joint_sizes hr hN he
  have hpne : participants dim c dH ≠ [] := by rw [hpe]; unfold hcols; simpa using hne
  simp only [runS, applyObsSR]
  rw [hH, Res.bind_ok, getDictBel_rel pred hr hp, Res.bind_ok]
  simp only
  rw [if_neg (by simpa [dict, SMap.keys] using hne)]
  obtain ⟨S, hSe, hSC⟩ := stackSigma_spec (dict h dH t) (dict_sorted hp) (covOf hr hp)
  rw [← participants_eq hr hp] at hSC
  rw [hSe, Res.bind_ok]
  exact correctJointS_progress hnear hr hp (fun p hpm => by
    obtain ⟨e, hem, rfl⟩ := List.mem_map.mp hpm
    exact fix_of_fixedAt hr (hN _ hpm) (he e hem).2) hpne hg hSe ⟨by rw [hpe]; exact hHs, hR, hrr, hSC.1⟩

/-! ## Fixed participants -/

theorem schmidtGain_rows {K : Mat} {m : ℕ} {d : SMap Belief} {row : ℕ} {G G' : Mat} (hs : schmidtGain K m d row G = .ok G')
    {e : ℕ × Belief} (hl : d.getLast? = some e) (he : e.2.essential = true) : row + tot (bdims d) ≤ K.rows := by
  induction d generalizing row G with
  | nil => simp at hl
  | cons a r ih =>
    rw [schmidtGain] at hs
    cases r with
    | nil =>
      obtain rfl : a = e := by simpa using hl
      rw [if_pos he] at hs
      obtain ⟨B, hB, -⟩ := bind_eq_ok hs
      unfold Mat.blockC at hB
      split at hB
      · rename_i hc; simp [bdims, tot]; exact hc.1
      · simp at hB
    | cons b r =>
      have hl' : (b :: r).getLast? = some e := by rw [List.getLast?_cons_cons] at hl; exact hl
      have e1 : tot (bdims (a :: b :: r)) = a.2.dim + tot (bdims (b :: r)) := rfl
      rw [e1]
      split at hs
      · obtain ⟨B, -, hs⟩ := bind_eq_ok hs
        obtain ⟨G1, -, hs⟩ := bind_eq_ok hs
        have := ih hs hl'; omega
      · have := ih hs hl'; omega

/-- A fixed participant (of positive size) together with an essential last participant: the rows of the gain are
counted over the fixed participants, which have none, so the observation is never accepted (the row block is
outside the matrix). -/
theorem c62_fixed_never_accepted (hnear : NearOk near) (hreach : ReachS fp near pred dim h) {dH : SMap Mat} {t : Int}
    (hdH : dH.Sorted) (hN : ∀ p ∈ dH.keys, Newest h p t) {p q : ℕ} (hp : p ∈ dH.keys) (hfix : fixedAt h t p = true)
    (hq : dH.keys.getLast? = some q) (hess : essentialAt h t q = true) (R r : Mat) (cfg : Cfg) :
    runS fp near pred h (.jointR dH R r t cfg) ≠ .ok (h', true) ∧ runS fp near pred h (.jointZ dH r R t cfg) ≠ .ok (h', true) := by
  obtain ⟨c, hr⟩ := hreach.rel hnear
  have hP : Parts dim h c dH t := ⟨hdH, fun p hpm => ((hN p hpm).rel hr).1, fun p hpm => ((hN p hpm).rel hr).2⟩
  have key : ∀ H r, correctJointS near h (dict h dH t) H R r t cfg ≠ .ok (h', true) := by
    intro H r hs
    obtain ⟨S, hSe, hSC⟩ := stackSigma_spec (dict h dH t) (dict_sorted hP) (covOf hr hP)
    unfold correctJointS at hs
    obtain ⟨res, hres, hs⟩ := bind_eq_ok hs
    split at hs
    swap
    · simp at hs
    rename_i hrej
    unfold schmidtStep at hres
    rw [hSe, Res.bind_ok] at hres
    split at hres
    swap
    · rw [← Res.ok.inj hres] at hrej; simp [CorrRes.dflt] at hrej
    obtain ⟨a, ha, hres⟩ := bind_eq_ok hres
    obtain ⟨b, hb, hres⟩ := bind_eq_ok hres
    obtain ⟨S0, hS0, hres⟩ := bind_eq_ok hres
    obtain ⟨Sx, hSx, hres⟩ := bind_eq_ok hres
    obtain ⟨rj, hrj, hres⟩ := bind_eq_ok hres
    obtain ⟨pp, hpp, hres⟩ := bind_eq_ok hres
    obtain ⟨Si, hSi, hres⟩ := bind_eq_ok hres
    obtain ⟨K, hK, hres⟩ := bind_eq_ok hres
    obtain ⟨G, hG, hres⟩ := bind_eq_ok hres
    have hKr : K.rows = S.rows := by
      unfold Mat.mulC at hK hpp
      split at hK
      · split at hpp
        · rw [← Res.ok.inj hK, ← Res.ok.inj hpp]; rfl
        · simp at hpp
      · simp at hK
    -- the last entry of the dictionary
    have hkeys : (dict h dH t).map (·.1) = dH.keys := by
      unfold dict
      rw [List.map_map]
      exact List.map_id _
    have hlast : ∃ e, (dict h dH t).getLast? = some e ∧ e.1 = q := by
      rw [← hkeys, List.getLast?_map] at hq
      obtain ⟨e, he1, he2⟩ := Option.map_eq_some_iff.mp hq
      exact ⟨e, he1, he2⟩
    obtain ⟨e, he1, rfl⟩ := hlast
    have hem := List.mem_of_getLast? he1
    have hee : e.2.essential = true := by
      have := hess
      unfold essentialAt at this
      rw [(mem_dict hr hP hem).2.2.2.1] at this; exact this
    have h1 := schmidtGain_rows hG he1 hee
    rw [hKr, hSC.1.1] at h1
    have hpm : p ∈ (dict h dH t).map (·.1) := by rw [hkeys]; exact hp
    obtain ⟨f, hf1, rfl⟩ := List.mem_map.mp hpm
    have hff : f.2.fixed = true := by
      have := hfix
      unfold fixedAt at this
      have hb : belief h f.1 t = some f.2 := (mem_dict hr hP hf1).2.2.2.1
      rw [hb] at this; exact this
    have hpos : 0 < f.2.dim := by
      rw [(mem_dict hr hP hf1).2.2.2.2.2.2.2.2.1]; exact hr.pos _ (mem_dict hr hP hf1).2.1
    have cnt : ∀ l : SMap Belief, tot (bdims (unfixed l)) ≤ tot (bdims l) ∧ (f ∈ l → tot (bdims (unfixed l)) < tot (bdims l)) := by
      intro l
      induction l with
      | nil => simp [unfixed, bdims, tot]
      | cons a l ih =>
        obtain ⟨i1, i2⟩ := ih
        have e1 : tot (bdims (a :: l)) = a.2.dim + tot (bdims l) := rfl
        cases hfa : a.2.fixed with
        | true =>
          rw [unfixed_cons_neg a l hfa, e1]
          refine ⟨by omega, fun hm => ?_⟩
          rcases List.mem_cons.mp hm with rfl | hm
          · omega
          · have := i2 hm; omega
        | false =>
          rw [unfixed_cons_pos a l hfa, e1]
          have e2 : tot (bdims (a :: unfixed l)) = a.2.dim + tot (bdims (unfixed l)) := rfl
          rw [e2]
          refine ⟨by omega, fun hm => ?_⟩
          rcases List.mem_cons.mp hm with rfl | hm
          · rw [hff] at hfa; cases hfa
          · have := i2 hm; omega
    have := (cnt (dict h dH t)).2 hf1
    omega
  constructor
  · intro hs
    obtain ⟨H, -, hc⟩ := jointSR_cases hr hP hs
    rcases hc with ⟨hc, -⟩ | hc
    · cases hc
    · exact key H r hc
  · intro hs
    obtain ⟨H, -, hc⟩ := jointSZ_cases hr hP hs
    rcases hc with ⟨hc, -⟩ | ⟨x, -, hc⟩
    · cases hc
    · exact key H _ hc

end

namespace Example

/-- The second instance is a nuisance. -/
noncomputable def hS : Hdl := [(1, Inst.doInit ⟨[], [], 10⟩ b0 0), (2, Inst.doInit ⟨[], [], 10⟩ { b0 with essential := false } 0)]

theorem initS : Init dim hS c0 where
  sorted := by simp [hS, SMap.Sorted]
  inst := by
    intro p i hi
    have : i = Inst.doInit ⟨[], [], 10⟩ b0 0 ∨ i = Inst.doInit ⟨[], [], 10⟩ { b0 with essential := false } 0 := by
      simp only [hS, SMap.find] at hi
      split at hi
      · exact Or.inl (Option.some.inj hi).symm
      · split at hi
        · exact Or.inr (Option.some.inj hi).symm
        · simp at hi
    rcases this with this | this
    · exact ⟨10, b0, this, rfl, Nat.one_pos, rfl, rfl, rfl, s_tr 2, rfl, by simp [c0, b0], rfl⟩
    · exact ⟨10, { b0 with essential := false }, this, rfl, Nat.one_pos, rfl, rfl, rfl, s_tr 2, rfl, by simp [c0, b0], rfl⟩
  uncorrelated := by intro p q hpq; simp [c0, hpq]; rfl

theorem newestS {p : ℕ} (hp : p = 1 ∨ p = 2) : Newest hS p 0 := by
  rcases hp with rfl | rfl
  · exact ⟨Inst.doInit ⟨[], [], 10⟩ b0 0, (0, b0), by simp [hS, SMap.find], rfl, rfl⟩
  · exact ⟨Inst.doInit ⟨[], [], 10⟩ { b0 with essential := false } 0, (0, { b0 with essential := false }), by simp [hS, SMap.find], rfl, rfl⟩

theorem reachS : ReachS FP.exact near pred dim hS := ReachS.init initS

/-- The premises of the C44 theorems hold for the joint observation of the two states, which is accepted; the nuisance
keeps its beliefs. -/
theorem c44_example : ∃ h', runS FP.exact near pred hS (.jointR dH (s 1) (s 5) 0 cfg) = .ok (h', true) ∧
    Wf dim hS (.jointR dH (s 1) (s 5) 0 cfg) ∧ (∀ p ∈ dH.keys, fixedAt hS 0 p = false) ∧ (s 1).tr = s 1 ∧
    essentialAt hS 0 1 = true ∧ essentialAt hS 0 2 = false ∧ bels h' 2 = bels hS 2 := by
  have hw : Wf dim hS (.jointR dH (s 1) (s 5) 0 cfg) := ⟨dH_sorted, fun p hp => newestS (keys hp)⟩
  have hfx : ∀ p ∈ dH.keys, fixedAt hS 0 p = false := by
    intro p hp
    rcases keys hp with rfl | rfl <;> rfl
  have hf : Fits dim hS (.jointR dH (s 1) (s 5) 0 cfg) := by
    refine ⟨by simp [dH], ⟨1, ?_, s_shape 1, s_shape 5⟩, gate⟩
    intro e he
    have he' : e = (1, s 1) ∨ e = (2, s (-1)) := by simpa [dH] using he
    rcases he' with rfl | rfl
    · exact ⟨s_shape 1, rfl⟩
    · exact ⟨s_shape (-1), rfl⟩
  obtain ⟨h', ans, e, ha⟩ := c44_progress nearOk reachS hw hf
  obtain rfl := ha rfl
  refine ⟨h', e, hw, hfx, s_tr 1, rfl, rfl, ?_⟩
  exact c44_nuisance_residual e 2 (Or.inr ⟨{ b0 with essential := false }, rfl, rfl⟩)

/-- The same as a measurement function (which returns a constant): the premises of `c44_fun` hold, the measurement is
PROCESSED with the same effect. -/
theorem c44_fun_example : ∃ h', applyObsSH near pred (fun _ _ _ => (dH, s 5)) hS (s 1) (s 0) 0 [1, 2] cfg = .ok (h', .processed) ∧
    runS FP.exact near pred hS (.jointR dH (s 1) (s 5) 0 cfg) = .ok (h', true) := by
  obtain ⟨h', e, hw, hfx, -⟩ := c44_example
  refine ⟨h', ?_, e⟩
  have hk : dH.keys = [1, 2] := rfl
  have hD : IsBeliefMap hS 0 [1, 2] [(1, b0), (2, { b0 with essential := false })] := by
    refine ⟨rfl, fun e he => ?_⟩
    have he' : e = (1, b0) ∨ e = (2, { b0 with essential := false }) := by simpa using he
    rcases he' with rfl | rfl <;> rfl
  rw [c44_fun (fp := FP.exact) nearOk reachS (by decide) (by decide) (fun p hp => hw.2 p (hk ▸ hp)) (fun p hp => hfx p (hk ▸ hp)) hD hk]
  simp only [e, Res.bind_ok]

/-- The first instance is fixed, the second a nuisance. -/
def bF : Belief := { b0 with fixed := true }
def bN : Belief := { b0 with essential := false }
noncomputable def hF : Hdl := [(1, Inst.doInit ⟨[], [], 10⟩ bF 0), (2, Inst.doInit ⟨[], [], 10⟩ bN 0)]
/-- No Jacobian for the fixed one. -/
noncomputable def dF : SMap Mat := [(1, Mat.zero 1 0), (2, s 1)]
def dictF : SMap Belief := [(1, bF), (2, bN)]

theorem e1x1 {A : Mat} (hA : A.Shape 1 1) : A = s (A.e 0 0) := by
  refine Mat.ext' hA.1 hA.2 ?_
  intro i j hi hj
  rw [hA.1] at hi; rw [hA.2] at hj
  have h1 : i = 0 := by omega
  have h2 : j = 0 := by omega
  subst h1; subst h2; rfl

theorem s_mul (x y : ℝ) : s x * s y = s (x * y) := by
  have hs : (s x * s y).Shape 1 1 := (s_shape x).mul (s_shape y)
  rw [e1x1 hs, mul_e]
  simp [s, of]

theorem s_add (x y : ℝ) : s x + s y = s (x + y) := by
  have hs : (s x + s y).Shape 1 1 := (s_shape x).add
  rw [e1x1 hs, add_e (s x) (s y) rfl rfl]
  simp [s, of]

theorem s_smul (x y : ℝ) : smul x (s y) = s (x * y) := by
  have hs : (smul x (s y)).Shape 1 1 := ⟨rfl, rfl⟩
  rw [e1x1 hs, smul_e]
  simp [s, of]

theorem s_one : one 1 = s 1 := by
  rw [e1x1 (Shape.one 1)]; simp [one, s, of]

theorem s_inv (x : ℝ) : (s x).inv = s x⁻¹ := by
  have hs : (s x).inv.Shape 1 1 := (s_shape x).inv
  rw [e1x1 hs]
  congr 1
  have h1 : (s x).inv.e 0 0 = (((s x).toM 1 1)⁻¹) 0 0 := by rw [← (s_shape x).toM_inv]; rfl
  rw [h1, Matrix.inv_def]
  have h2 : ((s x).toM 1 1).det = x := by rw [Matrix.det_fin_one]; rfl
  rw [h2, Matrix.adjugate_subsingleton, Ring.inverse_eq_inv']
  simp

theorem s_gain : gainM (s 1) (s 1) (s 2) cfg.eps = s (2 * (3 + cfg.eps)⁻¹) := by
  unfold gainM innov innov0 stabM
  rw [s_tr, s_mul, s_mul, s_mul, s_add, s_tr, s_add, s_smul]
  have : (s (1 * 2 * 1 + 1)).rows = 1 := rfl
  rw [this, s_one, s_smul, s_add, s_inv, s_mul]
  congr 1
  norm_num

theorem stackSigmaF : stackSigma hF dictF 0 = .ok (s 2) := by
  have e : stackSigma hF dictF 0 = (Mat.zero 1 1).setBlockC 0 0 1 1 (s 2) >>= fun M => symmetrize M := by
    with_unfolding_all rfl
  rw [e, setBlockC_ok (A := Mat.zero 1 1) (B := s 2) (i := 0) (j := 0) (r := 1) (c := 1) (by decide) (by decide) rfl rfl, Res.bind_ok, symmetrize_ok (n := 1) ⟨rfl, rfl⟩]
  congr 1
  have hs : ((Mat.zero 1 1).setBlock 0 0 (s 2)).Shape 1 1 := ⟨rfl, rfl⟩
  have : (Mat.zero 1 1).setBlock 0 0 (s 2) = s 2 := by
    rw [e1x1 hs, setBlock_e (by decide) (by decide)]
    simp [s, of]
  rw [this]
  unfold symM
  rw [s_tr, s_add, s_smul]
  norm_num

theorem stackHF : stackH dF = .ok (s 1) := by
  obtain ⟨H, hH, hs⟩ := stackH_ok dF 1 (by
    intro e he
    have he' : e = (1, Mat.zero 1 0) ∨ e = (2, s 1) := by simpa [dF] using he
    rcases he' with rfl | rfl <;> rfl) (by simp [dF])
  have hs' : H.Shape 1 1 := hs
  have := (stackH_spec dF (by simp [dF, SMap.Sorted]) H hH).2 (2, s 1) (by simp [dF])
  have h2 : H.e 0 0 = 1 := this.2 0 0 (by decide)
  rw [hH, e1x1 hs', h2]

/-- C62 fails: here the first participant is fixed (so, C26, it must not be
corrected) and the second is a nuisance. The rows of the gain of the nuisance are taken for those of the fixed one:
the observation is accepted and the fixed belief is corrected, the mean with the gain of the other one. -/
theorem c62_fixed_fails : ∃ h', runS FP.exact near pred hF (.jointR dF (s 1) (s 5) 0 cfg) = .ok (h', true) ∧
    (∀ p ∈ dF.keys, Newest hF p 0) ∧ fixedAt hF 0 1 = true ∧ essentialAt hF 0 2 = false ∧
    ∃ b, belief h' 1 0 = some b ∧ b.mean ≠ bF.mean := by
  have hO : ObsShape (s 1) (s 1) (s 5) (s 2) 1 1 := ⟨s_shape _, s_shape _, s_shape _, s_shape _⟩
  set K := gainM (s 1) (s 1) (s 2) cfg.eps with hKd
  have hK : K.Shape 1 1 := gainM_shape hO _
  have hG : schmidtGain K 1 dictF 0 (Mat.zero 1 1) = .ok K := by
    have e : schmidtGain K 1 dictF 0 (Mat.zero 1 1) = K.blockC 0 0 1 1 >>= fun B => (Mat.zero 1 1).setBlockC 0 0 1 1 B := by
      have : schmidtGain K 1 dictF 0 (Mat.zero 1 1) = K.blockC 0 0 1 1 >>= fun B => (Mat.zero 1 1).setBlockC 0 0 1 1 B >>= fun G => .ok G := by
        rfl
      rw [this]
      congr 1; funext B
      cases (Mat.zero 1 1).setBlockC 0 0 1 1 B <;> rfl
    rw [e, blockC_ok (by rw [hK.1]) (by rw [hK.2]), Res.bind_ok,
      setBlockC_ok (A := Mat.zero 1 1) (B := K.block 0 0 1 1) (i := 0) (j := 0) (r := 1) (c := 1) (by decide) (by decide) rfl rfl]
    congr 1
    have hs : ((Mat.zero 1 1).setBlock 0 0 (K.block 0 0 1 1)).Shape 1 1 := ⟨rfl, rfl⟩
    rw [e1x1 hs, setBlock_e (A := Mat.zero 1 1) (B := K.block 0 0 1 1) (by decide) (by decide), e1x1 hK]
    simp [s, of, block_e]
  have hst := schmidtStep_eq (t := 0) stackSigmaF hO cfg hG hK
  have hJ := (josephM_shape hO hK).symM
  set P := fixPsd near (symM (josephM (s 1) (s 1) (s 2) K)) with hP
  have hPs : P.Shape 1 1 := (fixPsd_facts nearOk hJ (symM_tr (josephM_shape hO hK))).1
  have hdx : (K * s 5).Shape 1 1 := hK.mul (s_shape 5)
  have hcommit : ∃ h', commitS hF dictF P (K * s 5) 0 = .ok h' ∧ belief h' 1 0 = some { bF with
      mean := bF.mean + (K * s 5).block 0 0 1 1, Sigma := P.block 0 0 1 1 } := by
    unfold commitS
    have a1 : applyCorrections P 0 dictF 0 hF = (P.blockC 0 0 1 1 >>= fun B =>
        (Inst.doInit ⟨[], [], 10⟩ bN 0).applyCorrectionSigma 0 (s 2) B >>= fun j => .ok (SMap.set hF 2 j)) := by
      with_unfolding_all rfl
    have a0 : ∀ L, (Inst.doInit ⟨[], [], 10⟩ bN 0).applyCorrection 0 L = .ok (Inst.doInit ⟨[], [], 10⟩ bN 0) := fun L => rfl
    have a9 : (SMap.set hF 2 (Inst.doInit ⟨[], [], 10⟩ bN 0)) = hF := by with_unfolding_all rfl
    rw [a1, blockC_ok (by rw [hPs.1]) (by rw [hPs.2]), Res.bind_ok]
    unfold Inst.applyCorrectionSigma
    rw [(s_shape 2).invC, Res.bind_ok, Shape.mulC (n := 1) (m := 1) (k := 1) ⟨rfl, rfl⟩ (s_shape 2).inv, Res.bind_ok, a0, Res.bind_ok, a9, Res.bind_ok]
    have a2 : splitRightUpper P dictF 0 hF = .ok hF := rfl
    rw [a2, Res.bind_ok]
    have a3 : correctBeliefsS P (K * s 5) 0 dictF 0 hF = (P.blockC 0 0 1 1 >>= fun B => (K * s 5).blockC 0 0 1 1 >>= fun x => bF.correct x B >>= fun b =>
      .ok (hF.set 1 ((Inst.doInit ⟨[], [], 10⟩ bF 0).setBelief b 0))) := rfl
    rw [a3, blockC_ok (by rw [hPs.1]) (by rw [hPs.2]), Res.bind_ok, blockC_ok (by rw [hdx.1]) (by rw [hdx.2]), Res.bind_ok]
    unfold Belief.correct
    have a4 : bF.mean +! (K * s 5).block 0 0 1 1 = .ok (bF.mean + (K * s 5).block 0 0 1 1) := Shape.addC (n := 1) (m := 1) ⟨rfl, rfl⟩ ⟨rfl, rfl⟩
    rw [a4, Res.bind_ok, Res.bind_ok]
    exact ⟨_, rfl, rfl⟩
  obtain ⟨h', hc, hb⟩ := hcommit
  refine ⟨h', ?_, ?_, rfl, rfl, _, hb, ?_⟩
  · have e0 : getDictBel pred hF dF.keys 0 [] = .ok (hF, dictF) := by with_unfolding_all rfl
    simp only [runS, applyObsSR]
    rw [stackHF, Res.bind_ok, e0, Res.bind_ok]
    have : ((hF, dictF) : Hdl × SMap Belief).2.isEmpty = false := rfl
    simp only [this, Bool.false_eq_true, if_false]
    rw [stackSigmaF, Res.bind_ok]
    unfold correctJointS
    rw [hst]
    have : cfg.outlier = false := rfl
    simp only [this, Bool.false_eq_true, if_false, Res.bind_ok, Bool.not_false, if_true]
    rw [← hP, hc, Res.bind_ok]
  · intro p hp
    have hp' : p = 1 ∨ p = 2 := by simpa [dF, SMap.keys] using hp
    rcases hp' with rfl | rfl
    · exact ⟨Inst.doInit ⟨[], [], 10⟩ bF 0, (0, bF), by simp [hF, SMap.find], rfl, rfl⟩
    · exact ⟨Inst.doInit ⟨[], [], 10⟩ bN 0, (0, bN), by simp [hF, SMap.find], rfl, rfl⟩
  · intro hmean
    have h1 := congrArg (fun A => A.e 0 0) hmean
    simp only at h1
    rw [add_e bF.mean ((K * s 5).block 0 0 1 1) rfl rfl, block_e, if_pos ⟨by decide, by decide⟩, hKd, s_gain, s_mul] at h1
    have h2 : (2 * (3 + cfg.eps)⁻¹ * 5 : ℝ) = 0 := by
      have : (s (2 * (3 + cfg.eps)⁻¹ * 5)).e 0 0 = 0 := by linarith
      simpa [s, of] using this
    have h3 : (0:ℝ) < 3 + cfg.eps := by
      have : (0:ℝ) < cfg.eps := by show (0:ℝ) < _; unfold cfg; norm_num
      linarith
    have : (0:ℝ) < 2 * (3 + cfg.eps)⁻¹ * 5 := by positivity
    linarith

end Example
end Hdl
end Ikf

namespace Ikf.Hdl
/-- C62, the part that holds: a fixed belief that is not essential keeps its history, in every state and for every
outcome. What fails: `c62_fixed_fails` and `c62_fixed_never_accepted`. -/
theorem c62_fixed_nuisance_partial {near : Mat → Mat} {pred : ℕ → Inst → Int → Inst × Bool} {h h' : Hdl} {dH : SMap Mat} {R r : Mat} {t : Int} {cfg : Cfg}
    {ans : Bool} (hs : applyObsSR near pred h dH R r t cfg = .ok (h', ans) ∨ applyObsSZ near pred h dH r R t cfg = .ok (h', ans)) (p : ℕ)
    (hp : ∃ b, belief h p t = some b ∧ b.fixed = true ∧ b.essential = false) : bels h' p = bels h p := by
  obtain ⟨b, h1, -, h2⟩ := hp
  rcases hs with hs | hs
  · exact c44_nuisance_residual hs p (Or.inr ⟨b, h1, h2⟩)
  · exact c44_nuisance_meas hs p (Or.inr ⟨b, h1, h2⟩)
end Ikf.Hdl
