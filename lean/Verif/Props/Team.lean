import Verif.Lemmas.Team
import Verif.Props.Isolated
import Verif.Props.IsolatedExamples

/-!
# The covariances of several instances taken together (C106)
-/

namespace Ikf
open Mat
namespace Hdl

/-- The calls that keep the covariance of the team `ids` a covariance: propagations with a covariance `Q`, private observations with
a noise covariance, and joint observations that involve all members of one group of `ids` or none of them. The groups `grp` are fixed
in advance; instances of different groups are never correlated. -/
def TeamEv (grp : ℕ → ℕ) (ids : Finset ℕ) : Ev → Prop
  | .propKF _ _ Q _ _ => IsCovMat Q
  | .propEKF _ _ _ Q _ _ => IsCovMat Q
  | .privKF _ _ R _ _ cfg => NoiseOk R cfg
  | .privEKF _ _ R _ _ cfg => NoiseOk R cfg
  | .jointR dH _ _ _ _ => ∃ g, ∀ p ∈ ids, grp p = g ↔ p ∈ dH.keys
  | .jointZ dH _ _ _ _ => ∃ g, ∀ p ∈ ids, grp p = g ↔ p ∈ dH.keys
  | .propBel .. => False
  | .setCov .. => False

variable {fp : FP} {near : Mat → Mat} {pred : ℕ → Inst → Int → Inst × Bool} {dim : ℕ → ℕ} {h h' : Hdl} {c c' : Central}
  {grp : ℕ → ℕ} {ids : Finset ℕ}

/-- What is kept. -/
structure TeamInv (dim : ℕ → ℕ) (grp : ℕ → ℕ) (ids : Finset ℕ) (c : Central) : Prop where
  cov : TeamCov dim ids c.cov
  apart : ∀ p ∈ ids, ∀ q ∈ ids, grp p ≠ grp q → ∀ i j, (c.cov p q).e i j = 0
  free : ∀ p ∈ ids, c.fix p = false

theorem TeamInv.transform (hi : TeamInv dim grp ids c) (hs : ∀ p ∈ ids, ∀ q ∈ ids, (c.cov p q).Shape (dim p) (dim q)) {id : ℕ} {F m P : Mat}
    {t : Int} (hP : id ∈ ids → ∀ x : ℕ → ℝ, bil (F * c.cov id id * F.tr) (dim id) (dim id) x x ≤ bil P (dim id) (dim id) x x) :
    TeamInv dim grp ids (c.transform id F m P t (c.fix id)) := by
  refine ⟨hi.cov.transform hs hP, fun p hp q hq hg i j => ?_, fun p hp => ?_⟩
  · simp only [Central.transform]
    split
    · rename_i e; exact absurd (by rw [e.1, e.2]) hg
    · split
      · rw [mul_e]; exact Finset.sum_eq_zero fun k _ => by rw [hi.apart p hp q hq hg, mul_zero]
      · split
        · rw [mul_e]; exact Finset.sum_eq_zero fun k _ => by rw [hi.apart p hp q hq hg, zero_mul]
        · exact hi.apart p hp q hq hg i j
  · simp only [Central.transform]
    split
    · rename_i e; rw [← e]; exact hi.free p hp
    · exact hi.free p hp

theorem TeamInv.joint (hi : TeamInv dim grp ids c) {dH : SMap Mat} (hd : dH.Sorted) {P dx : Mat} (hP : IsCovMat P)
    (hg : ∃ g, ∀ p ∈ ids, grp p = g ↔ p ∈ dH.keys) : TeamInv dim grp ids (c.joint (participants dim c dH) P dx) := by
  obtain ⟨g, hg⟩ := hg
  have mem : ∀ p ∈ ids, (p ∈ (participants dim c dH).map (·.1) ↔ grp p = g) := by
    intro p hp
    rw [hg p hp]
    unfold participants
    rw [List.map_map]
    constructor
    · intro h
      obtain ⟨x, hx, rfl⟩ := List.mem_map.mp h
      exact (List.mem_filter.mp hx).1
    · intro h
      exact List.mem_map.mpr ⟨p, List.mem_filter.mpr ⟨h, by rw [hi.free p hp]; rfl⟩, rfl⟩
  obtain ⟨f1, f2⟩ := part_facts (dim := dim) hd (fun p => !c.fix p)
  have hz : ∀ p ∈ ids, ∀ q ∈ ids, p ∈ (participants dim c dH).map (·.1) → q ∉ (participants dim c dH).map (·.1) →
      ∀ i j, (c.cov p q).e i j = 0 ∧ (c.cov q p).e i j = 0 := by
    intro p hp q hq h1 h2 i j
    rw [mem p hp] at h1
    rw [mem q hq] at h2
    exact ⟨hi.apart p hp q hq (by rw [h1]; exact fun e => h2 e.symm) i j, hi.apart q hq p hp (by rw [h1]; exact h2) i j⟩
  refine ⟨hi.cov.joint f1 f2 hP hz, fun p hp q hq hne i j => ?_, fun p hp => hi.free p hp⟩
  simp only [Central.joint]
  split
  · rename_i e
    exact absurd (by rw [(mem p hp).mp e.1, (mem q hq).mp e.2]) hne
  · split
    · rw [mul_e]; exact Finset.sum_eq_zero fun k _ => by rw [hi.apart p hp q hq hne, mul_zero]
    · split
      · rw [mul_e]; exact Finset.sum_eq_zero fun k _ => by rw [hi.apart p hp q hq hne, zero_mul]
      · exact hi.apart p hp q hq hne i j

theorem bil_add {A B : Mat} {n : ℕ} (hA : A.Shape n n) (x : ℕ → ℝ) : bil (A + B) n n x x = bil A n n x x + bil B n n x x := by
  unfold bil
  rw [← Finset.sum_add_distrib]
  refine Finset.sum_congr rfl fun i hi => ?_
  rw [← Finset.sum_add_distrib]
  refine Finset.sum_congr rfl fun j hj => ?_
  have : (A + B).e i j = A.e i j + B.e i j := by
    show (Mat.of A.rows A.cols _).e i j = _
    rw [of_e, if_pos ⟨by rw [hA.1]; exact Finset.mem_range.mp hi, by rw [hA.2]; exact Finset.mem_range.mp hj⟩]
  rw [this]; ring

theorem TeamInv.step (hn : NearCov near) (hr : Rel dim h c) (hr' : Rel dim h' c') (hreg : ∀ p ∈ ids, (h.find p).isSome) (hreg' : ∀ p ∈ ids, (h'.find p).isSome)
    {ev : Ev} (hw : Wf dim h ev) (he : TeamEv grp ids ev) (st : SpecStep dim near c ev c') (hi : TeamInv dim grp ids c) : TeamInv dim grp ids c' := by
  have hs : ∀ p ∈ ids, ∀ q ∈ ids, (c.cov p q).Shape (dim p) (dim q) := fun p hp q hq => hr.covS p q (hreg p hp) (hreg q hq)
  have own : ∀ p ∈ ids, IsCovMat (c.cov p p) := fun p hp => hi.cov.own hp (hs p hp p hp) (hr.symm p p (hreg p hp) (hreg p hp))
  have prop : ∀ (id : ℕ) (Phi Q m : Mat) (t : Int), IsCovMat Q → Rel dim h' (c.transform id Phi m (Phi * c.cov id id * Phi.tr + Q) t (c.fix id)) →
      TeamInv dim grp ids (c.transform id Phi m (Phi * c.cov id id * Phi.tr + Q) t (c.fix id)) := by
    intro id Phi Q m t hQ hr'
    refine hi.transform hs fun hid x => ?_
    have h1 := hr'.covS id id (hreg' id hid) (hreg' id hid)
    simp only [Central.transform] at h1
    rw [if_pos ⟨trivial, trivial⟩] at h1
    rw [bil_add (A := Phi * c.cov id id * Phi.tr) ⟨h1.1, h1.2⟩]
    linarith [hQ.bil (dim id) x]
  have priv : ∀ (id : ℕ) (H R r m : Mat) (t : Int) (cfg : Cfg) (res : CorrRes), NoiseOk R cfg → correctionStep H R r (c.cov id id) cfg = .ok res →
      res.rejected = false → TeamInv dim grp ids (c.transform id (one (dim id) - gainM H R (c.cov id id) cfg.eps * H) m res.Sapos t (c.fix id)) := by
    intro id H R r m t cfg res hR hc hrj
    refine hi.transform hs fun hid x => ?_
    obtain ⟨hO, -⟩ := Inst.correctionStep_accept (hs id hid id hid) cfg res hc hrj
    exact priv_grow hO (own id hid) hR hc x
  have joint : ∀ (dH : SMap Mat) (H R r S : Mat) (cfg : Cfg) (res : CorrRes), dH.Sorted → (∃ g, ∀ p ∈ ids, grp p = g ↔ p ∈ dH.keys) →
      StackedCov (participants dim c dH) c.cov S → correctionStep H R r (stabM S (1 / 10^12)) cfg = .ok res → res.rejected = false →
      TeamInv dim grp ids (c.joint (participants dim c dH) (Hdl.fixPsd near res.Sapos) res.dx) := by
    intro dH H R r S cfg res hd hg hS hc hrj
    obtain ⟨hO, hres⟩ := Inst.correctionStep_accept (hS.1.stabM _) cfg res hc hrj
    have h1 : res.Sapos.Shape (tot (participants dim c dH)) (tot (participants dim c dH)) := by rw [hres]; exact postM_shape hO cfg
    have h2 : res.Sapos.tr = res.Sapos := by rw [hres]; exact postM_symm hO cfg
    exact hi.joint hd (fixPsd_cov hn h1 h2).2 hg
  cases st with
  | propKF id Phi Q ta tb => exact prop id Phi Q _ tb he hr'
  | propEKF id mb Phi Q ta tb => exact prop id Phi Q _ tb he hr'
  | propBel => exact he.elim
  | privKF id H R z t cfg res hc hrj => exact priv id H R _ _ t cfg res he hc hrj
  | privEKF id H R r t cfg res hc hrj => exact priv id H R _ _ t cfg res he hc hrj
  | setCov => exact he.elim
  | jointR dH R r t cfg H S res hH hS hc hrj => exact joint dH H R _ S cfg res hw.1 he hS hc hrj
  | jointZ dH z R t cfg H S m res hH hS hm hc hrj => exact joint dH H R _ S cfg res hw.1 he hS hc hrj

theorem TeamInv.runs (hnear : NearOk near) (hn : NearCov near) (hr : Rel dim h c) (hreg : ∀ p ∈ ids, (h.find p).isSome) {l : List (Ev × Bool)}
    (hl : ∀ x ∈ l, TeamEv grp ids x.1) (hrun : Runs fp near pred dim h l h') (hi : TeamInv dim grp ids c) :
    ∃ c', Rel dim h' c' ∧ TeamInv dim grp ids c' := by
  induction hrun generalizing c with
  | nil h => exact ⟨c, hr, hi⟩
  | @step h h1 h2 ev ans l hw hs _ ih =>
    have hl' : ∀ x ∈ l, TeamEv grp ids x.1 := fun x hx => hl x (List.mem_cons_of_mem _ hx)
    have hd := step_dom hr ev hw hs
    have hreg' : ∀ p ∈ ids, (h1.find p).isSome := fun p hp => sameDom_isSome hd (hreg p hp)
    cases ans with
    | true =>
      obtain ⟨c1, st, r1⟩ := accepted hnear hr ev hw hs
      exact ih r1 hreg' hl' (hi.step hn hr r1 hreg hreg' hw (hl _ List.mem_cons_self) st)
    | false =>
      obtain rfl := rejected hr ev hw hs
      exact ih hr hreg hl' hi

/-- C106: start in any reachable state with the team's instances at time `t`, none of them fixed, whose covariances `C` as read at `t`
are a covariance taken together and vanish between different groups. After any number of propagations, private observations and
joint observations of whole groups, in any order, accepted or not, also of instances outside the team, the covariances read at
any time `t'` from the instances `sub` of the team that are at `t'` are a covariance taken together. -/
theorem c106_groups_partial (hnear : NearOk near) (hn : NearCov near) (hreach : Reach fp near pred dim h) {t : Int} {C : ℕ → ℕ → Mat}
    (hN : ∀ p ∈ ids, Newest h p t) (hC : ∀ p ∈ ids, ∀ q ∈ ids, IsCov dim h p q t (C p q)) (hfree : ∀ p ∈ ids, fixedAt h t p = false)
    (hcov : TeamCov dim ids C) (hap : ∀ p ∈ ids, ∀ q ∈ ids, grp p ≠ grp q → ∀ i j, (C p q).e i j = 0)
    {l : List (Ev × Bool)} (hl : ∀ x ∈ l, TeamEv grp ids x.1) (hrun : Runs fp near pred dim h l h') {t' : Int} {sub : Finset ℕ} (hsub : sub ⊆ ids)
    (hN' : ∀ p ∈ sub, Newest h' p t') : ∃ C', (∀ p ∈ sub, ∀ q ∈ sub, IsCov dim h' p q t' (C' p q)) ∧ TeamCov dim sub C' := by
  obtain ⟨c, hr⟩ := hreach.rel hnear
  have eC : ∀ p ∈ ids, ∀ q ∈ ids, c.cov p q = C p q := fun p hp q hq => (hr.isCov (hN p hp) (hN q hq)).unique (hC p hp q hq)
  have hi : TeamInv dim grp ids c := by
    refine ⟨hcov.congr eC, fun p hp q hq hg i j => by rw [eC p hp q hq]; exact hap p hp q hq hg i j, fun p hp => ?_⟩
    obtain ⟨h1, h2⟩ := (hN p hp).rel hr
    obtain ⟨b, hb, -, -, -, h5⟩ := hr.bel p h1
    rw [h2] at hb
    have := hfree p hp
    have hb' : belief h p t = some b := hb
    unfold fixedAt at this
    rw [hb'] at this
    rw [← h5]; exact this
  obtain ⟨c', hr', hi'⟩ := hi.runs hnear hn hr (fun p hp => ((hN p hp).rel hr).1) hl hrun
  exact ⟨c'.cov, fun p hp q hq => hr'.isCov (hN' p hp) (hN' q hq), hi'.cov.subset hsub⟩

/-! ## One participant and one that does not take part -/

theorem pair_alg {n m : ℕ} {A A' : Matrix (Fin n) (Fin n) ℝ} {X : Matrix (Fin n) (Fin m) ℝ} {D : Matrix (Fin m) (Fin m) ℝ} {d : ℝ} (hA : A.PosDef)
    (hA' : A'.PosSemidef) (hpair : ∀ u v, 0 ≤ u ⬝ᵥ A.mulVec u + 2 * (u ⬝ᵥ X.mulVec v) + v ⬝ᵥ D.mulVec v)
    (hg : ∀ u, u ⬝ᵥ A'.mulVec u ≤ u ⬝ᵥ A.mulVec u + d * (u ⬝ᵥ u)) (u : Fin n → ℝ) (v : Fin m → ℝ) :
    -(d * (((A⁻¹ * X).mulVec v) ⬝ᵥ ((A⁻¹ * X).mulVec v))) ≤ u ⬝ᵥ A'.mulVec u + 2 * (u ⬝ᵥ (A' * A⁻¹ * X).mulVec v) + v ⬝ᵥ D.mulVec v := by
  set w := (A⁻¹ * X).mulVec v with hw
  have e1 : (A' * A⁻¹ * X).mulVec v = A'.mulVec w := by rw [Matrix.mul_assoc, ← Matrix.mulVec_mulVec]
  have e2 : X.mulVec v = A.mulVec w := by
    rw [hw, Matrix.mulVec_mulVec, ← Matrix.mul_assoc, Matrix.mul_nonsing_inv _ ((Matrix.isUnit_iff_isUnit_det _).mp hA.isUnit), Matrix.one_mul]
  have h1 := hA'.dotProduct_mulVec_nonneg (u + w)
  simp only [star_trivial] at h1
  have h2 : w ⬝ᵥ A'.mulVec u = u ⬝ᵥ A'.mulVec w := by
    rw [Matrix.dotProduct_mulVec, ← Matrix.mulVec_transpose, Alg.psd_symm hA', dotProduct_comm]
  rw [Matrix.mulVec_add, dotProduct_add, add_dotProduct, add_dotProduct, h2] at h1
  have h3 := hpair (-w) v
  rw [e2, Matrix.mulVec_neg, dotProduct_neg, neg_dotProduct] at h3
  have h4 := hg w
  rw [e1]
  linarith

theorem bil_toM (C : Mat) (n m : ℕ) (u v : ℕ → ℝ) : bil C n m u v = (fun i : Fin n => u i) ⬝ᵥ (C.toM n m).mulVec (fun i : Fin m => v i) := by
  unfold bil
  rw [Finset.sum_range]
  simp only [dotProduct, Matrix.mulVec]
  refine Finset.sum_congr rfl fun i _ => ?_
  rw [Finset.sum_range, Finset.mul_sum]
  refine Finset.sum_congr rfl fun j _ => ?_
  simp only [toM_apply]; ring

/-- The variance of `u` of `p` plus `v` of `q`. -/
def pairVar (dim : ℕ → ℕ) (C : ℕ → ℕ → Mat) (p q : ℕ) (u v : ℕ → ℝ) : ℝ :=
  bil (C p p) (dim p) (dim p) u u + 2 * bil (C p q) (dim p) (dim q) u v + bil (C q q) (dim q) (dim q) v v

/-- What a joint observation leaves of the pair of a participant `p` and an instance `q` that does not take part. -/
structure PairBound (dim : ℕ → ℕ) (C C' : ℕ → ℕ → Mat) (p q : ℕ) (d : ℝ) : Prop where
  /-- the variances of the participant grow by at most `d` -/
  grow : ∀ u : ℕ → ℝ, bil (C' p p) (dim p) (dim p) u u ≤ bil (C p p) (dim p) (dim p) u u + d * ∑ i ∈ Finset.range (dim p), u i * u i
  /-- if they do not grow, the pair's covariance stays a covariance; in general a variance of the pair falls below zero by at most `d` times the
  squared length of `(cov p p)⁻¹ (cov p q) v` -/
  pair : ∀ e : ℝ, (∀ u : ℕ → ℝ, bil (C' p p) (dim p) (dim p) u u ≤ bil (C p p) (dim p) (dim p) u u + e * ∑ i ∈ Finset.range (dim p), u i * u i) →
    ∀ u v : ℕ → ℝ, -(e * ∑ i ∈ Finset.range (dim p), (∑ j ∈ Finset.range (dim q), ((C p p).inv * C p q).e i j * v j) ^ 2) ≤ pairVar dim C' p q u v

theorem single_sum {bs : List (ℕ × ℕ)} (hb : ∀ b ∈ bs, b.2 = dim b.1) (hn : (bs.map (·.1)).Nodup) {p : ℕ} (hp : p ∈ bs.map (·.1)) (u : ℕ → ℝ) (P : Mat) :
    bil P (tot bs) (tot bs) (stackV bs fun a => if a = p then u else fun _ => 0) (stackV bs fun a => if a = p then u else fun _ => 0) =
      bil (P.block (off bs p) (off bs p) (dim p) (dim p)) (dim p) (dim p) u u := by
  rw [bil_stack' hb hn, Finset.sum_eq_single p, Finset.sum_eq_single p, if_pos rfl]
  · intro a _ ha; exact bil_zero_right _ _ _ _ fun i => by rw [if_neg ha]
  · intro h; exact absurd (List.mem_toFinset.mpr hp) h
  · intro a _ ha; exact Finset.sum_eq_zero fun b _ => bil_zero_left _ _ _ (fun i => by rw [if_neg ha]) _
  · intro h; exact absurd (List.mem_toFinset.mpr hp) h

theorem pair_core {bs : List (ℕ × ℕ)} (hb : ∀ b ∈ bs, b.2 = dim b.1) (hn : (bs.map (·.1)).Nodup) {t : Int} {C C' : ℕ → ℕ → Mat} {m m' : ℕ → Mat} {H R r S : Mat}
    {cfg : Cfg} {res : CorrRes} (hS : StackedCov bs C S) (hc : correctionStep H R r (stabM S (1 / 10^12)) cfg = .ok res) (hrj : res.rejected = false)
    (hJ : JointEffect dim h h' t bs C C' m m' (fixPsd near res.Sapos) res.dx) (hR : NoiseOk R cfg) {p q : ℕ} (hp : p ∈ bs.map (·.1)) (hq : q ∉ bs.map (·.1))
    (hsym : ∀ a ∈ bs.map (·.1), ∀ b ∈ bs.map (·.1), C b a = (C a b).tr)
    (sp : (C p p).Shape (dim p) (dim p)) (sx : (C p q).Shape (dim p) (dim q)) (hx : C q p = (C p q).tr)
    (hteam : TeamCov dim (bs.map (·.1)).toFinset C) (hpq : TeamCov dim {p, q} C)
    (hpd : ∀ u : ℕ → ℝ, (∃ i < dim p, u i ≠ 0) → 0 < bil (C p p) (dim p) (dim p) u u) :
    PairBound dim C C' p q (1 / 10^12 + if cfg.stab then cfg.eps else 0) := by
  obtain ⟨hO, -⟩ := Inst.correctionStep_accept (hS.1.stabM _) cfg res hc hrj
  obtain ⟨pR, he, pRe⟩ := hR.pd hO.R.1
  -- the blocks of the stacked prior
  have blkS : ∀ a ∈ bs.map (·.1), ∀ b ∈ bs.map (·.1), ∀ i < dim a, ∀ j < dim b, S.e (off bs a + i) (off bs b + j) = (C a b).e i j := by
    intro a ha b hbm i hi j hj
    obtain ⟨x, hx, rfl⟩ := List.mem_map.mp ha
    obtain ⟨y, hy, rfl⟩ := List.mem_map.mp hbm
    exact hS.2 x hx y hy i (by rw [hb x hx]; exact hi) j (by rw [hb y hy]; exact hj)
  have symS : ∀ i j, S.e i j = S.e j i := by
    intro i j
    by_cases hij : i < tot bs ∧ j < tot bs
    · obtain ⟨a, ha, i', hi', rfl⟩ := off_cover hn hij.1
      obtain ⟨b, hb', j', hj', rfl⟩ := off_cover hn hij.2
      rw [hS.2 a ha b hb' i' hi' j' hj', hS.2 b hb' a ha j' hj' i' hi',
        hsym a.1 (List.mem_map.mpr ⟨a, ha, rfl⟩) b.1 (List.mem_map.mpr ⟨b, hb', rfl⟩), tr_e]
    · rw [S.out i j (by rw [hS.1.1, hS.1.2]; omega), S.out j i (by rw [hS.1.1, hS.1.2]; omega)]
  have bilS : ∀ x : ℕ → ℕ → ℝ, bil S (tot bs) (tot bs) (stackV bs x) (stackV bs x) =
      ∑ a ∈ (bs.map (·.1)).toFinset, ∑ b ∈ (bs.map (·.1)).toFinset, bil (C a b) (dim a) (dim b) (x a) (x b) := by
    intro x
    rw [bil_stack' hb hn]
    refine Finset.sum_congr rfl fun a ha => Finset.sum_congr rfl fun b hb' => bil_congr (fun i hi j hj => ?_) _ _
    rw [block_e, if_pos ⟨hi, hj⟩, blkS a (List.mem_toFinset.mp ha) b (List.mem_toFinset.mp hb') i hi j hj]
  have unstack : ∀ y : ℕ → ℝ, ∃ x : ℕ → ℕ → ℝ, ∀ k < tot bs, stackV bs x k = y k := by
    intro y
    have : ∀ (l : List (ℕ × ℕ)) (o : ℕ), (l.map (·.1)).Nodup → ∃ x : ℕ → ℕ → ℝ, ∀ k < tot l, stackV l x k = y (o + k) := by
      intro l
      induction l with
      | nil => intro o _; exact ⟨fun _ _ => 0, fun k hk => absurd hk (by simp [tot])⟩
      | cons b r ih =>
        intro o hn
        rw [List.map_cons, List.nodup_cons] at hn
        obtain ⟨x, hx⟩ := ih (o + b.2) hn.2
        have congr : ∀ (l : List (ℕ × ℕ)) (x x' : ℕ → ℕ → ℝ), (∀ a ∈ l, x a.1 = x' a.1) → ∀ k, stackV l x k = stackV l x' k := by
          intro l x x' h
          induction l with
          | nil => intro k; rfl
          | cons b r ih =>
            intro k
            rw [stackV, stackV, h b List.mem_cons_self, ih (fun a ha => h a (List.mem_cons_of_mem _ ha))]
        refine ⟨fun a => if a = b.1 then fun i => y (o + i) else x a, fun k hk => ?_⟩
        rw [tot] at hk
        rw [stackV]
        split
        · rw [if_pos rfl]
        · rw [congr r _ x (fun a ha => if_neg (fun e => hn.1 (by rw [← e]; exact List.mem_map.mpr ⟨a, ha, rfl⟩))), hx (k - b.2) (by omega)]
          congr 1; omega
    obtain ⟨x, hx⟩ := this bs 0 hn
    exact ⟨x, fun k hk => by rw [hx k hk, Nat.zero_add]⟩
  have covS : IsCovMat S := by
    refine ⟨by rw [hS.1.1, hS.1.2], symS, fun y => ?_⟩
    obtain ⟨x, hx⟩ := unstack y
    have h1 := hteam x
    rw [← bilS x] at h1
    refine h1.trans (le_of_eq ?_)
    rw [hS.1.1]
    unfold bil
    refine Finset.sum_congr rfl fun i hi => Finset.sum_congr rfl fun j hj => ?_
    rw [hx i (Finset.mem_range.mp hi), hx j (Finset.mem_range.mp hj)]
  obtain ⟨-, pS⟩ := covS.psd hS.1.1
  have eS : (stabM S (1 / 10^12)).toM (tot bs) (tot bs) = S.toM (tot bs) (tot bs) + (1 / 10^12 : ℝ) • 1 := toM_stabM_symm hS.1 _ (Alg.psd_symm pS)
  have pS1 : ((stabM S (1 / 10^12)).toM (tot bs) (tot bs)).PosSemidef := by
    rw [eS]; exact pS.add (Alg.smul_one_psd (by norm_num))
  obtain ⟨q1, -, -, -, -, -, -, -, q9, -, q11, -⟩ := c18_kalman_update H R r (stabM S (1 / 10^12)) cfg hO pS1 pR he pRe res hc
  have hfix : fixPsd near res.Sapos = res.Sapos := by
    unfold fixPsd
    rw [if_pos]
    exact ⟨by rw [q1.1, q1.2], by rw [q1.1]; exact q9⟩
  rw [hfix] at hJ
  obtain ⟨x, hxm, hx1⟩ := List.mem_map.mp hp
  have hxd : x.2 = dim p := by rw [hb x hxm, hx1]
  have cpp : C' p p = res.Sapos.block (off bs p) (off bs p) (dim p) (dim p) := by
    have := hJ.pair x hxm x hxm
    rwa [hx1, hxd] at this
  have cpq : C' p q = C' p p * (C p p).inv * C p q := by
    have := hJ.cross x hxm q hq
    rwa [hx1, hxd, ← cpp] at this
  have cqq : C' q q = C q q := (hJ.others q q hq hq).1
  have grow : ∀ u : ℕ → ℝ, bil (C' p p) (dim p) (dim p) u u ≤
      bil (C p p) (dim p) (dim p) u u + (1 / 10^12 + if cfg.stab then cfg.eps else 0) * ∑ i ∈ Finset.range (dim p), u i * u i := by
    intro u
    have hle := bil_le_of_psd (A := res.Sapos) (B := ofM (S.toM (tot bs) (tot bs) + (1 / 10^12 + if cfg.stab then cfg.eps else 0 : ℝ) • 1)) (n := tot bs) (by
      rw [toM_ofM]
      have : S.toM (tot bs) (tot bs) + (1 / 10^12 + if cfg.stab then cfg.eps else 0 : ℝ) • 1 - res.Sapos.toM (tot bs) (tot bs) =
          (stabM S (1 / 10^12)).toM (tot bs) (tot bs) - (res.Sapos.toM (tot bs) (tot bs) - if cfg.stab then cfg.eps • 1 else 0) := by
        rw [eS, add_smul]
        split
        · abel
        · rw [zero_smul]; abel
      rw [this]; exact q11) (stackV bs fun a => if a = p then u else fun _ => 0)
    rw [single_sum hb hn hp, ← cpp, bil_toM (ofM _), toM_ofM, Matrix.add_mulVec, dotProduct_add, Matrix.smul_mulVec, Matrix.one_mulVec, dotProduct_smul, ← bil_toM,
      single_sum hb hn hp, smul_eq_mul] at hle
    have e1 : bil (S.block (off bs p) (off bs p) (dim p) (dim p)) (dim p) (dim p) u u = bil (C p p) (dim p) (dim p) u u := by
      refine bil_congr (fun i hi j hj => ?_) _ _
      rw [block_e, if_pos ⟨hi, hj⟩, blkS p hp p hp i hi j hj]
    have e2 : ((fun i : Fin (tot bs) => stackV bs (fun a => if a = p then u else fun _ => 0) i) ⬝ᵥ
        fun i : Fin (tot bs) => stackV bs (fun a => if a = p then u else fun _ => 0) i) = ∑ i ∈ Finset.range (dim p), u i * u i := by
      simp only [dotProduct]
      rw [← Finset.sum_range (f := fun i => stackV bs (fun a => if a = p then u else fun _ => 0) i * stackV bs (fun a => if a = p then u else fun _ => 0) i),
        sum_stack bs hn _ (fun _ v => v * v), map_sum_toFinset hb hn fun a n => ∑ i ∈ Finset.range n, (if a = p then u else fun _ => 0) i * (if a = p then u else fun _ => 0) i,
        Finset.sum_eq_single p]
      · simp only [if_true]
      · intro a _ ha; exact Finset.sum_eq_zero fun i _ => by simp [if_neg ha]
      · intro hh; exact absurd (List.mem_toFinset.mpr hp) hh
    rw [e1, e2] at hle
    exact hle
  refine ⟨grow, fun e hge u v => ?_⟩
  have hne : p ≠ q := fun e => hq (e ▸ hp)
  have pA : ((C p p).toM (dim p) (dim p)).PosDef := by
    refine Matrix.PosDef.of_dotProduct_mulVec_pos ?_ ?_
    · rw [Matrix.IsHermitian, Matrix.conjTranspose_eq_transpose_of_trivial, ← toM_tr, ← hsym p hp p hp]
    · intro x hx
      obtain ⟨k, hk⟩ := Function.ne_iff.mp hx
      have := hpd (fun i => if hi : i < dim p then x ⟨i, hi⟩ else 0) ⟨k, k.2, by simpa using hk⟩
      rw [bil_toM] at this
      simpa using this
  have pA' : ((C' p p).toM (dim p) (dim p)).PosSemidef := by
    have hcov : IsCovMat res.Sapos := isCov_of q1 q9
    have hle : off bs p + dim p ≤ tot bs := by have := off_add_le hn hxm; rwa [hx1, hxd] at this
    have h1 := hcov.block (k := off bs p) (n := dim p) (by rw [q1.1]; exact hle)
    rw [cpp]
    exact (h1.psd rfl).2
  have ext : ∀ (n : ℕ) (x : Fin n → ℝ), (fun i : Fin n => if hi : (i : ℕ) < n then x ⟨i, hi⟩ else 0) = x := by
    intro n x; ext i; simp
  have hpair : ∀ (u : Fin (dim p) → ℝ) (v : Fin (dim q) → ℝ), 0 ≤ u ⬝ᵥ ((C p p).toM (dim p) (dim p)).mulVec u + 2 * (u ⬝ᵥ ((C p q).toM (dim p) (dim q)).mulVec v) +
      v ⬝ᵥ ((C q q).toM (dim q) (dim q)).mulVec v := by
    intro u v
    have := hpq fun a i => if a = p then (if hi : i < dim p then u ⟨i, hi⟩ else 0) else (if hi : i < dim q then v ⟨i, hi⟩ else 0)
    rw [Finset.sum_pair hne, Finset.sum_pair hne, Finset.sum_pair hne] at this
    simp only [if_true, if_neg hne.symm] at this
    rw [hx, bil_tr, bil_toM, bil_toM, bil_toM] at this
    simp only [ext] at this
    linarith
  have hgm : ∀ u : Fin (dim p) → ℝ, u ⬝ᵥ ((C' p p).toM (dim p) (dim p)).mulVec u ≤ u ⬝ᵥ ((C p p).toM (dim p) (dim p)).mulVec u + e * (u ⬝ᵥ u) := by
    intro u
    have := hge fun i => if hi : i < dim p then u ⟨i, hi⟩ else 0
    rw [bil_toM, bil_toM, Finset.sum_range] at this
    simp only [ext] at this
    simpa [dotProduct] using this
  have key := pair_alg pA pA' hpair hgm (fun i => u i) (fun j => v j)
  have s1 : (C' p p).Shape (dim p) (dim p) := by rw [cpp]; exact ⟨rfl, rfl⟩
  have t1 : (C' p q).toM (dim p) (dim q) = (C' p p).toM (dim p) (dim p) * ((C p p).toM (dim p) (dim p))⁻¹ * (C p q).toM (dim p) (dim q) := by
    rw [cpq, (s1.mul sp.inv).toM_mul, s1.toM_mul, toM_inv _ _ sp.1]
  have t2 : ((C p p).inv * C p q).toM (dim p) (dim q) = ((C p p).toM (dim p) (dim p))⁻¹ * (C p q).toM (dim p) (dim q) := by
    rw [sp.inv.toM_mul, toM_inv _ _ sp.1]
  unfold pairVar
  rw [cqq, bil_toM, bil_toM, bil_toM, t1]
  refine le_trans (le_of_eq ?_) key
  rw [← t2, Finset.sum_range]
  congr 2
  simp only [dotProduct, Matrix.mulVec]
  refine Finset.sum_congr rfl fun i _ => ?_
  rw [Finset.sum_range, sq]
  rfl

/-- C106: an accepted joint observation in any reachable state, with a noise covariance, where the covariances read before of the
participants and of the pair `p`, `q` are covariances and that of `p` is definite; `p` takes part and `q` does not. With the
default configuration `d` is `10^-12 + 10^-16`. -/
theorem c106_pair_partial (hnear : NearOk near) (hreach : Reach fp near pred dim h) {dH : SMap Mat} {R r : Mat} {t : Int} {cfg : Cfg} (hdH : dH.Sorted)
    (hN : ∀ a ∈ dH.keys, Newest h a t) (hs : run fp near pred h (.jointR dH R r t cfg) = .ok (h', true)) (hR : NoiseOk R cfg)
    (hfree : ∀ a ∈ dH.keys, fixedAt h t a = false) {p q : ℕ} (hp : p ∈ dH.keys) (hq : q ∉ dH.keys) (hNq : Newest h q t) :
    ∃ C C', (∀ a b, Newest h a t → Newest h b t → IsCov dim h a b t (C a b) ∧ IsCov dim h' a b t (C' a b)) ∧
      (TeamCov dim dH.keys.toFinset C → TeamCov dim {p, q} C → (∀ u : ℕ → ℝ, (∃ i < dim p, u i ≠ 0) → 0 < bil (C p p) (dim p) (dim p) u u) →
        PairBound dim C C' p q (1 / 10^12 + if cfg.stab then cfg.eps else 0)) := by
  obtain ⟨c, hr⟩ := hreach.rel hnear
  obtain ⟨C, C', m, m', g1, g2, H, S, res, hH, hS, hc, hrj, hJ⟩ := c24_joint hnear hreach hdH hN hs
  have hbs : dH.keys.filter (fun p => !fixedAt h t p) = dH.keys := List.filter_eq_self.mpr fun a ha => by rw [hfree a ha]; rfl
  rw [hbs] at hS hJ
  have hm : (dH.keys.map fun p => (p, dim p)).map (·.1) = dH.keys := by rw [List.map_map]; exact List.map_id _
  have hb : ∀ b ∈ dH.keys.map (fun p => (p, dim p)), b.2 = dim b.1 := by
    intro b hb; obtain ⟨x, -, rfl⟩ := List.mem_map.mp hb; rfl
  have hn : ((dH.keys.map fun p => (p, dim p)).map (·.1)).Nodup := by rw [hm]; exact ((SMap.sorted_iff_keys dH).mp hdH).nodup
  have eC : ∀ a b, Newest h a t → Newest h b t → C a b = c.cov a b := fun a b ha hb => (g1 a b ha hb).1.unique (hr.isCov ha hb)
  have hsym : ∀ a b, Newest h a t → Newest h b t → C b a = (C a b).tr := fun a b ha hb => by
    rw [eC b a hb ha, eC a b ha hb]; exact hr.symm a b (ha.rel hr).1 (hb.rel hr).1
  have hsh : ∀ a b, Newest h a t → Newest h b t → (C a b).Shape (dim a) (dim b) := fun a b ha hb => by
    rw [eC a b ha hb]; exact hr.covS a b (ha.rel hr).1 (hb.rel hr).1
  refine ⟨C, C', fun a b ha hb => ⟨(g1 a b ha hb).1, (g2 a b ha hb).1⟩, fun h1 h2 h3 => ?_⟩
  refine pair_core hb hn hS hc hrj hJ hR (by rw [hm]; exact hp) (by rw [hm]; exact hq) ?_ (hsh p p (hN p hp) (hN p hp)) (hsh p q (hN p hp) hNq)
    (hsym p q (hN p hp) hNq) (by rw [hm]; exact h1) h2 h3
  intro a ha b hb
  rw [hm] at ha hb
  exact hsym a b (hN a ha) (hN b hb)

end Hdl
end Ikf
