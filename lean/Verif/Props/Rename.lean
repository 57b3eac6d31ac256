import Verif.Spec.Rename
import Verif.Lemmas.Rename
import Verif.Props.Covariance
import Verif.Props.IsolatedExamples

/-!
# Instance IDs are mere names (C130)
-/

namespace Ikf
open Mat

namespace Rename
open Hdl (Rel Parts Newest Wf Fits run NearOk)

section names
variable {fp : FP} {near : Mat → Mat} {pred pred' : ℕ → Inst → Int → Inst × Bool} {dim dim' : ℕ → ℕ} {h h' h1 : Hdl} {c c' c1 c1' : Central} {σ : ℕ → ℕ}

/-! ## What a rejected call means -/

/-- The centralised filter rejects the call, too. -/
def Turned (dim : ℕ → ℕ) (c : Central) : Ev → Prop
  | .privKF id H R z _ cfg => ∃ res, correctionStep H R (z - H * c.mu id) (c.cov id id) cfg = .ok res ∧ res.rejected = true
  | .privEKF id H R r _ cfg => ∃ res, correctionStep H R r (c.cov id id) cfg = .ok res ∧ res.rejected = true
  | .jointR dH R r _ cfg => ∃ H S res, SideBySide dH H ∧ StackedCov (participants dim c dH) c.cov S ∧
      correctionStep H R r (stabM S (1 / 10^12)) cfg = .ok res ∧ res.rejected = true
  | .jointZ dH z R _ cfg => ∃ H S m res, SideBySide dH H ∧ StackedCov (participants dim c dH) c.cov S ∧ StackedMean (participants dim c dH) c.mu m ∧
      correctionStep H R (z - H * m) (stabM S (1 / 10^12)) cfg = .ok res ∧ res.rejected = true
  | _ => False

theorem correctJoint_turned {d : SMap Belief} {H R r S : Mat} {t : Int} {cfg : Cfg} (hs : Hdl.correctJoint near h d H R r S t cfg = .ok (h1, false)) :
    ∃ res, correctionStep H R r S cfg = .ok res ∧ res.rejected = true := by
  unfold Hdl.correctJoint at hs
  obtain ⟨res, e, hs⟩ := Hdl.bind_eq_ok hs
  refine ⟨res, e, ?_⟩
  cases hr : res.rejected with
  | true => rfl
  | false =>
    rw [hr] at hs
    simp only [Bool.not_false, if_true] at hs
    obtain ⟨x, -, hs⟩ := Hdl.bind_eq_ok hs
    simp at hs

theorem privEKF_turned {i j : Inst} {b : Belief} {t : Int} {H R r : Mat} {cfg : Cfg} (hs : i.privEKF b t H R r cfg = .ok (j, false)) :
    ∃ res, correctionStep H R r b.Sigma cfg = .ok res ∧ res.rejected = true := by
  unfold Inst.privEKF at hs
  obtain ⟨res, e, hs⟩ := Hdl.bind_eq_ok hs
  refine ⟨res, e, ?_⟩
  cases hr : res.rejected with
  | true => rfl
  | false =>
    rw [hr] at hs
    simp only [Bool.not_false, if_true] at hs
    obtain ⟨x, -, hs⟩ := Hdl.bind_eq_ok hs
    obtain ⟨y, -, hs⟩ := Hdl.bind_eq_ok hs
    simp at hs

theorem turned (hnear : NearOk near) (hr : Rel dim h c) (ev : Ev) (hw : Wf dim h ev) (hf : Fits dim h ev) (hs : run fp near pred h ev = .ok (h1, false)) :
    Turned dim c ev := by
  have never : Hdl.Ungated ev → Turned dim c ev := by
    intro hu
    obtain ⟨_, ans, e, ha⟩ := Hdl.progress_rel (fp := fp) (pred := pred) hnear hr ev hw hf
    rw [hs] at e
    rw [ha hu] at e
    simp at e
  cases ev with
  | propKF => exact never trivial
  | propEKF => exact never trivial
  | propBel => exact never trivial
  | setCov => exact never trivial
  | privKF id H R z t cfg =>
    obtain ⟨hid, htm⟩ := Newest.rel hr hw
    obtain ⟨i, hi⟩ := Option.isSome_iff_exists.mp hid
    obtain ⟨b, hb, b1, b2, -⟩ := hr.bel id hid
    rw [htm, Hdl.bl_of_find hi] at hb
    simp only [run, Hdl.get_ok hi, Res.bind_ok] at hs
    obtain ⟨⟨j, a⟩, e, hs⟩ := Hdl.bind_eq_ok hs
    obtain ⟨-, rfl⟩ := Prod.mk.inj (Res.ok.inj hs)
    unfold Inst.privKF at e
    rw [hb] at e
    simp only at e
    obtain ⟨hH, hR, hz, -⟩ := hf
    have hHs : H.Shape H.rows (dim id) := ⟨rfl, hH⟩
    have hm : b.mean.Shape (dim id) 1 := by rw [b1]; exact hr.muS id hid
    rw [hHs.mulC hm, Res.bind_ok, hz.subC (hHs.mul hm), Res.bind_ok] at e
    have := privEKF_turned e
    rw [b1, b2] at this
    exact this
  | privEKF id H R r t cfg =>
    obtain ⟨hid, htm⟩ := Newest.rel hr hw
    obtain ⟨i, hi⟩ := Option.isSome_iff_exists.mp hid
    obtain ⟨b, hb, b1, b2, -⟩ := hr.bel id hid
    rw [htm, Hdl.bl_of_find hi] at hb
    simp only [run, Hdl.get_ok hi, Res.bind_ok, hb] at hs
    obtain ⟨⟨j, a⟩, e, hs⟩ := Hdl.bind_eq_ok hs
    obtain ⟨-, rfl⟩ := Prod.mk.inj (Res.ok.inj hs)
    have := privEKF_turned e
    rw [b2] at this
    exact this
  | jointR dH R r t cfg =>
    obtain ⟨hdH, hN⟩ := hw
    have hp : Parts dim h c dH t := ⟨hdH, fun p hpm => ((hN p hpm).rel hr).1, fun p hpm => ((hN p hpm).rel hr).2⟩
    simp only [run, Hdl.applyObsR] at hs
    obtain ⟨H, hH, hs⟩ := Hdl.bind_eq_ok hs
    rw [Hdl.getDictBel_rel pred hr hp, Res.bind_ok] at hs
    simp only at hs
    rw [if_neg (by simpa [Hdl.dict, SMap.keys] using hf.1)] at hs
    obtain ⟨S, hSe, hSC⟩ := Hdl.stackSigma_spec (Hdl.dict h dH t) (Hdl.dict_sorted hp) (Hdl.covOf hr hp)
    rw [← Hdl.participants_eq hr hp] at hSC
    rw [hSe, Res.bind_ok, stabilize_ok hSC.1, Res.bind_ok] at hs
    obtain ⟨res, e1, e2⟩ := correctJoint_turned hs
    exact ⟨H, S, res, Hdl.stackH_spec dH hdH H hH, hSC, e1, e2⟩
  | jointZ dH z R t cfg =>
    obtain ⟨hdH, hN⟩ := hw
    obtain ⟨hne, ⟨m, he, hR, hrr⟩, hg⟩ := hf
    have hp : Parts dim h c dH t := ⟨hdH, fun p hpm => ((hN p hpm).rel hr).1, fun p hpm => ((hN p hpm).rel hr).2⟩
    obtain ⟨H, hH, hHs⟩ := Hdl.stackH_ok dH m (fun e hem => (he e hem).1.1) hne
    have hpe := Hdl.joint_sizes hr hN he
    simp only [run, Hdl.applyObsZ] at hs
    rw [hH, Res.bind_ok, Hdl.getDictBel_rel pred hr hp, Res.bind_ok] at hs
    simp only at hs
    rw [if_neg (by simpa [Hdl.dict, SMap.keys] using hne)] at hs
    obtain ⟨S, hSe, hSC⟩ := Hdl.stackSigma_spec (Hdl.dict h dH t) (Hdl.dict_sorted hp) (Hdl.covOf hr hp)
    obtain ⟨x, hme, hmC⟩ := Hdl.stackMean_spec (Hdl.dict h dH t) (Hdl.dict_sorted hp) c.mu
      (fun e he => (Hdl.mem_dict hr hp (Hdl.mem_unfixed.mp he).1).2.2.2.2.1)
      (fun e he => (Hdl.mem_dict hr hp (Hdl.mem_unfixed.mp he).1).2.2.2.2.2.2.2.2.2.1)
    rw [← Hdl.participants_eq hr hp] at hSC hmC
    rw [← hpe] at hHs
    rw [hme, Res.bind_ok, hSe, Res.bind_ok, hHs.mulC hmC.1, Res.bind_ok, hrr.subC (hHs.mul hmC.1), Res.bind_ok, stabilize_ok hSC.1, Res.bind_ok] at hs
    obtain ⟨res, e1, e2⟩ := correctJoint_turned hs
    exact ⟨H, S, x, res, Hdl.stackH_spec dH hdH H hH, hSC, hmC, e1, e2⟩

/-! ## The two centralised filters -/

/-- The same means and covariances under the new names, for the instances in `D`. -/
structure Same (σ : ℕ → ℕ) (D : ℕ → Prop) (c c' : Central) : Prop where
  tm : ∀ p, D p → c'.tm (σ p) = c.tm p
  mu : ∀ p, D p → c'.mu (σ p) = c.mu p
  fix : ∀ p, D p → c'.fix (σ p) = c.fix p
  cov : ∀ p q, D p → D q → c'.cov (σ p) (σ q) = c.cov p q

variable {D : ℕ → Prop}

theorem Same.transform (hσ : Function.Injective σ) (hc : Same σ D c c') (id : ℕ) (F m P : Mat) (t : Int) (fx : Bool) :
    Same σ D (c.transform id F m P t fx) (c'.transform (σ id) F m P t fx) := by
  have e : ∀ a, σ a = σ id ↔ a = id := fun a => hσ.eq_iff
  constructor
  · intro p hp; simp only [Central.transform, e, hc.tm p hp]
  · intro p hp; simp only [Central.transform, e, hc.mu p hp]
  · intro p hp; simp only [Central.transform, e, hc.fix p hp]
  · intro p q hp hq; simp only [Central.transform, e, hc.cov p q hp hq]

theorem Same.setCov (hσ : Function.Injective σ) (hc : Same σ D c c') (a b : ℕ) (S : Mat) : Same σ D (c.setCov a b S) (c'.setCov (σ a) (σ b) S) := by
  refine ⟨hc.tm, hc.mu, hc.fix, fun p q hp hq => ?_⟩
  simp only [Central.setCov, hσ.eq_iff, hc.cov p q hp hq]

/-- The blocks of two stacks, the second in another order. -/
structure Stacks (σ : ℕ → ℕ) (bs bs' : List (ℕ × ℕ)) (e : Fin (tot bs) ≃ Fin (tot bs)) : Prop where
  nd : (bs.map (·.1)).Nodup
  nd' : (bs'.map (·.1)).Nodup
  perm : bs'.Perm (bs.map fun b => (σ b.1, b.2))
  size : tot bs' = tot bs
  at_ : ∀ p ∈ bs, ∀ i < p.2, ∀ k : Fin (tot bs), (k : ℕ) = off bs p.1 + i → (e k : ℕ) = off bs' (σ p.1) + i

theorem Stacks.mem {bs bs' : List (ℕ × ℕ)} {e : Fin (tot bs) ≃ Fin (tot bs)} (hs : Stacks σ bs bs' e) {p : ℕ × ℕ} (hp : p ∈ bs) : (σ p.1, p.2) ∈ bs' :=
  hs.perm.mem_iff.mpr (List.mem_map.mpr ⟨p, hp, rfl⟩)

theorem Stacks.in_iff (hσ : Function.Injective σ) {bs bs' : List (ℕ × ℕ)} {e : Fin (tot bs) ≃ Fin (tot bs)} (hs : Stacks σ bs bs' e) (p : ℕ) :
    σ p ∈ bs'.map (·.1) ↔ p ∈ bs.map (·.1) := by
  rw [(hs.perm.map (·.1)).mem_iff, List.map_map]
  constructor
  · intro h
    obtain ⟨b, hb, e⟩ := List.mem_map.mp h
    exact List.mem_map.mpr ⟨b, hb, hσ e⟩
  · intro h
    obtain ⟨b, hb, rfl⟩ := List.mem_map.mp h
    exact List.mem_map.mpr ⟨b, hb, rfl⟩

/-- The entry of a stacked matrix found in the other. -/
theorem Stacks.entry {bs bs' : List (ℕ × ℕ)} {e : Fin (tot bs) ≃ Fin (tot bs)} (hs : Stacks σ bs bs' e) {p q : ℕ × ℕ} (hp : p ∈ bs) (hq : q ∈ bs) {i j : ℕ}
    (hi : i < p.2) (hj : j < q.2) {P P' : Mat} (hP : ∀ i j : Fin (tot bs), P'.e (e i) (e j) = P.e i j) :
    P'.e (off bs' (σ p.1) + i) (off bs' (σ q.1) + j) = P.e (off bs p.1 + i) (off bs q.1 + j) := by
  have h1 := off_add_le hs.nd hp
  have h2 := off_add_le hs.nd hq
  have := hP ⟨off bs p.1 + i, by omega⟩ ⟨off bs q.1 + j, by omega⟩
  rw [hs.at_ p hp i hi _ rfl, hs.at_ q hq j hj _ rfl] at this
  exact this

theorem Stacks.row {bs bs' : List (ℕ × ℕ)} {e : Fin (tot bs) ≃ Fin (tot bs)} (hs : Stacks σ bs bs' e) {p : ℕ × ℕ} (hp : p ∈ bs) {i : ℕ} (hi : i < p.2)
    {x x' : Mat} (hx : ∀ k : Fin (tot bs), x'.e (e k) 0 = x.e k 0) : x'.e (off bs' (σ p.1) + i) 0 = x.e (off bs p.1 + i) 0 := by
  have h1 := off_add_le hs.nd hp
  have := hx ⟨off bs p.1 + i, by omega⟩
  rw [hs.at_ p hp i hi _ rfl] at this
  exact this

theorem Same.joint (hσ : Function.Injective σ) (hc : Same σ D c c') {bs bs' : List (ℕ × ℕ)} {e : Fin (tot bs) ≃ Fin (tot bs)} (hs : Stacks σ bs bs' e)
    {P P' dx dx' : Mat} (hP : ∀ i j : Fin (tot bs), P'.e (e i) (e j) = P.e i j) (hx : ∀ k : Fin (tot bs), dx'.e (e k) 0 = dx.e k 0) :
    Same σ D (c.joint bs P dx) (c'.joint bs' P' dx') := by
  classical
  have hl : ∀ p ∈ bs, bs.lookup p.1 = some p.2 := fun p hp => lookup_of_mem hs.nd hp
  have hl' : ∀ p ∈ bs, bs'.lookup (σ p.1) = some p.2 := fun p hp => lookup_of_mem hs.nd' (hs.mem hp)
  have hblk : ∀ p ∈ bs, ∀ q ∈ bs, P'.block (off bs' (σ p.1)) (off bs' (σ q.1)) p.2 q.2 = P.block (off bs p.1) (off bs q.1) p.2 q.2 := by
    intro p hp q hq
    refine Mat.ext' rfl rfl fun i j hi hj => ?_
    rw [block_e, block_e, if_pos ⟨hi, hj⟩, if_pos ⟨hi, hj⟩]
    exact hs.entry hp hq hi hj hP
  have hdx : ∀ p ∈ bs, dx'.block (off bs' (σ p.1)) 0 p.2 1 = dx.block (off bs p.1) 0 p.2 1 := by
    intro p hp
    refine Mat.ext' rfl rfl fun i j hi hj => ?_
    have hj0 : j = 0 := by simp only [block_cols] at hj; omega
    subst hj0
    rw [block_e, block_e, if_pos ⟨hi, hj⟩, if_pos ⟨hi, hj⟩]
    exact hs.row hp hi hx
  refine ⟨hc.tm, fun p hp => ?_, hc.fix, fun p q hp hq => ?_⟩
  · show (if σ p ∈ bs'.map (·.1) then c'.mu (σ p) + dx'.block (off bs' (σ p)) 0 ((bs'.lookup (σ p)).getD 0) 1 else c'.mu (σ p)) =
      if p ∈ bs.map (·.1) then c.mu p + dx.block (off bs p) 0 ((bs.lookup p).getD 0) 1 else c.mu p
    simp only [hs.in_iff hσ p, hc.mu p hp]
    split
    · rename_i hm
      obtain ⟨b, hb, rfl⟩ := List.mem_map.mp hm
      rw [hl b hb, hl' b hb, Option.getD_some, hdx b hb]
    · rfl
  · show (if σ p ∈ bs'.map (·.1) ∧ σ q ∈ bs'.map (·.1) then P'.block (off bs' (σ p)) (off bs' (σ q)) ((bs'.lookup (σ p)).getD 0) ((bs'.lookup (σ q)).getD 0)
        else if σ p ∈ bs'.map (·.1) then P'.block (off bs' (σ p)) (off bs' (σ p)) ((bs'.lookup (σ p)).getD 0) ((bs'.lookup (σ p)).getD 0) * (c'.cov (σ p) (σ p)).inv * c'.cov (σ p) (σ q)
        else if σ q ∈ bs'.map (·.1) then c'.cov (σ p) (σ q) * (P'.block (off bs' (σ q)) (off bs' (σ q)) ((bs'.lookup (σ q)).getD 0) ((bs'.lookup (σ q)).getD 0) * (c'.cov (σ q) (σ q)).inv).tr
        else c'.cov (σ p) (σ q)) =
      if p ∈ bs.map (·.1) ∧ q ∈ bs.map (·.1) then P.block (off bs p) (off bs q) ((bs.lookup p).getD 0) ((bs.lookup q).getD 0)
        else if p ∈ bs.map (·.1) then P.block (off bs p) (off bs p) ((bs.lookup p).getD 0) ((bs.lookup p).getD 0) * (c.cov p p).inv * c.cov p q
        else if q ∈ bs.map (·.1) then c.cov p q * (P.block (off bs q) (off bs q) ((bs.lookup q).getD 0) ((bs.lookup q).getD 0) * (c.cov q q).inv).tr
        else c.cov p q
    simp only [hs.in_iff hσ p, hs.in_iff hσ q, hc.cov p q hp hq, hc.cov p p hp hp, hc.cov q q hq hq]
    split
    · rename_i hm
      obtain ⟨b, hb, rfl⟩ := List.mem_map.mp hm.1
      obtain ⟨d, hd, rfl⟩ := List.mem_map.mp hm.2
      rw [hl b hb, hl' b hb, hl d hd, hl' d hd, Option.getD_some, Option.getD_some, hblk b hb d hd]
    · split
      · rename_i hm
        obtain ⟨b, hb, rfl⟩ := List.mem_map.mp hm
        rw [hl b hb, hl' b hb, Option.getD_some, hblk b hb b hb]
      · split
        · rename_i hm
          obtain ⟨b, hb, rfl⟩ := List.mem_map.mp hm
          rw [hl b hb, hl' b hb, Option.getD_some, hblk b hb b hb]
        · rfl

/-- The joint posterior after the repair, in the other order. -/
theorem fix_perm (hord : AnyOrder near) {n : ℕ} (e : Fin n ≃ Fin n) {P P' : Mat} (hP : P.Shape n n) (hP' : P'.Shape n n) (hs : P.tr = P) (hs' : P'.tr = P')
    (he : (P'.toM n n).submatrix e e = P.toM n n) (i j : Fin n) : (Hdl.fixPsd near P').e (e i) (e j) = (Hdl.fixPsd near P).e i j := by
  have hent : ∀ i j : Fin n, P'.e (e i) (e j) = P.e i j := fun i j => congrFun (congrFun he i) j
  have hiff : (P'.rows = P'.cols ∧ (P'.toM P'.rows P'.rows).PosSemidef) ↔ (P.rows = P.cols ∧ (P.toM P.rows P.rows).PosSemidef) := by
    obtain ⟨r1, r2⟩ := hP
    obtain ⟨r1', r2'⟩ := hP'
    rw [r1, r2, r1', r2', ← he, Matrix.posSemidef_submatrix_equiv]
  unfold Hdl.fixPsd
  by_cases hp : P.rows = P.cols ∧ (P.toM P.rows P.rows).PosSemidef
  · rw [if_pos hp, if_pos (hiff.mpr hp)]
    exact hent i j
  · rw [if_neg hp, if_neg (fun h => hp (hiff.mp h))]
    exact hord n P P' e hP.1 hP.2 hP'.1 hP'.2 hs hs' hent i j

/-! ## The stacked observation -/

theorem parts_perm (hdd : ∀ p, dim' (σ p) = dim p) (hc : Same σ D c c') {dH dH' : SMap Mat} (hD : ∀ p ∈ dH.keys, D p) (hp : SameDict σ dH dH') :
    (participants dim' c' dH').Perm ((participants dim c dH).map fun b => (σ b.1, b.2)) := by
  have hk : dH'.keys.Perm (dH.keys.map σ) := by
    have := hp.2.map (·.1)
    rw [List.map_map] at this
    unfold SMap.keys
    rw [List.map_map]
    exact this
  have h1 : (dH.keys.map σ).filter (fun p => !c'.fix p) = (dH.keys.filter (fun p => !c.fix p)).map σ := by
    rw [List.filter_map]
    congr 1
    apply List.filter_congr
    intro p hpm
    show (!c'.fix (σ p)) = _
    rw [hc.fix p (hD p hpm)]
  have h2 := (hk.filter fun p => !c'.fix p).map fun p => (p, dim' p)
  rw [h1, List.map_map] at h2
  unfold participants
  rw [List.map_map]
  convert h2 using 2
  exact funext fun p => by simp [hdd p]

section stacked
variable {dH dH' : SMap Mat} {m : ℕ}

theorem keys_nodup (h : dH.Sorted) : ((participants dim c dH).map (·.1)).Nodup := (Hdl.part_facts (dim := dim) h (fun p => !c.fix p)).2

theorem stacks_of (hdd : ∀ p, dim' (σ p) = dim p) (hc : Same σ D c c') (hdH : dH.Sorted) (hD : ∀ p ∈ dH.keys, D p) (hp : SameDict σ dH dH') :
    ∃ e, Stacks σ (participants dim c dH) (participants dim' c' dH') e := by
  have hn := keys_nodup (dim := dim) (c := c) hdH
  have hn' := keys_nodup (dim := dim') (c := c') hp.1
  have hpm := parts_perm hdd hc hD hp
  obtain ⟨ht, e, he⟩ := index hn hn' hpm
  exact ⟨e, hn, hn', hpm, ht, he⟩

theorem side_rows (hne : dH ≠ []) (he : ∀ e ∈ dH, e.2.rows = m) {H : Mat} (hH : SideBySide dH H) : H.rows = m := by
  obtain ⟨e, he'⟩ := List.exists_mem_of_ne_nil dH hne
  rw [← (hH.2 e he').1]
  exact he e he'

theorem side_perm (hp : SameDict σ dH dH') (hpe : participants dim c dH = Hdl.hcols dH) (hpe' : participants dim' c' dH' = Hdl.hcols dH')
    {e : Fin (tot (participants dim c dH)) ≃ Fin (tot (participants dim c dH))} (hs : Stacks σ (participants dim c dH) (participants dim' c' dH') e)
    {H H' : Mat} (hH : SideBySide dH H) (hH' : SideBySide dH' H') :
    (H'.toM m (tot (participants dim c dH))).submatrix id e = H.toM m (tot (participants dim c dH)) := by
  ext i k
  obtain ⟨p, hpm, j, hj, hk⟩ := off_cover hs.nd k.2
  have hek := hs.at_ p hpm j hj k hk
  show H'.e i (e k) = H.e i k
  rw [hek, hk]
  obtain ⟨x, hx, rfl⟩ : ∃ x ∈ dH, (x.1, x.2.cols) = p := by
    rw [hpe] at hpm
    exact List.mem_map.mp hpm
  have hx' : (σ x.1, x.2) ∈ dH' := hp.2.mem_iff.mpr (List.mem_map.mpr ⟨x, hx, rfl⟩)
  have h1 := (hH.2 x hx).2 i j hj
  have h2 := (hH'.2 _ hx').2 i j hj
  rw [hpe, hpe', h1, h2]

theorem cov_perm (hc : Same σ D c c') (hD : ∀ p ∈ dH.keys, D p)
    {e : Fin (tot (participants dim c dH)) ≃ Fin (tot (participants dim c dH))} (hs : Stacks σ (participants dim c dH) (participants dim' c' dH') e)
    {S S' : Mat} (hS : StackedCov (participants dim c dH) c.cov S) (hS' : StackedCov (participants dim' c' dH') c'.cov S') :
    (S'.toM (tot (participants dim c dH)) (tot (participants dim c dH))).submatrix e e = S.toM (tot (participants dim c dH)) (tot (participants dim c dH)) := by
  have hin : ∀ p ∈ participants dim c dH, D p.1 := by
    intro p hp
    unfold participants at hp
    obtain ⟨q, hq, rfl⟩ := List.mem_map.mp hp
    exact hD q (List.mem_filter.mp hq).1
  ext k l
  obtain ⟨p, hpm, i, hi, hk⟩ := off_cover hs.nd k.2
  obtain ⟨q, hqm, j, hj, hl⟩ := off_cover hs.nd l.2
  show S'.e (e k) (e l) = S.e k l
  rw [hs.at_ p hpm i hi k hk, hs.at_ q hqm j hj l hl, hk, hl, hS.2 p hpm q hqm i hi j hj]
  have := hS'.2 _ (hs.mem hpm) _ (hs.mem hqm) i hi j hj
  simp only at this
  rw [this, hc.cov _ _ (hin p hpm) (hin q hqm)]

theorem mean_perm (hc : Same σ D c c') (hD : ∀ p ∈ dH.keys, D p)
    {e : Fin (tot (participants dim c dH)) ≃ Fin (tot (participants dim c dH))} (hs : Stacks σ (participants dim c dH) (participants dim' c' dH') e)
    {x x' : Mat} (hx : StackedMean (participants dim c dH) c.mu x) (hx' : StackedMean (participants dim' c' dH') c'.mu x') (k : Fin (tot (participants dim c dH))) :
    x'.e (e k) 0 = x.e k 0 := by
  obtain ⟨p, hpm, i, hi, hk⟩ := off_cover hs.nd k.2
  have hp : D p.1 := by
    unfold participants at hpm
    obtain ⟨q, hq, rfl⟩ := List.mem_map.mp hpm
    exact hD q (List.mem_filter.mp hq).1
  rw [hs.at_ p hpm i hi k hk, hk, hx.2 p hpm i hi]
  have := hx'.2 _ (hs.mem hpm) i hi
  simp only at this
  rw [this, hc.mu _ hp]

/-- The predicted measurements agree. -/
theorem predicted (hp : SameDict σ dH dH') (hc : Same σ D c c') (hD : ∀ p ∈ dH.keys, D p) (hpe : participants dim c dH = Hdl.hcols dH)
    (hpe' : participants dim' c' dH' = Hdl.hcols dH')
    {e : Fin (tot (participants dim c dH)) ≃ Fin (tot (participants dim c dH))} (hs : Stacks σ (participants dim c dH) (participants dim' c' dH') e)
    {H H' x x' : Mat} (hHs : H.Shape m (tot (participants dim c dH))) (hHs' : H'.Shape m (tot (participants dim c dH)))
    (hH : SideBySide dH H) (hH' : SideBySide dH' H')
    (hx : StackedMean (participants dim c dH) c.mu x) (hx' : StackedMean (participants dim' c' dH') c'.mu x') : H' * x' = H * x := by
  have s1 : x.Shape (tot (participants dim c dH)) 1 := hx.1
  have s2 : x'.Shape (tot (participants dim c dH)) 1 := by rw [← hs.size]; exact hx'.1
  refine toM_inj (hHs'.mul s2).1 (hHs'.mul s2).2 (hHs.mul s1).1 (hHs.mul s1).2 ?_
  have e2 : (x'.toM (tot (participants dim c dH)) 1).submatrix e id = x.toM (tot (participants dim c dH)) 1 := by
    ext k j
    have : j = 0 := Subsingleton.elim _ _
    subst this
    exact mean_perm hc hD hs hx hx' k
  rw [hHs.toM_mul, hHs'.toM_mul, ← e2, ← side_perm (m := m) hp hpe hpe' hs hH hH', Matrix.submatrix_mul_equiv, Matrix.submatrix_id_id]

/-- The gate and the correction of a joint observation. -/
theorem correction (hord : AnyOrder near) {n : ℕ} (e : Fin n ≃ Fin n) {H H' R r S S' : Mat} {cfg : Cfg} {res res' : CorrRes} (hO : ObsShape H R r S n m)
    (hO' : ObsShape H' R r S' n m) (eH : (H'.toM m n).submatrix id e = H.toM m n) (eS : (S'.toM n n).submatrix e e = S.toM n n)
    (hs : correctionStep H R r S cfg = .ok res) (hs' : correctionStep H' R r S' cfg = .ok res') :
    res'.rejected = res.rejected ∧ (∀ i j : Fin n, (Hdl.fixPsd near res'.Sapos).e (e i) (e j) = (Hdl.fixPsd near res.Sapos).e i j) ∧
      ∀ k : Fin n, res'.dx.e (e k) 0 = res.dx.e k 0 := by
  rw [correctionStep_eq hO] at hs
  rw [correctionStep_eq hO', innov_perm e hO hO' eH eS] at hs'
  obtain ⟨a, ha, hs⟩ := Hdl.bind_eq_ok hs
  obtain ⟨a', ha', hs'⟩ := Hdl.bind_eq_ok hs'
  rw [ha] at ha'
  cases Res.ok.inj ha'
  cases Res.ok.inj hs
  cases Res.ok.inj hs'
  exact ⟨rfl, fix_perm hord e (postM_shape hO cfg) (postM_shape hO' cfg) (Hdl.postM_symm hO cfg) (Hdl.postM_symm hO' cfg) (post_perm e hO hO' eH eS cfg),
    fun k => dx_perm e hO hO' eH eS cfg.eps k⟩

end stacked

/-- The participants of a joint observation: known, not fixed, with Jacobians of the right size. -/
structure Whole (dim : ℕ → ℕ) (c : Central) (D : ℕ → Prop) (dH : SMap Mat) (m : ℕ) : Prop where
  ne : dH ≠ []
  sorted : dH.Sorted
  known : ∀ p ∈ dH.keys, D p
  shape : ∀ e ∈ dH, e.2.Shape m (dim e.1)
  free : ∀ p ∈ dH.keys, c.fix p = false

theorem Whole.cols {dH : SMap Mat} {m : ℕ} (h : Whole dim c D dH m) : participants dim c dH = Hdl.hcols dH := by
  unfold participants
  have : dH.keys.filter (fun p => !c.fix p) = dH.keys := by
    rw [List.filter_eq_self]
    intro p hp
    rw [h.free p hp]; rfl
  rw [this]
  unfold Hdl.hcols SMap.keys
  rw [List.map_map]
  apply List.map_congr_left
  intro e hem
  simp [(h.shape e hem).2]

theorem Whole.renamed (hdd : ∀ p, dim' (σ p) = dim p) (hc : Same σ D c c') {D' : ℕ → Prop} (hreg : ∀ p, D p → D' (σ p)) {dH dH' : SMap Mat} {m : ℕ}
    (h : Whole dim c D dH m) (hp : SameDict σ dH dH') : Whole dim' c' D' dH' m := by
  have hback : ∀ e' ∈ dH', ∃ e ∈ dH, (σ e.1, e.2) = e' := fun e' he' => List.mem_map.mp (hp.2.mem_iff.mp he')
  have hkey : ∀ p' ∈ dH'.keys, ∃ p ∈ dH.keys, σ p = p' := by
    intro p' hp'
    obtain ⟨e', he', rfl⟩ := List.mem_map.mp hp'
    obtain ⟨e, he, rfl⟩ := hback e' he'
    exact ⟨e.1, List.mem_map.mpr ⟨e, he, rfl⟩, rfl⟩
  refine ⟨?_, hp.1, ?_, ?_, ?_⟩
  · intro h0
    have := hp.2.length_eq
    rw [h0] at this
    simp only [List.length_nil, List.length_map] at this
    exact h.ne (List.length_eq_zero_iff.mp this.symm)
  · intro p' hp'
    obtain ⟨p, hpm, rfl⟩ := hkey p' hp'
    exact hreg p (h.known p hpm)
  · intro e' he'
    obtain ⟨e, he, rfl⟩ := hback e' he'
    show e.2.Shape m (dim' (σ e.1))
    rw [hdd]
    exact h.shape e he
  · intro p' hp'
    obtain ⟨p, hpm, rfl⟩ := hkey p' hp'
    rw [hc.fix p (h.known p hpm)]
    exact h.free p hpm

section both
variable {dH dH' : SMap Mat} {m : ℕ}

/-- Both centralised filters decide alike about a joint observation, and if they accept it, they still agree. -/
theorem joint_both (hord : AnyOrder near) (hσ : Function.Injective σ) (hdd : ∀ p, dim' (σ p) = dim p) (hc : Same σ D c c') (hw : Whole dim c D dH m) (hp : SameDict σ dH dH')
    {H S R r H' S' : Mat} {cfg : Cfg} {res res' : CorrRes} (hR : R.Shape m m) (hrr : r.Shape m 1)
    (hH : SideBySide dH H) (hS : StackedCov (participants dim c dH) c.cov S) (hH' : SideBySide dH' H') (hS' : StackedCov (participants dim' c' dH') c'.cov S')
    (hs : correctionStep H R r (stabM S (1 / 10^12)) cfg = .ok res) (hs' : correctionStep H' R r (stabM S' (1 / 10^12)) cfg = .ok res') :
    res'.rejected = res.rejected ∧ Same σ D (c.joint (participants dim c dH) (Hdl.fixPsd near res.Sapos) res.dx)
      (c'.joint (participants dim' c' dH') (Hdl.fixPsd near res'.Sapos) res'.dx) := by
  have hw' := hw.renamed (D' := fun _ => True) hdd hc (fun _ _ => trivial) hp
  obtain ⟨e, he⟩ := stacks_of hdd hc hw.sorted hw.known hp
  have hHs : H.Shape m (tot (participants dim c dH)) := ⟨side_rows hw.ne (fun x hx => (hw.shape x hx).1) hH, by rw [hw.cols]; exact hH.1⟩
  have hHs' : H'.Shape m (tot (participants dim c dH)) :=
    ⟨side_rows hw'.ne (fun x hx => (hw'.shape x hx).1) hH', by rw [← he.size, hw'.cols]; exact hH'.1⟩
  have sS : S.Shape (tot (participants dim c dH)) (tot (participants dim c dH)) := hS.1
  have sS' : S'.Shape (tot (participants dim c dH)) (tot (participants dim c dH)) := by have := hS'.1; rw [he.size] at this; exact this
  have eS := stab_perm e sS sS' (cov_perm hc hw.known he hS hS') (1 / 10^12)
  obtain ⟨h1, h2, h3⟩ := correction hord e ⟨hHs, hR, hrr, sS.stabM _⟩ ⟨hHs', hR, hrr, sS'.stabM _⟩ (side_perm hp hw.cols hw'.cols he hH hH') eS hs hs'
  exact ⟨h1, hc.joint hσ he h2 h3⟩

theorem predicted_both (hdd : ∀ p, dim' (σ p) = dim p) (hc : Same σ D c c') (hw : Whole dim c D dH m) (hp : SameDict σ dH dH')
    {H H' x x' : Mat} (hH : SideBySide dH H) (hH' : SideBySide dH' H')
    (hx : StackedMean (participants dim c dH) c.mu x) (hx' : StackedMean (participants dim' c' dH') c'.mu x') : H' * x' = H * x ∧ (H * x).Shape m 1 := by
  have hw' := hw.renamed (D' := fun _ => True) hdd hc (fun _ _ => trivial) hp
  obtain ⟨e, he⟩ := stacks_of hdd hc hw.sorted hw.known hp
  have hHs : H.Shape m (tot (participants dim c dH)) := ⟨side_rows hw.ne (fun x hx => (hw.shape x hx).1) hH, by rw [hw.cols]; exact hH.1⟩
  have hHs' : H'.Shape m (tot (participants dim c dH)) :=
    ⟨side_rows hw'.ne (fun x hx => (hw'.shape x hx).1) hH', by rw [← he.size, hw'.cols]; exact hH'.1⟩
  exact ⟨predicted hp hc hw.known hw.cols hw'.cols he hHs hHs' hH hH' hx hx', hHs.mul hx.1⟩

end both

/-- The sizes a call needs, for the centralised filter. -/
def Sized (dim : ℕ → ℕ) (c : Central) (D : ℕ → Prop) : Ev → Prop
  | .propKF id _ _ _ _ => D id
  | .propEKF id _ _ _ _ _ => D id
  | .propBel id _ _ _ _ => D id
  | .privKF id _ _ _ _ _ => D id
  | .privEKF id _ _ _ _ _ => D id
  | .setCov _ _ _ _ => True
  | .jointR dH R r _ _ => ∃ m, Whole dim c D dH m ∧ R.Shape m m ∧ r.Shape m 1
  | .jointZ dH z R _ _ => ∃ m, Whole dim c D dH m ∧ R.Shape m m ∧ z.Shape m 1

theorem spec_same (hord : AnyOrder near) (hσ : Function.Injective σ) (hdd : ∀ p, dim' (σ p) = dim p) (hc : Same σ D c c') {ev ev' : Ev} (hren : Renamed σ ev ev')
    (hz : Sized dim c D ev) (hs : SpecStep dim near c ev c1) (hs' : SpecStep dim' near c' ev' c1') : Same σ D c1 c1' := by
  cases hren with
  | propKF id Phi Q ta tb =>
    cases hs; cases hs'
    rw [hc.mu id hz, hc.cov id id hz hz, hc.fix id hz]
    exact hc.transform hσ id _ _ _ _ _
  | propEKF id mb Phi Q ta tb =>
    cases hs; cases hs'
    rw [hc.cov id id hz hz, hc.fix id hz]
    exact hc.transform hσ id _ _ _ _ _
  | propBel id bb Phi ta tb =>
    cases hs; cases hs'
    exact hc.transform hσ id _ _ _ _ _
  | privKF id H R z t cfg =>
    cases hs with
    | privKF _ _ _ _ _ _ res h1 h2 =>
      cases hs' with
      | privKF _ _ _ _ _ _ res' h1' h2' =>
        rw [hc.mu id hz, hc.cov id id hz hz, h1] at h1'
        cases Res.ok.inj h1'
        rw [hc.mu id hz, hc.cov id id hz hz, hc.fix id hz, hdd]
        exact hc.transform hσ id _ _ _ _ _
  | privEKF id H R r t cfg =>
    cases hs with
    | privEKF _ _ _ _ _ _ res h1 h2 =>
      cases hs' with
      | privEKF _ _ _ _ _ _ res' h1' h2' =>
        rw [hc.cov id id hz hz, h1] at h1'
        cases Res.ok.inj h1'
        rw [hc.mu id hz, hc.cov id id hz hz, hc.fix id hz, hdd]
        exact hc.transform hσ id _ _ _ _ _
  | setCov a b S t =>
    cases hs; cases hs'
    exact hc.setCov hσ a b S
  | jointR dH dH' R r t cfg hp =>
    obtain ⟨m, hw, hR, hrr⟩ := hz
    cases hs with
    | jointR _ _ _ _ _ H S res hH hS h1 h2 =>
      cases hs' with
      | jointR _ _ _ _ _ H' S' res' hH' hS' h1' h2' => exact (joint_both hord hσ hdd hc hw hp hR hrr hH hS hH' hS' h1 h1').2
  | jointZ dH dH' z R t cfg hp =>
    obtain ⟨m, hw, hR, hzz⟩ := hz
    cases hs with
    | jointZ _ _ _ _ _ H S x res hH hS hx h1 h2 =>
      cases hs' with
      | jointZ _ _ _ _ _ H' S' x' res' hH' hS' hx' h1' h2' =>
        obtain ⟨e1, e2⟩ := predicted_both hdd hc hw hp hH hH' hx hx'
        rw [e1] at h1'
        exact (joint_both hord hσ hdd hc hw hp hR hzz.sub hH hS hH' hS' h1 h1').2

theorem not_turned' (hord : AnyOrder near) (hσ : Function.Injective σ) (hdd : ∀ p, dim' (σ p) = dim p) (hc : Same σ D c c') {ev ev' : Ev} (hren : Renamed σ ev ev')
    (hz : Sized dim c D ev) (hs : SpecStep dim near c ev c1) (hs' : Turned dim' c' ev') : False := by
  cases hren with
  | propKF id Phi Q ta tb => exact hs'
  | propEKF id mb Phi Q ta tb => exact hs'
  | propBel id bb Phi ta tb => exact hs'
  | setCov a b S t => exact hs'
  | privKF id H R z t cfg =>
    cases hs with
    | privKF _ _ _ _ _ _ res h1 h2 =>
      obtain ⟨res', h1', h2'⟩ := hs'
      rw [hc.mu id hz, hc.cov id id hz hz, h1] at h1'
      cases Res.ok.inj h1'
      rw [h2] at h2'; simp at h2'
  | privEKF id H R r t cfg =>
    cases hs with
    | privEKF _ _ _ _ _ _ res h1 h2 =>
      obtain ⟨res', h1', h2'⟩ := hs'
      rw [hc.cov id id hz hz, h1] at h1'
      cases Res.ok.inj h1'
      rw [h2] at h2'; simp at h2'
  | jointR dH dH' R r t cfg hp =>
    obtain ⟨m, hw, hR, hrr⟩ := hz
    cases hs with
    | jointR _ _ _ _ _ H S res hH hS h1 h2 =>
      obtain ⟨H', S', res', hH', hS', h1', h2'⟩ := hs'
      have := (joint_both hord hσ hdd hc hw hp hR hrr hH hS hH' hS' h1 h1').1
      rw [h2, h2'] at this; simp at this
  | jointZ dH dH' z R t cfg hp =>
    obtain ⟨m, hw, hR, hzz⟩ := hz
    cases hs with
    | jointZ _ _ _ _ _ H S x res hH hS hx h1 h2 =>
      obtain ⟨H', S', x', res', hH', hS', hx', h1', h2'⟩ := hs'
      obtain ⟨e1, e2⟩ := predicted_both hdd hc hw hp hH hH' hx hx'
      rw [e1] at h1'
      have := (joint_both hord hσ hdd hc hw hp hR hzz.sub hH hS hH' hS' h1 h1').1
      rw [h2, h2'] at this; simp at this

theorem not_turned (hord : AnyOrder near) (hσ : Function.Injective σ) (hdd : ∀ p, dim' (σ p) = dim p) (hc : Same σ D c c') {ev ev' : Ev} (hren : Renamed σ ev ev')
    (hz : Sized dim c D ev) (hs : Turned dim c ev) (hs' : SpecStep dim' near c' ev' c1') : False := by
  cases hren with
  | propKF id Phi Q ta tb => exact hs
  | propEKF id mb Phi Q ta tb => exact hs
  | propBel id bb Phi ta tb => exact hs
  | setCov a b S t => exact hs
  | privKF id H R z t cfg =>
    cases hs' with
    | privKF _ _ _ _ _ _ res' h1' h2' =>
      obtain ⟨res, h1, h2⟩ := hs
      rw [hc.mu id hz, hc.cov id id hz hz, h1] at h1'
      cases Res.ok.inj h1'
      rw [h2] at h2'; simp at h2'
  | privEKF id H R r t cfg =>
    cases hs' with
    | privEKF _ _ _ _ _ _ res' h1' h2' =>
      obtain ⟨res, h1, h2⟩ := hs
      rw [hc.cov id id hz hz, h1] at h1'
      cases Res.ok.inj h1'
      rw [h2] at h2'; simp at h2'
  | jointR dH dH' R r t cfg hp =>
    obtain ⟨m, hw, hR, hrr⟩ := hz
    cases hs' with
    | jointR _ _ _ _ _ H' S' res' hH' hS' h1' h2' =>
      obtain ⟨H, S, res, hH, hS, h1, h2⟩ := hs
      have := (joint_both hord hσ hdd hc hw hp hR hrr hH hS hH' hS' h1 h1').1
      rw [h2, h2'] at this; simp at this
  | jointZ dH dH' z R t cfg hp =>
    obtain ⟨m, hw, hR, hzz⟩ := hz
    cases hs' with
    | jointZ _ _ _ _ _ H' S' x' res' hH' hS' hx' h1' h2' =>
      obtain ⟨H, S, x, res, hH, hS, hx, h1, h2⟩ := hs
      obtain ⟨e1, e2⟩ := predicted_both hdd hc hw hp hH hH' hx hx'
      rw [e1] at h1'
      have := (joint_both hord hσ hdd hc hw hp hR hzz.sub hH hS hH' hS' h1 h1').1
      rw [h2, h2'] at this; simp at this

/-! ## The handlers -/

/-- The invariant. -/
structure Both (σ : ℕ → ℕ) (dim dim' : ℕ → ℕ) (h h' : Hdl) (c c' : Central) : Prop where
  rel : Rel dim h c
  rel' : Rel dim' h' c'
  known : ∀ p, (h.find p).isSome → (h'.find (σ p)).isSome
  same : Same σ (fun p => (h.find p).isSome) c c'

theorem Both.newest (hb : Both σ dim dim' h h' c c') {p : ℕ} {t : Int} (hp : Newest h p t) : Newest h' (σ p) t := by
  obtain ⟨h1, h2⟩ := hp.rel hb.rel
  exact Newest.of_rel hb.rel' (hb.known p h1) (by rw [hb.same.tm p h1, h2])

theorem fixedAt_eq (hr : Rel dim h c) {p : ℕ} {t : Int} (hp : Newest h p t) : Hdl.fixedAt h t p = c.fix p := by
  obtain ⟨h1, h2⟩ := hp.rel hr
  obtain ⟨b, hb, -, -, -, h5⟩ := hr.bel p h1
  rw [h2] at hb
  have : Hdl.belief h p t = some b := hb
  rw [← h5]
  unfold Hdl.fixedAt; rw [this]

theorem Both.sized (hb : Both σ dim dim' h h' c c') {ev : Ev} (hw : Wf dim h ev) (hf : Fits dim h ev) : Sized dim c (fun p => (h.find p).isSome) ev := by
  have whole : ∀ (dH : SMap Mat) (t : Int) (m : ℕ), dH.Sorted → (∀ p ∈ dH.keys, Newest h p t) → dH ≠ [] →
      (∀ e ∈ dH, e.2.Shape m (dim e.1) ∧ Hdl.fixedAt h t e.1 = false) → Whole dim c (fun p => (h.find p).isSome) dH m := by
    intro dH t m hs hN hne he
    refine ⟨hne, hs, fun p hp => ((hN p hp).rel hb.rel).1, fun e hem => (he e hem).1, fun p hp => ?_⟩
    rw [← fixedAt_eq hb.rel (hN p hp)]
    obtain ⟨e, hem, rfl⟩ := List.mem_map.mp hp
    exact (he e hem).2
  cases ev with
  | propKF => exact (hw.1.rel hb.rel).1
  | propEKF => exact (hw.1.rel hb.rel).1
  | propBel => exact (hw.1.rel hb.rel).1
  | privKF => exact (Newest.rel hb.rel hw).1
  | privEKF => exact (Newest.rel hb.rel hw).1
  | setCov => trivial
  | jointR dH R r t cfg =>
    obtain ⟨hne, ⟨m, he, hR, hr⟩, -⟩ := hf
    exact ⟨m, whole dH t m hw.1 hw.2 hne he, hR, hr⟩
  | jointZ dH z R t cfg =>
    obtain ⟨hne, ⟨m, he, hR, hz⟩, -⟩ := hf
    exact ⟨m, whole dH t m hw.1 hw.2 hne he, hR, hz⟩

theorem Both.wf (hσ : Function.Injective σ) (hdd : ∀ p, dim' (σ p) = dim p) (hb : Both σ dim dim' h h' c c') {ev ev' : Ev} (hren : Renamed σ ev ev')
    (hw : Wf dim h ev) (hf : Fits dim h ev) : Wf dim' h' ev' ∧ Fits dim' h' ev' := by
  have hz := hb.sized hw hf
  have joint : ∀ (dH dH' : SMap Mat) (t : Int) (m : ℕ), SameDict σ dH dH' → (∀ p ∈ dH.keys, Newest h p t) → Whole dim c (fun p => (h.find p).isSome) dH m →
      dH'.Sorted ∧ (∀ p ∈ dH'.keys, Newest h' p t) ∧ dH' ≠ [] ∧ ∀ e ∈ dH', e.2.Shape m (dim' e.1) ∧ Hdl.fixedAt h' t e.1 = false := by
    intro dH dH' t m hp hN hwh
    have hwh' := hwh.renamed hdd hb.same (D' := fun p => (h'.find p).isSome) hb.known hp
    have hN' : ∀ p ∈ dH'.keys, Newest h' p t := by
      intro p' hp'
      obtain ⟨e', he', rfl⟩ := List.mem_map.mp hp'
      obtain ⟨e, he, rfl⟩ := List.mem_map.mp (hp.2.mem_iff.mp he')
      exact hb.newest (hN e.1 (List.mem_map.mpr ⟨e, he, rfl⟩))
    refine ⟨hp.1, hN', hwh'.ne, fun e he => ⟨hwh'.shape e he, ?_⟩⟩
    have hk : e.1 ∈ dH'.keys := List.mem_map.mpr ⟨e, he, rfl⟩
    rw [fixedAt_eq hb.rel' (hN' _ hk)]
    exact hwh'.free _ hk
  cases hren with
  | propKF id Phi Q ta tb => exact ⟨⟨hb.newest hw.1, hw.2⟩, by simpa only [Fits, hdd] using hf⟩
  | propEKF id mb Phi Q ta tb => exact ⟨⟨hb.newest hw.1, hw.2⟩, by simpa only [Fits, hdd] using hf⟩
  | propBel id bb Phi ta tb => exact ⟨⟨hb.newest hw.1, by simpa only [hdd] using hw.2⟩, by simpa only [Fits, hdd] using hf⟩
  | privKF id H R z t cfg => exact ⟨hb.newest hw, by simpa only [Fits, hdd] using hf⟩
  | privEKF id H R r t cfg => exact ⟨hb.newest hw, by simpa only [Fits, hdd] using hf⟩
  | setCov a b S t =>
    obtain ⟨h1, h2, h3, h4, h5⟩ := hw
    exact ⟨⟨fun h => h1 (hσ h), hb.newest h2, hb.newest h3, by rw [hdd]; exact h4, by rw [hdd]; exact h5⟩, trivial⟩
  | jointR dH dH' R r t cfg hp =>
    obtain ⟨m, hwh, hR, hr⟩ := hz
    obtain ⟨g1, g2, g3, g4⟩ := joint dH dH' t m hp hw.2 hwh
    exact ⟨⟨g1, g2⟩, g3, ⟨m, g4, hR, hr⟩, hf.2.2⟩
  | jointZ dH dH' z R t cfg hp =>
    obtain ⟨m, hwh, hR, hr⟩ := hz
    obtain ⟨g1, g2, g3, g4⟩ := joint dH dH' t m hp hw.2 hwh
    exact ⟨⟨g1, g2⟩, g3, ⟨m, g4, hR, hr⟩, hf.2.2⟩

theorem Both.step (hnear : NearOk near) (hord : AnyOrder near) (hσ : Function.Injective σ) (hdd : ∀ p, dim' (σ p) = dim p) (hb : Both σ dim dim' h h' c c')
    {ev ev' : Ev} (hren : Renamed σ ev ev') (hw : Wf dim h ev) (hf : Fits dim h ev) {a : Bool} (hs : run fp near pred h ev = .ok (h1, a)) :
    ∃ h1' c1 c1', run fp near pred' h' ev' = .ok (h1', a) ∧ Both σ dim dim' h1 h1' c1 c1' := by
  obtain ⟨hw', hf'⟩ := hb.wf hσ hdd hren hw hf
  have hz := hb.sized hw hf
  obtain ⟨h1', a', hs', -⟩ := Hdl.progress_rel (fp := fp) (pred := pred') hnear hb.rel' ev' hw' hf'
  have hdom := Hdl.step_dom hb.rel ev hw hs
  have hdom' := Hdl.step_dom hb.rel' ev' hw' hs'
  cases a with
  | true =>
    obtain ⟨c1, s1, r1⟩ := Hdl.accepted hnear hb.rel ev hw hs
    cases a' with
    | true =>
      obtain ⟨c1', s1', r1'⟩ := Hdl.accepted hnear hb.rel' ev' hw' hs'
      refine ⟨h1', c1, c1', hs', r1, r1', fun p hp => by rw [hdom']; exact hb.known p (by rw [← hdom]; exact hp), ?_⟩
      have := spec_same hord hσ hdd hb.same hren hz s1 s1'
      simp only [hdom _]
      exact this
    | false => exact (not_turned' hord hσ hdd hb.same hren hz s1 (turned hnear hb.rel' ev' hw' hf' hs')).elim
  | false =>
    have ht := turned hnear hb.rel ev hw hf hs
    cases a' with
    | true =>
      obtain ⟨c1', s1', r1'⟩ := Hdl.accepted hnear hb.rel' ev' hw' hs'
      exact (not_turned hord hσ hdd hb.same hren hz ht s1').elim
    | false =>
      refine ⟨h1', c, c', hs', ?_⟩
      rw [Hdl.rejected hb.rel ev hw hs, Hdl.rejected hb.rel' ev' hw' hs']
      exact hb

theorem Both.read (hb : Both σ dim dim' h h' c c') : SameEstimates σ dim dim' h h' := by
  refine ⟨fun p t hp => ?_, fun p q t hp hq => ?_⟩
  · obtain ⟨h1, h2⟩ := hp.rel hb.rel
    obtain ⟨b, e1, e2, e3, -, e4⟩ := hb.rel.bel p h1
    obtain ⟨b', e1', e2', e3', -, e4'⟩ := hb.rel'.bel (σ p) (hb.known p h1)
    rw [hb.same.tm p h1, h2] at e1'
    rw [h2] at e1
    exact ⟨hb.newest hp, b, b', e1, e1', by rw [e2, e2', hb.same.mu p h1], by rw [e3, e3', hb.same.cov p p h1 h1], by rw [e4, e4', hb.same.fix p h1]⟩
  · refine ⟨c.cov p q, hb.rel.isCov hp hq, ?_⟩
    rw [← hb.same.cov p q (hp.rel hb.rel).1 (hq.rel hb.rel).1]
    exact hb.rel'.isCov (hb.newest hp) (hb.newest hq)

/-- C130. Instance IDs are mere names: two handlers with the same freshly initialised instances under different IDs (the second may
have others, too), given the same calls under the respective IDs, give the same answers and hold the same estimates, also of the
correlations. The new IDs may be in another order, so that the states are stacked in another order. -/
theorem c130_names (hnear : NearOk near) (hord : AnyOrder near) (σ : ℕ → ℕ) (hσ : Function.Injective σ) (dim dim' : ℕ → ℕ) (hdd : ∀ p, dim' (σ p) = dim p)
    (h h' h1 : Hdl) (hi : ∃ c, Hdl.Init dim h c) (hi' : ∃ c, Hdl.Init dim' h' c) (hsame : ∀ p i, h.find p = some i → h'.find (σ p) = some i)
    (evs evs' : List Ev) (hren : List.Forall₂ (Renamed σ) evs evs') (as : List Bool) (hu : Used fp near pred dim h evs as h1) :
    ∃ h1', Used fp near pred' dim' h' evs' as h1' ∧ SameEstimates σ dim dim' h1 h1' := by
  obtain ⟨c, hi⟩ := hi
  obtain ⟨c', hi'⟩ := hi'
  have hb : Both σ dim dim' h h' c c' := by
    have hrd : ∀ p, (h.find p).isSome → c'.tm (σ p) = c.tm p ∧ c'.mu (σ p) = c.mu p ∧ c'.fix (σ p) = c.fix p ∧ c'.cov (σ p) (σ p) = c.cov p p := by
      intro p hp
      obtain ⟨i, hf⟩ := Option.isSome_iff_exists.mp hp
      obtain ⟨hor, b, e, -, -, -, -, -, -, g1, g2, g3⟩ := hi.inst p i hf
      obtain ⟨hor', b', e', -, -, -, -, -, -, g1', g2', g3'⟩ := hi'.inst (σ p) i (hsame p i hf)
      rw [e] at e'
      have hbel : [(c.tm p, b)] = [(c'.tm (σ p), b')] := congrArg Inst.bel e'
      have hx : (c.tm p, b) = (c'.tm (σ p), b') := by simpa using hbel
      obtain ⟨x1, x2⟩ := Prod.mk.inj hx
      rw [g1, g2, g3, g1', g2', g3', x1, x2]
      exact ⟨rfl, rfl, rfl, rfl⟩
    refine ⟨hi.rel, hi'.rel, fun p hp => ?_, fun p hp => (hrd p hp).1, fun p hp => (hrd p hp).2.1, fun p hp => (hrd p hp).2.2.1, fun p q hp hq => ?_⟩
    · obtain ⟨i, hf⟩ := Option.isSome_iff_exists.mp hp
      rw [hsame p i hf]; rfl
    · by_cases hpq : p = q
      · subst hpq; exact (hrd p hp).2.2.2
      · rw [hi.uncorrelated p q hpq, hi'.uncorrelated _ _ (fun h => hpq (hσ h)), hdd, hdd]
  clear hi hi' hsame
  induction hu generalizing h' c c' evs' with
  | nil h =>
    cases hren
    exact ⟨h', Used.nil h', hb.read⟩
  | @step h h1 h2 ev a evs as hw hf hs r ih =>
    cases hren with
    | @cons _ ev' _ evs' he hrest =>
      obtain ⟨hw', hf'⟩ := hb.wf hσ hdd he hw hf
      obtain ⟨h1', c1, c1', hs', hb1⟩ := hb.step (pred' := pred') hnear hord hσ hdd he hw hf hs
      obtain ⟨h2', hu', hse⟩ := ih h1' evs' hrest c1 c1' hb1
      exact ⟨h2', Used.step hw' hf' hs' hu', hse⟩

/-- C130. The repair of a covariance as modelled (`nearestCov`, C60) does not depend on the order of the states, whatever exact
eigenvalue solver is used. -/
theorem c130_near (eig : (n : ℕ) → Matrix (Fin n) (Fin n) ℝ → Matrix (Fin n) (Fin n) ℝ × (Fin n → ℝ))
    (he : ∀ n S, S.transpose = S → MatU.EigenDec (eig n S).1 (eig n S).2 S) (eps : ℝ) :
    AnyOrder (fun P => Mat.ofM (MatU.nearestCov (eig P.rows (P.toM P.rows P.rows)).1 (eig P.rows (P.toM P.rows P.rows)).2 (P.toM P.rows P.rows) eps)) := by
  intro n P P' e h1 h2 h1' h2' hs hs' hent i j
  -- for a symmetric matrix the repair is a function of its eigenvalues
  have key : ∀ (n : ℕ) (S : Matrix (Fin n) (Fin n) ℝ), S.transpose = S → MatU.nearestCov (eig n S).1 (eig n S).2 S eps =
      (eig n S).1 * Matrix.diagonal (fun k => (fun x => if x < 0 then eps else x) ((eig n S).2 k)) * (eig n S).1⁻¹ := by
    intro n S hS
    have hd := (he n S hS).dec
    rw [Alg.sym_half _ hS] at hd
    unfold MatU.nearestCov
    split
    · rfl
    · rename_i hneg
      push Not at hneg
      have : (fun k => (fun x => if x < 0 then eps else x) ((eig n S).2 k)) = (eig n S).2 := by
        funext k
        show (if (eig n S).2 k < 0 then eps else _) = _
        rw [if_neg (not_lt.mpr (hneg k))]
      rw [this]
      exact hd
  subst h1
  have hS : (P.toM P.rows P.rows).transpose = P.toM P.rows P.rows := by rw [← toM_tr, hs]
  have hS' : (P'.toM P.rows P.rows).transpose = P'.toM P.rows P.rows := by rw [← toM_tr, hs']
  have hsub : (P'.toM P.rows P.rows).submatrix e e = P.toM P.rows P.rows := by ext i j; exact hent i j
  show (Mat.ofM (MatU.nearestCov (eig P'.rows (P'.toM P'.rows P'.rows)).1 (eig P'.rows (P'.toM P'.rows P'.rows)).2 (P'.toM P'.rows P'.rows) eps)).e (e i) (e j) =
    (Mat.ofM (MatU.nearestCov (eig P.rows (P.toM P.rows P.rows)).1 (eig P.rows (P.toM P.rows P.rows)).2 (P.toM P.rows P.rows) eps)).e i j
  have hrow : ∀ k, k = P.rows → (Mat.ofM (MatU.nearestCov (eig k (P'.toM k k)).1 (eig k (P'.toM k k)).2 (P'.toM k k) eps)).e (e i) (e j) =
      (Mat.ofM (MatU.nearestCov (eig P.rows (P'.toM P.rows P.rows)).1 (eig P.rows (P'.toM P.rows P.rows)).2 (P'.toM P.rows P.rows) eps)).e (e i) (e j) := by
    rintro k rfl; rfl
  rw [hrow P'.rows h1']
  generalize hV : eig P.rows (P.toM P.rows P.rows) = VD
  generalize hV' : eig P.rows (P'.toM P.rows P.rows) = VD'
  have hd := he P.rows _ hS
  have hd' := he P.rows _ hS'
  have k1 := key P.rows _ hS
  have k2 := key P.rows _ hS'
  rw [hV] at hd k1
  rw [hV'] at hd' k2
  rw [k1, k2]
  have d1 := hd.dec
  have d2 := hd'.dec
  rw [Alg.sym_half _ hS] at d1
  rw [Alg.sym_half _ hS'] at d2
  have hWdet : IsUnit (VD'.1.submatrix e (Equiv.refl _)).det := by
    rw [← Matrix.isUnit_iff_isUnit_det, Matrix.isUnit_submatrix_equiv, Matrix.isUnit_iff_isUnit_det]
    exact hd'.unit
  -- the permuted eigenvectors diagonalise the permuted matrix
  have hsh : ∀ d : Fin P.rows → ℝ, VD'.1.submatrix e (Equiv.refl _) * Matrix.diagonal d * (VD'.1.submatrix e (Equiv.refl _))⁻¹ =
      (VD'.1 * Matrix.diagonal d * VD'.1⁻¹).submatrix e e := by
    intro d
    have : (Matrix.diagonal d) = (Matrix.diagonal d).submatrix (Equiv.refl (Fin P.rows)) (Equiv.refl (Fin P.rows)) := rfl
    rw [Matrix.inv_submatrix_equiv, this, Matrix.submatrix_mul_equiv, Matrix.submatrix_mul_equiv]
    rfl
  have hall := eigen_fun (D := VD.2) (E := VD'.2) hd.unit hWdet (by rw [hsh, ← d2, ← d1, hsub]) (fun x => if x < 0 then eps else x)
  rw [hsh] at hall
  have hij := congrFun (congrFun hall i) j
  have ent : ∀ (M : Matrix (Fin P.rows) (Fin P.rows) ℝ) (i j : Fin P.rows), (Mat.ofM M).e i j = M i j := fun M i j => congrFun (congrFun (toM_ofM M) i) j
  rw [ent, ent]
  exact hij.symm

end names

/-! ## Example: two instances swap their IDs, and are then stacked the other way round -/

namespace Example
open Hdl.Example (s s_shape s_tr near nearOk pred cfg gate)

def b1 : Belief := { mean := s 5, Sigma := s 7, stamp := 0 }

noncomputable def hA : Hdl := [(1, Inst.doInit ⟨[], [], 10⟩ Hdl.Example.b0 0), (2, Inst.doInit ⟨[], [], 10⟩ b1 0)]
noncomputable def hB : Hdl := [(1, Inst.doInit ⟨[], [], 10⟩ b1 0), (2, Inst.doInit ⟨[], [], 10⟩ Hdl.Example.b0 0)]

def dim : ℕ → ℕ := fun _ => 1

noncomputable def cen (a b : Belief) : Central where
  tm _ := 0
  mu p := if p = 1 then a.mean else b.mean
  cov p q := if p = q then (if p = 1 then a.Sigma else b.Sigma) else Mat.zero 1 1
  fix p := if p = 1 then a.fixed else b.fixed

theorem init_of {a b : Belief} (ha : a.stamp = 0 ∧ a.mean.Shape 1 1 ∧ a.Sigma.rows = 1 ∧ a.Sigma.tr = a.Sigma)
    (hb : b.stamp = 0 ∧ b.mean.Shape 1 1 ∧ b.Sigma.rows = 1 ∧ b.Sigma.tr = b.Sigma) :
    Hdl.Init dim [(1, Inst.doInit ⟨[], [], 10⟩ a 0), (2, Inst.doInit ⟨[], [], 10⟩ b 0)] (cen a b) where
  sorted := by simp [SMap.Sorted]
  inst := by
    intro p i hi
    simp only [SMap.find] at hi
    split at hi
    · rename_i h1
      have h1' : p = 1 := by omega
      subst h1'
      refine ⟨10, a, (Option.some.inj hi).symm, ha.1, Nat.one_pos, ha.2.1.1, ha.2.1.2, ha.2.2.1, ha.2.2.2, ?_, ?_, ?_⟩ <;> simp [cen]
    · split at hi
      · rename_i h1 h2
        have h1' : p = 2 := by omega
        subst h1'
        refine ⟨10, b, (Option.some.inj hi).symm, hb.1, Nat.one_pos, hb.2.1.1, hb.2.1.2, hb.2.2.1, hb.2.2.2, ?_, ?_, ?_⟩ <;> simp [cen]
      · simp at hi
  uncorrelated := by intro p q hpq; simp [cen, hpq]; rfl

theorem b0_ok : Hdl.Example.b0.stamp = 0 ∧ Hdl.Example.b0.mean.Shape 1 1 ∧ Hdl.Example.b0.Sigma.rows = 1 ∧ Hdl.Example.b0.Sigma.tr = Hdl.Example.b0.Sigma :=
  ⟨rfl, s_shape 3, rfl, s_tr 2⟩
theorem b1_ok : b1.stamp = 0 ∧ b1.mean.Shape 1 1 ∧ b1.Sigma.rows = 1 ∧ b1.Sigma.tr = b1.Sigma := ⟨rfl, s_shape 5, rfl, s_tr 7⟩

theorem any : AnyOrder near := by
  intro n P P' e _ _ _ _ _ _ _ i j
  unfold near
  rw [zero_e, zero_e]

def dA : SMap Mat := [(1, s 1), (2, s (-2))]
def dB : SMap Mat := [(1, s (-2)), (2, s 1)]

theorem dict : SameDict (Equiv.swap 1 2) dA dB := by
  refine ⟨by simp [dB, SMap.Sorted], ?_⟩
  have : (dA.map fun e => (Equiv.swap 1 2 e.1, e.2)) = [(2, s 1), (1, s (-2))] := by
    unfold dA
    rw [List.map_cons, List.map_cons, List.map_nil, Equiv.swap_apply_left, Equiv.swap_apply_right]
  rw [this]
  exact List.Perm.swap _ _ _

theorem newest {p : ℕ} (hp : p = 1 ∨ p = 2) : Newest hA p 0 := by
  rcases hp with rfl | rfl
  · exact ⟨_, (0, Hdl.Example.b0), by simp [hA, SMap.find]; rfl, rfl, rfl⟩
  · exact ⟨_, (0, b1), by simp [hA, SMap.find]; rfl, rfl, rfl⟩

/-- A joint observation of `x1 - 2 x2`. The first handler has `x1` first in its stack, the second has it last. -/
example : ∃ h1 h1', Used FP.exact near pred dim hA [.jointR dA (s 1) (s 5) 0 cfg] [true] h1 ∧
    Used FP.exact near pred dim hB [.jointR dB (s 1) (s 5) 0 cfg] [true] h1' ∧ SameEstimates (Equiv.swap 1 2) dim dim h1 h1' := by
  have hk : ∀ p ∈ dA.keys, p = 1 ∨ p = 2 := by intro p hp; simpa [dA, SMap.keys] using hp
  have hw : Wf dim hA (.jointR dA (s 1) (s 5) 0 cfg) := ⟨by simp [dA, SMap.Sorted], fun p hp => newest (hk p hp)⟩
  have hf : Fits dim hA (.jointR dA (s 1) (s 5) 0 cfg) := by
    refine ⟨by simp [dA], ⟨1, fun e he => ?_, s_shape 1, s_shape 5⟩, gate⟩
    have he' : e = (1, s 1) ∨ e = (2, s (-2)) := by simpa [dA] using he
    rcases he' with rfl | rfl
    · exact ⟨s_shape 1, rfl⟩
    · exact ⟨s_shape (-2), rfl⟩
  have hi : Hdl.Init dim hA (cen Hdl.Example.b0 b1) := init_of b0_ok b1_ok
  obtain ⟨h1, a, e1, ha⟩ := Hdl.progress_rel (fp := FP.exact) (pred := pred) nearOk hi.rel _ hw hf
  obtain rfl := ha rfl
  have hu := Used.step hw hf e1 (Used.nil h1)
  obtain ⟨h1', hu', hse⟩ := c130_names (pred' := pred) nearOk any (Equiv.swap 1 2) (Equiv.injective _) dim dim (fun _ => rfl) hA hB h1 ⟨_, hi⟩ ⟨_, init_of b1_ok b0_ok⟩ (by
    intro p i hpi
    simp only [hA, SMap.find] at hpi
    split at hpi
    · rename_i h1
      have h1' : p = 1 := by omega
      subst h1'
      rw [Equiv.swap_apply_left, ← Option.some.inj hpi]; rfl
    · split at hpi
      · rename_i h1 h2
        have h1' : p = 2 := by omega
        subst h1'
        rw [Equiv.swap_apply_right, ← Option.some.inj hpi]; rfl
      · simp at hpi) _ _ (List.Forall₂.cons (Renamed.jointR dA dB (s 1) (s 5) 0 cfg dict) List.Forall₂.nil) _ hu
  exact ⟨h1, h1', hu, hu', hse⟩

end Example

end Rename
end Ikf
