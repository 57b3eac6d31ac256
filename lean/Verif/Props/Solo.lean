import Verif.Spec.Solo
import Verif.Lemmas.Frame
import Verif.Lemmas.Covariance
import Verif.Props.StandaloneMath
import Verif.Props.Isolated
import Verif.Props.IsolatedExamples
import Verif.Props.Bounded

/-!
# An isolated instance on its own is a standalone filter (C121)
-/

namespace Ikf
open Mat
namespace Solo

/-- Every belief of `B` is also in `H`, at the same time. -/
structure Sub (B H : Buf Belief) : Prop where
  sB : B.StrictKeys
  sH : H.StrictKeys
  sub : ∀ e ∈ B, e ∈ H

variable {B H : Buf Belief}

theorem Sub.refl (h : B.StrictKeys) : Sub B B := ⟨h, h, fun _ he => he⟩

theorem Sub.at (h : Sub B H) {t : Int} {b : Belief} (hb : B.absMap t = some b) : SKF.beliefAt H t = some b := by
  show H.absMap t = some b
  rw [Buf.absMap_eq_some _ h.sB] at hb
  rw [Buf.absMap_eq_some _ h.sH]
  exact h.sub _ hb

theorem Sub.set (h : Sub B H) (b : Belief) (t : Int) : Sub (B.insertMap t b) (H.insertMap t b) where
  sB := Buf.strict_insertMap _ h.sB _ _
  sH := Buf.strict_insertMap _ h.sH _ _
  sub := by
    intro e he
    rw [Buf.mem_insertMap _ h.sH]
    rcases (Buf.mem_insertMap _ h.sB _ _ _).mp he with h1 | ⟨h1, h2⟩
    · exact Or.inl h1
    · exact Or.inr ⟨h.sub _ h1, h2⟩

theorem Sub.trim (h : Sub B H) (fp : FP) (m : ℚ) (n : ℕ) : Sub (Buf.checkHorizonRestricted fp m B n) H where
  sB := Buf.strict_horizonRestricted _ _ _ _ h.sB
  sH := h.sH
  sub := fun e he => h.sub e (Buf.mem_horizonRestricted _ _ _ _ _ he)

/-- The answer of the instance and its new belief history are those of the standalone filter, up to beliefs the instance has forgotten. -/
def Sim (H : Buf Belief) (x : Inst × Bool) (y : Res (Buf Belief × Bool)) : Prop := ∃ H', y = .ok (H', x.2) ∧ Sub x.1.bel H'

theorem basePropEKF_sim {i : Inst} (hS : Sub i.bel H) {ba : Belief} {mb Phi Q : Mat} {tb : Int} {x : Inst × Bool}
    (hx : i.basePropEKF ba mb Phi Q tb = .ok x) : Sim H x (SKF.propEKF H ba mb Phi Q tb) := by
  unfold Inst.basePropEKF at hx
  unfold SKF.propEKF
  split at hx
  · rename_i h1
    rw [if_pos h1]
    obtain ⟨Sb, e1, hx⟩ := Hdl.bind_eq_ok hx
    rw [e1, Res.bind_ok]
    split at hx
    · rename_i h2
      rw [if_pos h2]
      simp only at hx ⊢
      split at hx
      · rename_i h3
        rw [if_pos h3, ← Res.ok.inj hx]
        exact ⟨_, rfl, hS.set _ _⟩
      · rename_i h3
        rw [if_neg h3, ← Res.ok.inj hx]
        exact ⟨_, rfl, hS⟩
    · rename_i h2
      rw [if_neg h2, ← Res.ok.inj hx]
      exact ⟨_, rfl, hS⟩
  · rename_i h1
    rw [if_neg h1, ← Res.ok.inj hx]
    exact ⟨_, rfl, hS⟩

/-- The end of IK:228-274: factors, then the horizon. -/
theorem finish_sim {fp : FP} {r x : Inst × Bool} {y : Res (Buf Belief × Bool)} {ta tb : Int} {Phi : Mat} (h : Sim H r y)
    (hx : (if r.2 then (do let j ← r.1.addCorrection ta tb Phi; .ok (j.checkHorizon fp, true)) else .ok (r.1, false) : Res (Inst × Bool)) = .ok x) :
    Sim H x y := by
  obtain ⟨H', e, hS⟩ := h
  split at hx
  · rename_i h2
    obtain ⟨j, hj, hx⟩ := Hdl.bind_eq_ok hx
    rw [← Res.ok.inj hx]
    refine ⟨H', by rw [e, h2], ?_⟩
    have hb := Inst.addCorrection_bel' hj
    show Sub (Buf.checkHorizonRestricted fp j.hor j.bel 4) H'
    rw [hb]
    exact hS.trim _ _ _
  · rename_i h2
    have h3 : r.2 = false := by simpa using h2
    rw [← Res.ok.inj hx]
    exact ⟨H', by rw [e, h3], hS⟩

theorem propEKF_sim {fp : FP} {i : Inst} (hS : Sub i.bel H) {ba : Belief} {mb Phi Q : Mat} {ta tb : Int} {x : Inst × Bool}
    (hx : i.propEKF fp ba mb Phi Q ta tb = .ok x) : Sim H x (SKF.propEKF H ba mb Phi Q tb) := by
  unfold Inst.propEKF at hx
  obtain ⟨r, hr, hx⟩ := Hdl.bind_eq_ok hx
  exact finish_sim (basePropEKF_sim hS hr) hx

theorem propKF_sim {fp : FP} {i : Inst} (hS : Sub i.bel H) {Phi Q : Mat} {ta tb : Int} {x : Inst × Bool}
    (hh : (i.beliefAt ta).isSome) (hx : i.propKF fp Phi Q ta tb = .ok x) : Sim H x (SKF.propKF H Phi Q ta tb) := by
  unfold Inst.propKF at hx
  obtain ⟨r, hr, hx⟩ := Hdl.bind_eq_ok hx
  refine finish_sim ?_ hx
  obtain ⟨ba, hb⟩ := Option.isSome_iff_exists.mp hh
  rw [hb] at hr
  unfold SKF.propKF
  rw [hS.at (by rw [← Inst.beliefAt_eq]; exact hb)]
  simp only at hr ⊢
  split at hr
  · rename_i h1
    rw [if_pos h1]
    obtain ⟨mb, e1, hr⟩ := Hdl.bind_eq_ok hr
    rw [e1, Res.bind_ok]
    exact propEKF_sim hS hr
  · rename_i h1
    rw [if_neg h1, ← Res.ok.inj hr]
    exact ⟨_, rfl, hS⟩

theorem propBel_sim {fp : FP} {i : Inst} (hS : Sub i.bel H) {bb : Belief} {Phi : Mat} {ta tb : Int} {x : Inst × Bool}
    (hx : i.propBel fp bb Phi ta tb = .ok x) : Sim H x (SKF.propBel H bb Phi tb) := by
  unfold Inst.propBel at hx
  unfold SKF.propBel
  split at hx
  · rename_i h1
    rw [if_pos h1]
    exact finish_sim (r := (i.setBelief { bb with stamp := tb } tb, true)) ⟨_, rfl, hS.set _ _⟩ hx
  · rename_i h1
    rw [if_neg h1, ← Res.ok.inj hx]
    exact ⟨_, rfl, hS⟩

theorem privEKF_sim {i : Inst} (hS : Sub i.bel H) {b : Belief} {key : Int} {Hm R r : Mat} {cfg : Cfg} {x : Inst × Bool}
    (hx : i.privEKF b key Hm R r cfg = .ok x) : Sim H x (SKF.privEKF H b key Hm R r cfg) := by
  unfold Inst.privEKF at hx
  unfold SKF.privEKF
  obtain ⟨res, e1, hx⟩ := Hdl.bind_eq_ok hx
  rw [e1, Res.bind_ok]
  split at hx
  · rename_i h1
    rw [if_pos h1]
    obtain ⟨j, hj, hx⟩ := Hdl.bind_eq_ok hx
    obtain ⟨b', hb', hx⟩ := Hdl.bind_eq_ok hx
    rw [hb', Res.bind_ok, ← Res.ok.inj hx, h1]
    refine ⟨_, rfl, ?_⟩
    show Sub (j.bel.insertMap key b') _
    rw [Inst.applyCorrection_bel' hj]
    exact hS.set _ _
  · rename_i h1
    have h2 : (!res.rejected) = false := by simpa using h1
    rw [if_neg h1, ← Res.ok.inj hx, h2]
    exact ⟨_, rfl, hS⟩

theorem privKF_sim {i : Inst} (hS : Sub i.bel H) {Hm R z : Mat} {t : Int} {cfg : Cfg} {x : Inst × Bool}
    (hh : (i.beliefAt t).isSome) (hx : i.privKF Hm R z t cfg = .ok x) : Sim H x (SKF.privKF H Hm R z t cfg) := by
  obtain ⟨b, hb⟩ := Option.isSome_iff_exists.mp hh
  unfold Inst.privKF at hx
  unfold SKF.privKF
  rw [hb] at hx
  rw [hS.at (by rw [← Inst.beliefAt_eq]; exact hb)]
  simp only at hx ⊢
  obtain ⟨hm, e1, hx⟩ := Hdl.bind_eq_ok hx
  obtain ⟨r, e2, hx⟩ := Hdl.bind_eq_ok hx
  rw [e1, Res.bind_ok, e2, Res.bind_ok]
  exact privEKF_sim hS hx

variable {fp : FP} {near : Mat → Mat} {pred : ℕ → Inst → Int → Inst × Bool}

theorem other {h h1 : Hdl} {p id : ℕ} {x : Inst × Bool} {ans : Bool} (hp : p ≠ id) (e : Res.ok (h.set p x.1, x.2) = Res.ok (h1, ans)) :
    h1.find id = h.find id := by
  rw [← (Prod.mk.inj (Res.ok.inj e)).1, SMap.find_set, if_neg hp]

/-- Calls that do not concern `id` leave its beliefs alone. -/
theorem step_frame {h h1 : Hdl} {ev : Ev} {ans : Bool} {id : ℕ} (ha : Absent id ev) (ho : own id ev = none)
    (hs : Hdl.run fp near pred h ev = .ok (h1, ans)) : Hdl.bels h1 id = Hdl.bels h id := by
  have key : h1.find id = h.find id → Hdl.bels h1 id = Hdl.bels h id := fun e => by unfold Hdl.bels; rw [e]
  cases ev with
  | propKF p Phi Q ta tb =>
    have hp : p ≠ id := by intro e; simp [own, e] at ho
    simp only [Hdl.run] at hs
    obtain ⟨i, hi, hs⟩ := Hdl.bind_eq_ok hs
    obtain ⟨x, hx, hs⟩ := Hdl.bind_eq_ok hs
    exact key (other hp hs)
  | propEKF p mb Phi Q ta tb =>
    have hp : p ≠ id := by intro e; simp [own, e] at ho
    simp only [Hdl.run] at hs
    obtain ⟨i, hi, hs⟩ := Hdl.bind_eq_ok hs
    split at hs
    · obtain ⟨x, hx, hs⟩ := Hdl.bind_eq_ok hs
      exact key (other hp hs)
    · rw [(Prod.mk.inj (Res.ok.inj hs)).1]
  | propBel p bb Phi ta tb =>
    have hp : p ≠ id := by intro e; simp [own, e] at ho
    simp only [Hdl.run] at hs
    obtain ⟨i, hi, hs⟩ := Hdl.bind_eq_ok hs
    obtain ⟨x, hx, hs⟩ := Hdl.bind_eq_ok hs
    exact key (other hp hs)
  | privKF p Hm R z t cfg =>
    have hp : p ≠ id := by intro e; simp [own, e] at ho
    simp only [Hdl.run] at hs
    obtain ⟨i, hi, hs⟩ := Hdl.bind_eq_ok hs
    obtain ⟨x, hx, hs⟩ := Hdl.bind_eq_ok hs
    exact key (other hp hs)
  | privEKF p Hm R r t cfg =>
    have hp : p ≠ id := by intro e; simp [own, e] at ho
    simp only [Hdl.run] at hs
    obtain ⟨i, hi, hs⟩ := Hdl.bind_eq_ok hs
    split at hs
    · obtain ⟨x, hx, hs⟩ := Hdl.bind_eq_ok hs
      exact key (other hp hs)
    · rw [(Prod.mk.inj (Res.ok.inj hs)).1]
  | setCov a b S t =>
    simp only [Hdl.run] at hs
    obtain ⟨h2, e, hs⟩ := Hdl.bind_eq_ok hs
    rw [← (Prod.mk.inj (Res.ok.inj hs)).1]
    exact Hdl.setSigma_bels e id
  | jointR dH R r t cfg =>
    simp only [Hdl.run, Hdl.applyObsR] at hs
    obtain ⟨Hm, -, hs⟩ := Hdl.bind_eq_ok hs
    obtain ⟨x, hx, hs⟩ := Hdl.bind_eq_ok hs
    obtain ⟨-, f1, f2⟩ := Hdl.getDictBel_frame _ hx
    have e1 : Hdl.bels x.1 id = Hdl.bels h id := by unfold Hdl.bels; rw [f1 id (Or.inl ha)]
    split at hs
    · rw [← (Prod.mk.inj (Res.ok.inj hs)).1]; exact e1
    · obtain ⟨S0, -, hs⟩ := Hdl.bind_eq_ok hs
      obtain ⟨S, -, hs⟩ := Hdl.bind_eq_ok hs
      rw [(Hdl.correctJoint_frame hs).2.1 id ?_, e1]
      intro hm
      obtain ⟨e, he, rfl⟩ := List.mem_map.mp hm
      rcases f2 e (List.mem_filter.mp he).1 with h3 | ⟨h3, -⟩
      · simp at h3
      · exact ha h3
  | jointZ dH z R t cfg =>
    simp only [Hdl.run, Hdl.applyObsZ] at hs
    obtain ⟨Hm, -, hs⟩ := Hdl.bind_eq_ok hs
    obtain ⟨x, hx, hs⟩ := Hdl.bind_eq_ok hs
    obtain ⟨-, f1, f2⟩ := Hdl.getDictBel_frame _ hx
    have e1 : Hdl.bels x.1 id = Hdl.bels h id := by unfold Hdl.bels; rw [f1 id (Or.inl ha)]
    split at hs
    · rw [← (Prod.mk.inj (Res.ok.inj hs)).1]; exact e1
    · obtain ⟨mean, -, hs⟩ := Hdl.bind_eq_ok hs
      obtain ⟨S0, -, hs⟩ := Hdl.bind_eq_ok hs
      obtain ⟨y, -, hs⟩ := Hdl.bind_eq_ok hs
      obtain ⟨w, -, hs⟩ := Hdl.bind_eq_ok hs
      obtain ⟨S, -, hs⟩ := Hdl.bind_eq_ok hs
      rw [(Hdl.correctJoint_frame hs).2.1 id ?_, e1]
      intro hm
      obtain ⟨e, he, rfl⟩ := List.mem_map.mp hm
      rcases f2 e (List.mem_filter.mp he).1 with h3 | ⟨h3, -⟩
      · simp at h3
      · exact ha h3

/-- A call of `id` is answered as a standalone filter would. -/
theorem step_own {h h1 : Hdl} {ev : Ev} {ans : Bool} {id : ℕ} {c : KCall} {i : Inst} (hi : h.find id = some i) (hS : Sub i.bel H)
    (ho : own id ev = some c) (hh : ∀ t, from? c = some t → (Hdl.belief h id t).isSome)
    (hs : Hdl.run fp near pred h ev = .ok (h1, ans)) :
    ∃ j H', h1.find id = some j ∧ SKF.call H c = .ok (H', ans) ∧ Sub j.bel H' := by
  have hb : ∀ t, Hdl.belief h id t = i.beliefAt t := fun t => by unfold Hdl.belief; rw [hi]; rfl
  have fin : ∀ (x : Inst × Bool) (y : Res (Buf Belief × Bool)), Sim H x y → Res.ok (h.set id x.1, x.2) = Res.ok (h1, ans) →
      ∃ j H', h1.find id = some j ∧ y = .ok (H', ans) ∧ Sub j.bel H' := by
    intro x y ⟨H', e, hS'⟩ e2
    obtain ⟨e3, e4⟩ := Prod.mk.inj (Res.ok.inj e2)
    exact ⟨x.1, H', by rw [← e3, SMap.find_set, if_pos rfl], by rw [e, e4], hS'⟩
  cases ev with
  | propKF p Phi Q ta tb =>
    simp only [own] at ho
    split at ho
    · rename_i hp; subst hp
      rw [← Option.some.inj ho] at hh ⊢
      simp only [Hdl.run, Hdl.get_ok hi, Res.bind_ok] at hs
      obtain ⟨x, hx, hs⟩ := Hdl.bind_eq_ok hs
      exact fin x _ (propKF_sim hS (by rw [← hb]; exact hh ta rfl) hx) hs
    · simp at ho
  | propEKF p mb Phi Q ta tb =>
    simp only [own] at ho
    split at ho
    · rename_i hp; subst hp
      rw [← Option.some.inj ho] at hh ⊢
      simp only [Hdl.run, Hdl.get_ok hi, Res.bind_ok] at hs
      obtain ⟨b, hbt⟩ := Option.isSome_iff_exists.mp (hh ta rfl)
      rw [hb] at hbt
      rw [hbt] at hs
      obtain ⟨x, hx, hs⟩ := Hdl.bind_eq_ok hs
      refine fin x _ ?_ hs
      simp only [SKF.call, hS.at (show i.bel.absMap ta = some b by rw [← Inst.beliefAt_eq]; exact hbt), SKF.deref, Res.bind_ok]
      exact propEKF_sim hS hx
    · simp at ho
  | propBel p bb Phi ta tb =>
    simp only [own] at ho
    split at ho
    · rename_i hp; subst hp
      rw [← Option.some.inj ho] at hh ⊢
      simp only [Hdl.run, Hdl.get_ok hi, Res.bind_ok] at hs
      obtain ⟨x, hx, hs⟩ := Hdl.bind_eq_ok hs
      exact fin x _ (propBel_sim hS hx) hs
    · simp at ho
  | privKF p Hm R z t cfg =>
    simp only [own] at ho
    split at ho
    · rename_i hp; subst hp
      rw [← Option.some.inj ho] at hh ⊢
      simp only [Hdl.run, Hdl.get_ok hi, Res.bind_ok] at hs
      obtain ⟨x, hx, hs⟩ := Hdl.bind_eq_ok hs
      exact fin x _ (privKF_sim hS (by rw [← hb]; exact hh t rfl) hx) hs
    · simp at ho
  | privEKF p Hm R r t cfg =>
    simp only [own] at ho
    split at ho
    · rename_i hp; subst hp
      rw [← Option.some.inj ho] at hh ⊢
      simp only [Hdl.run, Hdl.get_ok hi, Res.bind_ok] at hs
      obtain ⟨b, hbt⟩ := Option.isSome_iff_exists.mp (hh t rfl)
      rw [hb] at hbt
      rw [hbt] at hs
      obtain ⟨x, hx, hs⟩ := Hdl.bind_eq_ok hs
      refine fin x _ ?_ hs
      simp only [SKF.call, hS.at (show i.bel.absMap t = some b by rw [← Inst.beliefAt_eq]; exact hbt), SKF.deref, Res.bind_ok]
      exact privEKF_sim hS hx
    · simp at ho
  | setCov a b S t => simp [own] at ho
  | jointR dH R r t cfg => simp [own] at ho
  | jointZ dH z R t cfg => simp [own] at ho

theorem apart_sim {h h' : Hdl} {id : ℕ} {l : List (Ev × Bool)} (hr : Apart fp near pred id h l h') {i : Inst} (hi : h.find id = some i)
    (hS : Sub i.bel H) : ∃ j H', h'.find id = some j ∧ SKF.calls H (script id l) = .ok (H', answers id l) ∧ Sub j.bel H' := by
  induction hr generalizing i H with
  | nil h => exact ⟨i, H, hi, rfl, hS⟩
  | @step h h1 h2 ev ans l ha hh hs r ih =>
    cases ho : own id ev with
    | none =>
      have hf := step_frame ha ho hs
      unfold Hdl.bels at hf
      rw [hi] at hf
      obtain ⟨j, hj, hjb⟩ := Option.map_eq_some_iff.mp hf
      obtain ⟨k, H', h1, h2, h3⟩ := ih hj (by rw [hjb]; exact hS)
      refine ⟨k, H', h1, ?_, h3⟩
      simpa [script, answers, ho] using h2
    | some c =>
      obtain ⟨j, H1, hj, hc, hS1⟩ := step_own hi hS ho (hh c ho) hs
      obtain ⟨k, H', h1, h2, h3⟩ := ih hj hS1
      refine ⟨k, H', h1, ?_, h3⟩
      have e1 : script id ((ev, ans) :: l) = c :: script id l := by simp [script, ho]
      have e2 : answers id ((ev, ans) :: l) = ans :: answers id l := by simp [answers, ho]
      rw [e1, e2, SKF.calls, hc, Res.bind_ok]
      simp only [h2, Res.bind_ok]

/-- C121: an instance that takes part in no joint observation behaves, whatever the others do and whatever cross-covariances it carries, as a
standalone filter with its beliefs and its calls: the same answers and the same beliefs, as far as the instance still holds them. -/
theorem c121_standalone {h h' : Hdl} {id : ℕ} {i : Inst} {l : List (Ev × Bool)} (hr : Apart fp near pred id h l h') (hi : h.find id = some i)
    (hs : i.bel.Pairwise fun x y => x.1 < y.1) :
    ∃ H', SKF.calls i.bel (script id l) = .ok (H', answers id l) ∧ ∀ t b, Hdl.belief h' id t = some b → SKF.beliefAt H' t = some b := by
  obtain ⟨j, H', h1, h2, h3⟩ := apart_sim hr hi (Sub.refl hs)
  refine ⟨H', h2, fun t b hb => h3.at ?_⟩
  unfold Hdl.belief at hb
  rw [h1] at hb
  exact hb

/-- C121: hence its estimates are those of the textbook Kalman filter for its own calls alone. -/
theorem c121_textbook {n : ℕ} {h h' : Hdl} {id : ℕ} {i : Inst} {l : List (Ev × Bool)} (hr : Apart fp near pred id h l h') (hi : h.find id = some i)
    (ho : SKF.Ok n i.bel) (hf : ∀ c ∈ script id l, c.Fits n) :
    ∃ f : Int → Option (Gauss n), TextRun (SKF.estimates n i.bel) (script id l) (answers id l) f ∧
      ∀ t b, Hdl.belief h' id t = some b → f t = some ⟨b.mean.toM n 1, b.Sigma.toM n n⟩ ∧ (b.Sigma.toM n n).PosSemidef := by
  obtain ⟨H', h1, h2⟩ := c121_standalone hr hi ho.strict
  obtain ⟨h3, h4⟩ := SKF.c100_textbook _ ho _ hf _ _ h1
  refine ⟨_, h3, fun t b hb => ⟨?_, (h4.at (h2 t b hb)).2.2⟩⟩
  unfold SKF.estimates
  rw [h2 t b hb]
  rfl

/-- C121: in particular (C118), if the instance predicts and observes in turn and its state can be observed, its covariance stays bounded however
long it goes without a joint observation; the bound does not depend on the others. -/
theorem c121_bounded {n : ℕ} {h h' : Hdl} {id : ℕ} {i : Inst} {l : List (Ev × Bool)} (hr : Apart fp near pred id h l h') (hi : h.find id = some i)
    (ho : SKF.Ok n i.bel) (X : Matrix (Fin n) (Fin n) ℝ) (γ w : ℝ) (hX : X.PosDef) (hγ0 : 0 ≤ γ) (hγ1 : γ < 1) (hw : 0 ≤ w)
    (cs : List Bounded.Cycle) (hv : ∀ c ∈ cs, c.Valid n) (hobs : ∀ c ∈ cs, ∃ L, c.Observer X γ w L) (t : Int) (hl : script id l = Bounded.script t cs)
    (b : Belief) (hb : Hdl.belief h id t = some b) (p : ℝ) (hp : Certainty.AtMost (b.Sigma.toM n n) (p • X)) :
    (∀ a ∈ answers id l, a = true) ∧ ∀ b', Hdl.belief h' id (Bounded.time t cs) = some b' →
      Certainty.AtMost (b'.Sigma.toM n n) ((γ ^ cs.length * p + w / (1 - γ)) • X) := by
  obtain ⟨H', h1, h2⟩ := c121_standalone hr hi ho.strict
  have hb' : SKF.beliefAt i.bel t = some b := by
    unfold Hdl.belief at hb; rw [hi] at hb; exact hb
  obtain ⟨H2, g', h3, h4, h5, h6⟩ := Bounded.c118_bounded X γ w hX hγ0 hγ1 hw cs hv hobs t i.bel ho ⟨b.mean.toM n 1, b.Sigma.toM n n⟩
    (by unfold SKF.estimates; rw [hb']; rfl) p hp
  rw [← hl, h1] at h3
  obtain ⟨e1, e2⟩ := Prod.mk.inj (Res.ok.inj h3)
  subst e1
  refine ⟨fun a ha => ?_, fun b' hb' => ?_⟩
  · rw [e2] at ha; exact List.eq_of_mem_replicate ha
  · unfold SKF.estimates at h5
    rw [h2 _ _ hb'] at h5
    have := Option.some.inj h5
    rw [← this] at h6
    exact h6

/-- C121: the calls of an in-order user (Wf of C21) start from beliefs the instance still holds. -/
theorem c121_in_order {dim : ℕ → ℕ} (hnear : Hdl.NearOk near) {h h' : Hdl} (hreach : Hdl.Reach fp near pred dim h) {l : List (Ev × Bool)}
    (hr : Hdl.Runs fp near pred dim h l h') (id : ℕ) (ha : ∀ e ∈ l, Absent id e.1) :
    Apart fp near pred id h l h' ∧ ∀ i, h.find id = some i → i.bel.Pairwise fun x y => x.1 < y.1 := by
  obtain ⟨c, hrel⟩ := hreach.rel hnear
  refine ⟨?_, fun i hi => (hrel.ok.ord id i hi).bel⟩
  clear hreach
  induction hr generalizing c with
  | nil h => exact .nil h
  | @step h h1 h2 ev ans l hw hs r ih =>
    have hr1 : ∃ c1, Hdl.Rel dim h1 c1 := by
      cases ans with
      | false => rw [Hdl.rejected hrel ev hw hs]; exact ⟨c, hrel⟩
      | true => obtain ⟨c', -, hc'⟩ := Hdl.accepted hnear hrel ev hw hs; exact ⟨c', hc'⟩
    obtain ⟨c1, hr1⟩ := hr1
    refine .step (ha (ev, ans) (by simp)) ?_ hs (ih (fun e he => ha e (by simp [he])) c1 hr1)
    intro k hk t ht
    have key : ∀ t', Hdl.Newest h id t' → (Hdl.belief h id t').isSome := by
      intro t' hN
      obtain ⟨b, hb, -⟩ := hrel.isMean hN
      rw [hb]; rfl
    cases ev with
    | propKF p Phi Q ta tb =>
      simp only [own] at hk; split at hk
      · rename_i hp; subst hp; rw [← Option.some.inj hk] at ht; rw [← Option.some.inj ht]; exact key _ hw.1
      · simp at hk
    | propEKF p mb Phi Q ta tb =>
      simp only [own] at hk; split at hk
      · rename_i hp; subst hp; rw [← Option.some.inj hk] at ht; rw [← Option.some.inj ht]; exact key _ hw.1
      · simp at hk
    | propBel p bb Phi ta tb =>
      simp only [own] at hk; split at hk
      · rw [← Option.some.inj hk] at ht; simp [from?] at ht
      · simp at hk
    | privKF p Hm R z t cfg =>
      simp only [own] at hk; split at hk
      · rename_i hp; subst hp; rw [← Option.some.inj hk] at ht; rw [← Option.some.inj ht]; exact key _ hw
      · simp at hk
    | privEKF p Hm R r t cfg =>
      simp only [own] at hk; split at hk
      · rename_i hp; subst hp; rw [← Option.some.inj hk] at ht; rw [← Option.some.inj ht]; exact key _ hw
      · simp at hk
    | setCov a b S t => simp [own] at hk
    | jointR dH R r t cfg => simp [own] at hk
    | jointZ dH z R t cfg => simp [own] at hk

section Examples
open Hdl.Example (h0 b0 reach0 newest0 nearOk gate s_shape s_tr whole_run init)

/-- The hypotheses of `c121_standalone` and `c121_in_order` are met after a joint observation of both instances: instance 1 predicts, instance 2 predicts,
instance 1 observes; the standalone filter gets the two calls of instance 1. -/
example : ∃ (h h' : Hdl) (i : Inst) (l : List (Ev × Bool)), Hdl.Reach FP.exact Hdl.Example.near Hdl.Example.pred Hdl.Example.dim h ∧
    Hdl.Runs FP.exact Hdl.Example.near Hdl.Example.pred Hdl.Example.dim h l h' ∧ (∀ e ∈ l, Absent 1 e.1) ∧ h.find 1 = some i ∧ l.length = 3 ∧
    script 1 l = [.prop (Hdl.Example.s 2) (Hdl.Example.s 1) 0 7, .priv (Hdl.Example.s 1) (Hdl.Example.s 1) (Hdl.Example.s 4) 7 Hdl.Example.cfg] ∧
    answers 1 l = [true, true] := by
  obtain ⟨h1, h2, h3, h4, -, q1, n1, -, hr, -, n3, -, -, hp⟩ := whole_run
  obtain ⟨i, e, hi, -⟩ := n1
  refine ⟨h1, h4, i, _, q1, Hdl.Example.Runs.append hr (.step (ev := .privKF 1 _ _ _ 7 _) n3 hp (.nil _)), ?_, hi, rfl, rfl, rfl⟩
  intro x hx
  simp only [List.cons_append, List.nil_append, List.mem_cons, List.not_mem_nil, or_false] at hx
  rcases hx with rfl | rfl | rfl <;> trivial

/-- One cycle: the state stays where it is and is measured, both with variance 1. -/
noncomputable def cyc : Bounded.Cycle :=
  ⟨Hdl.Example.s 1, Hdl.Example.s 1, 7, 1, Hdl.Example.s 1, Hdl.Example.s 1, Hdl.Example.s 4, { outlier := false, eps := 0 }⟩

theorem s_toM (x : ℝ) : (Hdl.Example.s x).toM 1 1 = x • 1 := by
  ext i j; fin_cases i; fin_cases j; simp [Hdl.Example.s, Mat.toM, Mat.of]

/-- The hypotheses of `c121_textbook` and `c121_bounded` are met by a run of the initial state. -/
example : ∃ (h' : Hdl) (i : Inst) (b : Belief) (l : List (Ev × Bool)), Apart FP.exact Hdl.Example.near Hdl.Example.pred 1 h0 l h' ∧ l.length = 3 ∧
    h0.find 1 = some i ∧ SKF.Ok 1 i.bel ∧ Hdl.belief h0 1 0 = some b ∧ script 1 l = Bounded.script 0 [cyc] ∧ (∀ c ∈ script 1 l, c.Fits 1) ∧
    cyc.Valid 1 ∧ cyc.Observer (1 : Matrix (Fin 1) (Fin 1) ℝ) 0 1 (1 : Matrix (Fin 1) (Fin 1) ℝ) ∧
    Certainty.AtMost (b.Sigma.toM 1 1) ((2 : ℝ) • 1) := by
  have hr0 := init.rel
  have w1 : Hdl.Wf Hdl.Example.dim h0 (.propKF 1 (Hdl.Example.s 1) (Hdl.Example.s 1) 0 7) := ⟨newest0 (Or.inl rfl), by norm_num, s_tr 1⟩
  obtain ⟨h1, a1, e1, g1⟩ := Hdl.progress_rel (fp := FP.exact) (pred := Hdl.Example.pred) nearOk hr0 _ w1 ⟨s_shape 1, s_shape 1⟩
  obtain rfl := g1 trivial
  obtain ⟨c1, s1, r1⟩ := Hdl.accepted nearOk hr0 _ w1 e1
  have d1 := Hdl.step_dom hr0 _ w1 e1
  have n1 : Hdl.Newest h1 1 7 := Hdl.Newest.of_rel r1 (Hdl.sameDom_isSome d1 ((newest0 (Or.inl rfl)).rel hr0).1) (by cases s1; simp [Central.transform])
  have n1' : Hdl.Newest h1 2 0 :=
    Hdl.Newest.of_rel r1 (Hdl.sameDom_isSome d1 ((newest0 (Or.inr rfl)).rel hr0).1) (by cases s1; simp [Central.transform]; rfl)
  have w2 : Hdl.Wf Hdl.Example.dim h1 (.propKF 2 (Hdl.Example.s 3) (Hdl.Example.s 1) 0 7) := ⟨n1', by norm_num, s_tr 1⟩
  obtain ⟨h2, a2, e2, g2⟩ := Hdl.progress_rel (fp := FP.exact) (pred := Hdl.Example.pred) nearOk r1 _ w2 ⟨s_shape 3, s_shape 1⟩
  obtain rfl := g2 trivial
  obtain ⟨c2, s2, r2⟩ := Hdl.accepted nearOk r1 _ w2 e2
  have d2 := Hdl.step_dom r1 _ w2 e2
  have n2 : Hdl.Newest h2 1 7 := Hdl.Newest.of_rel r2 (Hdl.sameDom_isSome d2 (n1.rel r1).1) (by cases s2; simp [Central.transform, (n1.rel r1).2])
  have w3 : Hdl.Wf Hdl.Example.dim h2 (.privKF 1 (Hdl.Example.s 1) (Hdl.Example.s 1) (Hdl.Example.s 4) 7 cyc.cfg) := n2
  obtain ⟨h3, a3, e3, g3⟩ := Hdl.progress_rel (fp := FP.exact) (pred := Hdl.Example.pred) nearOk r2 _ w3 ⟨rfl, s_shape 1, s_shape 4, Or.inl rfl⟩
  obtain rfl := g3 rfl
  obtain ⟨i, e, hi, -⟩ := newest0 (p := 1) (Or.inl rfl)
  have hi' : i = Inst.doInit ⟨[], [], 10⟩ b0 0 := by
    have : h0.find 1 = some (Inst.doInit ⟨[], [], 10⟩ b0 0) := by simp [h0, SMap.find]
    rw [this] at hi; exact (Option.some.inj hi).symm
  have hrun := Hdl.Runs.step w1 e1 (Hdl.Runs.step w2 e2 (Hdl.Runs.step w3 e3 (Hdl.Runs.nil _)))
  have hpsd : ∀ x : ℝ, 0 ≤ x → ((Hdl.Example.s x).toM 1 1).PosSemidef := fun x hx => by rw [s_toM]; exact Alg.smul_one_psd hx
  have hpd : ((Hdl.Example.s 1).toM 1 1 + (0 : ℝ) • 1).PosDef := by
    rw [s_toM, zero_smul, add_zero, one_smul]; exact Matrix.PosDef.one
  refine ⟨h3, i, b0, _, (c121_in_order nearOk reach0 hrun 1 ?_).1, rfl, hi, ?_, ?_, rfl, ?_, ?_, ?_, ?_⟩
  · intro x hx
    simp only [List.mem_cons, List.not_mem_nil, or_false] at hx
    rcases hx with rfl | rfl | rfl <;> trivial
  · rw [hi']
    refine ⟨by simp [Inst.doInit, Inst.reset, Buf.insertMap], ?_⟩
    intro x hx
    have : x = (0, b0) := by simpa [Inst.doInit, Inst.reset, Buf.insertMap] using hx
    subst this
    exact ⟨⟨rfl, rfl⟩, ⟨rfl, rfl⟩, hpsd 2 zero_le_two⟩
  · unfold Hdl.belief
    rw [hi, hi']; rfl
  · intro c hc
    have hc' : c ∈ Bounded.script 0 [cyc] := hc
    simp only [Bounded.script, List.mem_cons, List.not_mem_nil, or_false] at hc'
    rcases hc' with rfl | rfl
    · exact hpsd 1 zero_le_one
    · exact ⟨le_rfl, hpsd 1 zero_le_one, hpd⟩
  · exact ⟨⟨rfl, rfl⟩, ⟨rfl, rfl⟩, ⟨rfl, rfl⟩, ⟨rfl, rfl⟩, ⟨rfl, rfl⟩, hpsd 1 zero_le_one, hpsd 1 zero_le_one, le_rfl, hpd, rfl⟩
  · have key : ∀ A Q R : Matrix (Fin 1) (Fin 1) ℝ, A = 0 → R = 1 → ((0 : ℝ) • (1 : Matrix (Fin 1) (Fin 1) ℝ) - A * 1 * Matrix.transpose A).PosSemidef ∧
        ((1 : ℝ) • (1 : Matrix (Fin 1) (Fin 1) ℝ) - (A * Q * Matrix.transpose A + 1 * R * Matrix.transpose 1 + (0 : ℝ) • 1)).PosSemidef := by
      intro A Q R hA hR
      subst hA; subst hR
      constructor <;> simp [Matrix.PosSemidef.zero]
    have e1 : (1 : Matrix (Fin 1) (Fin 1) ℝ) - 1 * (Hdl.Example.s 1).toM 1 1 = 0 := by rw [s_toM]; simp
    have k1 := (key ((1 - 1 * (Hdl.Example.s 1).toM 1 1) * (Hdl.Example.s 1).toM 1 1) 0 1 (by rw [e1]; simp) rfl).1
    have k2 := (key (1 - 1 * (Hdl.Example.s 1).toM 1 1) ((Hdl.Example.s 1).toM 1 1) ((Hdl.Example.s 1).toM 1 1 + (0 : ℝ) • 1) e1
      (by rw [s_toM]; simp)).2
    exact ⟨k1, k2⟩
  · unfold Certainty.AtMost
    have : b0.Sigma.toM 1 1 = (2 : ℝ) • 1 := s_toM 2
    rw [this, sub_self]
    exact Matrix.PosSemidef.zero

end Examples

end Solo
end Ikf
