import Verif.Props.Heap
import Verif.Props.SchmidtExamples

/-! # C81: concrete cases -/

namespace Ikf
open Mat
namespace PSt

/-! ## The premises are met -/
namespace Example
open Hdl.Example

/-- A prediction that propagates the belief before `t` to `t` with the given matrices: the usual `predict_to`. -/
noncomputable def predP (Phi Q : Mat) (_id : ℕ) (H : Heap) (i : PInst) (t : Int) : Heap × PInst × Bool :=
  match i.ptr.getBefore t with
  | some e =>
    match i.propKF FP.exact H Phi Q e.1 t with
    | .ok r => r
    | _ => (H, i, false)
  | none => (H, i, false)

noncomputable def predV (Phi Q : Mat) (_id : ℕ) (i : Inst) (t : Int) : Inst × Bool :=
  match i.bel.getBefore t with
  | some e =>
    match i.propKF FP.exact Phi Q e.1 t with
    | .ok r => r
    | _ => (i, false)
  | none => (i, false)

theorem getBefore_mv {α β : Type _} (f : α → β) (b : Buf α) (t : Int) : (Buf.mv f b).getBefore t = (b.getBefore t).map (fun e => (e.1, f e.2)) := by
  have hl : ∀ c : Buf α, (Buf.mv f c).getLast? = c.getLast?.map (fun e => (e.1, f e.2)) := Buf.latest_mv f
  unfold Buf.getBefore
  rw [Buf.lowerBound_mv, Buf.belowLB_mv, Buf.mv_isEmpty, Buf.mv_length, hl, hl]
  cases b.lowerBound t with
  | nil => simp only [Buf.mv, List.map_nil]; split <;> rfl
  | cons e r => simp only [Buf.mv_cons]; split <;> rfl

theorem faithful (Phi Q : Mat) : Faithful (predP Phi Q) (predV Phi Q) := by
  intro id H i t hs
  unfold predP predV
  rw [PInst.view_bel, getBefore_mv]
  cases hb : i.ptr.getBefore t with
  | none => exact ⟨rfl, PInst.Step.refl hs none⟩
  | some e =>
    obtain ⟨v, st⟩ := PInst.propKF_view FP.exact hs Phi Q e.1 t
    simp only [Option.map_some]
    rw [v]
    cases hr : i.propKF FP.exact H Phi Q e.1 t with
    | ok r => exact ⟨rfl, st r hr⟩
    | throws => exact ⟨rfl, PInst.Step.refl hs none⟩
    | ub => exact ⟨rfl, PInst.Step.refl hs none⟩

/-- Two registered filters without beliefs. -/
noncomputable def s0 : PSt := ⟨⟨fun _ => b0, 0⟩, [(1, ⟨[], [], 10⟩), (2, ⟨[], [], 10⟩)]⟩

theorem noShare0 : s0.NoShare := by
  have hP : ∀ p k a, ¬ s0.Points p k a := by
    rintro p k a ⟨i, hi, hk⟩
    simp only [s0, List.mem_cons, List.not_mem_nil, or_false, Prod.mk.injEq] at hi
    rcases hi with ⟨_, rfl⟩ | ⟨_, rfl⟩ <;> cases hk
  refine ⟨by simp [s0, SMap.Sorted], fun p i hi => ?_, fun p q k l a h => absurd h (hP p k a), fun p k a h => absurd h (hP p k a)⟩
  simp only [s0, List.mem_cons, List.not_mem_nil, or_false, Prod.mk.injEq] at hi
  rcases hi with ⟨_, rfl⟩ | ⟨_, rfl⟩ <;> exact List.Pairwise.nil

/-- Both filters are initialised, each with its own object. -/
theorem example_run (near : Mat → Mat) : ∃ x, runOps (BOp.ptr FP.exact near (predP (s 1) (s 1))) s0 [.init 1 b0 0, .init 2 b0 0] = .ok (x, [true, true]) ∧
    x.NoShare ∧ x.view = h0 ∧ x.Points 1 0 0 ∧ x.Points 2 0 1 := by
  have e : runOps (BOp.ptr FP.exact near (predP (s 1) (s 1))) s0 [.init 1 b0 0, .init 2 b0 0] =
      .ok (⟨⟨_, 2⟩, [(1, ⟨[(0, 0)], [], 10⟩), (2, ⟨[(0, 1)], [], 10⟩)]⟩, [true, true]) := rfl
  obtain ⟨v, n⟩ := c81_own_copies FP.exact near (faithful (s 1) (s 1)) [.init 1 b0 0, .init 2 b0 0] (by simp [BOp.Ok]) noShare0
  refine ⟨_, e, n _ e, ?_, ⟨_, List.mem_cons_self, List.mem_cons_self⟩, ⟨_, List.mem_cons_of_mem _ List.mem_cons_self, List.mem_cons_self⟩⟩
  rw [e] at v
  have v2 : runOps (BOp.val FP.exact near (predV (s 1) (s 1))) s0.view [.init 1 b0 0, .init 2 b0 0] = .ok (h0, [true, true]) := rfl
  rw [v2] at v
  exact ((Prod.mk.inj (Res.ok.inj v)).1).symm

/-- `initialize` of both filters with the same object. -/
noncomputable def shared : PSt := ⟨(s0.heap.alloc b0).1, [(1, ⟨[(0, 0)], [], 10⟩), (2, ⟨[(0, 0)], [], 10⟩)]⟩

theorem shared_reached : ((s0.make b0).1.onInst 1 (fun H i => .ok (H, i.doInit (s0.make b0).2 0, true)) >>= fun x =>
    x.1.onInst 2 (fun H i => .ok (H, i.doInit (s0.make b0).2 0, true))) = .ok (shared, true) := rfl

end Example

open Hdl.Example in
/-- The premise of C81 is needed: the same object is handed to `initialize` of two filters. A private observation of the
first then changes the belief of the second, which has not been observed: both show the corrected mean, more than 3. -/
theorem c81_shared_object (near : Mat → Mat) (pred : ℕ → Heap → PInst → Int → Heap × PInst × Bool) :
    (∀ p, p = 1 ∨ p = 2 → ∃ i, Example.shared.view.find p = some i ∧ i.beliefAt 0 = some Hdl.Example.b0) ∧
    ∃ x b, BOp.ptr FP.exact near pred Example.shared (.ev (.privKF 1 (Hdl.Example.s 1) (Hdl.Example.s 1) (Hdl.Example.s 4) 0 Hdl.Example.cfg)) = .ok (x, true) ∧
      3 < b.mean.e 0 0 ∧ Hdl.Example.b0.mean.e 0 0 = 3 ∧
      ∀ p, p = 1 ∨ p = 2 → ∃ i, x.view.find p = some i ∧ i.beliefAt 0 = some b := by
  refine ⟨?_, ?_⟩
  · rintro p (rfl | rfl)
    · exact ⟨_, rfl, rfl⟩
    · exact ⟨_, rfl, rfl⟩
  · have hO : ObsShape (Hdl.Example.s 1) (Hdl.Example.s 1) (Hdl.Example.s 4 - Hdl.Example.s 1 * Hdl.Example.s 3) (Hdl.Example.s 2) 1 1 :=
      ⟨s_shape 1, s_shape 1, (s_shape 4).sub, s_shape 2⟩
    have hc := correctionStep_eq hO cfg
    rw [if_neg (by simp [cfg]), Res.bind_ok] at hc
    set res : CorrRes := ⟨postM (Hdl.Example.s 1) (Hdl.Example.s 1) (Hdl.Example.s 2) cfg,
      gainM (Hdl.Example.s 1) (Hdl.Example.s 1) (Hdl.Example.s 2) cfg.eps * (Hdl.Example.s 4 - Hdl.Example.s 1 * Hdl.Example.s 3),
      updM (Hdl.Example.s 1) (Hdl.Example.s 1) (Hdl.Example.s 2) cfg.eps, false⟩ with hres
    have hsub : Hdl.Example.s 4 - Hdl.Example.s (1 * 3) = Hdl.Example.s 1 := by
      rw [e1x1 (A := Hdl.Example.s 4 - Hdl.Example.s (1 * 3)) (s_shape 4).sub, sub_e (Hdl.Example.s 4) (Hdl.Example.s (1 * 3)) rfl rfl]
      simp [Hdl.Example.s, of]; norm_num
    have hdx : res.dx.Shape 1 1 := (gainM_shape hO _).mul hO.r
    have hb : b0.correct res.dx res.Sapos = .ok { b0 with mean := b0.mean + res.dx, Sigma := res.Sapos } := by
      unfold Belief.correct
      rw [show b0.mean = Hdl.Example.s 3 from rfl, (s_shape 3).addC hdx, Res.bind_ok]
    have hrun : PInst.privKF Example.shared.heap ⟨[(0, 0)], [], 10⟩ (Hdl.Example.s 1) (Hdl.Example.s 1) (Hdl.Example.s 4) 0 cfg =
        .ok (Example.shared.heap.put 0 { b0 with mean := b0.mean + res.dx, Sigma := res.Sapos }, ⟨[(0, 0)], [], 10⟩, true) := by
      unfold PInst.privKF
      show (((Hdl.Example.s 1) *! (Hdl.Example.s 3)) >>= _) = _
      rw [(s_shape 1).mulC (s_shape 3), Res.bind_ok, (s_shape 4).subC ((s_shape 1).mul (s_shape 3)), Res.bind_ok]
      unfold PInst.privEKF
      show (correctionStep (Hdl.Example.s 1) (Hdl.Example.s 1) (Hdl.Example.s 4 - Hdl.Example.s 1 * Hdl.Example.s 3) (Hdl.Example.s 2) cfg >>= _) = _
      rw [hc, Res.bind_ok, if_pos (show (!res.rejected) = true from rfl)]
      rw [show (⟨[(0, 0)], [], 10⟩ : PInst).addCorrection (Example.shared.heap.val 0).stamp (Example.shared.heap.val 0).stamp res.U =
        .ok ⟨[(0, 0)], [], 10⟩ from rfl, Res.bind_ok, show Example.shared.heap.val 0 = b0 from rfl, hb, Res.bind_ok]
    refine ⟨⟨Example.shared.heap.put 0 { b0 with mean := b0.mean + res.dx, Sigma := res.Sapos }, Example.shared.inst⟩,
      { b0 with mean := b0.mean + res.dx, Sigma := res.Sapos }, ?_, ?_, rfl, ?_⟩
    · show (PInst.privKF Example.shared.heap ⟨[(0, 0)], [], 10⟩ (Hdl.Example.s 1) (Hdl.Example.s 1) (Hdl.Example.s 4) 0 cfg >>= _) = _
      rw [hrun]; rfl
    · have : (b0.mean + res.dx) = Hdl.Example.s (3 + 2 * (3 + cfg.eps)⁻¹ * 1) := by
        rw [hres]
        show Hdl.Example.s 3 + _ = _
        rw [s_gain, s_mul, hsub, s_mul, s_add]
      show 3 < (b0.mean + res.dx).e 0 0
      rw [this]
      show (3:ℝ) < 3 + 2 * (3 + cfg.eps)⁻¹ * 1
      have : (0:ℝ) < (3 + cfg.eps)⁻¹ := by
        have : (cfg.eps : ℝ) = 1 / 10^16 := rfl
        rw [this]; norm_num
      linarith
    · rintro p (rfl | rfl)
      · exact ⟨_, rfl, rfl⟩
      · exact ⟨_, rfl, rfl⟩

end PSt
end Ikf
