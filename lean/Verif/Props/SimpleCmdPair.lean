import Verif.Props.SimpleCmd
import Verif.Props.SimpleCmdStep
import Verif.Props.SimpleCmdClock
import Verif.Props.TeamPairs

/-!
# The example program with two bodies: no observation throws (C107)
-/

namespace Ikf
namespace SimpleCmd
open Mat
noncomputable section

variable {g1 g2 g3 : ℕ → ℕ → ℝ} {fp : FP} {o : Opts} {d : Draws} {n : ℕ} {evs : List StdEv} {T : ℕ → Int} {done : ℕ → ℕ → Prop} {s : St}

/-- The other of two bodies. -/
def other (p : ℕ) : ℕ := if p = 0 then 1 else 0

/-- What is kept for two bodies. -/
def P2 (fresh : ℕ → Prop) (h : StdHdl) : Prop := StdHdl.PairH dim2 other {0, 1} fresh h

theorem matQ_atLeast : StdTeam.AtLeast 2 matQ := by
  intro x
  have e : bil matQ 2 2 x x = 1 / 10^6 * (x 0 * x 0 + x 1 * x 1) := by
    simp [bil, Finset.sum_range_succ, matQ, Mat.of]
    ring
  rw [e, Finset.sum_range_succ, Finset.sum_range_one]
  unfold StdTeam.margin
  nlinarith [mul_self_nonneg (x 0), mul_self_nonneg (x 1)]

theorem P2.reject {fresh : ℕ → Prop} {h h' : StdHdl} (hp : P2 fresh h) {ev : StdEv} (e : StdHdl.run g1 g2 g3 h ev = .ok (h', false)) : h' = h := by
  obtain ⟨c, hr, hs, hreg, hi⟩ := hp
  exact StdHdl.c54_unchanged hs.1 ev e

theorem two_prop (k j : ℕ) (hj : j < o.n) (ha : clock fp (o.dt fp) k < clock fp (o.dt fp) (k + 1))
    (hi : Inv g1 g2 g3 fp o d n evs (fun i => clock fp (o.dt fp) (if i < j then k + 1 else k)) done s) {fresh : ℕ → Prop} (hw : P2 fresh s.h) :
    Tri False (propIdx fp o d (k + 1) s j)
      (fun s' => Inv g1 g2 g3 fp o d n (evs ++ [evProp fp o d k j]) (fun i => clock fp (o.dt fp) (if i < j + 1 then k + 1 else k)) done s' ∧
        P2 (fun p => if p = j then True else fresh p) s'.h) := by
  have h1 := step_prop k j hj hi False
  cases e : propIdx fp o d (k + 1) s j with
  | ub => rw [e] at h1; exact h1.elim
  | throws => rw [e] at h1; exact h1.elim
  | ok s' =>
    rw [e] at h1
    refine ⟨h1, ?_⟩
    unfold propIdx at e
    obtain ⟨f, e1, e⟩ := Hdl.bind_eq_ok e
    obtain ⟨b, e2, e⟩ := Hdl.bind_eq_ok e
    obtain ⟨⟨h', a⟩, e3, e⟩ := Hdl.bind_eq_ok e
    obtain rfl := Res.ok.inj e
    have e4 : StdHdl.run g1 g2 g3 s.h (.propU j (matF (o.dt fp : ℝ)) matQ (next fp (o.dt fp) b.stamp) (matG (o.dt fp : ℝ)) (one1 (d.acc j (k + 1))) (one1 (o.stdA * o.stdA))) = .ok (h', a) := e3
    cases a with
    | false =>
      exfalso
      have q := hw.reject e4
      have q1 := hi.stamps j hj
      have q2 : StdHdl.stamp h' j = _ := h1.stamps j hj
      rw [if_neg (by omega)] at q1
      rw [if_pos (by omega), q, q1] at q2
      have := Option.some.inj q2
      omega
    | true =>
      have := StdHdl.PairH.accept hw (ev := .propU j (matF (o.dt fp : ℝ)) matQ (next fp (o.dt fp) b.stamp) (matG (o.dt fp : ℝ)) (one1 (d.acc j (k + 1))) (one1 (o.stdA * o.stdA)))
        ⟨matQ_symm, rfl⟩ ⟨matQ_cov, one1_cov (mul_self_nonneg _)⟩ e4
      have ef : StdTeam.after dim2 fresh (.propU j (matF (o.dt fp : ℝ)) matQ (next fp (o.dt fp) b.stamp) (matG (o.dt fp : ℝ)) (one1 (d.acc j (k + 1))) (one1 (o.stdA * o.stdA))) =
          fun p => if p = j then True else fresh p := by
        funext p
        simp only [StdTeam.after]
        congr 1
        exact eq_true matQ_atLeast
      rw [ef] at this
      exact this

theorem two_priv (k j : ℕ) (hj : j < o.n) (hi : Inv g1 g2 g3 fp o d n evs T done s) {fresh : ℕ → Prop} (hw : P2 fresh s.h) (hf : j = 0 → fresh 0) :
    Tri False (privIdx o d (k + 1) s j) (fun s' => Inv g1 g2 g3 fp o d n
      (evs ++ if j = 0 then [.priv j (rowP 1) (one1 (o.stdP * o.stdP)) (one1 (d.pos j (k + 1)))] else []) T done s' ∧ ∃ fresh', P2 fresh' s'.h) := by
  have h1 := step_priv k j hj hi False
  cases e : privIdx o d (k + 1) s j with
  | ub => rw [e] at h1; exact h1.elim
  | throws => rw [e] at h1; exact h1.elim
  | ok s' =>
    rw [e] at h1
    refine ⟨h1, ?_⟩
    unfold privIdx at e
    split at e
    · rename_i h0
      subst h0
      obtain ⟨⟨h', a⟩, e3, e⟩ := Hdl.bind_eq_ok e
      obtain rfl := Res.ok.inj e
      have e4 : StdHdl.run g1 g2 g3 s.h (.priv 0 (rowP 1) (one1 (o.stdP * o.stdP)) (one1 (d.pos 0 (k + 1)))) = .ok (h', a) := e3
      cases a with
      | false => exact ⟨fresh, by show P2 fresh h'; rw [hw.reject e4]; exact hw⟩
      | true => exact ⟨_, StdHdl.PairH.accept hw (ev := .priv 0 (rowP 1) (one1 (o.stdP * o.stdP)) (one1 (d.pos 0 (k + 1)))) trivial ⟨hf rfl, one1_cov (mul_self_nonneg _)⟩ e4⟩
    · obtain rfl := Res.ok.inj e
      exact ⟨fresh, hw⟩

theorem two_joint (k j : ℕ) (h2 : o.n = 2) (hj : j < o.n) {t : Int} (hi : Inv g1 g2 g3 fp o d n evs (fun _ => t) done s) {fresh : ℕ → Prop} (hw : P2 fresh s.h) :
    Tri False (jointIdx g1 g2 g3 o d (k + 1) s j) (fun s' => Inv g1 g2 g3 fp o d n
      (evs ++ if o.joint = true ∧ 1 < o.n then
        [.joint j j ((j + 1) % o.n) (rowP (-1)) (rowP 1) (one1 (o.stdRel * o.stdRel)) (one1 (d.rel j (k + 1)))] else []) (fun _ => t) done s' ∧ ∃ fresh', P2 fresh' s'.h) := by
  have h1 := step_joint (g1 := g1) (g2 := g2) (g3 := g3) k j hj hi
  unfold jointIdx at h1 ⊢
  by_cases h0 : o.joint = true ∧ 1 < o.n
  swap
  · rw [if_neg h0] at h1 ⊢
    exact ⟨h1, fresh, hw⟩
  rw [if_pos h0] at h1 ⊢
  have ho : (j + 1) % o.n = other j := by rw [h2] at hj ⊢; unfold other; split <;> omega
  have ho2 : other (other j) = j := by unfold other; split <;> split <;> omega
  have hne : j ≠ other j := by unfold other; split <;> omega
  have hk : other j < o.n := by unfold other; split <;> omega
  have m1 : ∀ p < o.n, p ∈ ({0, 1} : Finset ℕ) := by intro p hp; simp; omega
  obtain ⟨c, hr, hs, hreg, hinv⟩ := hw
  obtain ⟨h', ans, e⟩ := hinv.joint_returns (g1 := g1) (g2 := g2) (g3 := g3) hr hs hreg (I := j) (J := other j) (HI := rowP (-1)) (HJ := rowP 1) (R := one1 (o.stdRel * o.stdRel)) (z := one1 (d.rel j (k + 1)))
    ⟨hne, 1, Nat.one_pos, ⟨rfl, rfl⟩, ⟨rfl, rfl⟩, one1_shape _, one1_shape _⟩ (one1_cov (mul_self_nonneg _)) (m1 _ hj) (m1 _ hk) (by rw [hi.stamps _ hj, hi.stamps _ hk])
  rw [ho] at h1 ⊢
  have e' : StdHdl.joint g1 g2 g3 s.h j j (other j) (rowP (-1)) (rowP 1) (one1 (o.stdRel * o.stdRel)) (one1 (d.rel j (k + 1))) = .ok (h', ans) := e
  rw [e', Res.bind_ok] at h1 ⊢
  refine ⟨h1, ?_⟩
  cases ans with
  | false => exact ⟨fresh, by show P2 fresh h'; rw [P2.reject ⟨c, hr, hs, hreg, hinv⟩ e]; exact ⟨c, hr, hs, hreg, hinv⟩⟩
  | true =>
    exact ⟨_, StdHdl.PairH.accept ⟨c, hr, hs, hreg, hinv⟩ (ev := .joint j j (other j) (rowP (-1)) (rowP 1) (one1 (o.stdRel * o.stdRel)) (one1 (d.rel j (k + 1))))
      ⟨hne, 1, Nat.one_pos, ⟨rfl, rfl⟩, ⟨rfl, rfl⟩⟩ ⟨rfl, ho2, one1_cov (mul_self_nonneg _)⟩ e⟩

theorem two_upd (k j : ℕ) (h2 : o.n = 2) (hj : j < o.n)
    (hi : Inv g1 g2 g3 fp o d n (script fp o d k ++ evStep fp o d k j) (fun _ => clock fp (o.dt fp) (k + 1)) (Done o k j) s) {fresh : ℕ → Prop} (hw : P2 fresh s.h) (hf : j = 0 → fresh 0) :
    Tri False (updIdx g1 g2 g3 fp o d n (k + 1) s j)
      (fun s' => Inv g1 g2 g3 fp o d n (script fp o d k ++ evStep fp o d k (j + 1)) (fun _ => clock fp (o.dt fp) (k + 1)) (Done o k (j + 1)) s' ∧ ∃ fresh', P2 fresh' s'.h) := by
  have h1 := step_upd (g1 := g1) (g2 := g2) (g3 := g3) k j hj hi
  have key : Tri False (updIdx g1 g2 g3 fp o d n (k + 1) s j) (fun s' => ∃ fresh', P2 fresh' s'.h) := by
    unfold updIdx
    refine Tri.bind (two_priv k j hj hi hw hf) fun s1 i1 => ?_
    obtain ⟨i1, f1, w1⟩ := i1
    refine Tri.bind (two_joint k j h2 hj i1 w1) fun s2 i2 => ?_
    obtain ⟨f, b, hf, hb, -⟩ := i2.1.find hj
    unfold recordIdx
    rw [StdHdl.get_ok hf, Res.bind_ok, StdInst.deref_ok hb, Res.bind_ok]
    exact i2.2
  cases e : updIdx g1 g2 g3 fp o d n (k + 1) s j with
  | ub => rw [e] at key; exact key.elim
  | throws => rw [e] at key; exact key.elim
  | ok s' => rw [e] at h1 key; exact ⟨h1, key⟩

theorem two_all (k : ℕ) (h2 : o.n = 2) (ha : clock fp (o.dt fp) k < clock fp (o.dt fp) (k + 1))
    (hi : Inv g1 g2 g3 fp o d n (script fp o d k) (fun _ => clock fp (o.dt fp) k) (Done o k 0) s ∧ ∃ fresh, P2 fresh s.h) :
    Tri False (stepIdx g1 g2 g3 fp o d n s (k + 1))
      (fun s' => Inv g1 g2 g3 fp o d n (script fp o d (k + 1)) (fun _ => clock fp (o.dt fp) (k + 1)) (Done o (k + 1) 0) s' ∧ ∃ fresh, P2 fresh s'.h) := by
  have h1 := step_all (g1 := g1) (g2 := g2) (g3 := g3) k hi.1
  have key : Tri False (stepIdx g1 g2 g3 fp o d n s (k + 1)) (fun s' => ∃ fresh, P2 fresh s'.h) := by
    obtain ⟨hi, f0, hw⟩ := hi
    unfold stepIdx
    simp only [List.range_eq_range']
    refine Tri.bind (forL_tri (fun j s => Inv g1 g2 g3 fp o d n (script fp o d k ++ (List.range j).map (evProp fp o d k))
      (fun i => clock fp (o.dt fp) (if i < j then k + 1 else k)) (Done o k 0) s ∧ ∃ fresh, (0 < j → fresh 0) ∧ P2 fresh s.h) o.n 0 ?_ s ⟨by simpa using hi, f0, by simp, hw⟩) ?_
    · intro j _ hj s h
      obtain ⟨h, f, hf, hw⟩ := h
      have := two_prop k j (by omega) ha h hw
      rw [List.append_assoc, ← List.map_singleton (f := evProp fp o d k), ← List.map_append, ← List.range_succ] at this
      cases e : propIdx fp o d (k + 1) s j with
      | ub => rw [e] at this; exact this.elim
      | throws => rw [e] at this; exact this.elim
      | ok s' =>
        rw [e] at this
        refine ⟨this.1, _, fun _ => ?_, this.2⟩
        split
        · trivial
        · rename_i hj0; exact hf (by omega)
    · intro s1 h1
      obtain ⟨h1, f1, hf1, w1⟩ := h1
      have h1' : Inv g1 g2 g3 fp o d n (script fp o d k ++ evStep fp o d k 0) (fun _ => clock fp (o.dt fp) (k + 1)) (Done o k 0) s1 := by
        obtain ⟨q1, q2, q3⟩ := h1
        refine ⟨?_, ?_, q3⟩
        · simpa [evStep] using q1
        · intro i hin
          have := q2 i hin
          rwa [if_pos (by omega)] at this
      have := forL_tri (T := False) (body := updIdx g1 g2 g3 fp o d n (k + 1)) (fun j s => Inv g1 g2 g3 fp o d n (script fp o d k ++ evStep fp o d k j) (fun _ => clock fp (o.dt fp) (k + 1)) (Done o k j) s ∧
          ∃ fresh, (j = 0 → fresh 0) ∧ P2 fresh s.h) o.n 0
        (fun j _ hj s h => by
          obtain ⟨h, f, hf, hw⟩ := h
          have := two_upd k j h2 (by omega) h hw hf
          cases e : updIdx g1 g2 g3 fp o d n (k + 1) s j with
          | ub => rw [e] at this; exact this.elim
          | throws => rw [e] at this; exact this.elim
          | ok s' =>
            rw [e] at this
            obtain ⟨q1, f', q2⟩ := this
            exact ⟨q1, f', by omega, q2⟩) s1 ⟨h1', f1, fun _ => hf1 (by omega), w1⟩
      cases e : forL (updIdx g1 g2 g3 fp o d n (k + 1)) (List.range' 0 o.n) s1 with
      | ub => rw [e] at this; exact this.elim
      | throws => rw [e] at this; exact this.elim
      | ok s' =>
        rw [e] at this
        obtain ⟨-, f', -, q⟩ := this
        exact ⟨f', q⟩
  cases e : stepIdx g1 g2 g3 fp o d n s (k + 1) with
  | ub => rw [e] at key; exact key.elim
  | throws => rw [e] at key; exact key.elim
  | ok s' => rw [e] at h1 key; exact ⟨h1, key⟩

theorem hdl0_pair (h2 : o.n = 2) : P2 (fun _ => False) (hdl0 o d) := by
  refine init0.pairH ?_ ?_ (fun p _ h => h.elim)
  · intro p
    rw [hdl0_find]
    simp only [Finset.mem_insert, Finset.mem_singleton]
    split
    · simp; omega
    · simp; omega
  · intro p _
    simp only [central0]
    rw [if_pos trivial]
    exact diag_cov (by norm_num)

/-- C107: two bodies. If the clock advances in every step, no observation throws: the program returns, with or without joint
observations, for every duration that is not negative and whatever the generators yield. -/
theorem c107_two_bodies_partial (hD : 0 ≤ o.duration) (h2 : Spec.bodies o = 2) (ha : ∀ k : ℕ, (k : ℤ) + 1 < Spec.samples fp o → Spec.time fp o k < Spec.after fp o (Spec.time fp o k)) :
    ∃ st, main g1 g2 g3 fp o d = .ok st := by
  obtain ⟨n, hn, -⟩ := samples_ok (fp := fp) hD
  rw [bodies_eq] at h2
  have hpos := samples_pos hn
  have hsm := samples_eq hn
  have fin : ∀ (x : Res St) (Q : St → Prop), Tri False x Q → ∃ st, x = .ok st := by
    intro x Q h
    cases x with
    | ok a => exact ⟨a, rfl⟩
    | throws => exact h.elim
    | ub => exact h.elim
  refine fin _ (fun s => Inv g1 g2 g3 fp o d n (script fp o d (1 + (n - 1) - 1)) (fun _ => clock fp (o.dt fp) (1 + (n - 1) - 1)) (Done o (1 + (n - 1) - 1) 0) s ∧ ∃ fresh, P2 fresh s.h) ?_
  unfold main
  rw [hn, Res.bind_ok]
  refine forL_tri (fun j s => Inv g1 g2 g3 fp o d n (script fp o d (j - 1)) (fun _ => clock fp (o.dt fp) (j - 1)) (Done o (j - 1) 0) s ∧ ∃ fresh, P2 fresh s.h) (n - 1) 1
    (body := stepIdx g1 g2 g3 fp o d n) (T := False) ?_ _ ?_
  · intro j h1 hj s h
    obtain ⟨k, rfl⟩ : ∃ k, j = k + 1 := ⟨j - 1, by omega⟩
    refine two_all k h2 ?_ h
    have := ha k (by omega)
    rw [after_eq, time_eq] at this
    exact lt_max_of_lt_right this
  · refine ⟨⟨⟨[], by simp [script], .nil _, by simp, by intro k i hd; unfold Done at hd; omega⟩, ?_, ?_⟩, _, hdl0_pair h2⟩
    · intro i hin
      unfold StdHdl.stamp
      rw [hdl0_find, if_pos hin]
      rfl
    · intro i hin
      exact if_pos ⟨hin, rfl⟩

/-- C107: in exact arithmetic this holds up to 2 · 10⁹ Hz. -/
theorem c107_two_bodies_exact_partial (f D : ℕ) (hf : 0 < f) (hf2 : f ≤ 2000000000) (h : o.freq = f) (hD : o.duration = D)
    (hmax : D * f * ⌊(1000000000 : ℚ) / f + 1 / 2⌋ ≤ 8589934590 * 1000000000) (h2 : Spec.bodies o = 2) : ∃ st, main g1 g2 g3 FP.exact o d = .ok st := by
  have hs : Spec.samples FP.exact o = (D * f + 1 : ℕ) := (samples_eq (samples_exact o h hD hf)).symm
  refine c107_two_bodies_partial (by omega) h2 fun k hk => ?_
  rw [hs] at hk
  have tick : 1 ≤ ⌊(1000000000 : ℚ) / f + 1 / 2⌋ := by
    rw [Int.le_floor]
    have h1 : (f : ℚ) ≤ 2000000000 := by exact_mod_cast hf2
    have h0 : (0 : ℚ) < f := by exact_mod_cast hf
    have : (1 / 2 : ℚ) ≤ 1000000000 / f := by rw [le_div_iff₀ h0]; linarith
    push_cast
    linarith
  have key : ∀ k ≤ D * f, Spec.time FP.exact o k = k * ⌊(1000000000 : ℚ) / f + 1 / 2⌋ := by
    intro k hk
    rw [time_eq, dt_exact o h hf, clock_exact f hf k]
    · rfl
    · refine le_trans (mul_le_mul_of_nonneg_right ?_ (tickNs_nonneg f)) hmax
      exact_mod_cast hk
  have k1 := key k (by omega)
  have k2 := key (k + 1) (by omega)
  have e : Spec.time FP.exact o (k + 1) = max (Spec.time FP.exact o k) (Spec.after FP.exact o (Spec.time FP.exact o k)) := rfl
  rw [e] at k2
  by_contra hn
  rw [max_eq_left (not_lt.mp hn), k1] at k2
  push_cast at k2
  nlinarith

/-- Two bodies with joint observations at 100 Hz for 5 s. -/
example (d : Draws) : ∃ st, main g1 g2 g3 FP.exact ⟨2, 5, true, 100, 1, 1, 1⟩ d = .ok st :=
  c107_two_bodies_exact_partial 100 5 (by norm_num) (by norm_num) rfl rfl (by norm_num) rfl

end
end SimpleCmd
end Ikf
