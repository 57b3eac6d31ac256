import Verif.Model.Quat
import Mathlib.Analysis.Normed.Algebra.QuaternionExponential
import Mathlib.Analysis.SpecialFunctions.Trigonometric.Bounds
import Mathlib.Analysis.Real.Pi.Bounds

/-! # Property C95: small-angle quaternions are rotations and agree with the rotation vector to the third order -/

namespace Ikf
namespace Quat

open Quaternion

/-! ## Specification -/

/-- The rotation vector as an imaginary quaternion; the rotation it stands for is `exp (vec t / 2)`. -/
def vec (t : V3) : ℍ[ℝ] := mk 0 t.x t.y t.z

/-- The exact rotation about the axis `t` by the angle `‖t‖`. -/
noncomputable def rotation (t : V3) : ℍ[ℝ] := NormedSpace.exp ((1 / 2 : ℝ) • vec t)

/-- `s` times the vector. -/
def V3.scale (s : ℝ) (t : V3) : V3 := ⟨s * t.x, s * t.y, s * t.z⟩

/-! ## Proofs -/

@[simp] theorem mk_re (w x y z : ℝ) : (mk w x y z).re = w := rfl
@[simp] theorem mk_i (w x y z : ℝ) : (mk w x y z).imI = x := rfl
@[simp] theorem mk_j (w x y z : ℝ) : (mk w x y z).imJ = y := rfl
@[simp] theorem mk_k (w x y z : ℝ) : (mk w x y z).imK = z := rfl

theorem V3.sq_nonneg (t : V3) : 0 ≤ t.sq := by
  unfold V3.sq
  nlinarith [mul_self_nonneg t.x, mul_self_nonneg t.y, mul_self_nonneg t.z]

theorem norm_vec (t : V3) : ‖vec t‖ ^ 2 = t.sq := by
  rw [sq, ← normSq_eq_norm_mul_self, normSq_def']
  simp [vec, V3.sq]; ring

/-- Half the angle. -/
noncomputable def half (t : V3) : ℝ := ‖vec t‖ / 2

theorem half_sq (t : V3) : half t ^ 2 = t.sq / 4 := by
  unfold half
  rw [div_pow, norm_vec]; norm_num

theorem half_nonneg (t : V3) : 0 ≤ half t := by unfold half; positivity

/-- The form all the quaternions have: a real part and a multiple of half the vector. -/
noncomputable def form (w f : ℝ) (t : V3) : ℍ[ℝ] := mk w (t.x * (f / 2)) (t.y * (f / 2)) (t.z * (f / 2))

theorem normSq_form (w f : ℝ) (t : V3) : normSq (form w f t) = w ^ 2 + (f * half t) ^ 2 := by
  rw [normSq_def', mul_pow, half_sq]
  simp [form, V3.sq]; ring

theorem smallAngle_small {t : V3} (h : t.sq < 4) : smallAngle t = form (Real.sqrt (1 - t.sq / 4)) 1 t := by
  unfold smallAngle form
  simp only
  rw [if_pos (by linarith)]

theorem smallAngle_large {t : V3} (h : ¬ t.sq < 4) : smallAngle t = form (1 / Real.sqrt (1 + t.sq / 4)) (1 / Real.sqrt (1 + t.sq / 4)) t := by
  unfold smallAngle form
  simp only
  rw [if_neg (by linarith)]
  congr 1 <;> ring

theorem theta2quat_form (t : V3) : theta2quat t = form (1 / Real.sqrt (1 + t.sq / 4)) (1 / Real.sqrt (1 + t.sq / 4)) t := by
  have h := t.sq_nonneg
  have e : (1 : ℝ) * 1 + 1 / 2 * t.x * (1 / 2 * t.x) + 1 / 2 * t.y * (1 / 2 * t.y) + 1 / 2 * t.z * (1 / 2 * t.z) = 1 + t.sq / 4 := by
    unfold V3.sq; ring
  unfold theta2quat normalize form
  have e' : (mk 1 (1 / 2 * t.x) (1 / 2 * t.y) (1 / 2 * t.z)).re * (mk 1 (1 / 2 * t.x) (1 / 2 * t.y) (1 / 2 * t.z)).re +
      (mk 1 (1 / 2 * t.x) (1 / 2 * t.y) (1 / 2 * t.z)).imI * (mk 1 (1 / 2 * t.x) (1 / 2 * t.y) (1 / 2 * t.z)).imI +
      (mk 1 (1 / 2 * t.x) (1 / 2 * t.y) (1 / 2 * t.z)).imJ * (mk 1 (1 / 2 * t.x) (1 / 2 * t.y) (1 / 2 * t.z)).imJ +
      (mk 1 (1 / 2 * t.x) (1 / 2 * t.y) (1 / 2 * t.z)).imK * (mk 1 (1 / 2 * t.x) (1 / 2 * t.y) (1 / 2 * t.z)).imK = 1 + t.sq / 4 := e
  simp only
  rw [if_pos (by rw [e']; linarith), e']
  simp only [mk_re, mk_i, mk_j, mk_k]
  congr 1 <;> ring

theorem inv_sq (t : V3) : (1 / Real.sqrt (1 + t.sq / 4)) ^ 2 * (1 + t.sq / 4) = 1 ∧ 0 < 1 / Real.sqrt (1 + t.sq / 4) := by
  have h : 0 < 1 + t.sq / 4 := by have := t.sq_nonneg; linarith
  constructor
  · rw [div_pow, Real.sq_sqrt h.le, one_pow, one_div, inv_mul_cancel₀ h.ne']
  · have := Real.sqrt_pos.mpr h
    positivity

/-- C95. Both functions return a unit quaternion with a positive real part, for every vector, that turns about the axis of the vector in its
sense. -/
theorem c95_unit (t : V3) : normSq (smallAngle t) = 1 ∧ 0 < (smallAngle t).re ∧ normSq (theta2quat t) = 1 ∧ 0 < (theta2quat t).re ∧
    (∃ f : ℝ, 0 < f ∧ (smallAngle t).im = f • vec t) ∧ ∃ f : ℝ, 0 < f ∧ (theta2quat t).im = f • vec t := by
  obtain ⟨h1, h2⟩ := inv_sq t
  have him : ∀ w f, (form w f t).im = (f / 2) • vec t := by
    intro w f
    ext <;> simp [form, vec] <;> ring
  have hn : normSq (form (1 / Real.sqrt (1 + t.sq / 4)) (1 / Real.sqrt (1 + t.sq / 4)) t) = 1 := by
    rw [normSq_form, mul_pow, half_sq]; linarith
  rw [theta2quat_form]
  refine ⟨?_, ?_, hn, h2, ?_, ⟨1 / Real.sqrt (1 + t.sq / 4) / 2, _root_.half_pos h2, him _ _⟩⟩
  · by_cases h : t.sq < 4
    · rw [smallAngle_small h, normSq_form, mul_pow, half_sq, Real.sq_sqrt (by linarith)]; ring
    · rw [smallAngle_large h, hn]
  · by_cases h : t.sq < 4
    · rw [smallAngle_small h]; exact Real.sqrt_pos.mpr (by linarith)
    · rw [smallAngle_large h]; exact h2
  · by_cases h : t.sq < 4
    · rw [smallAngle_small h]; exact ⟨1 / 2, by norm_num, him _ _⟩
    · rw [smallAngle_large h]; exact ⟨1 / Real.sqrt (1 + t.sq / 4) / 2, _root_.half_pos h2, him _ _⟩

/-- C95. The opposite vector gives the inverse rotation, the zero vector none. -/
theorem c95_inverse (t : V3) : smallAngle t * smallAngle (t.scale (-1)) = 1 ∧ theta2quat t * theta2quat (t.scale (-1)) = 1 ∧
    smallAngle ⟨0, 0, 0⟩ = 1 ∧ theta2quat ⟨0, 0, 0⟩ = 1 := by
  have hs : (t.scale (-1)).sq = t.sq := by simp [V3.sq, V3.scale]
  have hst : ∀ w f, form w f (t.scale (-1)) = star (form w f t) := by
    intro w f
    ext <;> simp [form, V3.scale]
  have hu := c95_unit t
  have key : ∀ q : ℍ[ℝ], normSq q = 1 → q * star q = 1 := by
    intro q hq
    rw [self_mul_star, hq]; rfl
  refine ⟨?_, ?_, ?_, ?_⟩
  · have : smallAngle (t.scale (-1)) = star (smallAngle t) := by
      by_cases h : t.sq < 4
      · rw [smallAngle_small h, smallAngle_small (by rw [hs]; exact h), hs, hst]
      · rw [smallAngle_large h, smallAngle_large (by rw [hs]; exact h), hs, hst]
    rw [this, key _ hu.1]
  · have : theta2quat (t.scale (-1)) = star (theta2quat t) := by rw [theta2quat_form, theta2quat_form, hs, hst]
    rw [this, key _ hu.2.2.1]
  · rw [smallAngle_small (by simp [V3.sq])]
    ext <;> simp [form, V3.sq]
  · rw [theta2quat_form]
    ext <;> simp [form, V3.sq]

theorem rotation_form (t : V3) : rotation t = form (Real.cos (half t)) (Real.sin (half t) / half t) t := by
  have hn : ‖(1 / 2 : ℝ) • vec t‖ = half t := by
    rw [norm_smul]; unfold half; norm_num; ring
  unfold rotation
  rw [exp_of_re_eq_zero _ (by simp [vec]), hn]
  ext <;> simp [form, vec] <;> ring

theorem diff_form (w f w' f' : ℝ) (t : V3) : ‖form w f t - form w' f' t‖ ^ 2 = (w - w') ^ 2 + ((f - f') * half t) ^ 2 := by
  have : form w f t - form w' f' t = form (w - w') (f - f') t := by
    ext <;> simp [form] <;> ring
  rw [this, sq, ← normSq_eq_norm_mul_self, normSq_form]

theorem le_of_parts {n a b c : ℝ} (h : n ^ 2 = a ^ 2 + b ^ 2) (hc : |a| + |b| ≤ c) : n ≤ c := by
  have hc0 : 0 ≤ c := le_trans (by positivity) hc
  refine abs_le_of_sq_le_sq' ?_ hc0 |>.2
  have h1 := sq_abs a
  have h2 := sq_abs b
  nlinarith [abs_nonneg a, abs_nonneg b]

section
variable {y : ℝ} (h0 : 0 < y) (hy1 : y ≤ 1)
include h0 hy1

theorem tan_bound : |1 / Real.sqrt (1 + y ^ 2) - Real.cos y| + |1 / Real.sqrt (1 + y ^ 2) * y - Real.sin y| ≤ y ^ 3 := by
  have s1 := Real.sin_lt h0
  have s2 := Real.sin_gt_sub_cube h0
  have c1 := Real.one_sub_sq_div_two_le_cos (x := y)
  have hy2 : y ^ 2 ≤ 1 := by nlinarith
  have hy3 : y ^ 4 ≤ y ^ 3 := by nlinarith [pow_pos h0 3]
  set c := 1 / Real.sqrt (1 + y ^ 2) with hc
  have hp : 0 < 1 + y ^ 2 := by positivity
  have hcp : 0 < c := by have := Real.sqrt_pos.mpr hp; positivity
  have hc2 : c ^ 2 * (1 + y ^ 2) = 1 := by
    rw [hc, div_pow, Real.sq_sqrt hp.le, one_pow, one_div, inv_mul_cancel₀ hp.ne']
  have hc1 : c ≤ 1 := by nlinarith
  have hlow : 1 - y ^ 2 / 2 ≤ c := by
    by_contra hcon
    push Not at hcon
    have h1 : c ^ 2 < (1 - y ^ 2 / 2) ^ 2 := by nlinarith
    have h2 := mul_lt_mul_of_pos_right h1 hp
    rw [hc2] at h2
    have h3 : (1 - y ^ 2 / 2) ^ 2 * (1 + y ^ 2) = 1 - (y ^ 2) ^ 2 * (3 / 4 - y ^ 2 / 4) := by ring
    have h4 : 0 ≤ (y ^ 2) ^ 2 * (3 / 4 - y ^ 2 / 4) := mul_nonneg (by positivity) (by linarith)
    linarith
  have hup : c ≤ 1 - y ^ 2 / 2 + 3 / 8 * y ^ 4 := by
    by_contra hcon
    push Not at hcon
    have hpos : 0 < 1 - y ^ 2 / 2 + 3 / 8 * y ^ 4 := by nlinarith [sq_nonneg (y ^ 2)]
    have h1 : (1 - y ^ 2 / 2 + 3 / 8 * y ^ 4) ^ 2 < c ^ 2 := by nlinarith
    have h2 := mul_lt_mul_of_pos_right h1 hp
    rw [hc2] at h2
    have h3 : (1 - y ^ 2 / 2 + 3 / 8 * y ^ 4) ^ 2 * (1 + y ^ 2) = 1 + (y ^ 2) ^ 3 * (5 / 8 - 15 / 64 * y ^ 2 + 9 / 64 * (y ^ 2) ^ 2) := by ring
    rw [h3] at h2
    have h4 : 0 ≤ (y ^ 2) ^ 3 * (5 / 8 - 15 / 64 * y ^ 2 + 9 / 64 * (y ^ 2) ^ 2) := by
      refine mul_nonneg (by positivity) ?_
      nlinarith [sq_nonneg (y ^ 2)]
    linarith
  have hcos : Real.cos y ≤ c := by
    have := Real.cos_le_one_div_sqrt_sq_add_one (x := y) (by linarith [Real.pi_pos]) (by linarith [Real.pi_gt_three])
    rw [add_comm (y ^ 2) 1] at this
    exact this
  have ha : |c - Real.cos y| ≤ 3 / 8 * y ^ 4 := by rw [abs_of_nonneg (by linarith)]; linarith
  have hb : |c * y - Real.sin y| ≤ y ^ 3 / 2 := by
    rw [abs_le]
    have h1 : c * y ≤ y := by nlinarith
    have h2 : (1 - y ^ 2 / 2) * y ≤ c * y := mul_le_mul_of_nonneg_right hlow h0.le
    have h3 : (1 - y ^ 2 / 2) * y = y - y ^ 3 / 2 := by ring
    have := pow_pos h0 3
    constructor <;> linarith
  have := pow_pos h0 3
  linarith

theorem sin_bound : |Real.sqrt (1 - y ^ 2) - Real.cos y| + |y - Real.sin y| ≤ y ^ 3 := by
  have s1 := Real.sin_lt h0
  have s2 := Real.sin_gt_sub_cube h0
  have c1 := Real.one_sub_sq_div_two_le_cos (x := y)
  have cs := Real.sin_sq_add_cos_sq y
  have hy2 : y ^ 2 ≤ 1 := by nlinarith
  have hy3 : y ^ 4 ≤ y ^ 3 := by nlinarith [pow_pos h0 3]
  have hy4 : y ^ 3 ≤ y := by nlinarith
  have hsin : 0 < Real.sin y := by linarith
  set r := Real.sqrt (1 - y ^ 2) with hr
  have hr0 : 0 ≤ r := Real.sqrt_nonneg _
  have hr2 : r ^ 2 = 1 - y ^ 2 := Real.sq_sqrt (by linarith)
  have hcp : 1 / 2 ≤ Real.cos y := by linarith
  have hss : Real.sin y ^ 2 ≤ y ^ 2 := by nlinarith
  have hle : r ≤ Real.cos y := by
    refine abs_le_of_sq_le_sq' (a := r) ?_ (by linarith) |>.2
    linarith
  have ha : |r - Real.cos y| ≤ 2 / 3 * y ^ 4 := by
    rw [abs_sub_comm, abs_of_nonneg (by linarith)]
    have h1 : (Real.cos y - r) * (Real.cos y + r) = (y - Real.sin y) * (y + Real.sin y) := by
      have e1 : (Real.cos y - r) * (Real.cos y + r) = Real.cos y ^ 2 - r ^ 2 := by ring
      have e2 : (y - Real.sin y) * (y + Real.sin y) = y ^ 2 - Real.sin y ^ 2 := by ring
      rw [e1, e2, hr2]; linarith
    have h2 : (y - Real.sin y) * (y + Real.sin y) ≤ y ^ 3 / 6 * (2 * y) := by
      refine mul_le_mul (by linarith) (by linarith) (by linarith) (by positivity)
    have h3 : (Real.cos y - r) * (1 / 2) ≤ (Real.cos y - r) * (Real.cos y + r) := mul_le_mul_of_nonneg_left (by linarith) (by linarith)
    have h4 : y ^ 3 / 6 * (2 * y) = y ^ 4 / 3 := by ring
    linarith
  have hb : |y - Real.sin y| ≤ y ^ 3 / 6 := by rw [abs_of_nonneg (by linarith)]; linarith
  linarith

end

/-- C95. Up to two radians both functions agree with the exact rotation to the third order: the difference of the quaternions is at most the
cube of half the angle. -/
theorem c95_approximation (t : V3) (h : ‖vec t‖ ≤ 2) :
    ‖smallAngle t - rotation t‖ ≤ (‖vec t‖ / 2) ^ 3 ∧ ‖theta2quat t - rotation t‖ ≤ (‖vec t‖ / 2) ^ 3 := by
  change _ ≤ half t ^ 3 ∧ _ ≤ half t ^ 3
  have hy1 : half t ≤ 1 := by unfold half; linarith
  rcases (half_nonneg t).eq_or_lt with h0 | h0
  · have hv : ‖vec t‖ = 0 := by unfold half at h0; linarith
    have hv := norm_eq_zero.mp hv
    have hx : t.x = 0 := congrArg (·.imI) hv
    have hy : t.y = 0 := congrArg (·.imJ) hv
    have hz : t.z = 0 := congrArg (·.imK) hv
    have ht : t = ⟨0, 0, 0⟩ := by
      rcases t with ⟨a, b, c⟩
      simp only at hx hy hz
      rw [hx, hy, hz]
    have hr : rotation t = 1 := by unfold rotation; rw [hv, smul_zero, NormedSpace.exp_zero]
    have := c95_inverse t
    rw [← h0, hr, ht, this.2.2.1, this.2.2.2]
    simp
  have hsq : t.sq / 4 = half t ^ 2 := (half_sq t).symm
  have hfy : ∀ f, (f - Real.sin (half t) / half t) * half t = f * half t - Real.sin (half t) := by
    intro f
    rw [sub_mul, div_mul_cancel₀ _ h0.ne']
  rw [rotation_form t]
  have hB : ‖form (1 / Real.sqrt (1 + half t ^ 2)) (1 / Real.sqrt (1 + half t ^ 2)) t - form (Real.cos (half t)) (Real.sin (half t) / half t) t‖ ≤
      half t ^ 3 := by
    refine le_of_parts (diff_form _ _ _ _ t) ?_
    rw [hfy]
    exact tan_bound h0 hy1
  constructor
  · by_cases hlt : t.sq < 4
    · rw [smallAngle_small hlt, hsq]
      refine le_of_parts (diff_form _ _ _ _ t) ?_
      rw [hfy, one_mul]
      exact sin_bound h0 hy1
    · rw [smallAngle_large hlt, hsq]; exact hB
  · rw [theta2quat_form, hsq]; exact hB

/-! ## Round trips -/

/-- C95. Below two radians `quat2theta` gives the vector back from `small_angle_to_quaternion`, and `small_angle_to_quaternion` gives back
every unit quaternion with a positive real part from `quat2theta`. -/
theorem c95_round_trip_partial : (∀ t : V3, ‖vec t‖ < 2 → quat2theta (smallAngle t) = t) ∧
    ∀ q : ℍ[ℝ], normSq q = 1 → 0 < q.re → smallAngle (quat2theta q) = q := by
  constructor
  · intro t h
    have : t.sq < 4 := by rw [← norm_vec]; nlinarith [norm_nonneg (vec t)]
    rw [smallAngle_small this]
    rcases t with ⟨a, b, c⟩
    simp [quat2theta, form]
  · intro q h1 h2
    rw [normSq_def'] at h1
    have e : (quat2theta q).sq / 4 = 1 - q.re ^ 2 := by
      simp only [quat2theta, V3.sq]; linarith
    have : (quat2theta q).sq < 4 := by nlinarith
    rw [smallAngle_small this, e, sub_sub_cancel, Real.sqrt_sq h2.le]
    ext <;> simp [form, quat2theta]

/-- C95 in full is false: `quat2theta` never gives the vector back from `theta2quat` (but for the zero vector), nor from
`small_angle_to_quaternion` at two radians or more. -/
theorem c95_round_trip_fails (t : V3) : (quat2theta (theta2quat t) = t ↔ t = ⟨0, 0, 0⟩) ∧ (quat2theta (smallAngle t) = t ↔ ‖vec t‖ < 2) := by
  have key : ∀ f : ℝ, quat2theta (form f f t) = t.scale f := by
    intro f
    simp only [quat2theta, form, V3.scale, mk_i, mk_j, mk_k]
    congr 1 <;> ring
  have hz : ∀ f : ℝ, t.scale f = t → f = 1 ∨ t = ⟨0, 0, 0⟩ := by
    intro f h
    rcases t with ⟨a, b, c⟩
    simp only [V3.scale, V3.mk.injEq] at h
    by_cases hf : f = 1
    · exact Or.inl hf
    · right
      have : ∀ x : ℝ, f * x = x → x = 0 := by
        intro x hx
        have : (f - 1) * x = 0 := by linarith
        exact (mul_eq_zero.mp this).resolve_left (sub_ne_zero.mpr hf)
      rw [this a h.1, this b h.2.1, this c h.2.2]
  obtain ⟨h1, h2⟩ := inv_sq t
  have hone : 1 / Real.sqrt (1 + t.sq / 4) = 1 → t.sq = 0 := by
    intro h
    rw [h] at h1; linarith
  have hzero : t.sq = 0 → t = ⟨0, 0, 0⟩ := by
    intro h
    rcases t with ⟨a, b, c⟩
    simp only [V3.sq] at h
    have ha : a * a = 0 := by nlinarith [mul_self_nonneg a, mul_self_nonneg b, mul_self_nonneg c]
    have hb : b * b = 0 := by nlinarith [mul_self_nonneg a, mul_self_nonneg b, mul_self_nonneg c]
    have hc : c * c = 0 := by nlinarith [mul_self_nonneg a, mul_self_nonneg b, mul_self_nonneg c]
    rw [mul_self_eq_zero.mp ha, mul_self_eq_zero.mp hb, mul_self_eq_zero.mp hc]
  constructor
  · rw [theta2quat_form, key]
    constructor
    · intro h
      rcases hz _ h with h | h
      · exact hzero (hone h)
      · exact h
    · rintro rfl
      simp [V3.scale]
  · constructor
    · intro h
      by_contra hcon
      have hlt : ¬ t.sq < 4 := by rw [← norm_vec]; nlinarith [norm_nonneg (vec t)]
      rw [smallAngle_large hlt, key] at h
      rcases hz _ h with h | h
      · exact hlt (by rw [hone h]; norm_num)
      · exact hlt (by rw [h]; norm_num [V3.sq])
    · exact c95_round_trip_partial.1 t

/-! ## Larger vectors -/

/-- Rotation angle in `[0, π]` of a unit quaternion with a positive real part. -/
noncomputable def angle (q : ℍ[ℝ]) : ℝ := 2 * Real.arccos q.re

/-- C95. The angle grows with the length of the vector: for `theta2quat` always, for `small_angle_to_quaternion` below two radians. -/
theorem c95_monotone_partial (s t : V3) (h : ‖vec s‖ < ‖vec t‖) :
    angle (theta2quat s) < angle (theta2quat t) ∧ (‖vec t‖ < 2 → angle (smallAngle s) < angle (smallAngle t)) := by
  have hst : s.sq < t.sq := by rw [← norm_vec, ← norm_vec]; nlinarith [norm_nonneg (vec s)]
  have lt_of : ∀ a b : ℝ, -1 ≤ b → b < a → a ≤ 1 → 2 * Real.arccos a < 2 * Real.arccos b := by
    intro a b h1 h2 h3
    have := Real.arccos_lt_arccos h1 h2 h3
    linarith
  constructor
  · unfold angle
    obtain ⟨a1, a2⟩ := inv_sq s
    obtain ⟨b1, b2⟩ := inv_sq t
    rw [theta2quat_form, theta2quat_form]
    show 2 * Real.arccos (1 / Real.sqrt (1 + s.sq / 4)) < 2 * Real.arccos (1 / Real.sqrt (1 + t.sq / 4))
    have hs := s.sq_nonneg
    refine lt_of _ _ (by linarith) ?_ ?_
    · exact one_div_lt_one_div_of_lt (Real.sqrt_pos.mpr (by linarith)) (Real.sqrt_lt_sqrt (by linarith) (by linarith))
    · by_contra hcon
      push Not at hcon
      nlinarith
  · intro ht
    have h4 : t.sq < 4 := by rw [← norm_vec]; nlinarith [norm_nonneg (vec t)]
    unfold angle
    rw [smallAngle_small h4, smallAngle_small (by linarith)]
    show 2 * Real.arccos (Real.sqrt (1 - s.sq / 4)) < 2 * Real.arccos (Real.sqrt (1 - t.sq / 4))
    have hs := s.sq_nonneg
    refine lt_of _ _ (by linarith [Real.sqrt_nonneg (1 - t.sq / 4)]) (Real.sqrt_lt_sqrt (by linarith) (by linarith)) ?_
    rw [Real.sqrt_le_one]; linarith

/-- C95 in full is false: at two radians the angle of `small_angle_to_quaternion` falls from almost 180° to 90°: a vector 1 % longer gives a
rotation smaller by more than 60°. -/
theorem c95_monotone_fails : ∃ s t : V3, ‖vec s‖ < ‖vec t‖ ∧ ‖vec t‖ ≤ 101 / 100 * ‖vec s‖ ∧
    angle (smallAngle t) + Real.pi / 3 < angle (smallAngle s) := by
  have hv : ∀ a : ℝ, 0 ≤ a → ‖vec ⟨a, 0, 0⟩‖ = a := by
    intro a ha
    have h : ‖vec ⟨a, 0, 0⟩‖ ^ 2 = a ^ 2 := by rw [norm_vec]; simp [V3.sq, sq]
    exact (sq_eq_sq₀ (norm_nonneg _) ha).mp h
  refine ⟨⟨199 / 100, 0, 0⟩, ⟨2, 0, 0⟩, ?_, ?_, ?_⟩
  · rw [hv _ (by norm_num), hv _ (by norm_num)]; norm_num
  · rw [hv _ (by norm_num), hv _ (by norm_num)]; norm_num
  · rw [smallAngle_small (t := ⟨199 / 100, 0, 0⟩) (by norm_num [V3.sq]), smallAngle_large (t := ⟨2, 0, 0⟩) (by norm_num [V3.sq])]
    show 2 * Real.arccos (1 / Real.sqrt (1 + V3.sq ⟨2, 0, 0⟩ / 4)) + _ < 2 * Real.arccos (Real.sqrt (1 - V3.sq ⟨199 / 100, 0, 0⟩ / 4))
    have h1 : 1 / Real.sqrt (1 + V3.sq ⟨2, 0, 0⟩ / 4) = Real.cos (Real.pi / 4) := by
      have e : (1 : ℝ) + V3.sq ⟨2, 0, 0⟩ / 4 = 2 := by norm_num [V3.sq]
      rw [e, Real.cos_pi_div_four]
      have := Real.sq_sqrt (show (0 : ℝ) ≤ 2 by norm_num)
      have hp : 0 < Real.sqrt 2 := Real.sqrt_pos.mpr (by norm_num)
      field_simp
      exact this.symm
    have h2 : Real.sqrt (1 - V3.sq ⟨199 / 100, 0, 0⟩ / 4) ≤ 1 / 10 := by
      rw [Real.sqrt_le_left (by norm_num)]
      norm_num [V3.sq]
    rw [h1, Real.arccos_cos (by positivity) (by linarith [Real.pi_pos])]
    have h3 : Real.pi / 4 + Real.pi / 6 < Real.arccos (Real.sqrt (1 - V3.sq ⟨199 / 100, 0, 0⟩ / 4)) := by
      have h4 : Real.sqrt (1 - V3.sq ⟨199 / 100, 0, 0⟩ / 4) < Real.cos (Real.pi / 4 + Real.pi / 6) := by
        rw [Real.cos_add, Real.cos_pi_div_four, Real.sin_pi_div_four, Real.cos_pi_div_six, Real.sin_pi_div_six]
        have a1 : 14 / 10 < Real.sqrt 2 := Real.lt_sqrt_of_sq_lt (by norm_num)
        have a2 : 17 / 10 < Real.sqrt 3 := Real.lt_sqrt_of_sq_lt (by norm_num)
        nlinarith
      have h5 := Real.arccos_lt_arccos (by linarith [Real.sqrt_nonneg (1 - V3.sq ⟨199 / 100, 0, 0⟩ / 4)]) h4 (Real.cos_le_one _)
      rwa [Real.arccos_cos (by positivity) (by linarith [Real.pi_pos])] at h5
    linarith

/-- A vector that meets the premises: 0.3 rad about an oblique axis, known to be turned within 1/296 of the exact quaternion. -/
example : ‖vec ⟨1 / 10, 2 / 10, 2 / 10⟩‖ < 2 ∧ ‖smallAngle ⟨1 / 10, 2 / 10, 2 / 10⟩ - rotation ⟨1 / 10, 2 / 10, 2 / 10⟩‖ ≤ 1 / 296 := by
  have h : ‖vec ⟨1 / 10, 2 / 10, 2 / 10⟩‖ = 3 / 10 := by
    have h : ‖vec ⟨1 / 10, 2 / 10, 2 / 10⟩‖ ^ 2 = (3 / 10) ^ 2 := by rw [norm_vec]; norm_num [V3.sq]
    exact (sq_eq_sq₀ (norm_nonneg _) (by norm_num)).mp h
  refine ⟨by rw [h]; norm_num, (c95_approximation _ (by rw [h]; norm_num)).1.trans (by rw [h]; norm_num)⟩

end Quat
end Ikf
