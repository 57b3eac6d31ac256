import Verif.Model.TimeAcc
import Verif.Props.Timestamp
import Verif.Props.TimestampArith

/-! # Property C65: clocks advanced step by step, and timestamped data -/

namespace Ikf
open Timestamp

/-- C65. The assignments leave what the operators return. -/
theorem c65_assign (fp : FP) (a b : Timestamp) : fp.addAssign a b = fp.add a b ∧ fp.subAssign a b = fp.sub a b := ⟨rfl, rfl⟩

/-- A sum of stamps of the supported range is a stamp the library can go on with. -/
theorem add_normal (fp : FP) (a b : Timestamp) (ha : a.Normal) (hb : b.Normal) (ha0 : 0 ≤ a.sec) (hb0 : 0 ≤ b.sec)
    (hs : a.sec + b.sec ≤ 8589934588) : (fp.add a b).Normal ∧ 0 ≤ (fp.add a b).sec := by
  have z : fp.toSec ⟨0, 0⟩ = 0 := by
    have h := fp.exactInt 0 (by norm_num) (by norm_num)
    simp at h
    simp [FP.toSec, h]
  have za := fp.toSec_mono ⟨0, 0⟩ a ⟨le_rfl, by norm_num⟩ ha (by norm_num) (by omega) (by unfold ns; unfold Normal at ha; simp; omega)
  have zb := fp.toSec_mono ⟨0, 0⟩ b ⟨le_rfl, by norm_num⟩ hb (by norm_num) (by omega) (by unfold ns; unfold Normal at hb; simp; omega)
  rw [z] at za zb
  have ea := fp.toSec_err a ha ha0 (by omega)
  have eb := fp.toSec_err b hb hb0 (by omega)
  unfold Normal at ha hb
  have hna : (a.ns : ℚ) = a.sec * 1000000000 + a.nsec := by unfold ns; push_cast; ring
  have hnb : (b.ns : ℚ) = b.sec * 1000000000 + b.nsec := by unfold ns; push_cast; ring
  have q3 : (a.sec:ℚ) + b.sec ≤ 8589934588 := by exact_mod_cast hs
  have q4 : (0:ℚ) ≤ a.nsec ∧ (a.nsec:ℚ) < 1000000000 := by exact_mod_cast ha
  have q5 : (0:ℚ) ≤ b.nsec ∧ (b.nsec:ℚ) < 1000000000 := by exact_mod_cast hb
  unfold FP.add
  set x := fp.toSec a with hx
  set y := fp.toSec b with hy
  rw [abs_le] at ea eb
  have hx1 : x + y ≤ ((8589934591 : ℤ) : ℚ) := by push_cast; linarith [ea.2, eb.2]
  have h1 := fp.mono _ _ hx1
  rw [fp.exactInt _ (by norm_num) (by norm_num)] at h1
  have h0 := fp.rnd_nonneg (x + y) (by linarith)
  have f0 : (0 : ℤ) ≤ ⌊fp.rnd (x + y)⌋ := Int.floor_nonneg.mpr h0
  have f1 : ⌊fp.rnd (x + y)⌋ ≤ 8589934591 := by
    have := Int.floor_le_floor h1
    rwa [Int.floor_intCast] at this
  obtain ⟨n, l, -, -⟩ := c03_fromSec_normal fp _ (by omega) f1
  exact ⟨n, by omega⟩

/-- C65. A clock set to `t` and advanced by any number of steps, one after the other, is off by at most 10 microseconds per step. -/
theorem c65_accumulated (fp : FP) (steps : List Timestamp) (t : Timestamp) (ht : t.Normal) (ht0 : 0 ≤ t.sec)
    (hd : ∀ d ∈ steps, d.Normal ∧ 0 ≤ d.sec)
    (hs : t.ns + (steps.map ns).sum + 10000 * steps.length ≤ 8589934587000000000) :
    |(steps.foldl fp.addAssign t).ns - (t.ns + (steps.map ns).sum)| ≤ 10000 * steps.length := by
  induction steps generalizing t with
  | nil => simp
  | cons d l ih =>
    obtain ⟨dn, d0⟩ := hd d (by simp)
    have hpos : 0 ≤ (l.map ns).sum := by
      apply List.sum_nonneg
      intro x hx
      obtain ⟨e, he, rfl⟩ := List.mem_map.mp hx
      have := hd e (List.mem_cons_of_mem _ he)
      unfold Normal at this
      unfold ns; omega
    simp only [List.map_cons, List.sum_cons, List.length_cons, Nat.cast_add, Nat.cast_one] at hs ⊢
    have hb : t.sec + d.sec ≤ 8589934588 := by unfold ns at hs hpos; unfold Normal at ht dn; omega
    have e := c65_add_error fp t d ht dn ht0 d0 hb
    obtain ⟨n1, n0⟩ := add_normal fp t d ht dn ht0 d0 hb
    rw [abs_le] at e
    have := ih (fp.add t d) n1 n0 (fun x hx => hd x (List.mem_cons_of_mem _ hx)) (by omega)
    rw [abs_le] at this ⊢
    have hf : List.foldl fp.addAssign t (d :: l) = List.foldl fp.addAssign (fp.add t d) l := rfl
    rw [hf]
    omega

/-- C65. The error per step is real: with doubles that round toward zero, a clock at 2^32 seconds does not move when it is advanced by
100 nanoseconds, however often. -/
theorem c65_stalls (n : ℕ) : (List.replicate n (⟨0, 100⟩ : Timestamp)).foldl FP.trunc53.addAssign ⟨4294967296, 0⟩ = ⟨4294967296, 0⟩ := by
  have le : ∀ x : ℚ, 0 < x → FP.trunc53.rnd x ≤ x := fun x hx => by
    show trunc53 x ≤ x
    rw [trunc53_pos x hx]; exact trunc53pos_le x
  have pos : ∀ x : ℚ, 0 < x → 0 < FP.trunc53.rnd x := fun x hx => by
    show 0 < trunc53 x
    rw [trunc53_pos x hx]; exact trunc53pos_pos x hx
  have z : FP.trunc53.rnd 0 = 0 := trunc53_zero
  have one : FP.trunc53.addAssign ⟨4294967296, 0⟩ ⟨0, 100⟩ = ⟨4294967296, 0⟩ := by
    have hT : FP.trunc53.toSec ⟨4294967296, 0⟩ = 4294967296 := by
      have h := FP.trunc53.exactInt 4294967296 (by norm_num) (by norm_num)
      simp only [FP.toSec, Int.cast_zero, mul_zero, z, add_zero, FP.trunc53.idem]
      exact_mod_cast h
    have hd : 0 ≤ FP.trunc53.toSec ⟨0, 100⟩ ∧ FP.trunc53.toSec ⟨0, 100⟩ ≤ 1 / 10000000 := by
      simp only [FP.toSec, Int.cast_zero, z, zero_add, FP.trunc53.idem]
      have a := pos (1/1000000000) (by norm_num)
      have b := le (1/1000000000) (by norm_num)
      have c : (0:ℚ) < FP.trunc53.rnd (1/1000000000) * ((100 : ℤ) : ℚ) := by push_cast; linarith
      exact ⟨(pos _ c).le, (le _ c).trans (by push_cast; linarith)⟩
    unfold FP.addAssign
    rw [hT]
    have key : FP.trunc53.rnd (4294967296 + FP.trunc53.toSec ⟨0, 100⟩) = ((4294967296 : ℤ) : ℚ) := by
      generalize FP.trunc53.toSec ⟨0, 100⟩ = d at hd
      show trunc53 _ = _
      rw [trunc53_pos _ (by linarith)]
      have hl : Int.log 2 (4294967296 + d : ℚ) = 32 := by
        apply le_antisymm
        · have := (Int.lt_zpow_iff_log_lt (b := 2) (R := ℚ) (by norm_num) (x := 33) (r := 4294967296 + d) (by linarith)).mp (by norm_num; linarith [hd.2])
          omega
        · exact (Int.zpow_le_iff_le_log (b := 2) (R := ℚ) (by norm_num) (by linarith)).mp (by norm_num; linarith [hd.1])
      unfold trunc53pos
      rw [hl]
      have : ⌊(4294967296 + d : ℚ) * 2 ^ ((52 : ℤ) - 32)⌋ = 4503599627370496 := by
        rw [Int.floor_eq_iff]
        norm_num
        constructor <;> linarith [hd.1, hd.2]
      rw [this]
      norm_num
    rw [key]
    exact c03_fromSec_int _ _ (by norm_num) (by norm_num)
  induction n with
  | zero => rfl
  | succ n ih => rw [List.replicate_succ, List.foldl_cons, one, ih]

/-- C65. Timestamped data compare like their stamps, whatever they carry. -/
theorem c65_timestamped {α β : Type} (a : Timestamped α) (b : Timestamped β) :
    a.getTimestamp = a.stamp ∧ a.lt b = a.stamp.lt b.stamp ∧ a.eq b = a.stamp.eq b.stamp ∧ a.gt b = a.stamp.gt b.stamp := ⟨rfl, rfl, rfl, rfl⟩

example : |((List.replicate 1000 (⟨0, 5000000⟩ : Timestamp)).foldl FP.trunc53.addAssign ⟨1600000000, 7⟩).ns - (1600000005000000007)| ≤ 10000000 := by
  have h := c65_accumulated FP.trunc53 (List.replicate 1000 ⟨0, 5000000⟩) ⟨1600000000, 7⟩ ⟨by decide, by decide⟩ (by decide)
    (by intro d hd; rw [List.eq_of_mem_replicate hd]; exact ⟨⟨by decide, by decide⟩, by decide⟩)
    (by rw [List.map_replicate, List.sum_replicate, List.length_replicate]; simp [Timestamp.ns])
  rw [List.map_replicate, List.sum_replicate, List.length_replicate] at h
  norm_num [Timestamp.ns] at h
  exact h

end Ikf
