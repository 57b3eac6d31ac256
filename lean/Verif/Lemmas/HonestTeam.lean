import Verif.Spec.HonestTeam
import Verif.Props.Honest
import Verif.Lemmas.Team

/-! # Lemmas for C116 -/

namespace Ikf
namespace Honest
open MeasureTheory Mat

variable {Ω : Type} [MeasurableSpace Ω] {P : Measure Ω} {dim grp : ℕ → ℕ} {ids : Finset ℕ} {c : Central}

/-! ## Linear combinations -/

theorem sum_mem' (V : Submodule ℝ (Ω → ℝ)) {ι : Type*} (s : Finset ι) (f : ι → Ω → ℝ) (h : ∀ k ∈ s, f k ∈ V) : (fun ω => ∑ k ∈ s, f k ω) ∈ V := by
  have : (fun ω => ∑ k ∈ s, f k ω) = ∑ k ∈ s, f k := by funext ω; simp
  rw [this]
  exact V.sum_mem h

theorem lin_mem (V : Submodule ℝ (Ω → ℝ)) {ι : Type*} (s : Finset ι) (a : ι → ℝ) (f : ι → Ω → ℝ) (h : ∀ k ∈ s, f k ∈ V) :
    (fun ω => ∑ k ∈ s, a k * f k ω) ∈ V := sum_mem' V s _ fun k hk => V.smul_mem (a k) (h k hk)

/-- The random variables that are uncorrelated with `g`. -/
def orth (P : Measure Ω) (g : Ω → ℝ) (hg : g ∈ sq2 P) : Submodule ℝ (Ω → ℝ) where
  carrier := {s | s ∈ sq2 P ∧ ∫ ω, s ω * g ω ∂P = 0}
  add_mem' {a b} h1 h2 := by
    refine ⟨(sq2 P).add_mem h1.1 h2.1, ?_⟩
    have : (fun ω => (a + b) ω * g ω) = fun ω => a ω * g ω + b ω * g ω := by funext ω; simp [_root_.add_mul]
    rw [this, integral_add (l2_int h1.1 hg) (l2_int h2.1 hg), h1.2, h2.2, add_zero]
  zero_mem' := ⟨(sq2 P).zero_mem, by simp⟩
  smul_mem' r a h := by
    refine ⟨(sq2 P).smul_mem r h.1, ?_⟩
    have : (fun ω => (r • a) ω * g ω) = fun ω => r * (a ω * g ω) := by funext ω; simp; ring
    rw [this, integral_const_mul, h.2, mul_zero]

theorem orth_comm {a b : Ω → ℝ} {ha : a ∈ sq2 P} {hb : b ∈ sq2 P} (h : a ∈ orth P b hb) : b ∈ orth P a ha := by
  refine ⟨hb, ?_⟩
  rw [← h.2]
  exact integral_congr_ae (Filter.Eventually.of_forall fun ω => mul_comm _ _)

theorem int_sq_add {a b : Ω → ℝ} (ha : a ∈ sq2 P) (hb : b ∈ sq2 P) (h : a ∈ orth P b hb) :
    ∫ ω, (a ω + b ω) ^ 2 ∂P = ∫ ω, a ω ^ 2 ∂P + ∫ ω, b ω ^ 2 ∂P := by
  have h1 : ∀ ω, (a ω + b ω) ^ 2 = a ω * a ω + (2 * (a ω * b ω) + b ω * b ω) := fun ω => by ring
  have i1 := l2_int ha ha
  have i2 := (l2_int ha hb).const_mul 2
  have i3 := l2_int hb hb
  have i23 : Integrable (fun ω => 2 * (a ω * b ω) + b ω * b ω) P := i2.add i3
  rw [integral_congr_ae (Filter.Eventually.of_forall h1), integral_add i1 i23, integral_add i2 i3, integral_const_mul, h.2]
  simp only [sq, mul_zero, zero_add]

/-- The combination `y` of the errors. -/
def comb (dim : ℕ → ℕ) (ids : Finset ℕ) (y : ℕ → ℕ → ℝ) (e : ℕ → RVec Ω) (ω : Ω) : ℝ := ∑ p ∈ ids, ∑ i ∈ Finset.range (dim p), y p i * e p ω i

theorem comb_mem (V : Submodule ℝ (Ω → ℝ)) (y : ℕ → ℕ → ℝ) (e : ℕ → RVec Ω)
    (h : ∀ p ∈ ids, (∃ i, y p i ≠ 0) → ∀ i < dim p, (fun ω => e p ω i) ∈ V) : comb dim ids y e ∈ V := by
  refine sum_mem' V ids _ fun p hp => ?_
  by_cases hy : ∃ i, y p i ≠ 0
  · exact lin_mem V _ (y p) (fun i ω => e p ω i) fun i hi => h p hp hy i (Finset.mem_range.mp hi)
  · push Not at hy
    have : (fun ω => ∑ i ∈ Finset.range (dim p), y p i * e p ω i) = 0 := by
      funext ω
      simp [hy]
    rw [this]
    exact V.zero_mem

/-- What is kept: the covariances cover the errors; errors of different groups are uncorrelated; later noises are uncorrelated with the errors. -/
structure HInv (P : Measure Ω) (dim grp : ℕ → ℕ) (ids : Finset ℕ) (C : ℕ → ℕ → Mat) (e : ℕ → RVec Ω) (l : List (ℕ × RVec Ω)) : Prop where
  cov : Covers P dim ids C e
  apart : ∀ p ∈ ids, ∀ q ∈ ids, grp p ≠ grp q → Uncorr P (dim p, e p) (dim q, e q)
  later : ∀ ν ∈ l, ∀ p ∈ ids, Uncorr P (dim p, e p) ν

theorem HInv.congr {C D : ℕ → ℕ → Mat} {e : ℕ → RVec Ω} {l : List (ℕ × RVec Ω)} (h : HInv P dim grp ids C e l)
    (hc : ∀ p ∈ ids, ∀ q ∈ ids, D p q = C p q) : HInv P dim grp ids D e l := by
  refine ⟨⟨h.cov.1, fun y => (h.cov.2 y).trans (le_of_eq ?_)⟩, h.apart, h.later⟩
  exact Finset.sum_congr rfl fun p hp => Finset.sum_congr rfl fun q hq => by rw [hc p hp q hq]

/-- The new errors are made of the old errors of the same group and of the noise. -/
theorem HInv.rest {C : ℕ → ℕ → Mat} {e e' : ℕ → RVec Ω} {ν : ℕ × RVec Ω} {l : List (ℕ × RVec Ω)} (h : HInv P dim grp ids C e (ν :: l))
    (hν : ∀ k < ν.1, (fun ω => ν.2 ω k) ∈ sq2 P) (hl : ∀ μ ∈ l, (∀ k < μ.1, (fun ω => μ.2 ω k) ∈ sq2 P) ∧ Uncorr P ν μ) (g : ℕ)
    (he : ∀ p ∈ ids, ∀ V : Submodule ℝ (Ω → ℝ), (∀ q ∈ ids, grp q = grp p → ∀ i < dim q, (fun ω => e q ω i) ∈ V) →
      (grp p = g → ∀ k < ν.1, (fun ω => ν.2 ω k) ∈ V) → ∀ i < dim p, (fun ω => e' p ω i) ∈ V) :
    (∀ p ∈ ids, ∀ i < dim p, MemLp (fun ω => e' p ω i) 2 P) ∧
    (∀ p ∈ ids, ∀ q ∈ ids, grp p ≠ grp q → Uncorr P (dim p, e' p) (dim q, e' q)) ∧
    (∀ μ ∈ l, ∀ p ∈ ids, Uncorr P (dim p, e' p) μ) := by
  have l2 : ∀ p ∈ ids, ∀ i < dim p, (fun ω => e' p ω i) ∈ sq2 P := fun p hp => he p hp _ (fun q hq _ => h.cov.1 q hq) fun _ => hν
  refine ⟨l2, fun p hp q hq hg => ?_, fun μ hμ p hp i hi j hj => ?_⟩
  · have key : ∀ p ∈ ids, ∀ q ∈ ids, grp p ≠ grp q → grp q ≠ g → Uncorr P (dim p, e' p) (dim q, e' q) := by
      intro p hp q hq hg hqg i hi j hj
      have h1 : (fun ω => e' p ω i) ∈ orth P (fun ω => e' q ω j) (l2 q hq j hj) := by
        refine he p hp _ (fun p' hp' hgp i' hi' => ?_) (fun _ k hk => ?_) i hi
        · refine orth_comm (he q hq (orth P (fun ω => e p' ω i') (h.cov.1 p' hp' i' hi')) (fun q' hq' hgq j' hj' => ?_) (fun e => absurd e hqg) j hj)
          exact ⟨h.cov.1 q' hq' j' hj', h.apart q' hq' p' hp' (by rw [hgq, hgp]; exact fun e => hg e.symm) j' hj' i' hi'⟩
        · refine orth_comm (he q hq (orth P (fun ω => ν.2 ω k) (hν k hk)) (fun q' hq' hgq j' hj' => ?_) (fun e => absurd e hqg) j hj)
          exact ⟨h.cov.1 q' hq' j' hj', h.later ν List.mem_cons_self q' hq' j' hj' k hk⟩
      exact h1.2
    by_cases hqg : grp q = g
    · intro i hi j hj
      have := key q hq p hp (fun e => hg e.symm) (fun e => hg (e.trans hqg.symm)) j hj i hi
      rw [← this]
      exact integral_congr_ae (Filter.Eventually.of_forall fun ω => mul_comm _ _)
    · exact key p hp q hq hg hqg
  · have hm := hl μ hμ
    exact (he p hp (orth P (fun ω => μ.2 ω j) (hm.1 j hj)) (fun q hq _ i' hi' => ⟨h.cov.1 q hq i' hi', h.later μ (List.mem_cons_of_mem _ hμ) q hq i' hi' j hj⟩)
      (fun _ k hk => ⟨hν k hk, hm.2 k hk j hj⟩) i hi).2

/-! ## One instance: its error is multiplied and noise is added -/

theorem HInv.transform {e e' : ℕ → RVec Ω} {ν : ℕ × RVec Ω} {l : List (ℕ × RVec Ω)} (h : HInv P dim grp ids c.cov e (ν :: l))
    (hs : ∀ p ∈ ids, ∀ q ∈ ids, (c.cov p q).Shape (dim p) (dim q))
    (hν : ∀ k < ν.1, (fun ω => ν.2 ω k) ∈ sq2 P) (hl : ∀ μ ∈ l, (∀ k < μ.1, (fun ω => μ.2 ω k) ∈ sq2 P) ∧ Uncorr P ν μ)
    {id : ℕ} (hid : id ∈ ids) {F S m : Mat} {B : ℕ → ℕ → ℝ} {t : Int} {fx : Bool}
    (he : ∀ ω, ∀ i < dim id, e' id ω i = ∑ k ∈ Finset.range (dim id), F.e i k * e id ω k + ∑ k ∈ Finset.range ν.1, B i k * ν.2 ω k)
    (he' : ∀ p ∈ ids, p ≠ id → ∀ ω, ∀ i < dim p, e' p ω i = e p ω i)
    (hP : ∀ x : ℕ → ℝ, bil (F * c.cov id id * F.tr) (dim id) (dim id) x x +
      ∫ ω, (∑ k ∈ Finset.range ν.1, (∑ i ∈ Finset.range (dim id), x i * B i k) * ν.2 ω k) ^ 2 ∂P ≤ bil S (dim id) (dim id) x x) :
    HInv P dim grp ids (c.transform id F m S t fx).cov e' l := by
  obtain ⟨r1, r2, r3⟩ := h.rest (e' := e') hν hl (grp id) (by
    intro p hp V h1 h2 i hi
    by_cases hpi : p = id
    · subst hpi
      have : (fun ω => e' p ω i) = fun ω => ∑ k ∈ Finset.range (dim p), F.e i k * e p ω k + ∑ k ∈ Finset.range ν.1, B i k * ν.2 ω k := by
        funext ω; exact he ω i hi
      rw [this]
      exact V.add_mem (lin_mem V _ (F.e i) (fun k ω => e p ω k) fun k hk => h1 p hp rfl k (Finset.mem_range.mp hk))
        (lin_mem V _ (B i) (fun k ω => ν.2 ω k) fun k hk => h2 rfl k (Finset.mem_range.mp hk))
    · have : (fun ω => e' p ω i) = fun ω => e p ω i := by funext ω; exact he' p hp hpi ω i hi
      rw [this]
      exact h1 p hp rfl i hi)
  refine ⟨⟨r1, fun x => ?_⟩, r2, r3⟩
  let y : ℕ → ℕ → ℝ := fun p => if p = id then pull F (dim id) (x id) else x p
  let N : Ω → ℝ := fun ω => ∑ k ∈ Finset.range ν.1, (∑ i ∈ Finset.range (dim id), x id i * B i k) * ν.2 ω k
  have hN : N ∈ sq2 P := lin_mem _ _ (fun k => ∑ i ∈ Finset.range (dim id), x id i * B i k) (fun k ω => ν.2 ω k) fun k hk => hν k (Finset.mem_range.mp hk)
  have hc : ∀ ω, ∑ p ∈ ids, ∑ i ∈ Finset.range (dim p), x p i * e' p ω i = comb dim ids y e ω + N ω := by
    intro ω
    have h1 : ∀ p ∈ ids, ∑ i ∈ Finset.range (dim p), x p i * e' p ω i =
        ∑ i ∈ Finset.range (dim p), y p i * e p ω i + if p = id then N ω else 0 := by
      intro p hp
      by_cases hpi : p = id
      · subst hpi
        simp only [y, if_true, N, pull]
        rw [Finset.sum_congr rfl fun i hi => by rw [he ω i (Finset.mem_range.mp hi), _root_.mul_add, Finset.mul_sum, Finset.mul_sum], Finset.sum_add_distrib]
        congr 1
        · rw [Finset.sum_comm]
          refine Finset.sum_congr rfl fun k _ => ?_
          rw [Finset.sum_mul]
          exact Finset.sum_congr rfl fun i _ => by ring
        · rw [Finset.sum_comm]
          refine Finset.sum_congr rfl fun k _ => ?_
          rw [Finset.sum_mul]
          exact Finset.sum_congr rfl fun i _ => by ring
      · simp only [y, if_neg hpi, add_zero]
        exact Finset.sum_congr rfl fun i hi => by rw [he' p hp hpi ω i (Finset.mem_range.mp hi)]
    rw [Finset.sum_congr rfl h1, Finset.sum_add_distrib, Finset.sum_ite_eq' ids id, if_pos hid]
    rfl
  have hcm : comb dim ids y e ∈ orth P N hN := by
    refine comb_mem _ y e fun p hp _ i hi => orth_comm (lin_mem (orth P (fun ω => e p ω i) (h.cov.1 p hp i hi)) _ _ (fun k ω => ν.2 ω k) fun k hk => ?_)
    refine ⟨hν k (Finset.mem_range.mp hk), ?_⟩
    rw [← h.later ν List.mem_cons_self p hp i hi k (Finset.mem_range.mp hk)]
    exact integral_congr_ae (Filter.Eventually.of_forall fun ω => mul_comm _ _)
  unfold meanSq
  simp only [hc]
  rw [int_sq_add hcm.1 hN hcm]
  have hδ : ∫ ω, N ω ^ 2 ∂P = ∑ p ∈ ids, ∑ q ∈ ids, if p = id ∧ q = id then ∫ ω, N ω ^ 2 ∂P else 0 := by
    rw [Finset.sum_eq_single_of_mem id hid (fun p _ hp => Finset.sum_eq_zero fun q _ => by rw [if_neg (fun e => hp e.1)]),
      Finset.sum_eq_single_of_mem id hid (fun q _ hq => by rw [if_neg (fun e => hq e.2)]), if_pos ⟨rfl, rfl⟩]
  refine (add_le_add (h.cov.2 y) (le_of_eq hδ)).trans ?_
  rw [← Finset.sum_add_distrib]
  refine Finset.sum_le_sum fun p hp => ?_
  rw [← Finset.sum_add_distrib]
  refine Finset.sum_le_sum fun q hq => ?_
  simp only [Central.transform, y]
  by_cases h1 : p = id
  · subst h1
    by_cases h2 : q = p
    · subst h2
      rw [if_pos rfl, if_pos ⟨rfl, rfl⟩, if_pos ⟨rfl, rfl⟩]
      refine le_trans (le_of_eq ?_) (hP (x q))
      rw [Mat.mul_assoc, bil_mul_left _ _ _ _ (by rw [mul_rows, (hs q hq q hq).1]), bil_mul_right _ _ _ _ (by rw [(hs q hq q hq).2])]
    · rw [if_pos rfl, if_neg h2, if_neg (fun e => h2 e.2), if_neg (fun e => h2 e.2), if_pos rfl, bil_mul_left _ _ _ _ (by rw [(hs p hp q hq).1]), add_zero]
  · by_cases h2 : q = id
    · subst h2
      rw [if_neg h1, if_pos rfl, if_neg (fun e => h1 e.1), if_neg (fun e => h1 e.1), if_neg h1, if_pos rfl,
        bil_mul_right _ _ _ _ (by rw [(hs p hp q hq).2]), add_zero]
    · rw [if_neg h1, if_neg h2, if_neg (fun e => h1 e.1), if_neg (fun e => h1 e.1), if_neg h1, if_neg h2, add_zero]

/-! ## Several instances together -/

theorem stackV_cover {bs : List (ℕ × ℕ)} (hn : (bs.map (·.1)).Nodup) {k : ℕ} (hk : k < tot bs) :
    ∃ b ∈ bs, ∃ i < b.2, k = off bs b.1 + i ∧ ∀ x : ℕ → ℕ → ℝ, stackV bs x k = x b.1 i := by
  induction bs generalizing k with
  | nil => simp [tot] at hk
  | cons b r ih =>
    rw [List.map_cons, List.nodup_cons] at hn
    by_cases h1 : k < b.2
    · exact ⟨b, List.mem_cons_self, k, h1, by rw [off, if_pos rfl, Nat.zero_add], fun x => by rw [stackV, if_pos h1]⟩
    · rw [tot] at hk
      obtain ⟨d, hd, i, hi, e1, e2⟩ := ih hn.2 (k := k - b.2) (by omega)
      have hne : b.1 ≠ d.1 := fun e => hn.1 (by rw [e]; exact List.mem_map.mpr ⟨d, hd, rfl⟩)
      exact ⟨d, List.mem_cons_of_mem _ hd, i, hi, by rw [off, if_neg hne]; omega, fun x => by rw [stackV, if_neg h1, e2]⟩

theorem sum_stack' {bs : List (ℕ × ℕ)} (hb : ∀ b ∈ bs, b.2 = dim b.1) (hn : (bs.map (·.1)).Nodup) (x : ℕ → ℕ → ℝ) (f : ℕ → ℝ) :
    ∑ k ∈ Finset.range (tot bs), f k * stackV bs x k = ∑ p ∈ (bs.map (·.1)).toFinset, ∑ i ∈ Finset.range (dim p), f (off bs p + i) * x p i := by
  rw [sum_stack bs hn x fun k v => f k * v]
  exact map_sum_toFinset hb hn fun p n => ∑ i ∈ Finset.range n, f (off bs p + i) * x p i

/-- The stack of the errors. -/
def stackE (bs : List (ℕ × ℕ)) (e : ℕ → RVec Ω) (ω : Ω) (k : ℕ) : ℝ := stackV bs (fun p i => e p ω i) k

theorem HInv.stacked {C : ℕ → ℕ → Mat} {e : ℕ → RVec Ω} {l : List (ℕ × RVec Ω)} (h : HInv P dim grp ids C e l) {bs : List (ℕ × ℕ)}
    (hb : ∀ b ∈ bs, b.2 = dim b.1) (hn : (bs.map (·.1)).Nodup) (hin : ∀ p ∈ bs.map (·.1), p ∈ ids) {S : Mat} (hS : StackedCov bs C S) :
    (∀ k < tot bs, (fun ω => stackE bs e ω k) ∈ sq2 P) ∧
    ∀ s : ℕ → ℝ, ∫ ω, (∑ k ∈ Finset.range (tot bs), s k * stackE bs e ω k) ^ 2 ∂P ≤ bil S (tot bs) (tot bs) s s := by
  classical
  constructor
  · intro k hk
    obtain ⟨b, hbm, i, hi, -, hx⟩ := stackV_cover hn hk
    have : (fun ω => stackE bs e ω k) = fun ω => e b.1 ω i := by funext ω; exact hx _
    rw [this]
    exact h.cov.1 b.1 (hin _ (List.mem_map.mpr ⟨b, hbm, rfl⟩)) i (by rw [← hb b hbm]; exact hi)
  · intro s
    set B := (bs.map (·.1)).toFinset with hB
    have hBi : B ⊆ ids := fun p hp => hin p (List.mem_toFinset.mp hp)
    let y : ℕ → ℕ → ℝ := fun p i => if p ∈ B then s (off bs p + i) else 0
    have h1 : ∀ ω, ∑ k ∈ Finset.range (tot bs), s k * stackE bs e ω k = ∑ p ∈ ids, ∑ i ∈ Finset.range (dim p), y p i * e p ω i := by
      intro ω
      unfold stackE
      rw [sum_stack' hb hn]
      refine (Finset.sum_congr rfl fun p hp => Finset.sum_congr rfl fun i _ => ?_).trans (Finset.sum_subset hBi fun p _ hp => ?_)
      · have hp' : p ∈ B := hp
        simp only [y, if_pos hp']
      · have hp' : p ∉ B := hp
        simp only [y, if_neg hp', zero_mul, Finset.sum_const_zero]
    have h2 : bil S (tot bs) (tot bs) s s = ∑ p ∈ ids, ∑ q ∈ ids, bil (C p q) (dim p) (dim q) (y p) (y q) := by
      have e1 : bil S (tot bs) (tot bs) s s = bil S (tot bs) (tot bs) (stackV bs y) (stackV bs y) := by
        have hk : ∀ k < tot bs, stackV bs y k = s k := by
          intro k hk
          obtain ⟨b, hbm, i, hi, e1, hx⟩ := stackV_cover hn hk
          rw [hx, e1]
          simp only [y]
          rw [if_pos (List.mem_toFinset.mpr (List.mem_map.mpr ⟨b, hbm, rfl⟩))]
        unfold bil
        refine Finset.sum_congr rfl fun i hi => Finset.sum_congr rfl fun j hj => ?_
        rw [hk i (Finset.mem_range.mp hi), hk j (Finset.mem_range.mp hj)]
      rw [e1, bil_stack' hb hn]
      have z : ∀ p, p ∉ B → ∀ i, y p i = 0 := fun p hp i => if_neg hp
      refine (Finset.sum_congr rfl fun p hp => ?_).trans (Finset.sum_subset hBi fun p _ hp => ?_)
      · refine (Finset.sum_congr rfl fun q hq => ?_).trans (Finset.sum_subset hBi fun q _ hq => ?_)
        · refine bil_congr (fun i hi j hj => ?_) _ _
          obtain ⟨b, hbm, rfl⟩ := List.mem_map.mp (List.mem_toFinset.mp hp)
          obtain ⟨d, hdm, rfl⟩ := List.mem_map.mp (List.mem_toFinset.mp hq)
          rw [block_e, if_pos ⟨hi, hj⟩]
          exact hS.2 b hbm d hdm i (by rw [hb b hbm]; exact hi) j (by rw [hb d hdm]; exact hj)
        · exact bil_zero_right _ _ _ _ (z q hq)
      · exact Finset.sum_eq_zero fun q _ => bil_zero_left _ _ _ (z p hp) _
    simp only [h1]
    rw [h2]
    exact h.cov.2 y

theorem HInv.joint {e e' : ℕ → RVec Ω} {ν : ℕ × RVec Ω} {l : List (ℕ × RVec Ω)} (h : HInv P dim grp ids c.cov e (ν :: l))
    (hν : ∀ k < ν.1, (fun ω => ν.2 ω k) ∈ sq2 P) (hl : ∀ μ ∈ l, (∀ k < μ.1, (fun ω => μ.2 ω k) ∈ sq2 P) ∧ Uncorr P ν μ)
    (hz : ∀ p ∈ ids, ∀ q ∈ ids, grp p ≠ grp q → ∀ i j, (c.cov p q).e i j = 0)
    {bs : List (ℕ × ℕ)} (hb : ∀ b ∈ bs, b.2 = dim b.1) (hn : (bs.map (·.1)).Nodup) {g : ℕ} (hg : ∀ p, p ∈ bs.map (·.1) ↔ p ∈ ids ∧ grp p = g)
    {S dx : Mat} {U B : ℕ → ℕ → ℝ} {E' : Ω → ℕ → ℝ}
    (hE : ∀ ω, ∀ k < tot bs, E' ω k = ∑ j ∈ Finset.range (tot bs), U k j * stackE bs e ω j + ∑ j ∈ Finset.range ν.1, B k j * ν.2 ω j)
    (he : ∀ p ∈ bs.map (·.1), ∀ ω, ∀ i < dim p, e' p ω i = E' ω (off bs p + i))
    (he' : ∀ p ∈ ids, p ∉ bs.map (·.1) → ∀ ω, ∀ i < dim p, e' p ω i = e p ω i)
    (hP : ∀ s : ℕ → ℝ, ∫ ω, (∑ k ∈ Finset.range (tot bs), s k * E' ω k) ^ 2 ∂P ≤ bil S (tot bs) (tot bs) s s) :
    HInv P dim grp ids (c.joint bs S dx).cov e' l := by
  classical
  have hE' : ∀ V : Submodule ℝ (Ω → ℝ), (∀ q ∈ ids, grp q = g → ∀ i < dim q, (fun ω => e q ω i) ∈ V) → (∀ k < ν.1, (fun ω => ν.2 ω k) ∈ V) →
      ∀ k < tot bs, (fun ω => E' ω k) ∈ V := by
    intro V h1 h2 k hk
    have : (fun ω => E' ω k) = fun ω => ∑ j ∈ Finset.range (tot bs), U k j * stackE bs e ω j + ∑ j ∈ Finset.range ν.1, B k j * ν.2 ω j := by
      funext ω; exact hE ω k hk
    rw [this]
    refine V.add_mem (lin_mem V _ (U k) (fun j ω => stackE bs e ω j) fun j hj => ?_) (lin_mem V _ (B k) (fun j ω => ν.2 ω j) fun j hj => h2 j (Finset.mem_range.mp hj))
    obtain ⟨b, hbm, i, hi, -, hx⟩ := stackV_cover hn (Finset.mem_range.mp hj)
    have hbg := (hg b.1).mp (List.mem_map.mpr ⟨b, hbm, rfl⟩)
    have e1 : (fun ω => stackE bs e ω j) = fun ω => e b.1 ω i := by funext ω; exact hx _
    rw [e1]
    exact h1 b.1 hbg.1 hbg.2 i (by rw [← hb b hbm]; exact hi)
  have hoff : ∀ p ∈ bs.map (·.1), ∀ i < dim p, off bs p + i < tot bs := by
    intro p hp i hi
    obtain ⟨b, hbm, rfl⟩ := List.mem_map.mp hp
    have := off_add_le hn hbm
    rw [hb b hbm] at this
    omega
  obtain ⟨r1, r2, r3⟩ := h.rest (e' := e') hν hl g (by
    intro p hp V h1 h2 i hi
    by_cases hpi : p ∈ bs.map (·.1)
    · have hpg := ((hg p).mp hpi).2
      have : (fun ω => e' p ω i) = fun ω => E' ω (off bs p + i) := by funext ω; exact he p hpi ω i hi
      rw [this]
      exact hE' V (fun q hq hgq => h1 q hq (hgq.trans hpg.symm)) (h2 hpg) _ (hoff p hpi i hi)
    · have : (fun ω => e' p ω i) = fun ω => e p ω i := by funext ω; exact he' p hp hpi ω i hi
      rw [this]
      exact h1 p hp rfl i hi)
  refine ⟨⟨r1, fun x => ?_⟩, r2, r3⟩
  have hz' : ∀ p ∈ ids, ∀ q ∈ ids, p ∈ bs.map (·.1) → q ∉ bs.map (·.1) → ∀ i j, (c.cov p q).e i j = 0 ∧ (c.cov q p).e i j = 0 := by
    intro p hp q hq h1 h2 i j
    have hne : grp p ≠ grp q := by
      rw [((hg p).mp h1).2]
      exact fun e => h2 ((hg q).mpr ⟨hq, e.symm⟩)
    exact ⟨hz p hp q hq hne i j, hz q hq p hp (fun e => hne e.symm) i j⟩
  rw [joint_form hb hn hz']
  set Bf := (bs.map (·.1)).toFinset with hBf
  have hBi : Bf ⊆ ids := fun p hp => ((hg p).mp (List.mem_toFinset.mp hp)).1
  let x1 : ℕ → ℕ → ℝ := fun p i => if p ∈ ids then x p i else 0
  let x2 : ℕ → ℕ → ℝ := fun p i => if p ∈ Bf then 0 else x p i
  have hc : ∀ ω, ∑ p ∈ ids, ∑ i ∈ Finset.range (dim p), x p i * e' p ω i =
      ∑ k ∈ Finset.range (tot bs), stackV bs x1 k * E' ω k + comb dim ids x2 e ω := by
    intro ω
    have h1 : ∀ p ∈ ids, ∑ i ∈ Finset.range (dim p), x p i * e' p ω i =
        (if p ∈ Bf then ∑ i ∈ Finset.range (dim p), E' ω (off bs p + i) * x1 p i else 0) + ∑ i ∈ Finset.range (dim p), x2 p i * e p ω i := by
      intro p hp
      by_cases hpb : p ∈ Bf
      · simp only [x1, x2, if_pos hpb, if_pos hp, zero_mul, Finset.sum_const_zero, add_zero]
        exact Finset.sum_congr rfl fun i hi => by rw [he p (List.mem_toFinset.mp hpb) ω i (Finset.mem_range.mp hi), mul_comm]
      · simp only [x2, if_neg hpb, zero_add]
        exact Finset.sum_congr rfl fun i hi => by rw [he' p hp (fun e => hpb (List.mem_toFinset.mpr e)) ω i (Finset.mem_range.mp hi)]
    rw [Finset.sum_congr rfl h1, Finset.sum_add_distrib]
    congr 1
    rw [Finset.sum_congr rfl fun k _ => mul_comm (stackV bs x1 k) (E' ω k), sum_stack' hb hn, ← Finset.sum_filter, Finset.filter_mem_eq_inter,
      Finset.inter_eq_right.mpr hBi]
  have hx2 : comb dim ids x2 e ∈ sq2 P := comb_mem _ _ _ fun p hp _ => h.cov.1 p hp
  have hl1 : (fun ω => ∑ k ∈ Finset.range (tot bs), stackV bs x1 k * E' ω k) ∈ orth P (comb dim ids x2 e) hx2 := by
    refine lin_mem _ _ (stackV bs x1) (fun k ω => E' ω k) fun k hk => hE' _ (fun q hq hgq i hi => ?_) (fun j hj => ?_) k (Finset.mem_range.mp hk)
    · refine orth_comm (comb_mem (orth P (fun ω => e q ω i) (h.cov.1 q hq i hi)) x2 e fun p hp hy i' hi' => ?_)
      obtain ⟨j, hj⟩ := hy
      have hpb : p ∉ Bf := fun hpb => hj (if_pos hpb)
      have hpg : grp p ≠ g := fun e => hpb (List.mem_toFinset.mpr ((hg p).mpr ⟨hp, e⟩))
      exact ⟨h.cov.1 p hp i' hi', h.apart p hp q hq (by rw [hgq]; exact hpg) i' hi' i hi⟩
    · exact orth_comm (comb_mem (orth P (fun ω => ν.2 ω j) (hν j hj)) x2 e fun p hp _ i' hi' =>
        ⟨h.cov.1 p hp i' hi', h.later ν List.mem_cons_self p hp i' hi' j hj⟩)
  unfold meanSq
  simp only [hc]
  rw [int_sq_add hl1.1 hx2 hl1]
  exact add_le_add (hP _) (h.cov.2 x2)

end Honest
end Ikf
