import Verif.Props.HistBuffer
import Verif.Lemmas.FpErr
import Verif.Lemmas.FloatInstance

/-! # Properties C07 (closest element), C15, C16 (time horizon) -/

namespace Ikf
variable {α : Type _}

/-! ## C07 -/

/-- C07. `get_closest_t` fails only on an empty buffer, returns the element at `t` if there is one,
otherwise one of the two neighbours; with two neighbours, the chosen one's distance (as computed by
Timestamp subtraction, in whatever rounding) is not larger than the other's. -/
theorem c07_closest (fp : FP) (b : Buf α) (h : b.StrictKeys) (t : Timestamp) (key : Int) :
    (Buf.getClosest fp b t key = none ↔ b = []) ∧
    ((∃ e ∈ b, e.1 = key) → ∀ e, Buf.getClosest fp b t key = some e ↔ e ∈ b ∧ e.1 = key) ∧
    ((¬ ∃ e ∈ b, e.1 = key) → ∀ e, Buf.getClosest fp b t key = some e →
      (Buf.getBefore b key = some e ∧ ∀ ea, Buf.getAfter b key = some ea →
        Timestamp.lt (fp.sub t (Timestamp.ofStampNs e.1)) (fp.sub (Timestamp.ofStampNs ea.1) t) = true)
      ∨ (Buf.getAfter b key = some e ∧ ∀ eb, Buf.getBefore b key = some eb →
        Timestamp.lt (fp.sub t (Timestamp.ofStampNs eb.1)) (fp.sub (Timestamp.ofStampNs e.1) t) = false)) := by
  obtain ⟨hb1, hb2⟩ := c06_get_before b h key
  obtain ⟨ha1, ha2⟩ := c06_get_after b h key
  obtain ⟨hx1, hx2, hx3⟩ := c06_exists b h key
  have hB : Buf.existBefore b key = true ↔ Buf.getBefore b key ≠ none := by
    rw [hx3, Ne, hb1]; push Not; rfl
  have hA : Buf.existAfter b key = true ↔ Buf.getAfter b key ≠ none := by
    rw [hx2, Ne, ha1]; push Not; rfl
  by_cases hne : b = []
  · subst hne; simp [Buf.getClosest]
  have hne' : b.isEmpty = false := by simpa using hne
  by_cases hat : Buf.existAt b key = true
  · have hc : Buf.getClosest fp b t key = Buf.getAt b key := by
      unfold Buf.getClosest; rw [if_neg (by simp [hne]), if_pos hat]
    have hex := hx1.mp hat
    refine ⟨?_, ?_, fun hno => absurd hex hno⟩
    · rw [hc, Buf.getAt_eq_none]
      simp only [hne, iff_false]
      push Not
      exact hex
    · intro _ e; rw [hc, Buf.getAt_eq_some b h]
  · have hnex : ¬ ∃ e ∈ b, e.1 = key := fun hc => hat (hx1.mpr hc)
    obtain ⟨x, hx⟩ := List.exists_mem_of_ne_nil b hne
    have hside : Buf.getBefore b key ≠ none ∨ Buf.getAfter b key ≠ none := by
      by_contra hc
      push Not at hc
      have h1 := hb1.mp hc.1 x hx
      have h2 := ha1.mp hc.2 x hx
      exact hnex ⟨x, hx, by omega⟩
    have hcl : Buf.getClosest fp b t key =
        match Buf.getBefore b key, Buf.getAfter b key with
        | some eb, some ea =>
          if Timestamp.lt (fp.sub t (Timestamp.ofStampNs eb.1)) (fp.sub (Timestamp.ofStampNs ea.1) t)
          then some eb else some ea
        | some eb, none => some eb
        | none, some ea => some ea
        | none, none => none := by
      unfold Buf.getClosest
      rw [if_neg (by simp [hne]), if_neg hat]
      cases hgb : Buf.getBefore b key with
      | none =>
        have : Buf.existBefore b key = false := by
          rw [← Bool.not_eq_true, hB, hgb]; simp
        cases hga : Buf.getAfter b key with
        | none =>
          have h2 : Buf.existAfter b key = false := by rw [← Bool.not_eq_true, hA, hga]; simp
          simp [this, h2]
        | some ea =>
          have h2 : Buf.existAfter b key = true := by rw [hA, hga]; simp
          simp [this, h2]
      | some eb =>
        have : Buf.existBefore b key = true := by rw [hB, hgb]; simp
        cases hga : Buf.getAfter b key with
        | none =>
          have h2 : Buf.existAfter b key = false := by rw [← Bool.not_eq_true, hA, hga]; simp
          simp [this, h2]
        | some ea =>
          have h2 : Buf.existAfter b key = true := by rw [hA, hga]; simp
          simp [this, h2]
    refine ⟨?_, fun hex => absurd hex hnex, ?_⟩
    · simp only [hne, iff_false]
      rw [hcl]
      cases hgb : Buf.getBefore b key <;> cases hga : Buf.getAfter b key <;> simp_all
      split <;> simp
    · intro _ e he
      rw [hcl] at he
      cases hgb : Buf.getBefore b key with
      | none =>
        cases hga : Buf.getAfter b key with
        | none => rw [hgb, hga] at he; simp at he
        | some ea => rw [hgb, hga] at he; simp at he; subst he; right; simp
      | some eb =>
        cases hga : Buf.getAfter b key with
        | none => rw [hgb, hga] at he; simp at he; subst he; left; simp
        | some ea =>
          rw [hgb, hga] at he
          simp only at he
          split at he
          · rename_i hlt; simp at he; subst he; left; simp; exact hlt
          · rename_i hlt; simp at he; subst he; right; simp; simpa using hlt

/-- Computed time difference in nanoseconds: within 8 microseconds of the exact one, for stamps up
to 8589934590 s. -/
theorem sub_err (fp : FP) (a c : Timestamp) (ha : a.Normal) (hc : c.Normal)
    (ha0 : 0 ≤ a.sec) (ha1 : a.sec ≤ 8589934590) (hc0 : 0 ≤ c.sec) (hc1 : c.sec ≤ 8589934590) :
    (fp.sub a c).Normal ∧ |((fp.sub a c).ns : ℚ) - ((a.ns : ℚ) - c.ns)| ≤ 8000 := by
  have e1 := fp.toSec_err a ha ha0 (by omega)
  have e2 := fp.toSec_err c hc hc0 (by omega)
  have hnb : ∀ t : Timestamp, t.Normal → 0 ≤ t.sec → t.sec ≤ 8589934590 →
      (0:ℚ) ≤ (t.ns : ℚ)/1000000000 ∧ (t.ns:ℚ)/1000000000 ≤ 8589934591 := by
    intro t hn h0 h1
    unfold Timestamp.Normal at hn
    have h2 : 0 ≤ t.ns := by unfold Timestamp.ns; omega
    have h3 : t.ns ≤ 8589934591 * 1000000000 := by unfold Timestamp.ns; omega
    have h2' : (0:ℚ) ≤ t.ns := by exact_mod_cast h2
    have h3' : (t.ns:ℚ) ≤ 8589934591 * 1000000000 := by exact_mod_cast h3
    constructor
    · positivity
    · rw [div_le_iff₀ (by norm_num)]; exact h3'
  obtain ⟨a0, a1⟩ := hnb a ha ha0 ha1
  obtain ⟨c0, c1⟩ := hnb c hc hc0 hc1
  rw [abs_le] at e1 e2
  have hb : |fp.toSec a - fp.toSec c| ≤ 8589934591 + 1/250000 := by
    rw [abs_le]; constructor <;> linarith
  have e3 := fp.rnd_err _ _ hb
  rw [abs_le] at e3 hb
  set d := fp.rnd (fp.toSec a - fp.toSec c) with hd
  have hdlo : -9007199254740992 ≤ ⌊d⌋ := by
    rw [Int.le_floor]; push_cast; norm_num at e3 hb ⊢; linarith
  have hdhi : ⌊d⌋ ≤ 8589934591 := by
    have : ⌊d⌋ < 8589934592 := by
      rw [Int.floor_lt]; push_cast; norm_num at e3 hb ⊢; linarith
    omega
  refine ⟨?_, ?_⟩
  · unfold FP.sub; rw [← hd, fp.fromSec_eq d hdlo hdhi]
    unfold Timestamp.Normal; constructor <;> simp only <;> omega
  · have e4 := fp.fromSec_err d hdlo hdhi
    have hs : fp.sub a c = fp.fromSec d := rfl
    rw [hs]
    rw [abs_le] at e4 ⊢
    norm_num at e3 e4 e1 e2 ⊢
    constructor <;> linarith

/-- C07, quantitative, for every rounding: the returned element is a nearest neighbour up to 16
microseconds (the resolution of doubles at these magnitudes), among *all* stored elements. -/
theorem c07_closest_near_optimal (fp : FP) (b : Buf α) (h : b.StrictKeys) (t : Timestamp)
    (hn : t.Normal) (h0 : 0 ≤ t.sec) (h1 : t.sec ≤ 8589934590)
    (hk : ∀ e ∈ b, 0 ≤ e.1 ∧ e.1 < 8589934591000000000)
    (e : Int × α) (he : Buf.getClosest fp b t t.ns = some e) :
    e ∈ b ∧ ∀ e' ∈ b, |e.1 - t.ns| ≤ |e'.1 - t.ns| + 16000 := by
  obtain ⟨hc1, hc2, hc3⟩ := c07_closest fp b h t t.ns
  obtain ⟨hb1, hb2⟩ := c06_get_before b h t.ns
  obtain ⟨ha1, ha2⟩ := c06_get_after b h t.ns
  by_cases hat : ∃ e ∈ b, e.1 = t.ns
  · have := (hc2 hat e).mp he
    refine ⟨this.1, ?_⟩
    intro e' _
    rw [this.2]; simp; positivity
  · have hkey : ∀ x ∈ b, x.1 < t.ns ∨ t.ns < x.1 := by
      intro x hx
      by_contra hc
      exact hat ⟨x, hx, by omega⟩
    have hsub := fun x (hx : x ∈ b) => ofStampNs_normal x.1 (hk x hx).1
    rcases hc3 hat e he with ⟨hg, hd⟩ | ⟨hg, hd⟩
    · obtain ⟨hm, hlt, hmax⟩ := (hb2 e).mp hg
      refine ⟨hm, ?_⟩
      intro e' he'
      rcases hkey e' he' with hl | hg'
      · have := hmax e' he' hl
        rw [abs_of_neg (by omega), abs_of_neg (by omega)]; omega
      · cases hga : Buf.getAfter b t.ns with
        | none => have := ha1.mp hga e' he'; omega
        | some ea =>
          obtain ⟨ham, halt, hamin⟩ := (ha2 ea).mp hga
          have hge := hamin e' he' hg'
          have hdd := hd ea hga
          obtain ⟨n1, v1, s1⟩ := hsub e hm
          obtain ⟨n2, v2, s2⟩ := hsub ea ham
          have k1 := hk e hm
          have k2 := hk ea ham
          obtain ⟨m1, r1⟩ := sub_err fp t _ hn n1 h0 h1 (by rw [s1]; omega) (by rw [s1]; omega)
          obtain ⟨m2, r2⟩ := sub_err fp _ t n2 hn (by rw [s2]; omega) (by rw [s2]; omega) h0 h1
          rw [Timestamp.lt_iff_ns _ _ m1 m2] at hdd
          rw [v1] at r1; rw [v2] at r2
          rw [abs_le] at r1 r2
          have hdq : ((fp.sub t (Timestamp.ofStampNs e.1)).ns : ℚ) <
            (fp.sub (Timestamp.ofStampNs ea.1) t).ns := by exact_mod_cast hdd
          have hq : ((t.ns - e.1 : ℤ):ℚ) ≤ ((ea.1 - t.ns + 16000 : ℤ):ℚ) := by push_cast; linarith
          have hz : t.ns - e.1 ≤ ea.1 - t.ns + 16000 := by exact_mod_cast hq
          rw [abs_of_neg (by omega), abs_of_pos (by omega)]; omega
    · obtain ⟨hm, hlt, hmin⟩ := (ha2 e).mp hg
      refine ⟨hm, ?_⟩
      intro e' he'
      rcases hkey e' he' with hl | hg'
      · cases hgb : Buf.getBefore b t.ns with
        | none => have := hb1.mp hgb e' he'; omega
        | some eb =>
          obtain ⟨hbm, hblt, hbmax⟩ := (hb2 eb).mp hgb
          have hge := hbmax e' he' hl
          have hdd := hd eb hgb
          obtain ⟨n1, v1, s1⟩ := hsub e hm
          obtain ⟨n2, v2, s2⟩ := hsub eb hbm
          have k1 := hk e hm
          have k2 := hk eb hbm
          obtain ⟨m1, r1⟩ := sub_err fp _ t n1 hn (by rw [s1]; omega) (by rw [s1]; omega) h0 h1
          obtain ⟨m2, r2⟩ := sub_err fp t _ hn n2 h0 h1 (by rw [s2]; omega) (by rw [s2]; omega)
          have hdd' : ¬ (fp.sub t (Timestamp.ofStampNs eb.1)).ns <
              (fp.sub (Timestamp.ofStampNs e.1) t).ns := by
            rw [← Timestamp.lt_iff_ns _ _ m2 m1, hdd]; simp
          rw [v1] at r1; rw [v2] at r2
          rw [abs_le] at r1 r2
          have hdq : ((fp.sub (Timestamp.ofStampNs e.1) t).ns : ℚ) ≤
            (fp.sub t (Timestamp.ofStampNs eb.1)).ns := by exact_mod_cast (not_lt.mp hdd')
          have hq : ((e.1 - t.ns : ℤ):ℚ) ≤ ((t.ns - eb.1 + 16000 : ℤ):ℚ) := by push_cast; linarith
          have hz : e.1 - t.ns ≤ t.ns - eb.1 + 16000 := by exact_mod_cast hq
          rw [abs_of_pos (by omega), abs_of_neg (by omega)]; omega
      · have := hmin e' he' hg'
        rw [abs_of_pos (by omega), abs_of_pos (by omega)]; omega

theorem exact_sub_ns (a c : Timestamp) (hd : -9007199254740992 * 1000000000 ≤ a.ns - c.ns)
    (hd2 : a.ns - c.ns < 8589934592 * 1000000000) : (FP.exact.sub a c).ns = a.ns - c.ns := by
  have : FP.exact.sub a c = FP.exact.fromSec (((a.ns - c.ns : ℤ) : ℚ) / 1000000000) := by
    unfold FP.sub
    rw [FP.exact_toSec, FP.exact_toSec]
    rw [FP.exact_rnd]
    congr 1; push_cast; ring
  rw [this, FP.exact_fromSec_ns _ hd hd2]

theorem exact_sub_normal (a c : Timestamp) (hd : -9007199254740992 * 1000000000 ≤ a.ns - c.ns)
    (hd2 : a.ns - c.ns < 8589934592 * 1000000000) : (FP.exact.sub a c).Normal := by
  have hx : FP.exact.rnd (FP.exact.toSec a - FP.exact.toSec c) = ((a.ns - c.ns : ℤ) : ℚ) / 1000000000 := by
    rw [FP.exact_toSec, FP.exact_toSec]
    rw [FP.exact_rnd]
    push_cast; ring
  unfold FP.sub
  rw [hx]
  have hfl : ⌊((a.ns - c.ns : ℤ):ℚ) / 1000000000⌋ = (a.ns - c.ns) / 1000000000 := by
    have := Rat.floor_intCast_div_natCast (a.ns - c.ns) 1000000000
    simpa using this
  rw [FP.fromSec_eq _ _ (by omega) (by omega)]
  unfold Timestamp.Normal; constructor <;> simp only <;> omega

/-- C07, exact arithmetic: the returned element minimises the distance over all stored elements, and
at a tie the later one is chosen. -/
theorem c07_closest_exact (b : Buf α) (h : b.StrictKeys) (t : Timestamp)
    (h0 : 0 ≤ t.ns) (h1 : t.ns < 8589934591000000000)
    (hk : ∀ e ∈ b, 0 ≤ e.1 ∧ e.1 < 8589934591000000000)
    (e : Int × α) (he : Buf.getClosest FP.exact b t t.ns = some e) :
    e ∈ b ∧ (∀ e' ∈ b, |e.1 - t.ns| ≤ |e'.1 - t.ns|) ∧
    (∀ e' ∈ b, |e.1 - t.ns| = |e'.1 - t.ns| → e'.1 ≤ e.1) := by
  obtain ⟨hc1, hc2, hc3⟩ := c07_closest FP.exact b h t t.ns
  obtain ⟨hb1, hb2⟩ := c06_get_before b h t.ns
  obtain ⟨ha1, ha2⟩ := c06_get_after b h t.ns
  by_cases hat : ∃ e ∈ b, e.1 = t.ns
  · have := (hc2 hat e).mp he
    refine ⟨this.1, ?_, ?_⟩
    · intro e' _
      rw [this.2]; simp
    · intro e' _ heq
      rw [this.2, sub_self, abs_zero] at heq
      have := abs_eq_zero.mp heq.symm
      omega
  · have hkey : ∀ x ∈ b, x.1 < t.ns ∨ t.ns < x.1 := by
      intro x hx
      by_contra hc
      exact hat ⟨x, hx, by omega⟩
    have hcmp : ∀ eb ∈ b, ∀ ea ∈ b, eb.1 < t.ns → t.ns < ea.1 →
        (Timestamp.lt (FP.exact.sub t (Timestamp.ofStampNs eb.1)) (FP.exact.sub (Timestamp.ofStampNs ea.1) t)
          = true ↔ t.ns - eb.1 < ea.1 - t.ns) := by
      intro eb hbm ea ham hl hg
      have k1 := hk eb hbm
      have k2 := hk ea ham
      obtain ⟨_, v1, _⟩ := ofStampNs_normal eb.1 k1.1
      obtain ⟨_, v2, _⟩ := ofStampNs_normal ea.1 k2.1
      have n1 := exact_sub_normal t (Timestamp.ofStampNs eb.1) (by rw [v1]; omega) (by rw [v1]; omega)
      have n2 := exact_sub_normal (Timestamp.ofStampNs ea.1) t (by rw [v2]; omega) (by rw [v2]; omega)
      rw [Timestamp.lt_iff_ns _ _ n1 n2,
        exact_sub_ns t (Timestamp.ofStampNs eb.1) (by rw [v1]; omega) (by rw [v1]; omega),
        exact_sub_ns (Timestamp.ofStampNs ea.1) t (by rw [v2]; omega) (by rw [v2]; omega), v1, v2]
    rcases hc3 hat e he with ⟨hg, hd⟩ | ⟨hg, hd⟩
    · obtain ⟨hm, hlt, hmax⟩ := (hb2 e).mp hg
      have key : ∀ e' ∈ b, (|e.1 - t.ns| ≤ |e'.1 - t.ns|) ∧ (|e.1 - t.ns| = |e'.1 - t.ns| → e'.1 ≤ e.1) := by
        intro e' he'
        rcases hkey e' he' with hl | hg'
        · have := hmax e' he' hl
          rw [abs_of_neg (by omega), abs_of_neg (by omega)]; omega
        · cases hga : Buf.getAfter b t.ns with
          | none => have := ha1.mp hga e' he'; omega
          | some ea =>
            obtain ⟨ham, halt, hamin⟩ := (ha2 ea).mp hga
            have hge := hamin e' he' hg'
            have hdd := (hcmp e hm ea ham hlt halt).mp (hd ea hga)
            rw [abs_of_neg (by omega), abs_of_pos (by omega)]; omega
      exact ⟨hm, fun e' he' => (key e' he').1, fun e' he' => (key e' he').2⟩
    · obtain ⟨hm, hlt, hmin⟩ := (ha2 e).mp hg
      have key : ∀ e' ∈ b, (|e.1 - t.ns| ≤ |e'.1 - t.ns|) ∧ (|e.1 - t.ns| = |e'.1 - t.ns| → e'.1 ≤ e.1) := by
        intro e' he'
        rcases hkey e' he' with hl | hg'
        · cases hgb : Buf.getBefore b t.ns with
          | none => have := hb1.mp hgb e' he'; omega
          | some eb =>
            obtain ⟨hbm, hblt, hbmax⟩ := (hb2 eb).mp hgb
            have hge := hbmax e' he' hl
            have hdd := hd eb hgb
            have : ¬ (t.ns - eb.1 < e.1 - t.ns) := by
              rw [← hcmp eb hbm e hm hblt hlt, hdd]; simp
            rw [abs_of_pos (by omega), abs_of_neg (by omega)]; omega
        · have := hmin e' he' hg'
          rw [abs_of_pos (by omega), abs_of_pos (by omega)]; omega
      exact ⟨hm, fun e' he' => (key e' he').1, fun e' he' => (key e' he').2⟩

/-- A concrete buffer meets the hypotheses. -/
example : Buf.StrictKeys ([(1, 'a'), (4, 'b'), (9, 'c')] : Buf Char) ∧
    (⟨0, 5⟩ : Timestamp).Normal ∧ (∀ e ∈ ([(1, 'a'), (4, 'b'), (9, 'c')] : Buf Char),
      0 ≤ e.1 ∧ e.1 < 8589934591000000000) ∧
    ∃ e, Buf.getClosest FP.exact [(1, 'a'), (4, 'b'), (9, 'c')] ⟨0, 5⟩ (⟨0, 5⟩ : Timestamp).ns = some e := by
  refine ⟨by decide, by decide, by decide, ?_⟩
  rw [← Option.isSome_iff_exists, Option.isSome_iff_ne_none, Ne, (c07_closest _ _ (by decide) _ _).1]
  simp

/-! ## C15 -/

theorem getLast?_removeBefore (b : Buf α) (t : Int) : (Buf.removeBefore b t).getLast? = b.getLast? := by
  unfold Buf.removeBefore Buf.lowerBound
  have hs := List.dropWhile_suffix (l := b) (fun e => decide (e.1 < t))
  split
  · rfl
  · rename_i it hne
    obtain ⟨p, hp⟩ := hs
    have hd : List.dropWhile (fun e => decide (e.1 < t)) b ≠ [] := hne
    conv_rhs => rw [← hp]
    rw [List.getLast?_append_of_ne_nil _ hd]

theorem removeBefore_suffix (b : Buf α) (t : Int) : (Buf.removeBefore b t) <:+ b := by
  unfold Buf.removeBefore Buf.lowerBound
  split
  · exact List.suffix_rfl
  · exact List.dropWhile_suffix _

/-- C15. For every buffer, whatever the rounding: trimming keeps the newest element, keeps a suffix
of the buffer (only oldest elements go), and is the identity while the span is within the horizon. -/
theorem c15_newest_kept (fp : FP) (max : ℚ) (b : Buf α) :
    (Buf.checkHorizon fp max b).getLast? = b.getLast? ∧
    (Buf.checkHorizon fp max b) <:+ b ∧
    (Buf.horizon fp b ≤ max → Buf.checkHorizon fp max b = b) := by
  refine ⟨?_, ?_, ?_⟩
  · unfold Buf.checkHorizon
    split
    · split
      · exact getLast?_removeBefore _ _
      · rfl
    · rfl
  · unfold Buf.checkHorizon
    split
    · split
      · exact removeBefore_suffix _ _
      · exact List.suffix_rfl
    · exact List.suffix_rfl
  · intro hle
    unfold Buf.checkHorizon
    rw [if_neg (fun hc => absurd hc.2 (not_lt.mpr hle))]

/-- C15. Quantitative: for stamps below 8589934590 s and a horizon of at least 10 microseconds, every
element left is at most `max` + 10 µs older than the newest, and every element at most `max` − 10 µs
older than the newest is kept. -/
theorem c15_span (fp : FP) (max : ℚ) (b : Buf α) (h : b.SortedKeys)
    (hm0 : 1/100000 ≤ max) (hm1 : max ≤ 8589934592)
    (hk : ∀ e ∈ b, 0 ≤ e.1 ∧ e.1 ≤ 8589934590000000000)
    (l : Int × α) (hl : b.getLast? = some l) :
    (∀ e ∈ Buf.checkHorizon fp max b, ((l.1 - e.1 : ℤ) : ℚ) / 1000000000 ≤ max + 1/100000) ∧
    (∀ e ∈ b, ((l.1 - e.1 : ℤ) : ℚ) / 1000000000 ≤ max - 1/100000 → e ∈ Buf.checkHorizon fp max b) := by
  have hlm := List.mem_of_getLast? hl
  have hlk := hk l hlm
  have el := fp.secOfKey_err l.1 hlk.1 (by omega)
  have hlq0 : (0:ℚ) ≤ l.1 := by exact_mod_cast hlk.1
  have hlq1 : (l.1:ℚ) ≤ 8589934590000000000 := by exact_mod_cast hlk.2
  have hdivl : (l.1:ℚ)/1000000000 ≤ 8589934590 := by rw [div_le_iff₀ (by norm_num)]; norm_num; exact hlq1
  have hdivl0 : 0 ≤ (l.1:ℚ)/1000000000 := by positivity
  -- the cut
  set s := fp.toSec (Timestamp.ofStampNs l.1) with hs
  rw [abs_le] at el
  have hb : |s - max| ≤ 8589934593 := by rw [abs_le]; constructor <;> linarith
  have e3 := fp.rnd_err _ _ hb
  rw [abs_le] at e3 hb
  set d := fp.rnd (s - max) with hd
  have hdlo : -9007199254740992 ≤ ⌊d⌋ := by
    rw [Int.le_floor]; push_cast; norm_num at e3 hb ⊢; linarith
  have hdhi : ⌊d⌋ ≤ 8589934591 := by
    have : ⌊d⌋ < 8589934592 := by
      rw [Int.floor_lt]; push_cast; norm_num at e3 hb el ⊢; linarith
    omega
  have e4 := fp.fromSec_err d hdlo hdhi
  have hcut : fp.cutKey (fp.secOfKey l.1) max = (fp.fromSec d).ns := rfl
  set c := (fp.fromSec d).ns with hc
  rw [abs_le] at e4
  have hcl : c ≤ l.1 := by
    have : (c:ℚ) ≤ l.1 := by linarith
    exact_mod_cast this
  unfold Buf.checkHorizon
  split
  · have hlat : Buf.latest b = some l := hl
    rw [hlat]
    simp only
    rw [Buf.removeBefore_eq b h, hcut, if_pos ⟨l, hlm, hcl⟩]
    constructor
    · intro e he
      rw [List.mem_filter] at he
      have hce : c ≤ e.1 := by simpa using he.2
      have hceq : (c:ℚ) ≤ e.1 := by exact_mod_cast hce
      push_cast
      norm_num at e3 e4 el ⊢
      linarith
    · intro e he hle
      rw [List.mem_filter]
      refine ⟨he, ?_⟩
      have : (c:ℚ) ≤ e.1 := by
        push_cast at hle
        rw [sub_div] at hle
        linarith
      have : c ≤ e.1 := by exact_mod_cast this
      simpa using this
  · rename_i hno
    refine ⟨?_, fun e he _ => he⟩
    intro e he
    have hlen : 0 < b.length := List.length_pos_of_mem he
    have hhor : Buf.horizon fp b ≤ max := not_lt.mp (fun hc => hno ⟨hlen, hc⟩)
    obtain ⟨o, ho⟩ : ∃ o, b.head? = some o := by
      cases b with
      | nil => simp at hlen
      | cons x r => exact ⟨x, rfl⟩
    have hom := List.mem_of_head? ho
    have hoe := h.head_le ho e he
    have hok := hk o hom
    have eo := fp.secOfKey_err o.1 hok.1 (by omega)
    rw [abs_le] at eo
    have hol := h.le_getLast hl o hom
    have hoq : (o.1:ℚ) ≤ e.1 := by exact_mod_cast hoe
    by_cases h1 : 1 < b.length
    · have hh : Buf.horizon fp b = fp.rnd (s - fp.toSec (Timestamp.ofStampNs o.1)) := by
        unfold Buf.horizon; rw [if_pos h1]
        have e1 : Buf.oldest b = some o := ho
        have e2 : Buf.latest b = some l := hl
        rw [e1, e2]; rfl
      rw [hh] at hhor
      have hoq0 : (0:ℚ) ≤ o.1 := by exact_mod_cast hok.1
      have hdivo0 : 0 ≤ (o.1:ℚ)/1000000000 := by positivity
      have hoq1 : (o.1:ℚ) ≤ l.1 := by exact_mod_cast hol
      have hb2 : |s - fp.toSec (Timestamp.ofStampNs o.1)| ≤ 8589934593 := by
        have : (o.1:ℚ)/1000000000 ≤ (l.1:ℚ)/1000000000 := by
          apply div_le_div_of_nonneg_right hoq1; norm_num
        rw [abs_le]; constructor <;> linarith
      have e5 := fp.rnd_err _ _ hb2
      rw [abs_le] at e5
      push_cast
      norm_num at e5 el eo ⊢
      linarith
    · have : b.length = 1 := by omega
      obtain ⟨x, hx⟩ := List.length_eq_one_iff.mp this
      subst hx
      simp at hl he; subst hl; subst he
      simp; linarith

/-- One arrival: insert then trim (as the handler and the filters do). -/
def insertTrim (fp : FP) (max : ℚ) (b : Buf α) (e : Int × α) : Buf α :=
  Buf.checkHorizon fp max (Buf.insertMulti b e.1 e.2)

theorem sorted_checkHorizon (fp : FP) (max : ℚ) (b : Buf α) (h : b.SortedKeys) :
    (Buf.checkHorizon fp max b).SortedKeys :=
  List.Pairwise.sublist (c15_newest_kept fp max b).2.1.sublist h

theorem foldl_insertTrim (fp : FP) (max : ℚ) (ms : List (Int × α)) (b0 : Buf α) (h0 : b0.SortedKeys) :
    (ms.foldl (insertTrim fp max) b0).SortedKeys ∧
    (∀ e ∈ ms.foldl (insertTrim fp max) b0, e ∈ b0 ∨ e ∈ ms) ∧
    (∀ l, (ms.foldl (insertTrim fp max) b0).getLast? = some l → ∀ e, e ∈ b0 ∨ e ∈ ms → e.1 ≤ l.1) ∧
    ((b0 ≠ [] ∨ ms ≠ []) → ms.foldl (insertTrim fp max) b0 ≠ []) := by
  induction ms generalizing b0 with
  | nil =>
    refine ⟨h0, by simp, ?_, by simp⟩
    intro l hl e he
    rcases he with he | he
    · exact h0.le_getLast hl e he
    · simp at he
  | cons m ms ih =>
    have hs1 := Buf.sorted_insertMulti b0 h0 m.1 m.2
    obtain ⟨hn1, hn2, _⟩ := c15_newest_kept fp max (Buf.insertMulti b0 m.1 m.2)
    have hmem : ∀ e, e ∈ Buf.insertMulti b0 m.1 m.2 ↔ e = (m.1, m.2) ∨ e ∈ b0 :=
      fun e => Buf.mem_insertMulti b0 m.1 m.2 e
    have hne : insertTrim fp max b0 m ≠ [] := by
      intro hc
      unfold insertTrim at hc
      rw [hc] at hn1
      have : (Buf.insertMulti b0 m.1 m.2) = [] := by
        rw [← List.getLast?_eq_none_iff, ← hn1]; rfl
      have hm := (hmem (m.1, m.2)).mpr (Or.inl rfl)
      rw [this] at hm; simp at hm
    obtain ⟨i1, i2, i3, i4⟩ := ih (insertTrim fp max b0 m) (sorted_checkHorizon fp max _ hs1)
    refine ⟨i1, ?_, ?_, fun _ => i4 (Or.inl hne)⟩
    · intro e he
      rcases i2 e he with h | h
      · have := (hmem e).mp (hn2.subset h)
        rcases this with rfl | h
        · right; simp
        · left; exact h
      · right; simp [h]
    · intro l hl e he
      simp only [List.foldl_cons] at hl
      -- the newest of the intermediate buffer bounds everything inserted so far
      obtain ⟨l1, hl1⟩ : ∃ l1, (insertTrim fp max b0 m).getLast? = some l1 := by
        cases hq : (insertTrim fp max b0 m).getLast? with
        | none => rw [List.getLast?_eq_none_iff] at hq; exact absurd hq hne
        | some x => exact ⟨x, rfl⟩
      have hb := i3 l hl l1 (Or.inl (List.mem_of_getLast? hl1))
      have hl1' : (Buf.insertMulti b0 m.1 m.2).getLast? = some l1 := by rw [← hn1]; exact hl1
      have hin : ∀ x, x ∈ Buf.insertMulti b0 m.1 m.2 → x.1 ≤ l.1 := by
        intro x hx
        have := hs1.le_getLast hl1' x hx; omega
      rcases he with he | he
      · exact hin e ((hmem e).mpr (Or.inr he))
      · rcases List.mem_cons.mp he with rfl | he
        · exact hin _ ((hmem e).mpr (Or.inl rfl))
        · exact i3 l hl e (Or.inr he)

/-- C15. Any stream of insertions, each followed by trimming, in any order of stamps: the buffer is
sorted, non-empty, holds only inserted elements, its newest element is the newest ever inserted, and
every stored element is at most `max` + 10 µs older than it. -/
theorem c15_stream (fp : FP) (max : ℚ) (hm0 : 1/100000 ≤ max) (hm1 : max ≤ 8589934592)
    (ms : List (Int × α)) (hne : ms ≠ []) (hk : ∀ e ∈ ms, 0 ≤ e.1 ∧ e.1 ≤ 8589934590000000000) :
    ∃ l ∈ ms, (∀ e ∈ ms, e.1 ≤ l.1) ∧
      (ms.foldl (insertTrim fp max) []).getLast? = some l ∧
      (ms.foldl (insertTrim fp max) []).Pairwise (fun x y => x.1 ≤ y.1) ∧
      ∀ e ∈ ms.foldl (insertTrim fp max) [], e ∈ ms ∧
        ((l.1 - e.1 : ℤ) : ℚ) / 1000000000 ≤ max + 1/100000 := by
  obtain ⟨h1, h2, h3, h4⟩ := foldl_insertTrim fp max ms [] List.Pairwise.nil
  have hne' := h4 (Or.inr hne)
  obtain ⟨l, hl⟩ : ∃ l, (ms.foldl (insertTrim fp max) []).getLast? = some l := by
    cases hq : (ms.foldl (insertTrim fp max) []).getLast? with
    | none => rw [List.getLast?_eq_none_iff] at hq; exact absurd hq hne'
    | some x => exact ⟨x, rfl⟩
  have hin : ∀ e ∈ ms.foldl (insertTrim fp max) [], e ∈ ms := by
    intro e he; rcases h2 e he with h | h
    · simp at h
    · exact h
  refine ⟨l, hin l (List.mem_of_getLast? hl), fun e he => h3 l hl e (Or.inr he), hl, h1, ?_⟩
  intro e he
  refine ⟨hin e he, ?_⟩
  -- the last step trimmed
  obtain ⟨pre, m, rfl⟩ : ∃ pre m, ms = pre ++ [m] :=
    ⟨ms.dropLast, ms.getLast hne, (List.dropLast_append_getLast hne).symm⟩
  rw [List.foldl_append] at he hl
  simp only [List.foldl_cons, List.foldl_nil] at he hl
  obtain ⟨p1, p2, _, _⟩ := foldl_insertTrim fp max pre [] List.Pairwise.nil
  set b := pre.foldl (insertTrim fp max) [] with hbdef
  have hs1 := Buf.sorted_insertMulti b p1 m.1 m.2
  have hkb : ∀ x ∈ Buf.insertMulti b m.1 m.2, 0 ≤ x.1 ∧ x.1 ≤ 8589934590000000000 := by
    intro x hx
    rw [Buf.mem_insertMulti] at hx
    rcases hx with rfl | hx
    · exact hk m (by simp)
    · rcases p2 x hx with h | h
      · simp at h
      · exact hk x (by simp [h])
  have hl' : (Buf.insertMulti b m.1 m.2).getLast? = some l := by
    rw [← (c15_newest_kept fp max (Buf.insertMulti b m.1 m.2)).1]; exact hl
  exact (c15_span fp max _ hs1 hm0 hm1 hkb l hl').1 e he

example : ∃ ms : List (Int × Char), ms ≠ [] ∧ (∀ e ∈ ms, 0 ≤ e.1 ∧ e.1 ≤ 8589934590000000000) :=
  ⟨[(5000000000, 'a'), (1000000000, 'b')], by decide, by decide⟩

/-- C15. `check_horizon_restricted(n)` is `check_horizon` guarded by the size. -/
theorem c15_restricted (fp : FP) (max : ℚ) (b : Buf α) (n : Nat) :
    Buf.checkHorizonRestricted fp max b n = if n < b.length then Buf.checkHorizon fp max b else b := by
  unfold Buf.checkHorizonRestricted Buf.checkHorizon
  by_cases h : n < b.length
  · have : 0 < b.length := by omega
    simp [h, this]
  · simp [h]

/-! ## C16 -/

/-- C16, full statement: nothing older than the cut remains. -/
def DropsStale (fp : FP) (max : ℚ) (b : Buf α) (tsec : ℚ) : Prop :=
  ∀ e ∈ Buf.checkHorizonFrom fp max b tsec, fp.cutKey tsec max ≤ e.1

/-- C16 whenever some entry is not stale; then also exactly the stale ones are dropped.
Missing: the case that all entries are stale. -/
theorem c16_drop_stale_partial (fp : FP) (max : ℚ) (b : Buf α) (h : b.SortedKeys) (tsec : ℚ)
    (hex : ∃ e ∈ b, fp.cutKey tsec max ≤ e.1) :
    DropsStale fp max b tsec ∧
    Buf.checkHorizonFrom fp max b tsec = b.filter (fun e => decide (fp.cutKey tsec max ≤ e.1)) := by
  obtain ⟨x, hx, hxc⟩ := hex
  have : Buf.checkHorizonFrom fp max b tsec = b.filter (fun e => decide (fp.cutKey tsec max ≤ e.1)) := by
    unfold Buf.checkHorizonFrom
    rw [if_pos (List.length_pos_of_mem hx), Buf.removeBefore_eq b h, if_pos ⟨x, hx, hxc⟩]
  refine ⟨?_, this⟩
  intro e he
  rw [this, List.mem_filter] at he
  simpa using he.2

/-- C16 is violated exactly for a non-empty buffer whose entries are all stale: then all stay. -/
theorem c16_drop_stale_fails (fp : FP) (max : ℚ) (b : Buf α) (h : b.SortedKeys) (tsec : ℚ)
    (hne : b ≠ []) (hall : ∀ e ∈ b, e.1 < fp.cutKey tsec max) :
    ¬ DropsStale fp max b tsec ∧ Buf.checkHorizonFrom fp max b tsec = b := by
  have heq : Buf.checkHorizonFrom fp max b tsec = b := by
    unfold Buf.checkHorizonFrom
    rw [if_pos (List.length_pos_iff.mpr hne), Buf.removeBefore_eq b h, if_neg]
    rintro ⟨e, he, hc⟩; have := hall e he; omega
  refine ⟨?_, heq⟩
  obtain ⟨x, hx⟩ := List.exists_mem_of_ne_nil b hne
  intro hd
  have := hd x (by rw [heq]; exact hx)
  have := hall x hx; omega

/-- Concrete stale entry: stamped 1 s, reference 100 s, horizon 3 s. -/
example : ∀ e ∈ ([(1000000000, true)] : Buf Bool), e.1 < FP.exact.cutKey 100 3 := by
  have : FP.exact.cutKey 100 3 = 97000000000 := by
    unfold FP.cutKey
    have h := FP.exact_fromSec_ns 97000000000 (by norm_num) (by norm_num)
    have h2 : FP.exact.rnd (100 - 3) = (97000000000:ℤ) / 1000000000 := by
      rw [FP.exact_rnd]; norm_num
    rw [h2]; exact h
  rw [this]; decide

end Ikf
