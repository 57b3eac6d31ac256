import Verif.Props.ConvergenceInst

/-! Concrete cases for C34–C40: a non-commutative toy filter (`x ↦ 2x + data`), two instances. -/

namespace Ikf.HandlerExample
open Handler

/-- Store at the measurement time twice the latest value plus the payload. -/
def toyStep (w : World Int Unit) (m : Meas Int) : World Int Unit × Status :=
  if m.id ∈ w.ids then
    ({ w with bel := fun i => if i = m.id then
        (w.bel i).filter (fun e => decide (e.1 < m.t)) ++
          [(m.t, 2 * ((w.bel i).getLast?.elim 0 (·.2)) + m.data)] else w.bel i }, .processed)
  else (w, .rejected)

def toyInit : World Int Unit :=
  { ids := [1, 2], on := fun _ => true, ccf := fun _ _ => [],
    bel := fun i => if i = 1 then [(0, 5)] else if i = 2 then [(0, 7)] else [] }

theorem toy_causal : CausalStep toyStep := by
  refine ⟨?_, ?_, ?_, ?_, ?_, ?_, ?_⟩
  · intro w m; unfold toyStep; split <;> rfl
  · intro w m; unfold toyStep; split <;> rfl
  · intro w m h
    unfold toyStep
    split
    · refine ⟨?_, h.2⟩
      intro i
      simp only
      split
      · constructor
        · unfold Buf.SortedKeys
          rw [List.pairwise_append]
          refine ⟨List.Pairwise.filter _ (h.1 i).1, by simp, ?_⟩
          intro x hx y hy
          have := (List.mem_filter.mp hx).2
          simp at this hy; rw [hy]; simp; omega
        · intro e he
          rcases List.mem_append.mp he with he | he
          · exact (h.1 i).2 e (List.mem_filter.mp he).1
          · simp at he; rw [he]
      · exact h.1 i
    · exact h
  · intro w m i _
    unfold toyStep
    split
    · simp only
      split
      · rw [List.filter_append, List.filter_filter]; simp
      · rfl
    · rfl
  · intro w m i j _; unfold toyStep; split <;> rfl
  · intro w m i hi
    unfold toyStep
    split
    · rename_i h
      refine ⟨?_, fun j => rfl⟩
      simp only
      split
      · rename_i hc; subst hc; exact absurd h hi
      · rfl
    · exact ⟨rfl, fun _ => rfl⟩
  · intro w m _; unfold toyStep; split <;> simp

theorem toy_initAt : InitAt toyInit 0 := by
  refine ⟨⟨?_, ?_⟩, ?_, ?_⟩
  · intro i
    unfold toyInit
    simp only
    split
    · simp [Buf.SortedKeys]
    · split <;> simp [Buf.SortedKeys]
  · intro i j; unfold toyInit; simp [Buf.SortedKeys]
  · intro i hi
    simp [toyInit] at hi
    rcases hi with rfl | rfl <;> simp [toyInit]
  · intro i hi
    simp [toyInit] at hi
    simp [toyInit, hi.1, hi.2]

def mA : Meas Int := ⟨1, 1000000000, .propagation, 1⟩
def mB : Meas Int := ⟨2, 1000000000, .priv, 10⟩
def mC : Meas Int := ⟨1, 2000000000, .propagation, 3⟩
def mD : Meas Int := ⟨1, 2000000000, .priv, 4⟩
def mE : Meas Int := ⟨1, 3000000000, .propagation, 5⟩

def toyS : Insts (World Int Unit) Int := World.insts toyStep

theorem toy_wb : WellBehaved toyS toyInit
    (fun m => 0 < m.t ∧ toyInit.ids.contains m.id = true ∧ toyInit.on m.id = true) :=
  causal_wellBehaved toy_causal toy_initAt

/-- Arrival order A, E, D, C (with a redo request in between) and arrival order A, D, C, E. -/
def ops1 : List (HOp Int) := [.meas mA, .meas mE, .request 2000000000 true, .meas mD, .meas mC]

theorem toy_accepted1 (fp : FP) : accepted fp toyS (Handler.init toyInit 100)
    ([mA, mE, mD, mC].map HOp.meas) = [mA, mE, mD, mC] := by
  apply c36_all_accepted fp toyS toyInit _ toy_wb 100 [mE, mD, mC] mA
  · intro m hm
    simp at hm
    rcases hm with rfl | rfl | rfl | rfl <;> refine ⟨⟨?_, ?_, ?_⟩, ⟨?_, ?_, ?_⟩, ?_, ?_⟩ <;> decide
  · intro m hm
    simp at hm
    rcases hm with rfl | rfl | rfl <;> decide
  · intro m hm
    simp at hm
    rcases hm with rfl | rfl | rfl | rfl <;> norm_num [mA, mC, mD, mE]

/-- C36 on it, in any rounding: the state is that of processing A, C, D, E in order. -/
example (fp : FP) : (([mA, mE, mD, mC].map HOp.meas).foldl (hStep fp toyS) (Handler.init toyInit 100)).w =
    runAll toyS toyInit [mA, mC, mD, mE] := by
  refine (c36_converges fp toyS toyInit _ toy_wb 100 ([mA, mE, mD, mC].map HOp.meas) ?_).2 _ ?_
  · intro m hm
    simp [arrivals] at hm
    rcases hm with rfl | rfl | rfl | rfl <;> refine ⟨⟨?_, ?_, ?_⟩, fun _ => ⟨?_, ?_, ?_⟩⟩ <;> decide
  · rw [toy_accepted1]
    have hc : ∀ t K, ofClass [mA, mC, mD, mE] t K = ofClass [mA, mE, mD, mC] t K := by
      intro t K
      unfold ofClass
      by_cases h1 : t = 1000000000
      · subst h1; cases K <;> decide
      · by_cases h2 : t = 2000000000
        · subst h2; cases K <;> decide
        · by_cases h3 : t = 3000000000
          · subst h3; cases K <;> decide
          · have e1 : ¬ (1000000000 : Int) = t := fun h => h1 h.symm
            have e2 : ¬ (2000000000 : Int) = t := fun h => h2 h.symm
            have e3 : ¬ (3000000000 : Int) = t := fun h => h3 h.symm
            simp [mA, mC, mD, mE, e1, e2, e3]
    refine ⟨perm_of_classes _ _ hc, ?_, hc⟩
    simp [Meas.before, mA, mC, mD, mE, ObsType.prio]

/-- The order matters for this filter. -/
example : (runAll toyS toyInit [mA, mC, mD, mE]).bel 1 =
    [(0, 5), (1000000000, 11), (2000000000, 54), (3000000000, 113)] := by decide
example : (runAll toyS toyInit [mA, mD, mC, mE]).bel 1 ≠ (runAll toyS toyInit [mA, mC, mD, mE]).bel 1 := by
  decide

def h0 : HState (World Int Unit) Int := Handler.init toyInit 100

def stored : Buf (Meas Int) := [(1000000000, mA), (2000000000, mC), (2000000000, mD)]

/-- C37: `mB` (private, concurrent with a propagation) does not violate `[mA]`, a propagation concurrent
with `mD` does, and so does anything older. -/
example : isOrderViolated [(1000000000, mA)] mB = false ∧ isOrderViolated stored mC = true ∧
    isOrderViolated stored mB = true := by decide
example : stored.SortedKeys ∧ (∀ e ∈ stored, e.1 = e.2.t) ∧ (∀ e ∈ stored, e.2.kind ≠ .unknown) := by
  refine ⟨by simp [stored, Buf.SortedKeys], ?_, ?_⟩ <;> simp [stored, mA, mC, mD]

/-- C40: a private observation stored before a concurrent propagation is moved behind it; an UNKNOWN one
is lost. -/
example : sortFrom [(1000000000, mA), (2000000000, mD), (2000000000, mC)] 2000000000 = stored := by decide
example : sortFrom [(1000000000, mA), (2000000000, { mD with kind := .unknown }), (2000000000, mC)] 2000000000
    = [(1000000000, mA), (2000000000, mC)] := by decide

/-- C38: the second instance reports out-of-order; later private observations are skipped and flagged,
later propagations are not. -/
def oooS : Insts (List Int) Int where
  known _ _ := true
  enabled _ _ := true
  inst w m := (w ++ [m.data], if m.id = 2 then .outOfOrder else .processed)
  removeFrom w _ := w
  removeAfter w _ := w

def hL : HState (List Int) Int := Handler.init [] 100

example : (redoFrom oooS { hL with
      meas := [(1000000000, mA), (1000000000, mB), (2000000000, mC), (2000000000, mD), (3000000000, mE)] } 0).1.w
    = [1, 10, 3, 5] ∧
  (redoFrom oooS { hL with
      meas := [(1000000000, mA), (1000000000, mB), (2000000000, mC), (2000000000, mD), (3000000000, mE)] } 0).1.ooo
    = [(1000000000, true), (2000000000, true)] := by decide

/-- C34: hypotheses met: an older and an equal stamp. -/
example (fp : FP) : process fp toyS { h0 with meas := stored } mB
    = ({ h0 with meas := stored }, [.discarded]) :=
  c34_too_old fp toyS _ mB (1000000000, mA) rfl (by decide) (by decide) (by decide)
example (fp : FP) : process fp toyS { h0 with meas := [(1000000000, mA)] } mB
    = ({ h0 with meas := [(1000000000, mA)] }, [.discarded]) :=
  c34_same_stamp fp toyS _ mB (by simp) (by decide) (by decide) (by decide)

/-- C35: hypotheses met by a stream with unknown ids and requests. -/
example : ∀ m ∈ arrivals (ops1 ++ [.meas { mE with id := 9 }]), MeasOk m := by
  intro m hm
  simp [arrivals, ops1] at hm
  rcases hm with rfl | rfl | rfl | rfl | rfl <;> refine ⟨?_, ?_, ?_⟩ <;> decide

/-- C39: a request between the oldest and the newest measurement. -/
example (fp : FP) : process fp toyS { h0 with meas := stored, redo := [(1500000000, true)] } mE =
    processTail fp toyS
      (redoAfter toyS { h0 with meas := stored } 1500000000).1 mE := by
  have hs : (1:ℚ)/100000 ≤ 50 := by norm_num
  have hcut : fp.cutKey (fp.secOfKey 2000000000) |(100:ℚ) * (1/2)| ≤ 1500000000 := by
    have e := fp.secOfKey_err 2000000000 (by norm_num) (by norm_num)
    rw [abs_le] at e
    unfold FP.cutKey FP.secOfKey
    set s := fp.toSec (Timestamp.ofStampNs 2000000000)
    have h50 : |(100:ℚ) * (1/2)| = 50 := by norm_num
    rw [h50]
    norm_num at e
    have r := fp.rnd_err (s - 50) 100 (by rw [abs_le]; constructor <;> linarith)
    rw [abs_le] at r
    norm_num at r
    have hf := fp.fromSec_err (fp.rnd (s - 50))
      (by rw [Int.le_floor]; norm_num; linarith)
      (by have : fp.rnd (s - 50) ≤ 0 := by linarith
          have := Int.floor_le_floor this
          simp at this ⊢
          have h0 : fp.rnd (s - 50) < 8589934592 := by linarith
          exact le_trans this (by norm_num))
    rw [abs_le] at hf
    have : ((fp.fromSec (fp.rnd (s - 50))).ns : ℚ) ≤ 1500000000 := by linarith
    exact_mod_cast this
  have := c39_request_served fp toyS
    { h0 with meas := stored, redo := [(1500000000, true)] } mE
    (by decide)
    (c34_accepted fp _ mE (by simp [stored, Buf.SortedKeys]) (by decide) (by decide) (by
      intro o ho; simp [stored] at ho; subst ho; decide))
    (by simp [Buf.SortedKeys]) (1000000000, mA) (2000000000, mD) rfl rfl (1500000000, true) (by simp)
    hcut (by intro e he hne; simp at he; exact absurd he hne)
  rw [this]
  rfl

end Ikf.HandlerExample
