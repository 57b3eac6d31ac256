import Verif.Model.CyclicThread
import Mathlib.Tactic.Linarith

/-! # Properties C90 and C92: the cyclic worker thread -/

namespace Ikf
namespace Cyc

/-! ## Specification -/

/-- Nobody calls `resume` in this part of the execution. -/
def NoResume (es : List Ev) : Prop := Ev.resume ∉ es

/-- The steps of the worker. -/
def Ev.isWorker : Ev → Bool
  | .worker _ => true
  | _ => false

/-- What the other threads do, in order. -/
def calls (es : List Ev) : List Ev := es.filter fun e => !e.isWorker

/-- A public function of the class. -/
def Ev.isPublic : Ev → Bool
  | .resume | .stop | .shut => true
  | _ => false

/-! ## Executions -/

theorem exec_append (s : St) (es fs : List Ev) : exec s (es ++ fs) = (exec s es).bind fun s' => exec s' fs := by
  induction es generalizing s with
  | nil => rfl
  | cons e es ih =>
    simp only [List.cons_append, exec]
    cases step s e with
    | none => rfl
    | some s1 => simp [ih]

theorem exec_cons {s s' : St} {e : Ev} {es : List Ev} (h : exec s (e :: es) = some s') : ∃ s1, step s e = some s1 ∧ exec s1 es = some s' := by
  simp only [exec, Option.bind_eq_some_iff] at h
  exact h

/-- A relation kept by every step is kept by every execution. -/
theorem exec_induct {I : St → Prop} {P : Ev → Prop} (hI : ∀ s e s', I s → P e → step s e = some s' → I s') :
    ∀ {es : List Ev} {s s' : St}, I s → (∀ e ∈ es, P e) → exec s es = some s' → I s' := by
  intro es
  induction es with
  | nil => intro s s' h _ he; simp only [exec, Option.some.injEq] at he; rw [← he]; exact h
  | cons e es ih =>
    intro s s' h hP he
    obtain ⟨s1, h1, h2⟩ := exec_cons he
    exact ih (hI s e s1 h (hP e (by simp)) h1) (fun x hx => hP x (by simp [hx])) h2

/-- The possible steps, one by one. -/
theorem step_cases {s s' : St} {e : Ev} (h : step s e = some s') : s.joined = false ∧ s.pc ≠ .crashed ∧
    match e with
    | .resume => s.alive = true ∧ s' = { s with run := true }
    | .stop => s' = { s with run := false }
    | .shut => s' = { s with shutdown := true }
    | .endDerived => s.alive = true ∧ s' = { s with alive := false }
    | .join => (s.pc = .done ∧ s.shutdown = true ∧ s.alive = false) ∧ s' = { s with joined := true }
    | .worker ms => work s ms = some s' := by
  unfold step at h
  split at h
  · simp at h
  · rename_i hc
    push Not at hc
    refine ⟨by simpa using hc.1, hc.2, ?_⟩
    cases e <;> simp only at h ⊢
    · split at h
      · exact ⟨by assumption, (Option.some.inj h).symm⟩
      · simp at h
    · exact (Option.some.inj h).symm
    · exact (Option.some.inj h).symm
    · split at h
      · exact ⟨by assumption, (Option.some.inj h).symm⟩
      · simp at h
    · split at h
      · exact ⟨by assumption, (Option.some.inj h).symm⟩
      · simp at h
    · exact h

/-! ## Stopping -/

/-- Whether `run_` is about to be called. -/
def pending (s : St) : ℕ := if s.pc = .call then 1 else 0

theorem quiet_step {n : ℕ} (s : St) (e : Ev) (s' : St) (h : s.run = false ∧ s.runs + pending s ≤ n) (he : e ≠ .resume)
    (hs : step s e = some s') : s'.run = false ∧ s'.runs + pending s' ≤ n := by
  obtain ⟨hj, hc, hs⟩ := step_cases hs
  obtain ⟨hr, hn⟩ := h
  cases e with
  | resume => exact absurd rfl he
  | stop => simp only at hs; subst hs; exact ⟨rfl, hn⟩
  | shut => simp only at hs; subst hs; exact ⟨hr, hn⟩
  | endDerived => simp only at hs; obtain ⟨-, rfl⟩ := hs; exact ⟨hr, hn⟩
  | join => simp only at hs; obtain ⟨-, rfl⟩ := hs; exact ⟨hr, hn⟩
  | worker ms =>
    simp only at hs
    unfold work at hs
    unfold pending at hn ⊢
    cases hp : s.pc <;> simp only [hp] at hs hn <;> try (simp at hs; done)
    all_goals
      obtain rfl := Option.some.inj hs
      first
        | (split <;> simp_all; done)
        | (simp_all; done)
        | (cases hal : s.alive <;> cases hsd : s.shutdown <;> simp_all <;> omega)

theorem mono_step {n : ℕ} (s : St) (e : Ev) (s' : St) (h : n ≤ s.runs) (_ : True) (hs : step s e = some s') : n ≤ s'.runs := by
  obtain ⟨hj, hc, hs⟩ := step_cases hs
  cases e <;> simp only at hs
  case worker ms =>
    unfold work at hs
    cases hp : s.pc <;> simp only [hp] at hs <;> try (simp at hs; done)
    all_goals
      obtain rfl := Option.some.inj hs
      first
        | exact h
        | (split <;> simp <;> omega)
  all_goals first | (subst hs; exact h) | (obtain ⟨-, rfl⟩ := hs; exact h)

theorem exec_mono {s s' : St} {es : List Ev} (h : exec s es = some s') : s.runs ≤ s'.runs :=
  exec_induct (I := fun x => s.runs ≤ x.runs) (P := fun _ => True) (mono_step (n := s.runs)) (le_refl _) (by simp) h

/-- C90. After `stop()` returned, `run_` begins at most once more as long as nobody calls `resume()`; and not at all unless the worker had
already passed its check. -/
theorem c90_stop_partial {s s' : St} {es : List Ev} (h : exec s (.stop :: es) = some s') (hn : NoResume es) :
    s'.runs ≤ s.runs + 1 ∧ (s.pc ≠ .call → s'.runs = s.runs) := by
  have hm := exec_mono h
  obtain ⟨s1, h1, h2⟩ := exec_cons h
  obtain ⟨-, -, h1⟩ := step_cases h1
  simp only at h1
  subst h1
  have := exec_induct (I := fun x => x.run = false ∧ x.runs + pending x ≤ s.runs + pending s) (P := fun e => e ≠ .resume)
    (quiet_step (n := s.runs + pending s)) (s := { s with run := false }) ⟨rfl, le_refl _⟩ (fun e he hr => hn (hr ▸ he)) h2
  have hp : pending s ≤ 1 := by unfold pending; split <;> omega
  refine ⟨by omega, ?_⟩
  intro hc
  have : pending s = 0 := by unfold pending; rw [if_neg hc]
  omega

/-- C90 in full is false: `run_` may begin after `stop()` has returned. -/
theorem c90_stop_fails (g : Int) : ∃ es s es' s', exec (init g) es = some s ∧ exec s (.stop :: es') = some s' ∧ NoResume es' ∧ s.runs < s'.runs :=
  ⟨[.resume, .worker 0, .worker 0], _, [.worker 0], _, rfl, rfl, by simp [NoResume], Nat.lt_succ_self 0⟩

/-- C90. A new object does not call `run_` before the first `resume()`, and never aborts without one. -/
theorem c90_paused {g : Int} {es : List Ev} {s : St} (h : exec (init g) es = some s) (hn : NoResume es) : s.runs = 0 ∧ s.pc ≠ .crashed := by
  have := exec_induct (I := fun x => (x.run = false ∧ x.runs + pending x ≤ 0) ∧ x.pc ≠ .crashed) (P := fun e => e ≠ .resume)
    (by
      intro s e s' hI he hs
      refine ⟨quiet_step s e s' hI.1 he hs, ?_⟩
      obtain ⟨-, hc, hs⟩ := step_cases hs
      cases e <;> simp only at hs
      case worker ms =>
        unfold work at hs
        have hp0 : s.pc ≠ .call := by
          intro hp
          have := hI.1.2
          unfold pending at this
          rw [if_pos hp] at this
          omega
        cases hp : s.pc <;> simp only [hp] at hs <;> try (simp at hs; done)
        all_goals
          obtain rfl := Option.some.inj hs
          first
            | exact absurd hp hp0
            | (simp; done)
            | (simp only; split <;> simp)
      all_goals first | (subst hs; exact hc) | (obtain ⟨-, rfl⟩ := hs; exact hc))
    (s := init g) ⟨⟨rfl, by simp [init, pending]⟩, by simp [init]⟩ (fun e he hr => hn (hr ▸ he)) h
  exact ⟨by omega, this.2⟩

/-! ## Terminating -/

/-- Steps the worker takes at most before it sees the flag. -/
def left (s : St) : ℕ := match s.pc with
  | .check => 6
  | .call => 5
  | .running => 4
  | .avg => 3
  | .sleep => 2
  | .test => 1
  | .done => 0
  | .crashed => 0

/-- `run_` begins at most this often before it sees the flag. -/
def more (s : St) : ℕ := match s.pc with
  | .check => 1
  | .call => 1
  | _ => 0

theorem shut_step {n : ℕ} {s s' : St} {e : Ev} (h : s.shutdown = true ∧ s.runs + more s ≤ n) (hs : step s e = some s') :
    (s'.shutdown = true ∧ s'.runs + more s' ≤ n) ∧ left s' + (if e.isWorker then 1 else 0) ≤ left s := by
  obtain ⟨hj, hc, hs⟩ := step_cases hs
  obtain ⟨hr, hn⟩ := h
  cases e <;> simp only at hs
  case worker ms =>
    unfold work at hs
    unfold more left at *
    cases hp : s.pc <;> simp only [hp] at hs hn ⊢ <;> try (simp at hs; done)
    all_goals
      obtain rfl := Option.some.inj hs
      simp only [Ev.isWorker, hr, if_true]
      first
        | (refine ⟨⟨?_, ?_⟩, ?_⟩ <;> first | trivial | (simp only [hr]; done) | omega)
        | (cases hrun : s.run <;> cases hal : s.alive <;> simp_all <;> omega)
  all_goals
    first
      | (subst hs; exact ⟨⟨by first | rfl | exact hr, hn⟩, le_refl _⟩)
      | (obtain ⟨-, rfl⟩ := hs; exact ⟨⟨by first | rfl | exact hr, hn⟩, le_refl _⟩)

theorem shut_exec {n : ℕ} : ∀ {es : List Ev} {s s' : St}, s.shutdown = true ∧ s.runs + more s ≤ n → exec s es = some s' →
    s'.runs ≤ n ∧ es.countP Ev.isWorker + left s' ≤ left s := by
  intro es
  induction es with
  | nil => intro s s' h he; simp only [exec, Option.some.injEq] at he; subst he; exact ⟨by omega, by simp⟩
  | cons e es ih =>
    intro s s' h he
    obtain ⟨s1, h1, h2⟩ := exec_cons he
    obtain ⟨h3, h4⟩ := shut_step h h1
    obtain ⟨h5, h6⟩ := ih h3 h2
    refine ⟨h5, ?_⟩
    rw [List.countP_cons]
    omega

/-- C90. After `terminate()` set its flag, whatever anybody calls, `run_` begins at most once more and the worker takes at most six more
steps. -/
theorem c90_terminate {s s' : St} {es : List Ev} (h : exec s (.shut :: es) = some s') :
    s'.runs ≤ s.runs + 1 ∧ es.countP Ev.isWorker ≤ 6 := by
  obtain ⟨s1, h1, h2⟩ := exec_cons h
  obtain ⟨-, -, h1⟩ := step_cases h1
  simp only at h1
  subst h1
  obtain ⟨h3, h4⟩ := shut_exec (n := s.runs + 1) (s := { s with shutdown := true })
    ⟨rfl, by unfold more; split <;> simp⟩ h2
  refine ⟨h3, ?_⟩
  have : left { s with shutdown := true } ≤ 6 := by unfold left; split <;> omega
  omega

/-- C90. The worker never waits for anybody: as long as it has not ended it can take a step; so the destructor's `join` returns. -/
theorem c90_progress (s : St) (hj : s.joined = false) : s.pc = .done ∨ s.pc = .crashed ∨ ∀ ms, ∃ s', step s (.worker ms) = some s' := by
  cases hp : s.pc
  case done => exact Or.inl rfl
  case crashed => exact Or.inr (Or.inl rfl)
  all_goals
    refine Or.inr (Or.inr fun ms => ?_)
    unfold step
    rw [if_neg (by simp [hj, hp])]
    simp only [work, hp]
    exact ⟨_, rfl⟩

/-- C90. When the destructor has returned the worker has ended: nothing happens any more. -/
theorem c90_joined {g : Int} {es : List Ev} {s : St} (h : exec (init g) es = some s) (hj : s.joined = true) :
    s.pc = .done ∧ s.alive = false ∧ ∀ e, step s e = none := by
  have := exec_induct (I := fun x => x.joined = true → x.pc = .done ∧ x.alive = false) (P := fun _ => True)
    (by
      intro s e s' hI _ hs hj'
      obtain ⟨hj, hc, hs⟩ := step_cases hs
      cases e <;> simp only at hs
      case worker ms =>
        unfold work at hs
        exfalso
        cases hp : s.pc <;> simp only [hp] at hs <;> try (simp at hs; done)
        all_goals
          obtain rfl := Option.some.inj hs
          first
            | (simp [hj] at hj'; done)
            | (split at hj' <;> simp [hj] at hj')
      case join => obtain ⟨h1, rfl⟩ := hs; exact ⟨h1.1, h1.2.2⟩
      all_goals first | (subst hs; simp [hj] at hj'; done) | (obtain ⟨-, rfl⟩ := hs; simp [hj] at hj'))
    (s := init g) (by simp [init]) (by simp) h hj
  refine ⟨this.1, this.2, ?_⟩
  intro e
  unfold step
  rw [if_pos (Or.inl hj)]

/-! ## Destroying -/

/-- Stopped for good and away from `run_`. -/
structure Away (n : ℕ) (s : St) : Prop where
  alive : s.alive = false
  run : s.run = false
  call : s.pc ≠ .call
  running : s.pc ≠ .running
  crashed : s.pc ≠ .crashed
  runs : s.runs = n

theorem away_step {n : ℕ} (s : St) (e : Ev) (s' : St) (h : Away n s) (_ : True) (hs : step s e = some s') : Away n s' := by
  obtain ⟨ha, hr, hc, hr', hx, hn⟩ := h
  obtain ⟨hj, -, hs⟩ := step_cases hs
  cases e <;> simp only at hs
  case worker ms =>
    unfold work at hs
    cases hp : s.pc <;> simp only [hp] at hs <;> try (simp at hs; done)
    all_goals
      obtain rfl := Option.some.inj hs
      first
        | exact absurd hp hc
        | exact absurd hp hr'
        | (constructor <;> simp [ha, hr, hn]; done)
        | (cases hsd : s.shutdown <;> constructor <;> simp_all)
  all_goals
    first
      | (subst hs; exact ⟨ha, by first | rfl | exact hr, hc, hr', hx, hn⟩)
      | (obtain ⟨h1, rfl⟩ := hs; first | exact ⟨ha, hr, hc, hr', hx, hn⟩ | simp [ha] at h1)

/-- C90. Destroying an object is safe if, when the derived class's destructor ends, the thread is stopped and the worker is not about to
call `run_` or inside it. -/
theorem c90_destroy_partial {s s' : St} {es : List Ev} (hr : s.run = false) (hc : s.pc ≠ .call) (hr' : s.pc ≠ .running)
    (h : exec s (.endDerived :: es) = some s') : s'.pc ≠ .crashed ∧ s'.runs = s.runs := by
  obtain ⟨s1, h1, h2⟩ := exec_cons h
  obtain ⟨-, hx, h1⟩ := step_cases h1
  simp only at h1
  obtain ⟨-, rfl⟩ := h1
  have := exec_induct (I := Away s.runs) (P := fun _ => True) away_step (s := { s with alive := false }) ⟨rfl, hr, hc, hr', hx, rfl⟩ (by simp) h2
  exact ⟨this.crashed, this.runs⟩

theorem exec_public {cs : List Ev} (hc : ∀ e ∈ cs, e.isPublic = true) : ∀ {s : St}, s.alive = true → s.joined = false → s.pc ≠ .crashed →
    ∃ r d, exec s cs = some { s with run := r, shutdown := d } ∧ (Ev.shut ∉ cs → d = s.shutdown) := by
  induction cs with
  | nil => intro s _ _ _; exact ⟨s.run, s.shutdown, rfl, fun _ => rfl⟩
  | cons e cs ih =>
    intro s ha hj hx
    have ih := @ih (fun x hx => hc x (by simp [hx]))
    have hst : ∃ r d, step s e = some { s with run := r, shutdown := d } ∧ (e ≠ .shut → d = s.shutdown) := by
      unfold step
      rw [if_neg (by simp [hj, hx])]
      have := hc e (by simp)
      cases e <;> simp only [Ev.isPublic] at this <;> try (simp at this; done)
      · exact ⟨true, s.shutdown, by simp [ha], fun _ => rfl⟩
      · exact ⟨false, s.shutdown, rfl, fun _ => rfl⟩
      · exact ⟨s.run, true, rfl, fun h => absurd rfl h⟩
    obtain ⟨r, d, h1, h2⟩ := hst
    obtain ⟨r', d', h3, h4⟩ := ih (s := { s with run := r, shutdown := d }) ha hj hx
    refine ⟨r', d', ?_, ?_⟩
    · simp only [exec, h1, Option.bind_some]
      exact h3
    · intro hn
      rw [h4 (fun h => hn (by simp [h]))]
      exact h2 (fun h => hn (by simp [h]))

theorem calls_public {cs : List Ev} (hc : ∀ e ∈ cs, e.isPublic = true) : calls cs = cs := by
  unfold calls
  rw [List.filter_eq_self]
  intro e he
  have := hc e he
  cases e <;> simp_all [Ev.isPublic, Ev.isWorker]

theorem calls_append (es fs : List Ev) : calls (es ++ fs) = calls es ++ calls fs := by simp [calls]

/-- C90 in full is false: whatever public functions are called before the object is destroyed, as long as `resume()` is among them (before
any `terminate()`), there is an execution in which the program is aborted by a call of the pure virtual `run_`, and one in which the
derived class's part of the object ends while `run_` is executing. In particular `stop()` or `terminate()` before the destruction do not
help. -/
theorem c90_destroy_fails (g : Int) (pre post : List Ev) (hpre : ∀ e ∈ pre, e.isPublic = true) (hns : Ev.shut ∉ pre)
    (hpost : ∀ e ∈ post, e.isPublic = true) :
    (∃ es s, calls es = pre ++ .resume :: post ++ [.endDerived] ∧ exec (init g) es = some s ∧ s.pc = .crashed) ∧
    (∃ es s, calls es = pre ++ .resume :: post ++ [.endDerived] ∧ exec (init g) es = some s ∧ s.pc = .running ∧ s.alive = false) := by
  obtain ⟨r, d, h1, h2⟩ := exec_public hpre (s := init g) rfl rfl (by simp [init])
  have hd : d = false := h2 hns
  subst hd
  have hce : ∀ l : List Ev, calls (pre ++ (.resume :: .worker 0 :: .worker 0 :: (post ++ (Ev.endDerived :: l)))) =
      pre ++ .resume :: post ++ (.endDerived :: calls l) := by
    intro l
    have e1 := calls_public hpre
    have e2 := calls_public hpost
    rw [calls_append, e1]
    change _ ++ Ev.resume :: calls (post ++ _) = _
    rw [calls_append, e2]
    simp [calls, Ev.isWorker]
  have hce' : calls (pre ++ (.resume :: .worker 0 :: .worker 0 :: .worker 0 :: (post ++ [Ev.endDerived]))) =
      pre ++ .resume :: post ++ [.endDerived] := by
    have e1 := calls_public hpre
    have e2 := calls_public hpost
    rw [calls_append, e1]
    change _ ++ Ev.resume :: calls (post ++ _) = _
    rw [calls_append, e2]
    simp [calls, Ev.isWorker]
  constructor
  · obtain ⟨r', d', h3, -⟩ := exec_public hpost
      (s := { init g with run := true, pc := .call }) rfl rfl (by simp)
    refine ⟨_, { init g with run := r', shutdown := d', pc := .crashed, alive := false }, hce [.worker 0], ?_, ?_⟩
    · rw [exec_append, h1]
      simp only [Option.bind_some]
      have : ∀ l, exec { init g with run := r, shutdown := false } (.resume :: .worker 0 :: .worker 0 :: l) =
          exec { init g with run := true, pc := .call } l := fun _ => rfl
      rw [this, exec_append, h3]
      rfl
    · rfl
  · obtain ⟨r', d', h3, -⟩ := exec_public hpost
      (s := { init g with run := true, pc := .running, runs := 1 }) rfl rfl (by simp)
    refine ⟨_, { init g with run := r', shutdown := d', pc := .running, alive := false, runs := 1 }, hce', ?_, ?_⟩
    · rw [exec_append, h1]
      simp only [Option.bind_some]
      have : ∀ l, exec { init g with run := r, shutdown := false } (.resume :: .worker 0 :: .worker 0 :: .worker 0 :: l) =
          exec { init g with run := true, pc := .running, runs := 1 } l := fun _ => rfl
      rw [this, exec_append, h3]
      rfl
    · exact ⟨rfl, rfl⟩

/-- The premises of C90 are met: a thread resumed, run three times, stopped, run out and destroyed. -/
example : ∃ es s, exec (init 0) (.resume :: es ++ .stop :: [.worker 5, .worker 7, .endDerived, .stop, .shut, .worker 0, .join]) = some s ∧
    s.runs = 3 ∧ s.joined = true ∧ s.pc = .done :=
  ⟨(List.replicate 3 [.worker 0, .worker 0, .worker 0, .worker 0, .worker 0, .worker 1]).flatten ++ [.worker 0], _, rfl, by decide, by decide, by decide⟩

/-! ## The processing time -/

/-- One cycle of the worker, told to run or to pause, whose sleep measures `ms`. -/
def cycle (c : Bool × Int) : List Ev :=
  if c.1 then [.resume, .worker 0, .worker 0, .worker 0, .worker 0, .worker 0, .worker c.2] else [.stop, .worker 0, .worker 0, .worker c.2]

/-- The smoothing `getProcessTime_ms` is meant to report. -/
def smooth (times : List Int) : ℚ := times.foldl (fun a (d : Int) => if a = 0 then (d : ℚ) else (a + d) / 2) 0

/-- The times of the cycles in which `run_` was called. -/
def runTimes (L : List (Bool × Int)) : List Int := (L.filter (·.1)).map (·.2)

/-- For each cycle in which `run_` was called, the time of the cycle before (`g` before the first). -/
def lagged (g : Int) : List (Bool × Int) → List Int
  | [] => []
  | c :: L => if c.1 then g :: lagged c.2 L else lagged c.2 L

/-- Times below 24 days. -/
def Small (ms : Int) : Prop := -2147483648 ≤ ms ∧ ms < 2147483648

theorem toI32_small {x : Int} (h : Small x) : toI32 x = x := by
  unfold toI32
  obtain ⟨h1, h2⟩ := h
  omega

/-- C92. What `getProcessTime_ms()` reports after any number of cycles: the smoothed times of the cycles *before* those in which `run_` was
called. -/
theorem c92_lag_partial (g : Int) (hg : Small g) (L : List (Bool × Int)) (hL : ∀ c ∈ L, Small c.2) :
    ∃ s, exec (init g) (L.flatMap cycle) = some s ∧ s.avg = smooth (lagged g L) ∧ s.runs = (L.filter (·.1)).length := by
  have : ∀ (L : List (Bool × Int)) (r : Bool) (g : Int) (a : ℚ) (n : ℕ), Small g → (∀ c ∈ L, Small c.2) →
      ∃ s, exec ⟨false, r, .test, true, false, g, a, n⟩ (L.flatMap cycle) = some s ∧
        s.avg = (lagged g L).foldl (fun a (d : Int) => if a = 0 then (d : ℚ) else (a + d) / 2) a ∧ s.runs = n + (L.filter (·.1)).length := by
    intro L
    induction L with
    | nil => intro r g a n _ _; exact ⟨_, rfl, rfl, rfl⟩
    | cons c L ih =>
      intro r g a n hg hL
      obtain ⟨b, ms⟩ := c
      have hms : Small ms := hL (b, ms) (by simp)
      rw [List.flatMap_cons, exec_append]
      cases b with
      | true =>
        have e : exec ⟨false, r, .test, true, false, g, a, n⟩ (cycle (true, ms)) =
          some ⟨false, true, .test, true, false, ms, calcAvg a (toI32 g), n + 1⟩ := rfl
        rw [e, toI32_small hg]
        simp only [Option.bind_some]
        obtain ⟨s, h1, h2, h3⟩ := ih true ms (calcAvg a g) (n + 1) hms (fun c hc => hL c (by simp [hc]))
        refine ⟨s, h1, ?_, ?_⟩
        · rw [h2]
          simp only [lagged, if_true, List.foldl_cons, calcAvg]
          congr 1
          by_cases ha : a = 0 <;> simp [ha]
        · rw [h3]; simp; omega
      | false =>
        have e : exec ⟨false, r, .test, true, false, g, a, n⟩ (cycle (false, ms)) =
          some ⟨false, false, .test, true, false, ms, a, n⟩ := rfl
        rw [e]
        simp only [Option.bind_some]
        obtain ⟨s, h1, h2, h3⟩ := ih false ms a n hms (fun c hc => hL c (by simp [hc]))
        refine ⟨s, h1, ?_, ?_⟩
        · rw [h2]; simp [lagged]
        · rw [h3]; simp
  obtain ⟨s, h1, h2, h3⟩ := this L false g 0 0 hg hL
  exact ⟨s, h1, h2, by rw [h3]; omega⟩

/-- C92 in full is false: after the first call of `run_` the report is a value that was never set, whatever the call took; and after a
pause it is the time of the pause. -/
theorem c92_report_fails : (∀ g, Small g → g ≠ 7 → ∃ s, exec (init g) ([(true, 7)].flatMap cycle) = some s ∧ s.avg ≠ smooth (runTimes [(true, 7)])) ∧
    (∃ s, exec (init 0) ([(false, 0), (true, 100)].flatMap cycle) = some s ∧ s.avg = 0 ∧ smooth (runTimes [(false, 0), (true, 100)]) = 100) := by
  refine ⟨?_, ?_⟩
  · intro g hg h7
    obtain ⟨s, h1, h2, -⟩ := c92_lag_partial g hg [(true, 7)] (by simp [Small])
    refine ⟨s, h1, ?_⟩
    rw [h2]
    simp only [lagged, if_true, smooth, runTimes, List.filter_cons_of_pos, List.filter_nil, List.map_cons, List.map_nil, List.foldl_cons, List.foldl_nil]
    exact_mod_cast h7
  · obtain ⟨s, h1, h2, -⟩ := c92_lag_partial 0 (by simp [Small]) [(false, 0), (true, 100)] (by simp [Small])
    refine ⟨s, h1, ?_, ?_⟩
    · rw [h2]; simp [lagged, smooth]
    · simp [smooth, runTimes]

end Cyc
end Ikf
