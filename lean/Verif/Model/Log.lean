import Verif.Model.Mat

/-!
# The library's logger

Model of source/ikf/source/Logger/Logger.cpp (all functions), used by every handler and filter of the library
through `Logger::ikf_logger()->…`. The global registry of spdlog (`get`, `drop`, `register_logger`, each atomic
because of the registry's own mutex; `register_logger` throws `spdlog_ex` when the name is taken) is the shared
state; any number of threads, each with its own program of calls, interleaved arbitrarily at the calls into spdlog.

Simplifications: texts are numbered; formats, flushing and the search for a free file name (lines 33-67) are left out;
the two standard sinks are called 0 (console) and 1 (file); sink levels do not change after the sink was handed over;
severities are 0 (trace) … 5 (critical) and level 6 is `off`.
-/

namespace Ikf.Log

/-- A spdlog sink: who it is and its own threshold. -/
structure Sink where
  id : ℕ
  level : ℕ
deriving DecidableEq

/-- What is written: the two lines `ikf_logger()` itself writes (lines 83 and 86) or the `n`-th text of thread `th`. -/
inductive Msg where
  | created
  | registered
  | text (th n : ℕ)
deriving DecidableEq

/-- A spdlog logger: its level and its sinks. -/
structure Lg where
  level : ℕ
  sinks : List Sink
deriving DecidableEq

/-- One line in one sink. -/
structure Line where
  sink : ℕ
  sev : ℕ
  msg : Msg
deriving DecidableEq

/-- `spdlog::logger::log`: dropped below the logger's level, else handed to every sink whose level allows it. -/
def Lg.write (g : Lg) (sev : ℕ) (m : Msg) : List Line :=
  if g.level ≤ sev then (g.sinks.filter fun k => decide (k.level ≤ sev)).map fun k => ⟨k.id, sev, m⟩ else []

/-- The calls of the API. -/
inductive Op where
  /-- `Logger::ikf_logger()` (line 25). -/
  | logger
  /-- `Logger::set_level(l)` (line 91). -/
  | setLevel (l : ℕ)
  /-- `Logger::disable()` (line 101). -/
  | disable
  /-- `Logger::setup_logger(sinks)` (line 105). -/
  | setup (sinks : List Sink)
  /-- `Logger::ikf_logger()->trace/debug/info/warn/error/critical(text n)`: how the whole library writes. -/
  | write (sev n : ℕ)
  /-- `Logger::log_trace/log_debug/log_info/log_warn(text n)` (lines 135-165), `sev` 0 to 3. -/
  | note (sev n : ℕ)
deriving DecidableEq

/-- What a thread does with the logger once it holds a pointer to it. -/
inductive Todo where
  | nothing
  | setLevel (l : ℕ)
  | write (sev n : ℕ)
deriving DecidableEq

/-- Where a thread stands inside a call. -/
inductive Pc where
  | idle
  /-- `ikf_logger()`, before line 26. -/
  | look (t : Todo)
  /-- `ikf_logger()`, logger `p` made, before line 85. -/
  | reg (p : ℕ) (t : Todo)
  /-- pointer `p` in hand. -/
  | act (p : ℕ) (t : Todo)
  /-- `setup_logger`, before line 109. -/
  | sLook (sinks : List Sink)
  /-- `setup_logger`, before line 112. -/
  | sDrop (sinks : List Sink)
  /-- `setup_logger`, before line 124. -/
  | sReg (sinks : List Sink)
  /-- `setup_logger` without sinks, before line 127. -/
  | sEmpty
  /-- `log_trace` …, before lines 136, 145, 153, 160. -/
  | qLook (sev n : ℕ)
deriving DecidableEq

/-- Every logger made so far (a pointer is an index), the registered one, all lines in all sinks in order, and per
thread its position and the calls still to make. -/
structure St where
  heap : List Lg
  reg : Option ℕ
  out : List Line
  pc : ℕ → Pc
  prog : ℕ → List Op

/-- Change of one thread's entry. -/
def put {α : Type} (f : ℕ → α) (th : ℕ) (a : α) : ℕ → α := fun x => if x = th then a else f x

/-- Logger.cpp:29-31, 69-82: console sink at warn, file sink at trace, logger at trace. -/
def standard : Lg := ⟨0, [⟨0, 3⟩, ⟨1, 0⟩]⟩

/-- Logger.cpp:92: `level <= spdlog::level::off`, the answer of `set_level`. -/
def accepts (l : ℕ) : Bool := decide (l ≤ 6)

/-- The first position of a call. Logger.cpp:91-99 (`set_level`), 101-103, 105-107, 126-127, 135-165. -/
def entry : Op → Pc
  | .logger => .look .nothing
  | .setLevel l => if accepts l then .look (.setLevel l) else .idle
  | .disable => .look (.setLevel 6)
  | .setup [] => .sEmpty
  | .setup (k :: ks) => .sLook (k :: ks)
  | .write sev n => .look (.write sev n)
  | .note sev n => .qLook sev n

/-- Logger.cpp:95, 102 and the use of the pointer by the caller. -/
def perform (s : St) (th p : ℕ) : Todo → St
  | .nothing => s
  | .setLevel l => { s with heap := s.heap.modify p fun g => { g with level := l } }
  | .write sev n => { s with out := s.out ++ ((s.heap[p]?).map fun g => g.write sev (.text th n)).getD [] }

/-- Thread `th` makes one step. A thread without work does nothing. -/
def step (s : St) (th : ℕ) : Res St :=
  match s.pc th with
  | .idle =>
    match s.prog th with
    | [] => .ok s
    | op :: ops => .ok { s with pc := put s.pc th (entry op), prog := put s.prog th ops }
  | .look t =>      -- Logger.cpp:26-27; the new logger and its first line: 69-84
    match s.reg with
    | some p => .ok { s with pc := put s.pc th (.act p t) }
    | none => .ok { s with
        heap := s.heap ++ [standard], out := s.out ++ standard.write 3 .created,
        pc := put s.pc th (.reg s.heap.length t) }
  | .reg p t =>     -- Logger.cpp:85-86
    match s.reg with
    | some _ => .throws
    | none => .ok { s with
        reg := some p, out := s.out ++ ((s.heap[p]?).map fun g => g.write 3 .registered).getD [],
        pc := put s.pc th (.act p t) }
  | .act p t => .ok { perform s th p t with pc := put s.pc th .idle }
  | .sLook ks =>    -- Logger.cpp:109-111
    match s.reg with
    | some _ => .ok { s with pc := put s.pc th (.sDrop ks) }
    | none => .ok { s with pc := put s.pc th (.sReg ks) }
  | .sDrop ks =>    -- Logger.cpp:112; `drop` of an absent name does nothing
    .ok { s with reg := none, pc := put s.pc th (.sReg ks) }
  | .sReg ks =>     -- Logger.cpp:115-124
    match s.reg with
    | some _ => .throws
    | none => .ok { s with
        heap := s.heap ++ [⟨0, ks⟩], reg := some s.heap.length, pc := put s.pc th .idle }
  | .sEmpty =>      -- Logger.cpp:127-131
    match s.reg with
    | some _ => .ok { s with pc := put s.pc th .idle }
    | none => .ok { s with pc := put s.pc th (.look .nothing) }
  | .qLook sev n => -- Logger.cpp:136-140, 145-149, 153-157, 160-164
    match s.reg with
    | some p => .ok { s with pc := put s.pc th (.act p (.write sev n)) }
    | none => .ok { s with pc := put s.pc th .idle }

/-- A schedule: which thread moves next. An exception that leaves a call ends it. -/
def run (s : St) : List ℕ → Res St
  | [] => .ok s
  | th :: ths => (step s th).bind fun s' => run s' ths

/-- Before the first call: nothing registered. -/
def start (prog : ℕ → List Op) : St := ⟨[], none, [], fun _ => .idle, prog⟩

/-- The thread has returned from all its calls. -/
def Done (s : St) (th : ℕ) : Prop := s.pc th = .idle ∧ s.prog th = []

end Ikf.Log
