# Formal model of aau-cns/ikf_lib in Lean 4

## Trusted base

* Lean 4.33.0's kernel and the Mathlib release installed with it. No axioms are added; every theorem
  depends on at most `propext`, `Classical.choice`, `Quot.sound`.
* The reading of `/repo` by which each definition was transcribed. Every definition cites the file
  and lines it models and says where it simplifies. The C++ is neither compiled nor run.
* C++ library facts taken as given: `std::map`/`std::multimap` iterate in key order;
  `multimap::insert` places an element after all elements of equal key (C++11) and `find` returns
  the first of them (libstdc++); `std::lower_bound`/`upper_bound` on a sorted range; truncating
  integer `/` and `%`; Eigen's expressions denote the matrix operations of their names.
* `double`: two levels.
  - Time arithmetic (`Timestamp::to_sec/from_sec/+/-`, horizons) is modelled with an *arbitrary*
    rounding function `rnd : ℚ → ℚ` that is monotone and exact on integers up to 2^53 (`FP`);
    IEEE-754 binary64 in any rounding mode is an instance as long as nothing overflows to infinity.
    Theorems over `FP` therefore hold for the real double arithmetic of that code.
  - Matrix arithmetic (Kalman equations) is modelled in exact real arithmetic. What the theorems
    then say is that the *algorithm* is right; round-off of Eigen/double is not modelled.

## Conventions

* Stamps inside buffers are the int64 nanosecond keys, modelled as `Int`. `Timestamp.lean` proves
  exactly when `Timestamp ↔ key` is faithful and what happens elsewhere, so the buffer and handler
  theorems are about keys.
* Undefined behaviour (null dereference, division by zero, dereferencing `end()`, unlocking a
  mutex one does not own, signed overflow) and C++ exceptions are distinct outcomes, never totalised
  away silently.
* User supplied filters (virtual `progapation_measurement`, `local_private_measurement`,
  `local_joint_measurement`) are parameters: theorems quantify over all of them.
* A property the code violates is recorded by a theorem stating the negation with a concrete
  witness, plus a `_partial` theorem stating the strongest true part.
* Layout under `lean/Verif/`: `Model/` transcribes the code and cites it; `Spec/` holds the specifications
  the larger theorems compare with (a centralised Kalman filter over all instances, for one handler, for
  filters without buffers, for several agents); `Lemmas/` holds helper lemmas; `Props/` holds the property
  theorems `cNN_…` and, beside them (`…Examples`), concrete cases meeting their hypotheses.
* Outcome type `Res`: `ok`, `throws` (a C++ exception leaves the function) and `ub`. A call that throws
  yields no successor state: what it had changed before throwing is not modelled, so theorems about
  sequences of calls assume that no call in them throws; progress theorems (C57, C70, C73) say when that is so.
* Parameters of the models, over which theorems quantify: `near` (Eigen eigenvalue decomposition in
  `nearest_covariance`, with the contract `NearOk`: keeps shape, returns a symmetric matrix; the function
  itself is modelled over the spectral theorem in `Model/MatUtils`), `pred` (the user's
  `predict_to`-style virtuals), `hf`/`g` (measurement functions), `pj` (plus-Jacobian of the belief class).
* The inverse of a singular matrix is Mathlib's junk value 0; theorems that need invertibility assume or prove it.
* `CausalStep` (C36) excludes trimming of belief buffers by the horizon: it is stated for histories that
  fit the horizon.
* Several agents (`Model/Collab`): a request of one agent to another is a function call on the other's
  handler (`Link`: each of the two messages of an inter-agent observation may be lost). Requests of
  different agents do not overlap; this is what the handlers' mutexes are for, which `Model/Lock` and
  `Model/Concurrent` treat.

## Modelled code

| Model/ | repository (source/ikf) |
|---|---|
| Timestamp | Containers/Timestamp.{hpp,cpp} |
| Buffer | Container/{TTimeHorizonBuffer,THistoryBuffer,TMultiHistoryBuffer}.hpp |
| Handler, Instances | EstimatorHandler/IDICOHandler.{hpp,cpp} and the instance interface |
| StandaloneKF | Estimator/IKalmanFilter.cpp |
| Mat, KalmanMath | Estimator/{KalmanFilter,NormalizedInnovationSquared}.cpp, utils/eigen_utils.cpp |
| StandaloneMath | Estimator/IKalmanFilter.cpp: apply_propagation, apply_private_observation, correct_belief_at_t, belief accessors, horizon |
| SMap, Isolated | Estimator/IIsolatedKalmanFilter.cpp, EstimatorHandler/IsolatedKalmanFilterHandler.cpp |
| Corr | Estimator/IIsolatedKalmanFilterCorr.cpp |
| Iterated | IsolatedKalmanFilterHandler.cpp:361-510 |
| Decoupled | EstimatorHandler/DecoupledPropagationHandler.cpp |
| Schmidt | EstimatorHandler/SchmidtKalmanFilterHandler.cpp |
| Heap | the functions of Isolated with belief objects behind pointers (Estimate/IBelief.hpp:119) |
| MultiAgent, Collab, CollabRedo, DciHandler, Access | EstimatorHandler/{IMultiAgentHandler,ICSE_IKF_Handler,C_IKF_Handler,DCI_IKF_Handler}.cpp |
| Lock, Names, Registry | utils/lock_guard_timed.hpp, enum/string conversions, instance registries |
| UserFilter | ../examples/ikf_delay_cmd/include/LinearIKF_1D_const_acc.hpp, delegate_measurement, IDICOHandler `add` |
| DelayDemo | ../examples/ikf_delay_cmd/{main.cpp, include/SimInstanceDelay.hpp, include/Trajectory.hpp}: the simulation loop and the estimates read back; random draws are parameters |
| CyclicThread | utils/CyclicThread.{hpp,cpp}: interleavings of the worker's steps and other threads' calls |
| Rate | utils/Rate.{hpp,cpp} |
| Normal, NoiseGen | utils/{MultivariateNormal,UnivariateNormal}.hpp, utils/GaussianNoiseGen.cpp |
| Quat | utils/QuaternionUtils.hpp: small_angle_to_quaternion, theta2quat, quat2theta (over the reals) |
| Concurrent | EstimatorHandler/IDICOHandler.{hpp,cpp}: use of m_mtx, m_mtx_histRUR and the members by process_measurement, insert_measurement, delegate_measurement, schedule_redo_update, get, get/set_propagation_sensor_ID; several threads. Accesses to a member are atomic; races are a predicate |
| SimpleCmd | examples/ikf_simple_cmd: main, SimInstance (update_idx and its parts), LinearIKF::predict, the lengths and times of Trajectory. The noise generators are parameters; plots, console output, the copy HistBelief and the error statistics are left out |
| Members | IDICOHandler.cpp:28-56 add, remove on the instances; IKalmanFilter.cpp:251-255, IIsolatedKalmanFilter.cpp:149-154 set_horizon |
| FixPsd | IsolatedKalmanFilterHandler.cpp:260-264 with the modelled test |
| Ldlt | eigen_utils.cpp:29-39 with Eigen's isApprox and LDLT (unblocked, pivoted, with sign and success tracking) |
| VertCat | eigen_utils.cpp:106-115, 134-141, 158-165: the remaining concatenations |
| TimeAcc | Timestamp.cpp:112-139: compound assignment, comparisons of timestamped data |
| PreCheck | NormalizedInnovationSquared.cpp:42-52 (the `check_NIS` that computes the innovation covariance) |
| Listing | IO.cpp:19-59, 80-93, 121-133, 327-432: lines, words, peeking, directory listings and removal; the answers of the operating system and of the streams are inputs or described in the model |
| Stats | utils/math.hpp 24-28 `roundn` and 59-95 `mean`, `stddev`, `max`, `min` (double in exact arithmetic, int with 32 bits for mean and roundn) |
| Log | Logger.cpp 21-165 (texts numbered; formats, flushing and the choice of the file name 33-67 left out; spdlog's registry as documented) |
| SampleStats | eigen_utils.hpp sample_covariance, calc_cov_mean |
| Convert | eigen_utils.hpp to_vector, from_vector, toEigen*, fromEigen* |
| Correlated | IIsolatedKalmanFilter.cpp get_correlated_IDs*, get_CrossCovFact*, propagate_CrossCovFact |
| Restart | IDICOHandler.cpp reset, followed by the user's initialize |
| Stamped | Container/TStampedData.hpp |
| Walk | THistoryBuffer.hpp, TMultiHistoryBuffer.hpp: foreach*, accumulate, print*, operator<< |
| ProgressBar | utils/ProgressBar.{hpp,cpp}; lines as their parts, messages and symbols left out |
| PathStr, FileSys | utils/IO.cpp: string functions; createDirectory…, openFile over a tree of directories and files (POSIX calls modelled) |
| StdFilters | EstimatorStd/{KalmanFilterStd,IsolatedKalmanFilterStd,IKFHandlerStd}.cpp |
| MathUtils, MatUtils, MeasData, Csv | utils/math.cpp, utils/eigen_utils.{hpp,cpp}, Measurement/MeasData.cpp, utils/CSVTool.cpp |

## Not modelled

Logging and printing; `exec_time` profiling; the random engine itself and `RandomSampler` (the numbers of
`std::normal_distribution` are taken as independent standard normal ones); plotting, the other CLI examples;
wall-clock time-outs (only the ownership protocol of the timed lock is modelled); thread interleavings
other than those of `CyclicThread`;
floating-point round-off in matrix computations; the numerics of Eigen's eigenvalue solver and of the linear solves
(their exact mathematical results are used; `CommaInitializer` and the LDLT factorisation behind
`is_positive_semidefinite` are written down from Eigen 3.3/3.4, in exact arithmetic. The joint updates of the other
models use the exact test, which agrees with it on stabilised covariances: c134_stabilised, c134_symmetric); numerical differentiation
in `Jacobian`; the transport between agents beyond loss of a message.

## Plan per property

Files are under `lean/Verif/`: models in `Model/`, theorems named `cNN_…` in `Props/`.

| id | property | Model/ | Props/ | how |
|---|---|---|---|---|
| C01 | Nanosecond keys are faithful | Timestamp | Timestamp | `Timestamp` (sec,nsec : Int) with explicit int64 outcome type (`ok`/`errZero`/`overflow`); C++ truncating / and %; round-trip + order-isomorphism by `omega`. |
| C02 | Timestamp comparisons form a strict total order | Timestamp | Timestamp | operators transcribed as Bool functions; laws by case split. |
| C03 | Seconds-to-timestamp conversion is normalised and monotone | Timestamp | Timestamp | doubles = rationals with an arbitrary rounding `rnd` that is monotone and exact on integers up to 2^53; `from_sec`, `to_sec` transcribed; monotonicity by floor case split. |
| C04 | Millisecond / microsecond stamps round-trip | Timestamp | Timestamp | same integer model. |
| C05 | History buffer refines a finite map from time to value | Buffer, Timestamp | HistBuffer | std::map<int64,T> = strictly sorted association list; refinement to a function Int -> Option T for an arbitrary op list. |
| C06 | Neighbour queries return the true neighbours | Buffer, Timestamp | HistBuffer, MultiBuffer | lower_bound/upper_bound as list splits; greatest-before/least-after specification. |
| C07 | Closest-element query is a nearest neighbour | Buffer, Timestamp | Horizon | get_closest_t transcribed over the rounded Timestamp subtraction. |
| C08 | Interval queries return exactly the elements in the closed interval | Buffer, Timestamp | HistBuffer, MultiBuffer | filter specification. |
| C09 | remove_before_t leaves no element before t | Buffer, Timestamp | HistBuffer | refuted by witness; `_partial` when an element >= t exists. |
| C10 | remove_after_t and remove_at_t are exact | Buffer, Timestamp | HistBuffer | filter specification. |
| C11 | Down-sampling keeps the documented positions | Buffer, Timestamp | HistBuffer | erase loop transcribed with counter; index specification; N=0 explicit UB outcome. |
| C12 | Multi-history buffer keeps all concurrent elements in arrival order | Buffer, Timestamp | MultiBuffer | std::multimap = sorted list with insertion after equals; permutation + stability invariants over op lists. |
| C13 | Multi-history exist_before_t reports an older element | Buffer, Timestamp | MultiBuffer | transcribed; both-direction refutation; exact characterisation. |
| C14 | Multi-history index_at_t finds the position | Buffer, Timestamp | MultiBuffer | transcribed; refutation for every input. |
| C15 | Horizon trimming keeps the newest data and bounds the span | Buffer, Timestamp | Horizon | parametric in rounding; invariants over insert/trim sequences. |
| C16 | Trimming relative to a reference time drops stale entries | Buffer, Timestamp | Horizon | refutation + `_partial`. |
| C17 | Covariance propagation preserves symmetry and positive semidefiniteness | KalmanMath, Mat | KalmanMath | Mathlib `Matrix` over the reals; PosSemidef. |
| C18 | Correction step is the Kalman update | KalmanMath, Mat | KalmanMath | Joseph identity, PosSemidef, optimality of the gain. |
| C19 | Rejected or ill-dimensioned corrections change no belief | Isolated, SMap, KalmanMath | Isolated | decision logic of correction_step and callers; frame theorem. |
| C20 | NIS gate uses the chi-square quantile of the residual dimension | KalmanMath, Mat | NIS, NISTable | table lookup transcribed with UB outcome; refutations; `_partial` for gate semantics. The table: lower and upper bounds of the chi-square distribution function by a power series checked in kernel arithmetic; the law of the statistic from the multivariate Gaussian. |
| C21 | Cross-covariance factor storage round-trips | Isolated, SMap, KalmanMath | FactorStore | factor store transcribed; matrix algebra. |
| C22 | Isolated propagation propagates all cross-covariances | Isolated, SMap, KalmanMath | Isolated, IsolatedExamples | induction over interleaved propagation steps. |
| C23 | Isolated private update corrects cross-covariances like the centralised filter | Isolated, SMap, KalmanMath | Isolated | Lambda = Sigma_apos Sigma_apri^-1 algebra + induction. |
| C24 | Joint update of participants is the centralised Kalman update on their stacked state | Isolated, SMap, KalmanMath | Covariance, CrossCov, Isolated | participant list model. |
| C25 | Stacking and splitting covariances are inverse | Isolated, SMap, KalmanMath | FactorStore | block matrices over sigma-types / index lists. |
| C26 | Fixed beliefs are never changed by joint observations | Isolated, SMap, KalmanMath | Isolated | frame theorem. |
| C27 | Removing from / after t is exact over beliefs and factors | Isolated, SMap, KalmanMath | Corr, FactorStore | per-correlated-id histories. |
| C28 | Lazy correction buffer is equivalent to eager factor propagation | Corr | Corr, CorrExamples | lazy product vs eager product, induction. |
| C29 | A successful propagation reports success | Corr | Corr | refutation + success theorem for eager flavour. |
| C30 | Belief lookup strategies | StandaloneKF, Instances | Lifecycle, StandaloneKF | transcribed over HistBuffer. |
| C31 | Initialisation leaves exactly one belief | StandaloneKF, Instances | FactorStore, StandaloneKF | transcribed. |
| C32 | A standalone filter stores exactly the measurements it did not discard | StandaloneKF, Instances | Lifecycle, StandaloneKF | state machine with arbitrary user delegate. |
| C33 | A standalone filter re-processes all later measurements after an out-of-order one | StandaloneKF, Instances | StandaloneKF | refutation + `_partial`. |
| C34 | Unknown or too-old measurements are discarded without effect | Handler, Instances | Handler, Lifecycle | state machine, frame theorems, parametric rounding. |
| C35 | Handler keeps stored measurements ordered by time and sensor priority | Handler, Instances | Handler | sortedness invariant over arbitrary streams. |
| C36 | Delayed and out-of-order measurements converge to the in-order estimate | Handler, Instances | Convergence, ConvergenceInst | causal filter structure; invariant `beliefs = run sorted history`. |
| C37 | Order-violation test is exact | Handler, Instances | Handler | iff specification. |
| C38 | Re-processing skips updates after an out-of-order mark but never propagation | Handler, Instances | Handler | fold invariants. |
| C39 | Redo requests are served once, oldest first | Handler, Instances | Handler | request buffer model. |
| C40 | Re-sorting never loses measurements | Handler, Instances | Handler | permutation for known types, refutation for UNKNOWN. |
| C41 | Timed lock guard only releases what it acquired | Lock | Lock | owner/count state machine of a recursive timed mutex; refutation; `_partial` for runs without time-out. |
| C42 | Instance registry behaves like a finite map | Registry | Registry | finite-map refinement. |
| C43 | Strategy and type names round-trip | Names | Names | exhaustive case analysis, refutations. |
| C44 | Schmidt update leaves non-essential beliefs unchanged and is a consistent suboptimal update | Schmidt | Schmidt, SchmidtExamples, SchmidtJoint | matrix algebra. |
| C45 | Covariance intersection update is consistent | KalmanMath, Mat | CovInt | matrix algebra; PSD of the joint covariance. |
| C46 | Observations spanning more than one remote agent are discarded | MultiAgent | MultiAgent | dispatch logic. |
| C47 | Collaborative order strategies | MultiAgent | MultiAgent | iff specifications. |
| C48 | Agent/estimator lookup tables are consistent | MultiAgent | MultiAgent | finite-map model. |
| C49 | Angle wrapping | MathUtils | MathUtils | fmod over the reals. |
| C50 | Matrix concatenation and block helpers | MatUtils, VertCat | MatUtils, VertCat | shape-carrying matrices with a throw/UB outcome. |
| C51 | Symmetrisation and stabilisation | KalmanMath, Mat | KalmanMath | matrix algebra. |
| C52 | CSV reading skips corrupted rows without leaking their values | Csv | Csv | line/token state machine. |
| C53 | Measurement interpolation is linear and exact at the ends | MeasData | MeasData | vector algebra over a field. |
| C54 | Std filters: propagation only moves forward in time | StdFilters | StdFilters | state machine. |
| C55 | Std isolated joint update equals the centralised update | StdFilters | StdExamples, StdJoint, StdProgress | block matrix algebra. |
| C56 | Iterated joint observation | Iterated | Iterated, IteratedExamples | loop transcribed with UB outcomes; unfolding for one iteration; refutations for others. |
| C57 | Well-dimensioned in-order use never fails | Isolated, SMap, KalmanMath | Progress | invariant of reachable states (`Rel`) gives shapes of every stored block; each call is unfolded to `ok`. |
| C58 | Quaternion to roll, pitch, yaw | MathUtils | MathUtils | trigonometry over the reals; refutation for the pitch. |
| C59 | Skew, Omega and truncated matrix exponential | MathUtils | MathUtils | entrywise ring identities; exponential series as a finite sum. |
| C60 | Nearest covariance repair | MatUtils | MatUtils | spectral theorem for the symmetric case; refutation for asymmetric arguments. |
| C61 | CSV write/read round trip | Csv | Csv | writer composed with reader, induction over rows and columns; refutations. |
| C62 | The Schmidt handler respects fixed beliefs | Schmidt | SchmidtExamples | frame theorem for fixed nuisance beliefs; refutation otherwise. |
| C63 | Std propagation with control inputs | StdFilters | StdFilters | matrix algebra for one input; refutation for every other number. |
| C64 | Iterating an affine joint observation changes nothing | Iterated | Iterated, IteratedExamples | fixed point of the iteration: induction over iterations with block matrix algebra. |
| C65 | Timestamp sums and differences | Timestamp, TimeAcc | TimeAcc, TimestampArith | error bounds over an arbitrary rounding with bounded relative error. |
| C66 | Decoupled-propagation handler: joint observations correct the full state | Decoupled, Isolated | Decoupled, DecoupledIter | simulation: the full stacked state of all registered instances is the centralised filter. |
| C67 | Decoupled-propagation handler: observations through a measurement function | Decoupled, Isolated | DecoupledIter | case analysis of the statuses; simulation for the processed ones. |
| C68 | Reset and horizon of the measurement handler | Handler, Instances | Lifecycle | equality of whole states after reset; commuting of histories. |
| C69 | Collaborating agents equal one centralised filter | Collab, Isolated, MultiAgent | Collab | simulation between the net of agents and one handler holding the union (`Dist`), then `Rel` to the centralised filter; induction over the interleaving. |
| C70 | Collaborating agents always answer | Collab, Isolated, MultiAgent | CollabProgress | progress from the same invariant. |
| C71 | A joint observation across agents is all or nothing under message loss | Collab, Isolated, MultiAgent | CollabExamples, CollabLinks | messages of a joint observation can be lost (`Link`); frame theorem and refutation. |
| C72 | The answer of a joint observation across agents | Collab, Isolated, MultiAgent | CollabExamples, CollabLinks | answers read off the simulation; refutation. |
| C73 | Joint observations with a measurement function across agents behave like one centralised filter | Collab, Iterated | CollabNonlinear, CollabNonlinearExamples | as C69, with the measurement function as parameter, participants in any order, fixed participants removed. |
| C74 | Covariance intersection between agents corrects the caller only | DciHandler, Collab | Dci, DciProgress | simulation per agent: each agent has its own centralised filter; one side delivers beliefs and factors (Lemmas/Dci), the correction touches the caller only. |
| C75 | An observation between two covariance-intersection agents is answered | DciHandler, Collab | DciExamples, DciProgress | case analysis of the sizes of both sides; concrete counterexample with one instance each. |
| C76 | Re-processing asks exactly the agents that are correlated later, and requests do not breed requests | CollabRedo, Handler, MultiAgent | CollabRedo | folds over sorted sets characterised by membership; potential argument over event lists for the number of requests. |
| C77 | Strategy DISCARD drops exactly the measurements older than a correlation with another agent | CollabRedo, Handler, MultiAgent | CollabRedo | case analysis with the membership characterisation of C76. |
| C78 | The collaborative handler converges to time-ordered processing for any arrival order | CollabRedo, Handler, MultiAgent | CollabRedo, CollabRedoExamples | invariant of Lemmas/HandlerInv redone for the weaker order (Lemmas/Relaxed); under STRICT equality with the base class. |
| C79 | Access by estimator ID reaches exactly the named instance | Access, Isolated | Access | case analysis on the registry, lookups reduced to C30; induction over the list of IDs. |
| C80 | Beliefs can be requested without knowing which agent owns them | Access, Isolated | Access | the split loop characterised by filters, then C79 on the own part and the specification of the agent handler on the rest. |
| C81 | Belief objects: filters never interfere through a shared pointer if each object is handed over once | Heap, Isolated | Heap, HeapExamples | simulation of the value model by the pointer model under an ownership invariant, call by call, then induction over the calls; the aliased case computed. |
| C82 | The iterated joint observation is the iterated extended Kalman filter | Iterated, Isolated | GaussNewton, GaussNewtonExamples | specification of the iterated filter on stacked matrices (Spec/GaussNewton); refinement of the loop by induction over the iterations left, then simulation over the calls; progress under fitting shapes. |
| C83 | A joint observation is the observation of the participants predicted one by one | Isolated, Iterated, Schmidt, Decoupled, Collab | Prior, PriorExamples | each loop over participants equals the same loop on the handler with the predicted participants: induction over the list. |
| C84 | Delayed measurements into isolated filters give the centralised filter in chronological order | UserFilter, Handler, Isolated | EndToEnd | relational version of C36 (a run denotes the chronological list of the accepted measurements) with `Rel` to the centralised filter as the meaning; removing the newest estimates restores the relation to an earlier prefix (Lemmas/Off); induction over arrivals. |
| C85 | The horizon the handler gives its instances suffices for the delays it accepts | UserFilter, Handler, Isolated | EndToEnd | C84 for runs that fit the horizon; concrete counterexample by kernel evaluation of the handler. |
| C86 | The whole stored trajectory is that of the centralised filter | UserFilter, Handler, Isolated | History | the relation of C84 also holds for the cut of every history at an earlier time (the invariant keeps it for every chronological prefix); then `AgreesAt`. |
| C87 | The example filter has the models of a body under constant acceleration | UserFilter | Linear1D | entrywise matrix arithmetic over the reals; rounding bounds of Lemmas/FpErr. |
| C88 | Every measurement is answered, first with its own status | Handler | Answers | the redone measurements include the one handed in (invariant of C36); refutation by kernel evaluation. |
| C89 | The example program reports the trajectory of the centralised filter | DelayDemo, UserFilter, Handler | DelayDemo | rounding bounds for the sample times, the calls of the program satisfy the premises of C86 (`Served`, within the horizon), estimates read off `AgreesAt`; concrete run for the refutation. |
| C90 | A cyclic worker can be stopped, terminated and destroyed safely | CyclicThread | CyclicThread | interleavings as event lists; step invariants, a decreasing measure for termination, explicit schedules for the refutations. |
| C91 | Rate limits a loop to the given frequency | Rate | Rate | rounding bounds for the period; induction over cycles. |
| C92 | The reported process time is that of the cycles run | CyclicThread | CyclicThread | simulation of the cycles by a fold; concrete refutation. |
| C93 | Normal samples have the law they were asked for | Normal, NoiseGen | NoiseGen, Normal | affine image of a standard Gaussian (characteristic function), spectral/Cholesky contract; concrete refutations. |
| C94 | Seeding makes random numbers reproducible | NoiseGen | NoiseGen | induction over the call history with the parity of draws. |
| C95 | Small angles and quaternions | Quat | Quat | norms of quaternions, Taylor bounds of sine and cosine; explicit refutations. |
| C96 | Splitting strings and cleaning paths | PathStr | PathStr | a split relation with existence and uniqueness; the loop computes it (fuel as termination measure); an endless loop for the refutation. |
| C97 | Parts of a path | PathStr | PathStr | last occurrence of a character characterised; case analysis. |
| C98 | Directories are created | FileSys, PathStr | FileSys | invariant of the loop: the string built stands for a place in the tree; induction over the tokens. |
| C99 | Files are opened for writing | FileSys, PathStr | FileSys | composition of C98 with the open call. |
| C100 | The standalone filter computes the textbook Kalman filter | StandaloneMath, KalmanMath | StandaloneMath | unfolding each call to matrix algebra over Fin n, then induction over the calls. |
| C101 | Delayed measurements into a standalone filter | StandaloneKF, StandaloneMath | StandaloneDelay, StandaloneKalman | the buffer invariant of C36 with causality of the user filter: the beliefs up to a time are those of the run over the measurements up to that time; induction over arrivals; kernel-evaluated refutations. |
| C102 | Private observation through a measurement function | StandaloneMath, KalmanMath | StandaloneMath | unfolding to the null read. |
| C103 | A standalone filter's beliefs stay within the horizon | StandaloneKF, StandaloneMath | StandaloneDelay | lower bound on the number of beliefs by induction; characterisation of the erase calls. |
| C104 | Every stored covariance is a covariance | Isolated, Iterated, Decoupled, Schmidt, Collab, DciHandler, StdFilters | Covariance, CovarianceNet | one lemma per function: covariances in, covariances out (propagation and private observation by the algebra of C18, joint observations because the posterior is symmetric and then repaired); induction over the calls. |
| C105 | Concurrent calls on one handler act as if made one after another | Concurrent, Lock, Handler | Concurrent, ConcurrentHandler | small-step semantics of threads over shared members and two mutexes; invariant: the members are those of the calls finished so far, or the thread inside has the rest of its call to do; induction over the schedule. process_measurement is cut into its accesses and proved equal to Model/Handler alone. Explicit schedules for the refutations. |
| C106 | The covariances of several instances taken together stay a covariance | Isolated, StdFilters | Team, TeamChain, TeamExamples, TeamPairs, TeamStd | the centralised filter of C21 as an invariant carrier: each accepted call is a congruence plus something positive, or replaces the diagonal block of one group that is uncorrelated with the rest; induction over the calls. Filters without buffers: the same with a margin of 1e-16, which a private update may use up and a propagation or joint update restores. One participant against an outsider: P A^-1 X with P <= A + d. Refutations with three scalar instances, evaluated exactly. |
| C107 | The example program without delays runs the filters it describes | SimpleCmd, StdFilters, Timestamp | SimpleCmd, SimpleCmdClock, SimpleCmdPair, SimpleCmdStep | loop invariant: the calls made so far are a prefix of the specified script, each accepted call simulated by the centralised filter (C55), all stamps equal the clock; induction over instances and steps. Clock by rounding-free arithmetic; explicit refutations. Two bodies: the invariant of C106 for pairs, the process noise restoring the margin in each step. |
| C108 | The progress bar shows the progress | ProgressBar | ProgressBar | state after k calls in closed form, induction over the calls; error bounds of the four rounded operations of the time left. |
| C109 | Walking through a history buffer visits every element once, in time order | Walk, Buffer | Walk | loops reduced to folds by induction; the list in the order of time is unique, C05 and C12 give that the buffer holds it. |
| C110 | Stamped data are ordered by their stamps | Stamped, Timestamp | Stamped | reduction to C02; rounding bounds of to_sec and from_sec; an explicit double for every rounding. |
| C111 | A handler can be reused for a new run | Restart, Handler, Isolated, UserFilter |  | an invariant of the instances (which ones, how long their histories) kept by every callback and hence by every step of the handler; the counterexamples are evaluated by the kernel. |
| C112 | An instance knows whom it is correlated with | Correlated, Isolated, UserFilter, Handler | Correlated | the pairs with factors after every call are those before and a symmetric set of new ones; kept by every step of the handler. |
| C113 | Conversions between Eigen's and the standard containers keep every element | Convert | Convert | loop invariants over the element-wise assignments. |
| C114 | Mean and covariance of samples | SampleStats, Convert | SampleStats | the loop yields the matrix of columns (C113); finite sums; integrals of products of independent centred variables vanish. |
| C115 | The covariance a filter reports is that of its error, and no linear estimate is better | StandaloneMath | Honest | Spec/Honest describes system and noises on a probability space. The estimate is that of the textbook filter (C100) for every outcome; then by induction over the run: the error is a linear function of old error and noise, later noises stay uncorrelated with it, the covariance recursion is the second moment in Joseph form, and the error stays orthogonal to the span of the data. |
| C116 | The covariances isolated filters report, taken together, cover their errors | Isolated, KalmanMath | HonestChain, HonestLoop, HonestTeam | Spec/HonestTeam describes the systems and noises on a probability space. Induction over the run with the centralised filter of C24 for every outcome: covariances do not depend on chance, errors are linear functions of old errors of the same group and of the noise, later noises and other groups stay uncorrelated, and the covariance recursion bounds the second moments. |
| C117 | More information never leads to less reported certainty | StandaloneMath, KalmanMath | Certainty, CertaintyReg | Spec/Certainty compares estimates and scripts. The optimal gain minimises the covariance over all gains, so the update is monotone in prior and noise; induction over the two scripts on the textbook run of C100. |
| C118 | The reported covariance of an observed state stays bounded for ever | StandaloneMath, KalmanMath | Bounded | Spec/Bounded: cycles and stable observers. The covariance after an update is at most that of correcting with the observer's gain; induction over the cycles gives a geometric bound. |
| C119 | The order of simultaneous observations does not matter | StandaloneMath, KalmanMath, Isolated | Simultaneous, SimultaneousReg | Spec/Simultaneous: observations, stacking. Two updates in a row satisfy the normal equations of the stacked measurement, which have one solution and do not depend on the order; transported to the calls by C100 and to the instances by the refinement of C21. |
| C120 | Units, coordinates and superfluous states do not matter | StandaloneMath, KalmanMath | Units, UnitsReg | Spec/Units: converted calls and estimates. Gain, update and innovation statistic transform with T and U; a simulation step for every call, the gate included; induction over the calls. |
| C121 | Between joint observations an isolated instance is a standalone filter | Model/Isolated (Inst) against Model/StandaloneMath (SKF) | Solo | forward simulation: the belief history of the instance is a subset of that of the standalone filter; frame lemmas for the calls of others |
| C122 | The log: levels, sinks and threads | Model/Log.lean | Log | threads with programs over the spdlog registry, one step per call into spdlog; one thread: induction over the program; threads: invariant that the registered logger stays and that written plus owed lines are the program's |
| C123 | Statistics of numbers and rounding to digits | Model/Stats.lean | Stats | algebra of sums; induction over the scan of max_element; floor and ceiling |
| C124 | Listing a directory | `Model/Listing` (`isDirectory`, `filesLoop`, `getFiles`, `dirsLoop`, `getDirs`), entries and modes as the system answers; specification `Spec/Listing` (POSIX file kinds from the mode word) | Listing | both loops are shown to be filters by induction; the bit test is compared with the kinds for all mode words by bit arithmetic |
| C125 | Reading text by lines and by words | `Model/Listing` (`getline`, `readLines`, `getLines`, `getAbsPaths`, `extract`, `tokens`, `firstTokenAndReset`); specification `Spec/Listing` (`IsLines`, `IsWords`) | Listing | strong induction on the length of the text, both directions of each characterisation |
| C126 | Removing a directory removes that directory | `Model/Listing` (`shellWords`, `rmWord`, `rmWords`, `removeDirectory`) over the tree of `Model/FileSys` | Listing | the word splitting of plain names is computed symbolically; removal is a function on the tree compared place by place |
| C127 | What the numerical stabilisation costs | `Model/StandaloneMath`, `Model/KalmanMath` as for C100 and C115; specification `Spec/NearOptimal` (the ideal filter, the size of eps) | NearOptimal | both directions of the update inequality from the optimality of the gain for any noise matrix; induction over the calls; then C115 for the ideal filter |
| C128 | Testing an observation before it is processed | `Model/PreCheck` (the second `check_NIS`), `Model/KalmanMath`; specification `Spec/PreCheck` | PreCheck | the inverse is antitone on positive definite matrices (completing the square), applied to the stabilised and the plain innovation covariance |
| C129 | A filter forgets its initial belief | `Model/StandaloneMath`, `Model/KalmanMath` as for C100; specification `Spec/Forget` (differences in standard deviations, factor between covariances, plausible residuals), cycles of `Spec/Bounded` | Forget | d dᵀ <= c P is kept by the update (Joseph form) and divided by 1+alpha in the prediction; the factor between covariances likewise, by the optimality of the gain; the difference of the gains is bounded by the loss of optimality of the other gain; induction over the cycles |
| C130 | Instance IDs are mere names | `Model/Isolated`, `Model/KalmanMath`, `Model/MatUtils` (nearestCov); specification `Spec/Rename` (renamed calls, same estimates) | Rename | two simulations by the centralised filter (C24) related by the renaming; the stacked matrices differ by a permutation of the rows, under which innovation, gate, gain, posterior and repair are equivariant; induction over the calls |
| C131 | Estimates depend linearly on the measured values, covariances not at all | `Model/Isolated`, `Model/KalmanMath`; specification `Spec/Linear` (weighted means, calls differing in values, estimates) | Linear | three simulations by the centralised filter (C24); stacked matrices are determined by their blocks, the correction is a fixed gain times the residual; induction over the calls |
| C132 | Groups of instances that never meet do not influence each other | `Model/Isolated`, `Model/KalmanMath`; specification `Spec/Groups` (interleaving, union, agreement, no correlation) | Groups | three simulations by the centralised filter (C24) with the invariant that the groups' cross-covariances are zero; induction over the interleaving |
| C133 | Of the times only the order matters, of the horizon nothing | `Model/Isolated`, `Model/KalmanMath`, `Model/Buffer`; specification `Spec/Retime` (the same call at another time, estimates equal but for times) | Retime | two simulations by the centralised filter (C24), the times of the second pulled back; induction over the calls |
| C134 | The test for positive semidefinite covariances can be trusted when it says yes | `Model/Ldlt`, `Model/FixPsd`; specification `Spec/Psd` (symmetric, nearly symmetric, lower triangle; PosSemidef and PosDef of Mathlib) | Ldlt, LdltRepair, LdltUse | invariant of the left-looking loop: a permutation of the matrix is L D L^T left of the current column and untouched right of it; congruence by a unit triangular matrix keeps (semi)definiteness |
| C135 | Calls on different instances can be made in any order | `Model/Isolated`, `Spec/Central`; specification `Spec/Commute` (whom a call concerns, the same calls in an order no instance can tell) | Commute | a call changes the correlations with the instances it does not concern by a multiplication from one side that depends on those it concerns only, so two calls on different instances commute; induction over the history, with uniqueness of the centralised state of a handler |
| C136 | Propagating in steps or at once is the same | `Model/Isolated`, `Spec/Central`; specification `Spec/Commute` (successive propagations with the transition and noise of the whole interval) | Commute | induction over the steps on the centralised filter, then the simulation between two handlers with the same estimates |
| C137 | A handler can be saved and restored | `Model/Isolated`, `Spec/Central`; specification `Spec/Saved` (the saved covariances, the fresh instances) | Saved | induction over the writes: each makes one pair equal to that of the old handler and leaves the others; then the simulation between two handlers with the same estimates |
| C138 | Instances can join and leave at any time | `Model/Members`, `Model/Isolated`; specification `Spec/Members` (the centralised filter with changing membership) | Members | simulation with the centralised filter, extended by a block that is zero outside its diagonal at a join, and restricted at a leave; `_fails` for an ID that is used again |
| C139 | Simultaneous observations count only by their total information | `Model/StandaloneMath`, `Model/Isolated`, `Model/KalmanMath`; specification `Spec/Information` (the sums) | Information | induction over the list: the accumulated correction factor is the inverse of 1 + P J for the sum J, the mean is that factor applied to x + P h; both are determined by the sums |
| C140 | What a filter is surprised by | `Model/StandaloneMath`, `Model/KalmanMath`, `Model/StandaloneKF`, `Model/Isolated`; specifications `Spec/Honest`, `Spec/Innovation` (residual, expected covariance) | Innovation, InnovationGauss, InnovationTeam | second moments of residuals from C115; trace of a product of semidefinite matrices; Markov inequality with c20_gate_partial for the test; orthogonality to the span of the data by induction over the run; for isolated filters the invariant of C116, kept with one more noise to come |
| C141 | Which measured values pass the outlier test | `Model/StandaloneMath`, `Model/KalmanMath`, `Model/StandaloneKF`; specifications `Spec/Region`, `Spec/Innovation` | Region, RegionTeam | c20_gate_partial for the call; the quadratic form of the inverse as a supremum over directions (discriminant argument); rows of the quantile table compared by kernel evaluation |
| C142 | The estimate is the best compromise | `Model/StandaloneMath`, `Model/KalmanMath`, `Model/StandaloneKF`; specification `Spec/Compromise` (misfit, cost, innovations) | Compromise, CompromiseTeam | completing the square for one measurement (matrix identity), information form of the new covariance from C139, induction over the measurements; the test by C141 |
