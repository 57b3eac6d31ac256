{"id": "C01", "title": "Nanosecond keys are faithful", "statement": "For every normalised timestamp (0 <= nsec < 10^9) with 0 <= sec <= 9223372035, stamp_ns() does not overflow, from_stamp_ns(stamp_ns()) gives back the same timestamp, two timestamps have equal keys only if they are equal, and one is `<` the other exactly when its key is smaller. For every other timestamp the exact outcome is characterised: sec above 9223372036 is reported and gives key 0 (so it collides with time zero), and signed overflow occurs exactly outside the representable key range.", "quantifier": "all (sec,nsec) pairs of a signed 64/32-bit timestamp", "why_tests_cant": "the domain is 2^96 pairs; a test samples a few; collisions and overflow live at the edges", "anchors": ["source/ikf/source/Containers/Timestamp.cpp:stamp_ns", "source/ikf/source/Containers/Timestamp.cpp:from_stamp_ns"]}
{"id": "C02", "title": "Timestamp comparisons form a strict total order", "statement": "The comparison operators <, >, <=, == of Timestamp are mutually consistent: exactly one of a<b, a==b, a>b holds, < is transitive, <= is the reflexive closure of <, for every pair, normalised or not.", "quantifier": "all pairs/triples of timestamps", "why_tests_cant": "orders are laws over all triples", "anchors": ["source/ikf/source/Containers/Timestamp.cpp:operator<", "source/ikf/source/Containers/Timestamp.cpp:operator<=", "source/ikf/source/Containers/Timestamp.cpp:operator>", "source/ikf/source/Containers/Timestamp.cpp:operator=="]}
{"id": "C03", "title": "Seconds-to-timestamp conversion is normalised and monotone", "statement": "from_sec of any finite double inside the 33-bit range yields 0 <= nsec < 10^9, never a carry left in nsec, is monotone in its argument, and values above the range are mapped to zero. Holds for any monotone rounding of double arithmetic that is exact on small integers.", "quantifier": "every finite double value and every rounding mode that is monotone", "why_tests_cant": "doubles cannot be enumerated; the nsec carry occurs only for rare fractions", "anchors": ["source/ikf/source/Containers/Timestamp.cpp:from_sec", "source/ikf/source/Containers/Timestamp.cpp:to_sec"]}
{"id": "C04", "title": "Millisecond / microsecond stamps round-trip", "statement": "from_stamp_ms then stamp_ms, and from_stamp_us then stamp_us, return the original integer for every integer in range (also negative), and stamp_ms/stamp_us of a normalised non-negative timestamp truncate its nanosecond key.", "quantifier": "all int64 stamps in range", "why_tests_cant": "unbounded integer domain", "anchors": ["source/ikf/source/Containers/Timestamp.cpp:stamp_ms", "source/ikf/source/Containers/Timestamp.cpp:from_stamp_ms", "source/ikf/source/Containers/Timestamp.cpp:stamp_us", "source/ikf/source/Containers/Timestamp.cpp:from_stamp_us"]}
{"id": "C05", "title": "History buffer refines a finite map from time to value", "statement": "After any sequence of insert, remove_at_t, remove_before_t, remove_after_t, remove_every_N, subsample_by_N and clear, iteration is strictly increasing in time, get_at_t returns the last value inserted at that time that was not removed since, and size counts distinct stamps.", "quantifier": "every operation sequence, every element type", "why_tests_cant": "histories are unbounded", "anchors": ["source/ikf/include/ikf/Container/THistoryBuffer.hpp:insert_sorted", "source/ikf/include/ikf/Container/THistoryBuffer.hpp:get_at_t", "source/ikf/include/ikf/Container/THistoryBuffer.hpp:remove_at_t", "source/ikf/include/ikf/Container/THistoryBuffer.hpp:remove_after_t"]}
{"id": "C06", "title": "Neighbour queries return the true neighbours", "statement": "get_before_t returns the element with the greatest stamp strictly before t and fails iff none exists; get_after_t the least stamp strictly after t and fails iff none; exist_at/after/before_t agree with them; get_oldest/get_latest return the extremes.", "quantifier": "every buffer content and every query time (inside, outside, equal)", "why_tests_cant": "boundary behaviour of lower/upper bound over all contents", "anchors": ["source/ikf/include/ikf/Container/THistoryBuffer.hpp:get_before_t", "source/ikf/include/ikf/Container/THistoryBuffer.hpp:get_after_t", "source/ikf/include/ikf/Container/THistoryBuffer.hpp:exist_before_t", "source/ikf/include/ikf/Container/THistoryBuffer.hpp:exist_after_t", "source/ikf/include/ikf/Container/THistoryBuffer.hpp:get_oldest", "source/ikf/include/ikf/Container/THistoryBuffer.hpp:get_latest"]}
{"id": "C07", "title": "Closest-element query is a nearest neighbour", "statement": "get_closest_t fails only on an empty buffer, returns the exact element if one exists at t, and otherwise an adjacent neighbour of t whose distance, as computed by Timestamp subtraction, is not larger than the other neighbour's.", "quantifier": "every buffer and query time, any monotone double rounding", "why_tests_cant": "depends on rounding of double differences at all magnitudes", "anchors": ["source/ikf/include/ikf/Container/THistoryBuffer.hpp:get_closest_t"]}
{"id": "C08", "title": "Interval queries return exactly the elements in the closed interval", "statement": "get_between_t1_t2, accumulate_between_t1_t2 and foreach_between_t1_t2 visit, in time order, exactly the stored elements with t1 <= t <= t2, for every t1 <= t2. (THistoryBuffer.get_between_t1_t2 violates it for t1 == t2, where it returns nothing.)", "quantifier": "every buffer and every pair of bounds", "why_tests_cant": "all relative positions of bounds and contents", "anchors": ["source/ikf/include/ikf/Container/THistoryBuffer.hpp:get_between_t1_t2", "source/ikf/include/ikf/Container/THistoryBuffer.hpp:foreach_between_t1_t2", "source/ikf/include/ikf/Container/TMultiHistoryBuffer.hpp:get_between_t1_t2", "source/ikf/include/ikf/Container/TMultiHistoryBuffer.hpp:foreach_between_t1_t2"]}
{"id": "C09", "title": "remove_before_t leaves no element before t", "statement": "After remove_before_t(t) no element with stamp < t remains and every element at or after t is kept. (Violated: when all elements are older than t nothing is removed.)", "quantifier": "every buffer and every t", "why_tests_cant": "the failing case is a whole region of inputs", "anchors": ["source/ikf/include/ikf/Container/THistoryBuffer.hpp:remove_before_t", "source/ikf/include/ikf/Container/TMultiHistoryBuffer.hpp:remove_before_t"]}
{"id": "C10", "title": "remove_after_t and remove_at_t are exact", "statement": "After remove_after_t(t) exactly the elements with stamp <= t remain; after remove_at_t(t) exactly those with stamp != t.", "quantifier": "every buffer and every t", "why_tests_cant": "all relative positions", "anchors": ["source/ikf/include/ikf/Container/THistoryBuffer.hpp:remove_after_t", "source/ikf/include/ikf/Container/THistoryBuffer.hpp:remove_at_t", "source/ikf/include/ikf/Container/TMultiHistoryBuffer.hpp:remove_after_t", "source/ikf/include/ikf/Container/TMultiHistoryBuffer.hpp:remove_at_t"]}
{"id": "C11", "title": "Down-sampling keeps the documented positions", "statement": "subsample_by_N(N) keeps exactly the elements at positions divisible by N and remove_every_N(N) removes exactly those, order preserved, for every N >= 1; N = 0 divides by zero on any non-empty buffer.", "quantifier": "every buffer and N", "why_tests_cant": "all lengths and N", "anchors": ["source/ikf/include/ikf/Container/THistoryBuffer.hpp:remove_every_N", "source/ikf/include/ikf/Container/THistoryBuffer.hpp:subsample_by_N", "source/ikf/include/ikf/Container/TMultiHistoryBuffer.hpp:remove_every_N", "source/ikf/include/ikf/Container/TMultiHistoryBuffer.hpp:subsample_by_N"]}
{"id": "C12", "title": "Multi-history buffer keeps all concurrent elements in arrival order", "statement": "After any sequence of inserts and removals, the buffer iterates in non-decreasing time; elements with equal stamps are kept all, in the order they were inserted; get_all_at_t returns exactly them; the number of elements is the number of inserts not removed.", "quantifier": "every operation sequence", "why_tests_cant": "arbitrary interleavings of equal and distinct stamps", "anchors": ["source/ikf/include/ikf/Container/TMultiHistoryBuffer.hpp:insert_sorted", "source/ikf/include/ikf/Container/TMultiHistoryBuffer.hpp:get_all_at_t"]}
{"id": "C13", "title": "Multi-history exist_before_t reports an older element", "statement": "exist_before_t(t) is true exactly if an element strictly before t is stored. (Violated in both directions.)", "quantifier": "every buffer and every t", "why_tests_cant": "wrong on two whole regions of inputs", "anchors": ["source/ikf/include/ikf/Container/TMultiHistoryBuffer.hpp:exist_before_t"]}
{"id": "C14", "title": "Multi-history index_at_t finds the position", "statement": "index_at_t(t, idx) returns true exactly if an element at t exists and idx is the first position. (Violated: it always returns false.)", "quantifier": "every buffer and t", "why_tests_cant": "the return value is never true", "anchors": ["source/ikf/include/ikf/Container/TMultiHistoryBuffer.hpp:index_at_t"]}
{"id": "C15", "title": "Horizon trimming keeps the newest data and bounds the span", "statement": "check_horizon never removes the newest element, removes nothing while the span is within max_horizon, removes only elements whose stamp is below the rounded cut (latest - max_horizon), and afterwards no element older than that cut remains, so the remaining span stays within max_horizon up to the rounding of the cut. Inserting then trimming in any sequence keeps the buffer sorted and non-empty.", "quantifier": "every insert/trim sequence, any monotone double rounding", "why_tests_cant": "unbounded runs; floating-point rounding", "anchors": ["source/ikf/include/ikf/Container/TTimeHorizonBuffer.hpp:check_horizon", "source/ikf/include/ikf/Container/TTimeHorizonBuffer.hpp:horizon", "source/ikf/include/ikf/Container/TTimeHorizonBuffer.hpp:check_horizon_restricted"]}
{"id": "C16", "title": "Trimming relative to a reference time drops stale entries", "statement": "After check_horizon_from_t(t) no entry older than t - max_horizon remains. (Violated: if every entry is stale all are kept.)", "quantifier": "every buffer and reference time", "why_tests_cant": "failing region is not a point", "anchors": ["source/ikf/include/ikf/Container/TTimeHorizonBuffer.hpp:check_horizon_from_t"]}
{"id": "C17", "title": "Covariance propagation preserves symmetry and positive semidefiniteness", "statement": "For Sigma and Q symmetric positive semidefinite, covariance_propagation returns Phi Sigma Phi^T + Q, symmetric positive semidefinite, for every Phi of every dimension; a dimension mismatch it checks for returns an empty matrix. (A non-square Sigma whose row count fits is not caught: undefined behaviour.)", "quantifier": "all dimensions, all matrices", "why_tests_cant": "continuum of matrices of all sizes", "anchors": ["source/ikf/source/Estimator/KalmanFilter.cpp:covariance_propagation"]}
{"id": "C18", "title": "Correction step is the Kalman update", "statement": "If Sigma is PSD and S = H Sigma H^T + R + eps I is positive definite, correction_step uses the gain K = Sigma H^T S^-1; without stabilisation the short form equals the Joseph form plus eps K K^T; the posterior is symmetric PSD, Sigma - Sigma_apos is PSD (information never decreases), and the gain minimises the posterior covariance among all gains.", "quantifier": "all dimensions and matrices", "why_tests_cant": "continuum of matrices", "anchors": ["source/ikf/source/Estimator/KalmanFilter.cpp:correction_step"]}
{"id": "C19", "title": "Rejected or ill-dimensioned corrections change no belief", "statement": "If correction_step reports rejected (NIS gate or dimension mismatch) the private/joint observation functions return false/REJECTED and every belief mean, covariance and cross-covariance factor in every instance is unchanged; setting a belief to a mean and covariance of unequal sizes is refused.", "quantifier": "all inputs and states", "why_tests_cant": "must hold for all states", "anchors": ["source/ikf/source/Estimator/KalmanFilter.cpp:correction_step", "source/ikf/source/Estimator/KalmanFilter.cpp:check_dim", "source/ikf/source/Estimator/IKalmanFilter.cpp:apply_private_observation", "source/ikf/source/EstimatorHandler/IsolatedKalmanFilterHandler.cpp:apply_observation", "source/ikf/source/Estimate/IBelief.cpp:set"]}
{"id": "C20", "title": "NIS gate uses the chi-square quantile of the residual dimension", "statement": "check_NIS accepts exactly if r^T S^-1 r is at most the quantile for df = dim(r). Every entry of the threshold table is the chi-square quantile of its confidence and degrees of freedom to four decimals, so for a consistent filter (residual Gaussian with covariance S) a listed confidence is the probability of acceptance. (Violated: the table entries are right but the lookup is off by one in df, so for dimensions 1 to 49 a consistent residual is accepted with more than the nominal probability; the lookup is undefined for an unlisted confidence; from dimension 50 on everything is rejected, the probability of acceptance is 0.)", "quantifier": "all residual dimensions, all confidence values, all table entries, all positive definite innovation covariances", "why_tests_cant": "the defect shows up for every df", "anchors": ["source/ikf/source/Estimator/NormalizedInnovationSquared.cpp:chi2inv", "source/ikf/source/Estimator/NormalizedInnovationSquared.cpp:check_NIS", "source/ikf/source/Estimator/NormalizedInnovationSquared.cpp:nearest_key"]}
{"id": "C21", "title": "Cross-covariance factor storage round-trips", "statement": "set_Sigma_IJ_at_t followed by get_Sigma_IJ_at_t returns the same matrix for every pair of distinct instance IDs in either order, and get with swapped IDs returns the transpose.", "quantifier": "all matrices, all dimensions, all ID pairs", "why_tests_cant": "continuum of matrices, both ID orders", "anchors": ["source/ikf/source/EstimatorHandler/IsolatedKalmanFilterHandler.cpp:set_Sigma_IJ_at_t", "source/ikf/source/EstimatorHandler/IsolatedKalmanFilterHandler.cpp:get_Sigma_IJ_at_t"]}
{"id": "C22", "title": "Isolated propagation propagates all cross-covariances", "statement": "When instances propagate independently any number of times, in any interleaving, the cross-covariance reconstructed from the two factors equals the one a centralised filter would hold (product of I's transition matrices times initial Sigma_IJ times transposed product of J's).", "quantifier": "any number and interleaving of propagation steps, all matrices", "why_tests_cant": "unbounded histories", "anchors": ["source/ikf/source/Estimator/IIsolatedKalmanFilter.cpp:apply_propagation", "source/ikf/source/Estimator/IIsolatedKalmanFilter.cpp:propagate_CrossCovFact", "source/ikf/source/Estimator/IIsolatedKalmanFilter.cpp:add_correction_at_t"]}
{"id": "C23", "title": "Isolated private update corrects cross-covariances like the centralised filter", "statement": "After a private observation of I the reconstructed cross-covariance to every other instance equals (I - K H) Sigma_IJ, i.e. what the centralised Kalman filter computes when J's own gain is left zero, and repeated updates compose, for a belief that carries the time it is stored at. A belief stored under another time than its own stamp gets its own mean and covariance corrected but none of its factors at that time.", "quantifier": "all matrices with invertible prior covariance, any sequence of updates", "why_tests_cant": "continuum and histories", "anchors": ["source/ikf/source/Estimator/IIsolatedKalmanFilter.cpp:apply_private_observation", "source/ikf/source/Estimator/IIsolatedKalmanFilter.cpp:apply_correction_at_t"]}
{"id": "C24", "title": "Joint update of participants is the centralised Kalman update on their stacked state", "statement": "For a joint observation among a set of instances, after stack_Sigma, correction_step and split, the reconstructed pairwise covariances of the participants equal the blocks of the stacked posterior exactly; non-participants keep beliefs, and their cross-covariances to a participant are multiplied by Sigma_apos Sigma_apri^-1.", "quantifier": "any number of participants, all block sizes", "why_tests_cant": "all partitions and matrices", "anchors": ["source/ikf/source/EstimatorHandler/IsolatedKalmanFilterHandler.cpp:apply_observation", "source/ikf/source/EstimatorHandler/IsolatedKalmanFilterHandler.cpp:stack_Sigma", "source/ikf/source/EstimatorHandler/IsolatedKalmanFilterHandler.cpp:split_right_upper_covariance", "source/ikf/source/EstimatorHandler/IsolatedKalmanFilterHandler.cpp:apply_corrections_at_t"]}
{"id": "C25", "title": "Stacking and splitting covariances are inverse", "statement": "Splitting a stacked symmetric covariance gives back every diagonal and off-diagonal block for any number of participants and block sizes; stacking is symmetric.", "quantifier": "any list of block sizes", "why_tests_cant": "all partitions", "anchors": ["source/ikf/source/EstimatorHandler/IsolatedKalmanFilterHandler.cpp:stack_Sigma", "source/ikf/source/EstimatorHandler/IsolatedKalmanFilterHandler.cpp:split_right_upper_covariance", "source/ikf/source/utils/eigen_utils.cpp:stack_Sigma", "source/ikf/source/utils/eigen_utils.cpp:split_Sigma"]}
{"id": "C26", "title": "Fixed beliefs are never changed by joint observations", "statement": "A belief marked fixed keeps mean and covariance in every joint observation, whatever the measurement.", "quantifier": "all participants sets and measurements", "why_tests_cant": "all configurations", "anchors": ["source/ikf/source/EstimatorHandler/IsolatedKalmanFilterHandler.cpp:correct_beliefs_implace", "source/ikf/source/EstimatorHandler/IsolatedKalmanFilterHandler.cpp:stack_Sigma"]}
{"id": "C27", "title": "Removing from / after t is exact over beliefs and factors", "statement": "remove_from_t(t) leaves exactly the beliefs and cross-covariance factors before t, remove_after_t(t) exactly those at or before t, reset none, for every correlated instance; the correction-buffer flavour does the same with its recorded corrections.", "quantifier": "all histories and t", "why_tests_cant": "all histories", "anchors": ["source/ikf/source/Estimator/IIsolatedKalmanFilter.cpp:remove_from_t", "source/ikf/source/Estimator/IIsolatedKalmanFilter.cpp:remove_after_t"]}
{"id": "C28", "title": "Lazy correction buffer is equivalent to eager factor propagation", "statement": "The factor returned by the correction-buffer flavour at time t equals the factor the eager flavour maintains after any sequence of propagations and corrections inside the horizon; corrections are kept twice as long as factors.", "quantifier": "any sequence of corrections", "why_tests_cant": "unbounded histories", "anchors": ["source/ikf/source/Estimator/IIsolatedKalmanFilterCorr.cpp:get_CrossCovFact_at_t", "source/ikf/source/Estimator/IIsolatedKalmanFilterCorr.cpp:compute_correction", "source/ikf/source/Estimator/IIsolatedKalmanFilterCorr.cpp:add_correction_at_t", "source/ikf/source/Estimator/IIsolatedKalmanFilterCorr.cpp:apply_correction_at_t"]}
{"id": "C29", "title": "A successful propagation reports success", "statement": "apply_propagation(Phi,Q,t_a,t_b) returns true whenever it stored the propagated belief. (Violated by the correction-buffer flavour, which records the correction twice and returns false.)", "quantifier": "all calls on existing beliefs", "why_tests_cant": "fails for every call of one overload", "anchors": ["source/ikf/source/Estimator/IIsolatedKalmanFilterCorr.cpp:add_correction_at_t", "source/ikf/source/Estimator/IIsolatedKalmanFilter.cpp:apply_propagation"]}
{"id": "C30", "title": "Belief lookup strategies", "statement": "get_belief_at_t EXACT succeeds iff a belief is stored at t; CLOSEST fails iff no belief is stored and returns a stored belief minimising |t - t_belief| with ties to the older; no lookup other than PREDICT changes the history; PREDICT returns the stored belief if there is one, else fails exactly if predict_to fails and otherwise returns what is then stored at t.", "quantifier": "all histories and query times", "why_tests_cant": "all histories", "anchors": ["source/ikf/source/Estimator/IKalmanFilter.cpp:get_belief_at_t"]}
{"id": "C31", "title": "Initialisation leaves exactly one belief", "statement": "initialize leaves exactly the given belief at the given time and no other; current_belief and current_t then return it; an isolated instance keeps no factor towards any other instance; stored measurements survive for re-processing.", "quantifier": "all previous histories", "why_tests_cant": "all histories", "anchors": ["source/ikf/source/Estimator/IKalmanFilter.cpp:initialize", "source/ikf/source/Estimator/IKalmanFilter.cpp:reset", "source/ikf/source/Estimator/IKalmanFilter.cpp:current_belief", "source/ikf/source/Estimator/IKalmanFilter.cpp:current_t"]}
{"id": "C32", "title": "A standalone filter stores exactly the measurements it did not discard", "statement": "Over any stream, with delay handling on, the stored measurement history is exactly the non-discarded measurements in time order (concurrent in arrival order) minus those trimmed by the horizon; with delay handling off nothing is stored. Propagation measurements go to the propagation function, private ones to the private one, others are discarded without effect.", "quantifier": "any measurement stream, any filter implementation", "why_tests_cant": "unbounded streams, arbitrary user filter", "anchors": ["source/ikf/source/Estimator/IKalmanFilter.cpp:process_measurement", "source/ikf/source/Estimator/IKalmanFilter.cpp:insert_measurement", "source/ikf/source/Estimator/IKalmanFilter.cpp:handle_delayed_meas"]}
{"id": "C33", "title": "A standalone filter re-processes all later measurements after an out-of-order one", "statement": "redo_updates_after_t(t) removes all beliefs after t and then re-delegates every stored measurement strictly after t exactly once in stored order. (Violated: if the only later stamp is the last one, only its first concurrent measurement is re-processed.)", "quantifier": "all measurement histories and t", "why_tests_cant": "needs concurrent measurements at the last stamp", "anchors": ["source/ikf/source/Estimator/IKalmanFilter.cpp:redo_updates_after_t"]}
{"id": "C34", "title": "Unknown or too-old measurements are discarded without effect", "statement": "Handler process_measurement for an unknown ID returns exactly one DISCARED and changes nothing; a measurement not newer than the oldest stored one returns DISCARED and changes nothing. In particular a second measurement with the stamp of the only stored stamp is always discarded. No measurement ever reaches a disabled instance; a call that misses the lock has no effect and returns one OUTOFORDER.", "quantifier": "all handler states and measurements", "why_tests_cant": "all states", "anchors": ["source/ikf/source/EstimatorHandler/IDICOHandler.cpp:process_measurement"]}
{"id": "C35", "title": "Handler keeps stored measurements ordered by time and sensor priority", "statement": "After any stream of measurements the stored history is sorted by time and, at equal times, propagation before private before joint, arrival order among equals.", "quantifier": "any stream, any filter implementation and statuses", "why_tests_cant": "unbounded streams and interleavings", "anchors": ["source/ikf/source/EstimatorHandler/IDICOHandler.cpp:process_measurement", "source/ikf/source/EstimatorHandler/IDICOHandler.cpp:sort_measurements_from_t", "source/ikf/source/EstimatorHandler/IDICOHandler.cpp:is_order_violated"]}
{"id": "C36", "title": "Delayed and out-of-order measurements converge to the in-order estimate", "statement": "For any arrival order of a set of measurements of known instances, arriving within the horizon and newer than the first arrival, processed by causal deterministic filters that neither discard nor report out-of-order, the final beliefs of all instances are identical to those obtained by processing them once sorted by time and priority; hence any two arrival orders agree up to ties of equal time and priority.", "quantifier": "all arrival permutations of any number of measurements, all causal filters", "why_tests_cant": "factorially many arrival orders and an arbitrary filter", "anchors": ["source/ikf/source/EstimatorHandler/IDICOHandler.cpp:process_measurement", "source/ikf/source/EstimatorHandler/IDICOHandler.cpp:redo_updates_from_t", "source/ikf/source/EstimatorHandler/IDICOHandler.cpp:remove_beliefs_from_t", "source/ikf/source/EstimatorHandler/IDICOHandler.cpp:sort_measurements_from_t"]}
{"id": "C37", "title": "Order-violation test is exact", "statement": "is_order_violated(m) is true iff a stored measurement must be processed after m: one later in time, or concurrent with lower priority (for known observation types).", "quantifier": "all histories and measurements", "why_tests_cant": "all histories", "anchors": ["source/ikf/source/EstimatorHandler/IDICOHandler.cpp:is_order_violated"]}
{"id": "C38", "title": "Re-processing skips updates after an out-of-order mark but never propagation", "statement": "In redo_updates_from_t/after_t every stored propagation in the range is delegated exactly once in order; private/joint ones are delegated until the first out-of-order result and afterwards are flagged, not lost: they stay stored and flagged for a later redo.", "quantifier": "all histories and filters", "why_tests_cant": "all histories", "anchors": ["source/ikf/source/EstimatorHandler/IDICOHandler.cpp:redo_updates_from_t", "source/ikf/source/EstimatorHandler/IDICOHandler.cpp:redo_updates_after_t"]}
{"id": "C39", "title": "Redo requests are served once, oldest first", "statement": "A scheduled redo request inside the horizon is served by the next accepted measurement, starting at the oldest requested time, and then all requests are gone; requests not newer than the oldest stored measurement are ignored without touching beliefs.", "quantifier": "all request/measurement interleavings", "why_tests_cant": "all interleavings", "anchors": ["source/ikf/source/EstimatorHandler/IDICOHandler.cpp:schedule_redo_update", "source/ikf/source/EstimatorHandler/IDICOHandler.cpp:process_measurement"]}
{"id": "C40", "title": "Re-sorting never loses measurements", "statement": "sort_measurements_from_t(t) is a permutation of the stored measurements which is stable per time and type and leaves measurements before t untouched. (Violated for measurements of UNKNOWN type, which are dropped.)", "quantifier": "all histories and t", "why_tests_cant": "all histories", "anchors": ["source/ikf/source/EstimatorHandler/IDICOHandler.cpp:sort_measurements_from_t"]}
{"id": "C41", "title": "Timed lock guard only releases what it acquired", "statement": "The scoped timed lock unlocks the mutex on scope exit only if this guard acquired it. (Violated: a failed try_lock still unlocks in the destructor, releasing a mutex held by another thread, which is undefined behaviour.)", "quantifier": "all interleavings of any number of threads and nesting depths", "why_tests_cant": "needs a time-out race", "anchors": ["source/ikf/include/ikf/utils/lock_guard_timed.hpp:lock_guard_timed"]}
{"id": "C42", "title": "Instance registry behaves like a finite map", "statement": "add succeeds iff the ID is new, remove iff present, exists/get/get_instance_ids reflect exactly the adds and removes so far; an added instance has delay handling off and the handler's horizon; the simple handler of the filters without buffers behaves like a finite map too and leaves the instances alone.", "quantifier": "all add/remove sequences", "why_tests_cant": "unbounded sequences", "anchors": ["source/ikf/source/EstimatorHandler/IDICOHandler.cpp:add", "source/ikf/source/EstimatorHandler/IDICOHandler.cpp:remove", "source/ikf/source/EstimatorHandler/IDICOHandler.cpp:exists", "source/ikf/source/EstimatorHandler/IDICOHandler.cpp:get", "source/ikf/source/EstimatorStd/IKFHandlerStd.cpp:add"]}
{"id": "C43", "title": "Strategy and type names round-trip", "statement": "Parsing the printed name of a fusion strategy, belief strategy, observation type or status gives the value back and printed names are distinct. (Violated: SKF prints as UNKNOWN; RELAXED order prints as STRICT.)", "quantifier": "all enum values", "why_tests_cant": "finite, but a contract over all values", "anchors": ["source/ikf/source/EstimatorHandler/eFusionStrategy.cpp:to_string", "source/ikf/source/EstimatorHandler/C_IKF_Handler.cpp:to_string", "source/ikf/source/Estimator/IKalmanFilter.cpp:to_string"]}
{"id": "C44", "title": "Schmidt update leaves non-essential beliefs unchanged and is a consistent suboptimal update", "statement": "In the Schmidt-Kalman handler a joint observation never changes the belief history of a non-essential participant or of an instance that does not take part. In every state reachable by in-order use, an accepted observation of unfixed participants corrects the stacked state with the Kalman gain whose rows of non-essential participants are zero; for PSD prior and noise the posterior is the (PSD) Joseph form for that gain, covariances among non-essential participants (and theirs with non-participants) are unchanged, covariances among essential ones are those of the full-gain update; if all participants are essential the computation is the ordinary Joseph-form correction. A measurement function is given the beliefs at the time, the IDs and the measurement; the effect is that of the observation with the Jacobians and the residual it returns and the answer PROCESSED, or OUTOFORDER without a change if a belief is missing and cannot be predicted.", "quantifier": "all reachable handler states, all partitions into essential and non-essential participants, all matrices; the frame part for every state and outcome", "why_tests_cant": "continuum", "anchors": ["source/ikf/source/EstimatorHandler/SchmidtKalmanFilterHandler.cpp:correction_step", "source/ikf/source/EstimatorHandler/SchmidtKalmanFilterHandler.cpp:correct_beliefs_implace"]}
{"id": "C45", "title": "Covariance intersection update is consistent", "statement": "The covariance-intersection correction yields a symmetric posterior, PSD, and conservative for any unknown cross-correlation, for all weights in (0,1). (Violated: its innovation covariance lacks the H_i Sigma_i H_i^T / w_i term, so for every weight there are inputs with a negative posterior variance; the gap to a conservative bound is exactly that term.)", "quantifier": "all matrices, weights and unknown correlations", "why_tests_cant": "continuum", "anchors": ["source/ikf/source/Estimator/KalmanFilter.cpp:covariance_intersection_correction", "source/ikf/source/EstimatorHandler/DCI_IKF_Handler.cpp:apply_inter_agent_observation"]}
{"id": "C46", "title": "Observations spanning more than one remote agent are discarded", "statement": "In the collaborative handlers an observation involving instances of two or more other agents is DISCARED and nothing changes; only-local observations are handled locally, one remote agent leads to exactly one inter-agent update.", "quantifier": "all ID sets and agent tables", "why_tests_cant": "all partitions", "anchors": ["source/ikf/source/EstimatorHandler/ICSE_IKF_Handler.cpp:apply_observation", "source/ikf/source/EstimatorHandler/ICSE_IKF_Handler.cpp:IDs_to_Agent_IDs"]}
{"id": "C47", "title": "Collaborative order strategies", "statement": "STRICT equals the base order rule; RELAXED is violated exactly by later measurements or by a concurrent non-propagation when a propagation arrives; RELAXED-violated implies STRICT-violated.", "quantifier": "all histories and measurements", "why_tests_cant": "all histories", "anchors": ["source/ikf/source/EstimatorHandler/C_IKF_Handler.cpp:is_order_violated"]}
{"id": "C48", "title": "Agent/estimator lookup tables are consistent", "statement": "estimatorID2agentID returns the owning agent of every listed estimator and 0 for unknown ones; exists, get_estimator_IDs, get_agent_IDs and get_types describe the same table.", "quantifier": "all tables", "why_tests_cant": "all tables", "anchors": ["source/ikf/source/EstimatorHandler/IMultiAgentHandler.cpp"]}
{"id": "C49", "title": "Angle wrapping", "statement": "wrapMinMax returns a value in [min,max) congruent to its argument modulo max-min for every argument and min<max; wrapToPi, wrapTo180deg accordingly. (wrapTo2Pi violates its name: it wraps into +-2/pi.)", "quantifier": "all reals", "why_tests_cant": "continuum", "anchors": ["source/ikf/source/utils/math.cpp:wrapMinMax", "source/ikf/source/utils/math.cpp:wrapTo2Pi"]}
{"id": "C50", "title": "Matrix concatenation and block helpers", "statement": "horcat/vertcat place the blocks side by side for all sizes, treat an empty operand as neutral and throw exactly on mismatching sizes; blkdiag places both blocks for all sizes. (blkdiag violates it for a first block whose column count differs from the second's.)", "quantifier": "all matrix sizes", "why_tests_cant": "all sizes", "anchors": ["source/ikf/source/utils/eigen_utils.cpp:horcat", "source/ikf/source/utils/eigen_utils.cpp:vertcat", "source/ikf/source/utils/eigen_utils.cpp:blkdiag"]}
{"id": "C51", "title": "Symmetrisation and stabilisation", "statement": "symmetrize_covariance is symmetric for every matrix, idempotent, identity on symmetric ones, and preserves the quadratic form; stabilize_covariance adds exactly eps I and makes PSD input positive definite for eps > 0.", "quantifier": "all matrices", "why_tests_cant": "continuum", "anchors": ["source/ikf/source/utils/eigen_utils.cpp:symmetrize_covariance", "source/ikf/source/utils/eigen_utils.cpp:stabilize_covariance"]}
{"id": "C52", "title": "CSV reading skips corrupted rows without leaking their values", "statement": "read_csv returns, per column, exactly the values of the rows with the right number of tokens, never writes outside its buffers. (Violated: a token that cannot be parsed keeps the value left over from a previously skipped row.)", "quantifier": "all files", "why_tests_cant": "unbounded inputs", "anchors": ["source/ikf/source/utils/CSVTool.cpp:read_csv"]}
{"id": "C53", "title": "Measurement interpolation is linear and exact at the ends", "statement": "lin_interpolate returns the first measurement at t_a, the second at t_c, and the affine combination between. A measurement has noise if some entry of its covariance exceeds 1e-11 in magnitude and none if the covariance is empty or zero; a column of variances stands for the diagonal matrix.", "quantifier": "all measurements and times", "why_tests_cant": "continuum", "anchors": ["source/ikf/source/Measurement/MeasData.cpp:lin_interpolate"]}
{"id": "C54", "title": "Std filters: propagation only moves forward in time", "statement": "KalmanFilterStd/IsolatedKalmanFilterStd propagate only if dimensions match and the target time is strictly later, otherwise the filter is unchanged; successive successful calls have strictly increasing timestamps.", "quantifier": "all call sequences", "why_tests_cant": "unbounded sequences", "anchors": ["source/ikf/source/EstimatorStd/KalmanFilterStd.cpp:propagate", "source/ikf/source/EstimatorStd/IsolatedKalmanFilterStd.cpp:propagate"]}
{"id": "C55", "title": "Std isolated joint update equals the centralised update", "statement": "IsolatedKalmanFilterStd joint_update of two filters yields the blocks of the Kalman update of the stacked state, and cross-covariance reconstruction gives the posterior block.", "quantifier": "all matrices", "why_tests_cant": "continuum", "anchors": ["source/ikf/source/EstimatorStd/IsolatedKalmanFilterStd.cpp:joint_update"]}
{"id": "C56", "title": "Iterated joint observation", "statement": "The iterated joint observation (process_observation) with one iteration equals the one-shot joint observation; with linear beliefs it is undefined behaviour as soon as a second iteration is entered, and with zero iterations.", "quantifier": "every handler state, every set of participants, every measurement and every iteration count", "why_tests_cant": "holds for every state, size and iteration count; the failure depends on whether the loop breaks early", "anchors": ["source/ikf/source/EstimatorHandler/IsolatedKalmanFilterHandler.cpp: process_observation", "source/ikf/source/Estimate/IBelief.cpp:plus_jacobian"]}
{"id": "C57", "title": "Well-dimensioned in-order use never fails", "statement": "In every state reachable by in-order use from freshly initialised instances, every in-order propagation, private observation, cross-covariance assignment and joint observation whose matrices fit the instance sizes returns an answer: it does not throw, no Eigen size assertion fails and no pointer is invalid; with the outlier gate off it is accepted.", "quantifier": "all interleavings of calls of any length, any number of instances, any sizes, any numeric values", "why_tests_cant": "quantifies over all histories, instance counts and sizes", "anchors": ["source/ikf/source/Estimator/IIsolatedKalmanFilter.cpp: apply_propagation, apply_private_observation", "source/ikf/source/EstimatorHandler/IsolatedKalmanFilterHandler.cpp: apply_observation, stack_H, stack_Sigma, split_right_upper_covariance"]}
{"id": "C58", "title": "Quaternion to roll, pitch, yaw", "statement": "For every quaternion representing Rz(yaw)Ry(pitch)Rx(roll) away from gimbal lock, quat2rpy returns these three angles. (Violated for the pitch: it returns asin(sin(pitch)/2), wrong for every non-zero pitch.)", "quantifier": "all quaternions and angles", "why_tests_cant": "a continuum of rotations; a test at zero pitch passes", "anchors": ["source/ikf/source/utils/math.cpp:quat2rpy"]}
{"id": "C59", "title": "Skew, Omega and truncated matrix exponential", "statement": "skew(v)w is the cross product and skew_inv is its inverse exactly on antisymmetric matrices; OmegaMat(v) is antisymmetric and squares to -|v|^2 I; MatExp(A, n) is the exponential series up to the power n for every n up to 12, and undefined behaviour for every larger n.", "quantifier": "all vectors, matrices and orders", "why_tests_cant": "identities over all reals; the int overflow only shows for orders a test does not use", "anchors": ["source/ikf/source/utils/math.cpp:skew, skew_inv, OmegaMat, MatExp"]}
{"id": "C60", "title": "Nearest covariance repair", "statement": "nearest_covariance of a symmetric matrix is symmetric positive semidefinite, leaves a covariance unchanged, never lies below its argument and agrees with it on the eigenvectors of non-negative eigenvalues, whichever eigenvectors the solver returned. (Violated for asymmetric arguments whose symmetric part is PSD: returned as they are.) The negative diagonal test never flags a covariance and finds every negative diagonal entry.", "quantifier": "all sizes, all matrices, all eigenvector choices", "why_tests_cant": "a continuum of matrices and non-unique eigenvectors for repeated eigenvalues", "anchors": ["source/ikf/source/utils/eigen_utils.cpp:nearest_covariance"]}
{"id": "C61", "title": "CSV write/read round trip", "statement": "What write_csv writes with the default delimiter read_csv reads back: every column under its name, every value as its printed text reads, provided the names contain neither spaces nor commas and the first name does not look like a number, the columns have equal length and the first column's values print with a leading digit or sign. (Violated for any other delimiter: the header is always split at commas, so the columns are lost; for a first value that prints as nan or inf: its row becomes the header; for columns shorter than the first one: undefined behaviour.)", "quantifier": "all tables of any number of columns and rows, all names, all values", "why_tests_cant": "unbounded tables and all strings", "anchors": ["source/ikf/source/utils/CSVTool.cpp:write_csv", "source/ikf/source/utils/CSVTool.cpp:read_csv"]}
{"id": "C62", "title": "The Schmidt handler respects fixed beliefs", "statement": "A participant of a Schmidt-Kalman joint observation whose belief is fixed is not corrected, and its presence does not prevent the others from being corrected.", "quantifier": "all reachable handler states, all dictionaries with fixed participants", "why_tests_cant": "depends on the positions of fixed participants in the stack; needs a proof over all dictionaries", "anchors": ["source/ikf/source/EstimatorHandler/SchmidtKalmanFilterHandler.cpp:correction_step", "source/ikf/source/EstimatorHandler/SchmidtKalmanFilterHandler.cpp:correct_beliefs_implace"]}
{"id": "C63", "title": "Std propagation with control inputs", "statement": "propagate(Phi, Q, t, G, u, var_u) of the filters without buffers moves the mean by G u and adds G diag(var_u) G^T to the covariance, for any number of inputs.", "quantifier": "all filters, matrices, times and any number of inputs", "why_tests_cant": "continuum of matrices and every number of inputs", "anchors": ["source/ikf/source/EstimatorStd/KalmanFilterStd.cpp: propagate (54-68)", "source/ikf/source/EstimatorStd/IsolatedKalmanFilterStd.cpp: propagate (43-49)"]}
{"id": "C64", "title": "Iterating an affine joint observation changes nothing", "statement": "When the measurement function is affine in the estimated states (constant Jacobians, residual y0 - H m) and the beliefs have identity plus-Jacobians, the iterated joint observation leaves, for every number of iterations >= 1 and every tolerance, the same state, status and residual as the one-shot correction.", "quantifier": "every handler state, set of participants (fixed or not), affine measurement function, noise, configuration, iteration count and tolerance", "why_tests_cant": "continuum of states and measurements and every iteration count", "anchors": ["source/ikf/source/EstimatorHandler/IsolatedKalmanFilterHandler.cpp: process_observation, compute_state_error, compute_state_error_Jacobian"]}
{"id": "C65", "title": "Timestamp sums and differences", "statement": "For normalised non-negative stamps whose sum (resp. values) stay below 2^33-4 s, t1 + t2 and t1 - t2 are within 10 microseconds of the exact sum and difference however the doubles in between are rounded, and exact if they are not rounded; addition commutes, t - t is the zero stamp, and is_zero holds of the zero stamp only; the assignments += and -= leave the same values; a clock advanced step by step is off by at most 10 microseconds per step (and, for steps of 100 ns at 2^32 s, may never move); timestamped data compare like their stamps.", "quantifier": "all pairs of normalised stamps in range and every rounding of doubles satisfying the IEEE error bound; every sequence of steps", "why_tests_cant": "2^63 stamps squared, every rounding mode", "anchors": ["source/ikf/source/Containers/Timestamp.cpp: is_zero, operator+, operator-, operator+=, operator-=, to_sec, from_sec"]}
{"id": "C66", "title": "Decoupled-propagation handler: joint observations correct the full state", "statement": "With the handler for decoupled propagation, any in-order use (propagations and private observations per instance, joint observations by Jacobians with a residual or a measurement) leaves every newest mean, covariance and cross-covariance equal to those of a centralised filter in which each accepted joint observation is one Kalman correction of the stacked state of ALL registered instances (zero Jacobians for those not taking part); a rejected one changes nothing; a fixed belief of any registered instance makes joint observations impossible, and a registered instance without a belief makes them undefined behaviour; otherwise fitting calls complete.", "quantifier": "all sets of instances, sizes, matrices, configurations, and all finite interleavings of calls", "why_tests_cant": "ranges over unbounded histories, instance counts and real matrices", "anchors": ["source/ikf/source/EstimatorHandler/DecoupledPropagationHandler.cpp: stack_H, get_dict_bel, apply_observation"]}
{"id": "C67", "title": "Decoupled-propagation handler: observations through a measurement function", "statement": "With that handler, an observation through a measurement function is processed only if all registered instances take part in it and none is fixed: otherwise every completed call answers DISCARDED and changes nothing. With all of them and one iteration it has the effect and the answer of the observation by Jacobians and residual of the function at the current beliefs.", "quantifier": "all reachable states, participants, measurement functions, measurements and configurations", "why_tests_cant": "the measurement function and the state are arbitrary", "anchors": ["source/ikf/source/EstimatorHandler/DecoupledPropagationHandler.cpp: apply_observation(R, z, t, h, IDs, cfg)", "source/ikf/source/EstimatorHandler/IsolatedKalmanFilterHandler.cpp: process_observation"]}
{"id": "C68", "title": "Reset and horizon of the measurement handler", "statement": "reset_buffer makes the handler behave like a freshly constructed one of its horizon (only the instances' estimates stay): nothing that arrived or was scheduled before influences later calls. set_horizon(h) makes it keep measurements, redo requests and out-of-order flags exactly as long as a handler constructed with h. (Violated for the flags: the constructor keeps them h/4, set_horizon(h) h/2.)", "quantifier": "every history of arrivals and redo requests, every estimator implementation, every horizon", "why_tests_cant": "needs every history before the reset", "anchors": ["source/ikf/source/EstimatorHandler/IDICOHandler.cpp:reset_buffer", "source/ikf/source/EstimatorHandler/IDICOHandler.cpp:set_horizon", "source/ikf/source/EstimatorHandler/IDICOHandler.cpp:IDICOHandler"]}
{"id": "C69", "title": "Collaborating agents equal one centralised filter", "statement": "Any number of agents (collaborative estimator handlers), each holding some of the estimators, make in-order calls in any interleaving: propagations and private observations of their own instances, cross-covariance initialisations, joint observations whose participants may be held by several agents. As long as all messages between agents are delivered, the newest beliefs of all instances and the cross-covariances any agent reads for instances at the same time are those of one centralised filter on which the same calls are made; every agent keeps holding exactly its own instances.", "quantifier": "any number of agents and instances, all state dimensions, every sequence and interleaving of in-order calls, all matrices, every accept/reject pattern", "why_tests_cant": "needs every interleaving of calls of every number of agents and all matrices", "anchors": ["source/ikf/source/EstimatorHandler/ICSE_IKF_Handler.cpp", "source/ikf/source/EstimatorHandler/C_IKF_Handler.cpp"]}
{"id": "C70", "title": "Collaborating agents always answer", "statement": "In every state agents reach by in-order calls with delivered messages, an in-order call of any agent whose matrices fit the state sizes gets an answer: it neither throws nor runs into undefined behaviour, whichever agents hold the participants. Without an outlier gate the answer is true, except that a joint observation with residual of instances that are all held by one other agent is answered false.", "quantifier": "any number of agents, every reachable state, every in-order call, all fitting matrices", "why_tests_cant": "needs every reachable distribution of states over agents and all matrices", "anchors": ["source/ikf/source/EstimatorHandler/C_IKF_Handler.cpp:apply_observation", "source/ikf/source/EstimatorHandler/C_IKF_Handler.cpp:apply_inter_agent_observation"]}
{"id": "C71", "title": "A joint observation across agents is all or nothing under message loss", "statement": "When a message between the agents of a joint observation is lost, the observation takes effect at all participants or at none, and the answer false means at none. (Violated: a lost request changes nothing, but when the posterior is not delivered the call answers false with the caller's own instances already corrected and the other agent's not.)", "quantifier": "every reachable state of any number of agents, every in-order joint observation of the caller and one other agent, each of the two messages lost", "why_tests_cant": "needs every state and every loss point", "anchors": ["source/ikf/source/EstimatorHandler/C_IKF_Handler.cpp:apply_observation", "source/ikf/source/EstimatorHandler/C_IKF_Handler.cpp:apply_inter_agent_observation"]}
{"id": "C72", "title": "The answer of a joint observation across agents", "statement": "With delivered messages apply_observation of a collaborating agent answers true exactly if the observation passed the outlier gate and was applied; false means that nothing changed at any agent. (Violated with participants at the caller and exactly one other agent: an outlier is answered true.)", "quantifier": "every reachable state of any number of agents, every in-order call, all matrices", "why_tests_cant": "needs every state and all matrices", "anchors": ["source/ikf/source/EstimatorHandler/C_IKF_Handler.cpp:apply_observation", "source/ikf/source/EstimatorHandler/C_IKF_Handler.cpp:apply_inter_agent_observation"]}
{"id": "C73", "title": "Joint observations with a measurement function across agents behave like one centralised filter", "statement": "When agents make in-order calls in any interleaving, including apply_observation(R, z, t, h, IDs) with participants at the caller and one other agent, and all messages are delivered, the newest beliefs of all agents and all cross-covariances are those of one centralised filter that evaluates the same h at its own estimates and corrects all participants that are not fixed; PROCESSED means applied, REJECTED means an outlier and nothing changed, and participants at two or more other agents give DISCARDED with nothing changed. Such an observation with fitting sizes always gets an answer. A lost request changes nothing. (Violated: if the only participant that is not fixed is the caller's, an accepted observation throws.)", "quantifier": "every number of agents, every distribution of instances, every interleaving of in-order calls, every measurement function, all matrices, each of the two messages lost", "why_tests_cant": "needs every history, every measurement function and every interleaving", "anchors": ["source/ikf/source/EstimatorHandler/C_IKF_Handler.cpp:apply_inter_agent_observation", "source/ikf/source/EstimatorHandler/IsolatedKalmanFilterHandler.cpp", "source/ikf/source/EstimatorHandler/ICSE_IKF_Handler.cpp:apply_observation"]}
{"id": "C74", "title": "Covariance intersection between agents corrects the caller only", "statement": "Any number of agents using the covariance-intersection handler make in-order calls in any interleaving: calls on their own instances and joint observations with a measurement function that involve instances of one other agent. After any such history every agent holds the same instances as before and their newest beliefs, and the cross-covariances it reads between its own instances, are those of a centralised filter of its own: each observation with another agent linearises the measurement function once at the estimates of both agents and applies the covariance-intersection correction with weight 0.995 to the free instances of the caller only. Every other agent is left unchanged by the call; if the other agent does not answer, nothing changes and the status is OUTOFORDER; participants of two or more other agents give DISCARDED and no change.", "quantifier": "all numbers of agents and instances, all initial beliefs, all histories and interleavings of in-order calls, all matrix sizes, measurement functions and noise", "why_tests_cant": "a test fixes the number of agents, the interleaving and the values; the claim is about the state after every history", "anchors": ["source/ikf/source/EstimatorHandler/DCI_IKF_Handler.cpp:apply_inter_agent_observation", "source/ikf/source/EstimatorHandler/ICSE_IKF_Handler.cpp:apply_observation", "source/ikf/source/Estimator/KalmanFilter.cpp:covariance_intersection_correction"]}
{"id": "C75", "title": "An observation between two covariance-intersection agents is answered", "statement": "An in-order observation with a measurement function of fitting sizes between the instances of two agents gets an answer: PROCESSED (without a gate) if both agents contribute a free instance, REJECTED without any change if all instances of one agent are fixed. (Does not hold if one agent contributes exactly one instance and it is free: the call throws; in particular the relative observation between two agents with one instance each.)", "quantifier": "all reachable states of any number of agents, all participants, sizes, measurement functions and noise", "why_tests_cant": "answering is claimed for every reachable state and every combination of participants", "anchors": ["source/ikf/source/EstimatorHandler/DCI_IKF_Handler.cpp:apply_inter_agent_observation", "source/ikf/source/EstimatorHandler/ICSE_IKF_Handler.cpp:stack_Sigma_locally"]}
{"id": "C76", "title": "Re-processing asks exactly the agents that are correlated later, and requests do not breed requests", "statement": "When a delayed measurement makes the collaborative handler re-process from time t under strategy POSTCORRELATED, it sends one redo request for t to each agent that holds an instance correlated with a local one after t, and to no other; under other strategies, and for measurements that are discarded or processed in order, it sends none. Locally re-processing is that of the base class. In any system of agents, whatever the order in which measurements arrive and requests are delivered or lost, the number of requests ever sent is at most a constant times the number of measurements: a request is never answered by another one.", "quantifier": "all stored histories and factors, tables of agents, times and strategies; any number of agents and every interleaving of measurements, deliveries and losses", "why_tests_cant": "the set of asked agents depends on arbitrary histories, and the absence of an avalanche is a claim about unbounded interleavings", "anchors": ["source/ikf/source/EstimatorHandler/C_IKF_Handler.cpp:redo_updates_from_t", "source/ikf/source/EstimatorHandler/C_IKF_Handler.cpp:redo_updates_after_t", "source/ikf/source/EstimatorHandler/C_IKF_Handler.cpp:get_remote_correlated_IDs_after_t", "source/ikf/source/EstimatorHandler/ICSE_IKF_Handler.cpp:IDs_to_Agent_IDs", "source/ikf/source/EstimatorHandler/IDICOHandler.cpp:process_measurement", "source/ikf/source/EstimatorHandler/IDICOHandler.cpp:schedule_redo_update"]}
{"id": "C77", "title": "Strategy DISCARD drops exactly the measurements older than a correlation with another agent", "statement": "Under redo strategy DISCARD a measurement of a known instance that is recent enough is discarded, with no effect but that of open requests being served, exactly if an instance of another agent is correlated with a local one after the time of the measurement; otherwise it is treated as under EXACT. No request is sent.", "quantifier": "all handler states, measurements, stored factors and open requests", "why_tests_cant": "quantifies over all stored factor histories and all histories of arrivals", "anchors": ["source/ikf/source/EstimatorHandler/C_IKF_Handler.cpp:discard_measurement", "source/ikf/source/EstimatorHandler/C_IKF_Handler.cpp:get_correlated_IDs_after_t", "source/ikf/source/EstimatorHandler/IDICOHandler.cpp:process_measurement"]}
{"id": "C78", "title": "The collaborative handler converges to time-ordered processing for any arrival order", "statement": "Whatever the order of arrival, the redo strategy, the horizon and interleaved requests of other agents, the instances of the collaborative handler end in the state of processing the accepted measurements once in order of time, propagations first among those of equal time, those of equal time and type in the order of arrival. With order strategy STRICT, or if no private and joint observations of equal time occur, private ones also come before joint ones, i.e. the result is that of the base class; per measurement the state and answers are then those of the base class. Under RELAXED (the default) the order of private and joint observations of equal time is that of arrival, unless they are re-processed.", "quantifier": "all event sequences, causal filters, horizons, roundings of time and strategies", "why_tests_cant": "claims independence of arrival order for all permutations, delays and request interleavings", "anchors": ["source/ikf/source/EstimatorHandler/C_IKF_Handler.cpp:is_order_violated", "source/ikf/source/EstimatorHandler/IDICOHandler.cpp:process_measurement", "source/ikf/source/EstimatorHandler/IDICOHandler.cpp:sort_measurements_from_t", "source/ikf/source/EstimatorHandler/C_IKF_Handler.cpp:redo_updates_from_t"]}
{"id": "C79", "title": "Access by estimator ID reaches exactly the named instance", "statement": "IDICOHandler's accessors by ID (set_belief_at_t, get_belief_at_t, get_latest_belief, get_beliefs_at_t, get/set_CrossCovFact_at_t, apply_correction_at_t) act on exactly the named instance: a write is read back and changes no other time, instance or factor; EXACT returns the stored belief, CLOSEST the one nearest in time (the older of two equally near), PREDICT_BELIEF runs the prediction of this instance only; get_latest_belief the newest; get_beliefs_at_t returns exactly the successful answers and true exactly if all succeeded. An unknown ID fails and changes nothing. Fewer strategies than IDs throw.", "quantifier": "all handler states, IDs, times, strategies and lists of IDs", "why_tests_cant": "ranges over every registry content, history and list of IDs, including unknown and repeated ones", "anchors": ["source/ikf/source/EstimatorHandler/IDICOHandler.cpp:set_belief_at_t", "source/ikf/source/EstimatorHandler/IDICOHandler.cpp:get_belief_at_t", "source/ikf/source/EstimatorHandler/IDICOHandler.cpp:get_latest_belief", "source/ikf/source/EstimatorHandler/IDICOHandler.cpp:get_beliefs_at_t", "source/ikf/source/EstimatorHandler/IDICOHandler.cpp:get_CrossCovFact_at_t", "source/ikf/source/EstimatorHandler/IDICOHandler.cpp:set_CrossCovFact_at_t", "source/ikf/source/EstimatorHandler/IDICOHandler.cpp:apply_correction_at_t"]}
{"id": "C80", "title": "Beliefs can be requested without knowing which agent owns them", "statement": "ICSE_IKF_Handler::get_belief_at_t and get_beliefs_at_t return the answer of the owner of each instance, own or remote, in any mix and order: the answers are those of one handler holding all instances. A request about an own instance asks no other agent, and no reply of the agent handler can replace the answer about an own instance. get_type_by_ID prefers the own registry.", "quantifier": "all partitions of instances over agents, all lists of IDs, strategies and times, any agent handler", "why_tests_cant": "ranges over all distributions of the instances and all request lists", "anchors": ["source/ikf/source/EstimatorHandler/ICSE_IKF_Handler.cpp:get_belief_at_t", "source/ikf/source/EstimatorHandler/ICSE_IKF_Handler.cpp:get_beliefs_at_t", "source/ikf/source/EstimatorHandler/ICSE_IKF_Handler.cpp:get_type_by_ID"]}
{"id": "C81", "title": "Belief objects: filters never interfere through a shared pointer if each object is handed over once", "statement": "initialize, set_belief_at_t and apply_propagation(bel_b, ...) store the caller's shared_ptr itself and corrections change the stored object in place. If every object handed over is not stored by any filter at that time, then any sequence of initialisations, propagations, private and joint observations, cross-covariance writes and removals gives the same answers and histories as if each history held its own copies; calls on one filter leave all others as they are; the caller's later writes through his pointer are seen at the one place where the object is stored and nowhere else. Handing one object to two filters breaks this: a private observation of one then changes the belief of the other.", "quantifier": "all handler states without sharing, all sequences of calls, any sizes, any predict_to that works on its own instance", "why_tests_cant": "ranges over all aliasing patterns and call sequences; aliasing shows only after a later in-place correction", "anchors": ["source/ikf/include/ikf/Estimate/IBelief.hpp:pBelief_t", "source/ikf/source/Estimator/IKalmanFilter.cpp:initialize", "source/ikf/source/Estimator/IKalmanFilter.cpp:set_belief_at_t", "source/ikf/source/Estimator/IKalmanFilter.cpp:apply_propagation", "source/ikf/source/Estimator/IIsolatedKalmanFilter.cpp:apply_private_observation", "source/ikf/source/EstimatorHandler/IsolatedKalmanFilterHandler.cpp:apply_observation"]}
{"id": "C82", "title": "The iterated joint observation is the iterated extended Kalman filter", "statement": "apply_observation(R, z, t, h, IDs, cfg) of the isolated Kalman filter handler, for any measurement function h: each iteration linearises at the current iterate, transforms the prior covariance with the block-diagonal Jacobian of the state error, adds H J (x - x0) to the residual and corrects; it stops after max_iteration iterations or, from the second on, when no component of the correction exceeds the tolerance; the result (states, covariance, reported residual, status, cross-covariances with all other instances) is that of the iterated extended Kalman filter on the stacked states of the unfixed participants, the function sees the fixed ones unchanged. So after any history mixing these calls with propagations, private and joint observations, beliefs and cross-covariances are those of one centralised filter. If the function and Jacobians fit and the gate can be evaluated, the call returns. The covariance is carried to the new states with the Jacobian after three or more iterations, after two only if the second was not within the tolerance.", "quantifier": "all measurement functions, plus-Jacobians, participant sets, fixed flags, sizes, noises, iteration limits >= 1, tolerances, gates and histories", "why_tests_cant": "quantifies over arbitrary user functions and all numbers of iterations and histories", "anchors": ["source/ikf/source/EstimatorHandler/IsolatedKalmanFilterHandler.cpp:process_observation", "source/ikf/source/EstimatorHandler/IsolatedKalmanFilterHandler.cpp:apply_observation"]}
{"id": "C83", "title": "A joint observation is the observation of the participants predicted one by one", "statement": "When a participant of a joint observation at t has no belief of exactly that time, its own predict_to is asked. If every participant has or predicts a belief, apply_observation (with residual, with measurement, with a measurement function; isolated, Schmidt and decoupled handlers) does exactly what it does on the handler in which those participants, and nothing else, were predicted before. If one participant cannot predict, the ones before it were predicted, the ones after it not asked, nothing else changed, and the answer is false, OUTOFORDER (measurement function) or an exception (decoupled, which asks every registered instance). An unknown participant is a null pointer dereference, but in the answer to another agent a plain refusal. The beliefs reported to other agents are those of the predicted instances, whose predictions are stored.", "quantifier": "all handlers, participant lists without repetition, user-defined predict_to functions, times, measurements", "why_tests_cant": "ranges over arbitrary predict_to functions and all lists of participants with any one of them failing", "anchors": ["source/ikf/source/EstimatorHandler/IsolatedKalmanFilterHandler.cpp:get_dict_bel", "source/ikf/source/EstimatorHandler/DecoupledPropagationHandler.cpp:get_dict_bel", "source/ikf/source/EstimatorHandler/ICSE_IKF_Handler.cpp:get_local_beliefs_and_FCC_at_t", "source/ikf/source/Estimator/IKalmanFilter.cpp:get_belief_at_t"]}
{"id": "C84", "title": "Delayed measurements into isolated filters give the centralised filter in chronological order", "statement": "Isolated filters of a class with dynamics, private and joint measurement models (as LinearIKF_1D_const_acc) are registered with a handler. Measurements of all of them are handed to process_measurement in any order, delayed by up to the handler's horizon, with redo requests in between. If the accepted measurements so far can always be processed (each participant of a joint observation is propagated to its time, histories reach back far enough, not two propagations of one instance to one time), then nothing crashes and, after every arrival, all estimates and all cross-covariances of instances at the same time are those of one centralised filter that gets the accepted measurements once each in chronological order (propagation before private before joint), every model evaluated at the centralised filter's own estimate. If no arrival is later than the horizon, all are accepted, and the same measurements arriving in another order give the same estimates.", "quantifier": "all filter classes with models of fitting sizes, numbers of instances, dimensions, arrival orders, delays, redo requests, lengths of the run, roundings of time", "why_tests_cant": "ranges over all measurement models, all interleavings and delays of arbitrarily long runs", "anchors": ["source/ikf/source/EstimatorHandler/IDICOHandler.cpp:process_measurement", "source/ikf/source/EstimatorHandler/IsolatedKalmanFilterHandler.cpp:apply_observation", "source/ikf/source/Estimator/IIsolatedKalmanFilter.cpp:apply_propagation", "source/examples/ikf_delay_cmd/include/LinearIKF_1D_const_acc.hpp:LinearIKF_1D_const_acc"]}
{"id": "C85", "title": "The horizon the handler gives its instances suffices for the delays it accepts", "statement": "add() and set_horizon() give every instance the horizon of the handler. Propagations that arrive within this horizon can be processed: LinearIKF_1D_const_acc finds an estimate before the time of the measurement.", "quantifier": "all horizons, instances initialised alike, sequences of propagations with delays within the horizon", "why_tests_cant": "needs a delayed measurement after the history of one instance, but not that of the handler, has been trimmed; ranges over all arrival sequences", "anchors": ["source/ikf/source/EstimatorHandler/IDICOHandler.cpp:add", "source/ikf/source/EstimatorHandler/IDICOHandler.cpp:process_measurement", "source/examples/ikf_delay_cmd/include/LinearIKF_1D_const_acc.hpp:progapation_measurement"]}
{"id": "C86", "title": "The whole stored trajectory is that of the centralised filter", "statement": "In the situation of C84 (isolated filters, measurements delayed by up to the handler's horizon, arriving in any order), the estimates of the past are right too: what the instances store up to any time s within the horizon (get_belief_at_t, the newest estimate not newer than s, cross-covariances of instances at that time) is what one centralised filter holds after the accepted measurements up to s in chronological order. In particular get_belief_at_t at the time of an accepted propagation gives the estimate that includes every accepted measurement of up to that time, however late it arrived, and none of a later time.", "quantifier": "all filter classes with models of fitting sizes, numbers of instances, arrival orders, delays, redo requests, lengths of the run, times s, roundings of time", "why_tests_cant": "ranges over all interleavings and delays of arbitrarily long runs and all past times", "anchors": ["source/ikf/source/EstimatorHandler/IDICOHandler.cpp:process_measurement", "source/ikf/source/Estimator/IKalmanFilter.cpp:get_belief_at_t", "source/examples/ikf_delay_cmd/include/SimInstanceDelay.hpp:calc_est_traj"]}
{"id": "C87", "title": "The example filter has the models of a body under constant acceleration", "statement": "For LinearIKF_1D_const_acc: a propagation with measured acceleration a over the elapsed time d moves position and velocity to p + v d + a d^2/2 and v + a d; Phi is the derivative of that by the state; the process noise is the variance of a through the derivative by a plus 1e-6 on the diagonal, hence positive definite; two propagations with the same acceleration give the mean and transition matrix of one over the whole interval; the elapsed time is the difference of the time stamps up to 6 microseconds of rounding over 272 years. A private observation is of the position, a joint observation of the position of the other instance relative to one's own, each with its Jacobians.", "quantifier": "all states, accelerations, variances, time stamps up to 8.5e9 s, roundings", "why_tests_cant": "ranges over all real inputs and time stamps", "anchors": ["source/examples/ikf_delay_cmd/include/LinearIKF_1D_const_acc.hpp:progapation_measurement", "source/examples/ikf_delay_cmd/include/LinearIKF_1D_const_acc.hpp:local_private_measurement", "source/examples/ikf_delay_cmd/include/LinearIKF_1D_const_acc.hpp:local_joint_measurement"]}
{"id": "C88", "title": "Every measurement is answered, first with its own status", "statement": "process_measurement always returns at least one result. The first one (which the example program reads as res[0]) is the status of the measurement handed in.", "quantifier": "all handler histories, filters, measurements", "why_tests_cant": "ranges over all event histories; the wrong answer needs a delayed measurement that is rejected", "anchors": ["source/ikf/source/EstimatorHandler/IDICOHandler.cpp:process_measurement", "source/ikf/source/EstimatorHandler/IDICOHandler.cpp:redo_updates_from_t", "source/examples/ikf_delay_cmd/include/SimInstanceDelay.hpp:update_idx"]}
{"id": "C89", "title": "The example program reports the trajectory of the centralised filter", "statement": "The program ikf_delay_cmd, for every choice of its options, simulates equidistant samples from 0 to the duration, hands every simulated acceleration, position and relative position (the observations delayed by the chosen number of samples) to the handler, does not crash, and the estimate it reports for each instance and each sample time is the estimate of one centralised filter that has processed exactly the simulated measurements up to that time, in chronological order.", "quantifier": "all options (durations 1 to 1e6 s, rates up to 50 kHz, any number of instances, any delays, any standard deviations), all random draws, all double roundings", "why_tests_cant": "ranges over all options, random draws and roundings; the program prints error statistics only", "anchors": ["source/examples/ikf_delay_cmd/main.cpp", "source/examples/ikf_delay_cmd/include/SimInstanceDelay.hpp", "source/examples/ikf_delay_cmd/include/Trajectory.hpp", "source/examples/ikf_delay_cmd/include/LinearIKF_1D_const_acc.hpp"]}
{"id": "C90", "title": "A cyclic worker can be stopped, terminated and destroyed safely", "statement": "CyclicThread starts paused and does not call run_ before resume(). After stop() has returned, run_ does not begin again until resume() is called. After terminate() the worker ends; when the destructor has returned nothing of the worker runs any more; destroying an object of a class derived from CyclicThread never calls a function of a part already destroyed.", "quantifier": "all interleavings of the worker with any number of calls of the public functions by other threads", "why_tests_cant": "ranges over all schedules; the harmful one needs a thread switch between two adjacent instructions of the worker", "anchors": ["source/ikf/source/utils/CyclicThread.cpp:CyclicThread", "source/ikf/include/ikf/utils/CyclicThread.hpp"]}
{"id": "C91", "title": "Rate limits a loop to the given frequency", "statement": "A loop that calls sleep of a Rate set to f Hz runs at most f cycles per second, a cycle with less work than the period takes no longer than the period (to the millisecond), and a rate of 0 means no limit.", "quantifier": "all rates (as doubles, all roundings), all durations of work, all wake-up delays, any number of cycles", "why_tests_cant": "ranges over all rates and time behaviours", "anchors": ["source/ikf/source/utils/Rate.cpp:setRate", "source/ikf/source/utils/Rate.cpp:sleep", "source/ikf/include/ikf/utils/Rate.hpp"]}
{"id": "C92", "title": "The reported process time is that of the cycles run", "statement": "getProcessTime_ms() reports the exponentially smoothed duration of the cycles in which run_ was called.", "quantifier": "all sequences of running and paused cycles, all durations", "why_tests_cant": "ranges over all schedules and durations; the first value is read from uninitialised memory", "anchors": ["source/ikf/source/utils/CyclicThread.cpp:threadFunc", "source/ikf/source/utils/CyclicThread.cpp:getProcessTime_ms"]}
{"id": "C93", "title": "Normal samples have the law they were asked for", "statement": "An object of MultivariateNormal (or UnivariateNormal) that was accepted delivers independent samples, each Gaussian with exactly the mean and covariance the object reports; arguments that are not a mean and a covariance matrix are rejected and leave the object as it was.", "quantifier": "all dimensions, means, covariance matrices (also singular ones), both decompositions, any number of samples", "why_tests_cant": "a statement about a probability law for all covariance matrices", "anchors": ["source/ikf/include/ikf/utils/MultivariateNormal.hpp:MultivariateNormal", "source/ikf/include/ikf/utils/UnivariateNormal.hpp:UnivariateNormal"]}
{"id": "C94", "title": "Seeding makes random numbers reproducible", "statement": "After GaussianNoiseGen::seed(v) the numbers delivered depend on v only, not on what was drawn before.", "quantifier": "all seeds, all histories of draws and seeds of the whole program, all states of the random device", "why_tests_cant": "ranges over all call histories; the effect depends on the parity of the number of draws before", "anchors": ["source/ikf/source/utils/GaussianNoiseGen.cpp:seed", "source/ikf/source/utils/GaussianNoiseGen.cpp:randn"]}
{"id": "C95", "title": "Small angles and quaternions", "statement": "small_angle_to_quaternion and theta2quat turn every rotation vector into a unit quaternion about its axis that agrees with the exact rotation to third order; the opposite vector gives the inverse; quat2theta inverts them; a longer vector gives a larger rotation.", "quantifier": "all rotation vectors and unit quaternions (over the reals)", "why_tests_cant": "ranges over a continuum; the formula changes at an angle no sample need hit", "anchors": ["source/ikf/include/ikf/utils/QuaternionUtils.hpp:small_angle_to_quaternion", "source/ikf/include/ikf/utils/QuaternionUtils.hpp:theta2quat", "source/ikf/include/ikf/utils/QuaternionUtils.hpp:quat2theta"]}
{"id": "C96", "title": "Splitting strings and cleaning paths", "statement": "IO::getTokens returns for every string and delimiter, with exactly the non-empty pieces between the delimiters in order; getFirstToken is the piece before the first delimiter; checkPathString removes exactly the repeated slashes.", "quantifier": "all strings and delimiters", "why_tests_cant": "all strings; one delimiter makes the loop endless", "anchors": ["source/ikf/source/utils/IO.cpp:getTokens", "source/ikf/source/utils/IO.cpp:getFirstToken", "source/ikf/source/utils/IO.cpp:checkPathString"]}
{"id": "C97", "title": "Parts of a path", "statement": "getFileDir, getFileName, getFileExtension, getFileParentDirName and getLastDirName take every path apart into its directory, name, extension and parent; getAbsPathsFromFile makes the entries of a list relative to the list's directory.", "quantifier": "all directories, names, extensions and lists", "why_tests_cant": "all strings, with and without dots and slashes in every part", "anchors": ["source/ikf/source/utils/IO.cpp:getFileDir", "source/ikf/source/utils/IO.cpp:getFileName", "source/ikf/source/utils/IO.cpp:getFileExtension", "source/ikf/source/utils/IO.cpp:getFileParentDirName", "source/ikf/source/utils/IO.cpp:getAbsPathsFromFile"]}
{"id": "C98", "title": "Directories are created", "statement": "createDirectoryRecursive and createDirectoryFull return true exactly when afterwards the directory exists, which they achieve whenever all places on the way are directories or may be made; they change nothing but adding directories on the way.", "quantifier": "all directory trees, permissions, working directories and paths", "why_tests_cant": "all states of a file system", "anchors": ["source/ikf/source/utils/IO.cpp:createDirectoryRecursive", "source/ikf/source/utils/IO.cpp:createDirectoryFull", "source/ikf/source/utils/IO.cpp:createDirectory"]}
{"id": "C99", "title": "Files are opened for writing", "statement": "openFile opens every file that may be written, making missing directories on the way; when it returns true the file exists, and nothing but the file and directories above it is new.", "quantifier": "all directory trees, permissions, working directories and file names", "why_tests_cant": "all states of a file system", "anchors": ["source/ikf/source/utils/IO.cpp:openFile", "source/ikf/source/utils/IO.cpp:fileExists", "source/ikf/source/utils/IO.cpp:dirExist"]}
{"id": "C100", "title": "The standalone filter computes the textbook Kalman filter", "statement": "For a filter derived from IKalmanFilter, every accepted apply_propagation replaces the estimate by Phi m and Phi S Phi' + Q, and every accepted apply_private_observation or correct_belief_at_t by the Kalman (Joseph) update with gain S H'(H S H' + R)^-1, at the time given and nowhere else; a refused call changes no stored belief; a call whose matrices fit the dimensions of the stored belief never ends in undefined behaviour.", "quantifier": "all dimensions, all stored histories, all sequences of calls in any order of times, all matrices and noises, all settings of the correction", "why_tests_cant": "all real matrices, all sequences of calls and all orders of their times", "anchors": ["source/ikf/source/Estimator/IKalmanFilter.cpp:apply_propagation", "source/ikf/source/Estimator/IKalmanFilter.cpp:apply_private_observation", "source/ikf/source/Estimator/IKalmanFilter.cpp:correct_belief_at_t", "source/ikf/source/Estimator/IKalmanFilter.cpp:set_belief_at_t", "source/ikf/source/Estimator/IKalmanFilter.cpp:get_belief_at_t"]}
{"id": "C101", "title": "Delayed measurements into a standalone filter", "statement": "With handling of delayed measurements on, feeding process_measurement with measurements out of order leaves the beliefs that processing them in chronological order (arrival order within one time stamp) leaves.", "quantifier": "all causal user filters, all measurement streams in every arrival order, all horizons", "why_tests_cant": "all streams and all permutations of their arrival", "anchors": ["source/ikf/source/Estimator/IKalmanFilter.cpp:process_measurement", "source/ikf/source/Estimator/IKalmanFilter.cpp:redo_updates_after_t", "source/ikf/source/Estimator/IKalmanFilter.cpp:delegate_measurement"]}
{"id": "C102", "title": "Private observation through a measurement function", "statement": "apply_private_observation with a measurement function returns whether the observation was accepted and corrects the belief at its time.", "quantifier": "all stored histories, measurement functions, noises and settings", "why_tests_cant": "all functions and histories: it concerns every call of the overload", "anchors": ["source/ikf/source/Estimator/IKalmanFilter.cpp:apply_private_observation"]}
{"id": "C103", "title": "A standalone filter's beliefs stay within the horizon", "statement": "The beliefs kept by a standalone filter span no more than the horizon, however many measurements are processed.", "quantifier": "all streams of measurements of any length, all horizons", "why_tests_cant": "unbounded streams", "anchors": ["source/ikf/source/Estimator/IKalmanFilter.cpp:process_measurement", "source/ikf/source/Estimator/IKalmanFilter.cpp:check_horizon", "source/ikf/source/Estimator/IKalmanFilter.cpp:set_horizon"]}
{"id": "C104", "title": "Every stored covariance is a covariance", "statement": "Whatever calls are made on the handlers and their instances, in whatever order and at whatever times, every belief that is stored has a square, symmetric, positive semidefinite covariance, provided the user passes covariances where covariances are asked for.", "quantifier": "all sequences of calls (registration, initialisation, propagation, private and joint observations of all handlers, deletions), all times, sizes, Jacobians, transition matrices, measurements, cross-covariances and team messages; the filters without buffers too", "why_tests_cant": "all call sequences of any length over the reals", "anchors": ["source/ikf/source/Estimator/IIsolatedKalmanFilter.cpp", "source/ikf/source/EstimatorHandler/IsolatedKalmanFilterHandler.cpp:apply_observation", "source/ikf/source/EstimatorHandler/DecoupledPropagationHandler.cpp", "source/ikf/source/EstimatorHandler/C_IKF_Handler.cpp", "source/ikf/source/EstimatorStd/IsolatedKalmanFilterStd.cpp:joint_update"]}
{"id": "C105", "title": "Concurrent calls on one handler act as if made one after another", "statement": "When several threads use one handler at the same time, every call has the result, and the handler ends in the state, of the same calls made one after another in some order that keeps the order of each thread and the order in time; calls do not race for the handler's members, do not deadlock and do not crash unless the same calls crash in sequence. (Violated: a lock attempt that times out after 25 ms ends in undefined behaviour; schedule_redo_update races with process_measurement; get/set_propagation_sensor_ID and everything called on an instance obtained by get(ID) are not locked.)", "quantifier": "all numbers of threads, all calls of each, all interleavings of their single accesses to the members and the mutexes", "why_tests_cant": "a test runs a few of the schedules; the failing ones need a time-out or a switch between two instructions", "anchors": ["source/ikf/source/EstimatorHandler/IDICOHandler.cpp:process_measurement", "source/ikf/source/EstimatorHandler/IDICOHandler.cpp:schedule_redo_update", "source/ikf/source/EstimatorHandler/IDICOHandler.cpp:set_propagation_sensor_ID", "source/ikf/source/EstimatorHandler/IDICOHandler.cpp:get", "source/ikf/source/EstimatorHandler/DecoupledPropagationHandler.cpp:apply_observation", "source/ikf/include/ikf/utils/lock_guard_timed.hpp:lock_guard_timed"]}
{"id": "C106", "title": "The covariances of several instances taken together stay a covariance", "statement": "The cross-covariances a user reads from a handler for several instances at one time, put together with their covariances, form a covariance: no linear combination of the states of the instances has a negative variance, and a later joint update does not fail because of it. (Holds for instances that are observed jointly only as whole fixed groups, and for filters without buffers in fixed pairs if process noise enters between two private updates. Violated otherwise: after an observation of 1 and 3 and then of 1 and 2, the three covariances read are indefinite, because the cross-covariance of 2 and 3 stays zero; a pair loses at most a bound of the order 1e-12 per observation; a joint update of the filters without buffers throws after three accepted ones.)", "quantifier": "all numbers and sizes of instances, all reachable states, all sequences of propagations, private and joint observations with noise covariances, all linear combinations of the states", "why_tests_cant": "definiteness of the whole set of covariances is never checked by the library and depends on the history of all observations; the failing cases need at least three instances", "anchors": ["source/ikf/source/EstimatorHandler/IsolatedKalmanFilterHandler.cpp:apply_observation", "source/ikf/source/EstimatorHandler/IsolatedKalmanFilterHandler.cpp:get_Sigma_IJ_at_t", "source/ikf/source/EstimatorHandler/IsolatedKalmanFilterHandler.cpp:apply_corrections_at_t", "source/ikf/source/EstimatorStd/IsolatedKalmanFilterStd.cpp:joint_update"]}
{"id": "C107", "title": "The example program without delays runs the filters it describes", "statement": "ikf_simple_cmd simulates N bodies for the given duration and rate, propagates every filter once per step, then gives each instance its observations (the position of the first instance, and, on request, the position of the next instance relative to it) and records the estimate of each instance: it does not crash, the recorded means are those of the centralised filter given the same observations, the recorded times are the times of the estimates, and every option has its documented effect. (Violated: a negative duration is undefined behaviour; the recorded mean of an instance lacks the observations that later instances make in the same step; unless the rate divides 1e9 the recorded times drift from the times of the filters; at rates above 2e9 the filters never move; the seed and the option for private observations of the first instance only are ignored. Not settled: whether the program can throw with joint observations of more than two bodies.)", "quantifier": "all options (N, duration, rate, noise levels, joint observations or not), all yields of the noise generators, all instances and steps", "why_tests_cant": "the claim ranges over all durations, rates, numbers of bodies and noise; the drift and the throw appear only after long runs or for particular rates", "anchors": ["source/examples/ikf_simple_cmd/main.cpp:main", "source/examples/ikf_simple_cmd/include/SimInstance.hpp:update_idx", "source/examples/ikf_simple_cmd/include/LinearIKF.hpp:predict", "source/examples/ikf_simple_cmd/include/Trajectory.hpp:generate_sine"]}
{"id": "C108", "title": "The progress bar shows the progress", "statement": "A ProgressBar for n steps, told of each step by progress(), never fails; it prints a line for every updStepPerc percent of the steps, with the done proportion of the bar filled, the step number, the percentage, the elapsed time and the time left extrapolated from it; at the last step it says Done with the time taken. (Violated for the interval: a line is printed every n / updStepPerc steps, that is updStepPerc lines in all, so 20 percent means every 5 percent; updStepPerc = 0 divides by zero; update(0) of a bar with fewer steps than updStepPerc converts an infinite time to int.)", "quantifier": "all numbers of steps, bar lengths, intervals and options, all clock readings, every number of calls (also more than n), every rounding of doubles", "why_tests_cant": "depends on the number of steps, the integer divisions and the clock; the undefined cases need particular values", "anchors": ["source/ikf/source/utils/ProgressBar.cpp:ProgressBar", "source/ikf/source/utils/ProgressBar.cpp:progress", "source/ikf/source/utils/ProgressBar.cpp:update", "source/ikf/source/utils/ProgressBar.cpp:sec_to_HHMMSS"]}
{"id": "C109", "title": "Walking through a history buffer visits every element once, in time order", "statement": "After any history of operations, foreach, foreach_t / foreach_timestamp, foreach_reverse, accumulate, at, print, print_reverse and operator<< of a history buffer go through exactly the stored elements, each once, from the oldest to the newest (reverse: from the newest to the oldest), concurrent elements of the multi buffer in arrival order; print(N) shows the N oldest, print_reverse(N) the N newest.", "quantifier": "all histories of insertions and removals, all element types, all operations applied, all N", "why_tests_cant": "ranges over all histories and over all operations a caller may pass", "anchors": ["source/ikf/include/ikf/Container/THistoryBuffer.hpp:foreach", "source/ikf/include/ikf/Container/THistoryBuffer.hpp:foreach_reverse", "source/ikf/include/ikf/Container/THistoryBuffer.hpp:accumulate", "source/ikf/include/ikf/Container/THistoryBuffer.hpp:print_reverse", "source/ikf/include/ikf/Container/TMultiHistoryBuffer.hpp:foreach", "source/ikf/include/ikf/Container/TMultiHistoryBuffer.hpp:foreach_timestamp", "source/ikf/include/ikf/Container/TMultiHistoryBuffer.hpp:print"]}
{"id": "C110", "title": "Stamped data are ordered by their stamps", "statement": "Comparing TStampedData with each other, with a Timestamp or with a time in seconds compares the stamps: exactly one of <, ==, > holds, < is a strict weak order whose ties are equal stamps, and it does not matter on which side of the operator the data is. (Violated for times in seconds: a > d is evaluated in doubles, d < a on nanoseconds, so they disagree for times closer than a nanosecond.)", "quantifier": "all stamps and data, all finite doubles, every rounding", "why_tests_cant": "ranges over all pairs of times; the disagreement needs a double within half a nanosecond of the stamp", "anchors": ["source/ikf/include/ikf/Container/TStampedData.hpp:operator<", "source/ikf/include/ikf/Container/TStampedData.hpp:operator==", "source/ikf/include/ikf/Container/TStampedData.hpp:operator>"]}
{"id": "C111", "title": "A handler can be reused for a new run", "statement": "After any run, reset() of the handler and initialize() of every instance make the handler behave as a newly constructed one with the same instances initialised that way: nothing of the old run affects the new one. (Violated: reset() keeps the stored measurements, out-of-order flags and redo requests. After a run that ended at 10 s, the measurements of the new run are discarded as too old; after one of 3 s, a measurement of the new run at 2.5 s makes the handler apply the old run's measurement at 3 s to the new run's estimates. With reset_buffer() as well the claim holds.)", "quantifier": "all histories of measurements and redo requests, all filter classes, all instances and horizons, all new initial beliefs and times, every rounding", "why_tests_cant": "ranges over every history of the old run and everything that may follow", "anchors": ["source/ikf/source/EstimatorHandler/IDICOHandler.cpp:reset", "source/ikf/source/EstimatorHandler/IDICOHandler.cpp:reset_buffer", "source/ikf/source/Estimator/IIsolatedKalmanFilter.cpp:reset", "source/ikf/source/Estimator/IKalmanFilter.cpp:initialize"]}
{"id": "C112", "title": "An instance knows whom it is correlated with", "statement": "get_correlated_IDs_at_t(t) lists exactly the instances towards which a cross-covariance factor is stored at t, get_correlated_IDs_after_t(t) those with one stored after t; get_CrossCovFact_at_t says true exactly for a stored non-empty factor and get_CrossCovFact_before_t returns the newest one stored before t; propagate_CrossCovFact multiplies the factors as a propagation does. After any history of measurements correlation is mutual (I lists J exactly if J lists I), and only instances that were passed together to a joint observation are listed; get_correlated_IDs lists exactly those with a stored factor. (Violated for the last: an instance stays listed when all factors towards it have been removed.)", "quantifier": "all instances and factor histories, all times, all filter classes and sequences of measurements and redo requests in any order, every rounding", "why_tests_cant": "ranges over all filter classes and over all histories of arrivals, delays and re-processing", "anchors": ["source/ikf/source/Estimator/IIsolatedKalmanFilter.cpp:get_correlated_IDs", "source/ikf/source/Estimator/IIsolatedKalmanFilter.cpp:get_correlated_IDs_at_t", "source/ikf/source/Estimator/IIsolatedKalmanFilter.cpp:get_CrossCovFact_before_t", "source/ikf/source/Estimator/IIsolatedKalmanFilter.cpp:propagate_CrossCovFact", "source/ikf/source/EstimatorHandler/IsolatedKalmanFilterHandler.cpp:set_Sigma_IJ_at_t"]}
{"id": "C113", "title": "Conversions between Eigen's and the standard containers keep every element", "statement": "to_vector / from_vector, toEigenMatrix / fromEigenMatrix and toEigenQuat / fromEigenQuat keep every element at its place, and converting there and back changes nothing, for every size; toEigenColMatrix puts the vectors into the columns and toEigenRowMatrix into the rows, in their order; a nested vector with a row shorter than the first one makes toEigenMatrix throw. (Violated: toEigenRowMatrix counts to the wrong bound, so it throws for fewer vectors than elements and leaves rows uninitialised for more; surplus elements of a longer row are dropped silently; a matrix without rows loses its number of columns; toEigenQuat returns an uninitialised quaternion for a vector of wrong size.)", "quantifier": "all vectors, matrices, nested vectors (also ragged and empty ones), quaternions, of every size", "why_tests_cant": "ranges over all sizes and contents", "anchors": ["source/ikf/include/ikf/utils/eigen_utils.hpp:to_vector", "source/ikf/include/ikf/utils/eigen_utils.hpp:from_vector", "source/ikf/include/ikf/utils/eigen_utils.hpp:toEigenMatrix", "source/ikf/include/ikf/utils/eigen_utils.hpp:toEigenColMatrix", "source/ikf/include/ikf/utils/eigen_utils.hpp:toEigenRowMatrix", "source/ikf/include/ikf/utils/eigen_utils.hpp:toEigenQuat", "source/ikf/include/ikf/utils/eigen_utils.hpp:fromEigenMatrix"]}
{"id": "C114", "title": "Mean and covariance of samples", "statement": "For at least two samples, sample_covariance returns the sum of the products of the deviations from the mean divided by N - 1: a covariance matrix (symmetric, positive semi-definite) that does not depend on the order of the samples, becomes A Q A^T when the samples are transformed by x -> A x + b, has a zero on the diagonal exactly where all samples agree, and equals the one calc_cov_mean returns together with the mean. For independent samples of one distribution the expected values of both are the mean and the covariance of the distribution. (Violated: with one sample, 0/0, or none, uninitialised, the result may have any value and no error is reported.)", "quantifier": "all samples of every size and number, all affine maps, all distributions with finite second moments", "why_tests_cant": "ranges over all samples and, for the expected values, over all distributions", "anchors": ["source/ikf/include/ikf/utils/eigen_utils.hpp:sample_covariance", "source/ikf/include/ikf/utils/eigen_utils.hpp:calc_cov_mean"]}
{"id": "C115", "title": "The covariance a filter reports is that of its error, and no linear estimate is better", "statement": "For a linear system with random disturbances and random measurement errors that are uncorrelated with each other and with the first error, a filter driven with apply_propagation and apply_private_observation (outlier rejection off) takes every call, and: if the second moments of the noises are at most the Q and R it is told and the first covariance is at least that of the first error, then at every later time the covariance it reports is at least the second moment of its actual error, in every direction, whatever happens by chance (also with regularisation and in both covariance forms); if the noises have mean zero the error has mean zero; if Q, R and the first covariance are exact and nothing is regularised, the reported covariance equals that of the error, the estimate is a linear function of the measurements seen, and every other linear function of the measurements has at least its mean squared error, for every weighting of the states.", "quantifier": "all numbers of states, all probability spaces and noises with finite second moments, all sequences of propagations and measurements of any sizes, all weightings and all competing linear estimates", "why_tests_cant": "a statement about expected values over all noise distributions, and about all competing estimates, for runs of every length; simulations give only samples of it", "anchors": ["source/ikf/source/Estimator/IKalmanFilter.cpp:apply_propagation", "source/ikf/source/Estimator/IKalmanFilter.cpp:apply_private_observation", "source/ikf/source/Estimator/KalmanFilter.cpp:correction_step"]}
{"id": "C116", "title": "The covariances isolated filters report, taken together, cover their errors", "statement": "Several linear systems move with random disturbances and are measured, one alone or several together, with random errors that are uncorrelated with each other and with the first errors and are at most the Q and R the isolated filters are told. Then, whatever happens by chance, apply_propagation, apply_private_observation and apply_observation (outlier rejection off) accept every call, the covariances read afterwards (beliefs and get_Sigma_IJ_at_t) do not depend on chance, and taken together they cover the actual errors of the means: no linear combination of the errors of all instances has a larger mean square than they say.", "quantifier": "all probability spaces and noises with finite second moments, all numbers of instances and states, all sequences of propagations, private and joint observations, all linear combinations of the errors of all instances", "why_tests_cant": "a statement about expected values over all noise distributions and all combinations of the errors, for runs of every length; simulations give only samples of it", "anchors": ["source/ikf/source/Estimator/IIsolatedKalmanFilter.cpp:apply_propagation", "source/ikf/source/Estimator/IIsolatedKalmanFilter.cpp:apply_private_observation", "source/ikf/source/EstimatorHandler/IsolatedKalmanFilterHandler.cpp:apply_observation"]}
{"id": "C117", "title": "More information never leads to less reported certainty", "statement": "Take two filters, the first nowhere reporting a larger covariance than the second. Feed the first with process and measurement noise covariances that are at most those told to the second, at the same times and with the same transition and measurement matrices, and possibly with further observations. Then the covariances the first reports are still at most those the second reports, whatever values are measured, and also if the second refuses observations.", "quantifier": "all sizes, all histories, all sequences of accepted propagations and observations in any order of times, all measured values", "why_tests_cant": "a matrix inequality between two runs of every length for all noises and measurements", "anchors": ["source/ikf/source/Estimator/IKalmanFilter.cpp:apply_propagation", "source/ikf/source/Estimator/IKalmanFilter.cpp:apply_private_observation", "source/ikf/source/Estimator/KalmanFilter.cpp:correction_step"]}
{"id": "C118", "title": "The reported covariance of an observed state stays bounded for ever", "statement": "A filter predicts and observes in turn (outlier rejection off), with any transition and measurement matrices and noises for which some observer, not necessarily the filter, has a stable error. Then every call is accepted, and the covariance reported after any number of cycles is below a fixed bound that does not depend on the measured values and forgets the initial covariance geometrically. If each observation determines the state, the covariance after it is at most that of the state computed from this observation alone.", "quantifier": "all numbers of states and measurements, all numbers of cycles, all time-varying models with a stable observer, all measured values, all initial covariances", "why_tests_cant": "a bound that must hold for runs of every length", "anchors": ["source/ikf/source/Estimator/IKalmanFilter.cpp:apply_propagation", "source/ikf/source/Estimator/IKalmanFilter.cpp:apply_private_observation", "source/ikf/source/Estimator/KalmanFilter.cpp:correction_step"]}
{"id": "C119", "title": "The order of simultaneous observations does not matter", "statement": "Several observations with the same timestamp, outlier rejection off, are accepted in every order and leave the same estimate: on a standalone filter, and on isolated instances of one handler for private observations of the same or of different instances, where also the covariances of all pairs agree. Two observations with independent noise can be given one by one or stacked into one.", "quantifier": "all sizes, all stored histories, all finite lists of observations and all their permutations, all measured values", "why_tests_cant": "an equality of runs for every permutation of every list of observations", "anchors": ["source/ikf/source/Estimator/IKalmanFilter.cpp:apply_private_observation", "source/ikf/source/Estimator/IIsolatedKalmanFilter.cpp:apply_private_observation", "source/ikf/source/Estimator/KalmanFilter.cpp:correction_step"]}
{"id": "C120", "title": "Units, coordinates and superfluous states do not matter", "statement": "Describe the same filtering problem in other units or coordinates of the state, or without states that neither influence nor are observed with the rest, and give measurements in other units. Then the filter accepts and refuses the same calls, outlier rejection included, and its estimates at all times are those of the original filter, converted.", "quantifier": "all linear maps T of the state for which a converted problem exists, all invertible changes of measurement units per call, all histories, all sequences of calls in any order of times", "why_tests_cant": "an equality of two runs of every length for all changes of coordinates", "anchors": ["source/ikf/source/Estimator/IKalmanFilter.cpp:apply_propagation", "source/ikf/source/Estimator/IKalmanFilter.cpp:apply_private_observation", "source/ikf/source/Estimator/KalmanFilter.cpp:correction_step", "source/ikf/source/Estimator/NormalizedInnovationSquared.cpp:check_NIS"]}
{"id": "C121", "title": "Between joint observations an isolated instance is a standalone filter", "statement": "As long as an isolated filter instance takes part in no joint observation, it answers its propagation and private-observation calls exactly as a standalone Kalman filter with the same beliefs would, and stores the same beliefs (as far as its horizon lets it keep them), whatever the other instances do meanwhile and whatever cross-covariances it carries. So its estimates are those of the textbook Kalman filter for its own calls alone, and if its state is observable its covariance stays bounded.", "quantifier": "every handler state, every instance of it, every finite interleaving of calls on any instances and on the handler in which that instance is in no joint observation and starts its own calls from beliefs it still holds, all matrices and configurations, any floating point arithmetic of the horizon checks", "why_tests_cant": "it compares two implementations (the isolated instance with its cross-covariance bookkeeping and horizon, and the plain filter) on all histories and all interleavings with other instances", "anchors": ["source/ikf/source/Estimator/IIsolatedKalmanFilter.cpp: apply_propagation, apply_private_observation, add_correction_at_t, apply_correction_at_t, check_horizon", "source/ikf/source/Estimator/IKalmanFilter.cpp: apply_propagation, apply_private_observation"]}
{"id": "C122", "title": "The log: levels, sinks and threads", "statement": "Logging never disturbs the program: no call of the Logger API, and no library call that writes to the log, throws because of the logger. set_level(l) is accepted exactly up to 'off'; from then on a text goes to a sink exactly if it is at least as severe as l and as the sink's own level; disable() silences the log until the level is set or new sinks are handed over; new sinks start with everything enabled; texts given to log_trace/log_debug/log_info/log_warn before the first use of the log are dropped; otherwise every text is in every sink that admits it exactly once and in program order.", "quantifier": "every program of Logger calls, every level, every list of sinks, every number of threads and every schedule", "why_tests_cant": "the exception needs a particular interleaving of the registry look-up and the registration in two threads; a test runs one interleaving, and usually the one where the logger already exists", "anchors": ["source/ikf/source/Logger/Logger.cpp: Logger::ikf_logger, set_level, disable, setup_logger, log_trace, log_debug, log_info, log_warn", "source/ikf/include/ikf/Logger/Logger.hpp: Logger"]}
{"id": "C123", "title": "Statistics of numbers and rounding to digits", "statement": "mean, stddev, max and min of a container are its arithmetic mean, sample standard deviation, largest and smallest element, whatever the order of the elements; the mean lies between the extremes and the spread is zero exactly for equal elements. roundn(x, p) is a multiple of 10^-p nearest to x, keeps order and sign, and rounding again changes nothing. (Violated: roundn is undefined from 20 digits on and for every negative int with up to nine digits; the mean of ints is cut off toward zero and undefined for none; max of nothing is the largest number; stddev of nothing is 0 and of one value not a number.)", "quantifier": "all containers of any length, all values, all numbers of digits", "why_tests_cant": "they range over all containers and all values; the failures are at particular types, signs and sizes", "anchors": ["source/ikf/include/ikf/utils/math.hpp: roundn, mean, stddev, max, min"]}
{"id": "C124", "title": "Listing a directory", "statement": "IO::getFilesInDirectory returns the full names (directory, slash, entry) of exactly the visible entries that are no directories, in the order of the system, restricted to the given extension if one is given; IO::getDirsInDirectory returns exactly the visible directories. Every visible entry is in exactly one of the two lists, hidden entries and entries whose kind cannot be found out are in none, and every name returned leads back to the directory. A directory that cannot be read gives an empty list.", "quantifier": "every directory path, extension and list of directory entries with any mode words, in any order", "why_tests_cant": "the entries, their kinds and their order are up to the file system; a test sees only the few directories it makes, none with sockets or devices", "anchors": ["source/ikf/source/utils/IO.cpp: IO::getFilesInDirectory, IO::getDirsInDirectory, IO::dirExist"]}
{"id": "C125", "title": "Reading text by lines and by words", "statement": "IO::getLinesFromFile returns the lines of the file, in order and complete (the one list of texts without newline that make up the file), and nothing if it cannot be opened; IO::getAbsPathsFromFile appends, for each line of the list file, the line if it is absolute and else the line below the list file's directory; IO::getTokens(str) returns the words of the text; IO::getFirstTokenAndReset returns the next word and leaves the stream as it was.", "quantifier": "every file content, text, stream position and state", "why_tests_cant": "contents and positions are unbounded; tests hold a few short texts with Unix line ends", "anchors": ["source/ikf/source/utils/IO.cpp: IO::getLinesFromFile, IO::getAbsPathsFromFile, IO::getTokens, IO::getFirstTokenAndReset"]}
{"id": "C126", "title": "Removing a directory removes that directory", "statement": "IO::removeDirectory returns true and removes the directory with everything below it and nothing else; where nothing is it returns false and changes nothing.", "quantifier": "every tree of directories and files, working directory and path", "why_tests_cant": "the effect on everything else in the tree, for every name, cannot be observed by examples", "anchors": ["source/ikf/source/utils/IO.cpp: IO::removeDirectory"]}
{"id": "C127", "title": "What the numerical stabilisation costs", "statement": "With any configuration, the default one included, a standalone filter is nearly optimal: if the eps the configuration adds for numerical stability is at most the fraction delta of every measurement noise and, with stabilisation, of the covariances the filter reports, then after k observations the reported covariance lies between 1/(1+delta)^k and ((1+delta)/(1-delta))^k times that of the filter that adds nothing; and if the noises are exactly what the filter is told, no linear function of the k measurements has a mean squared error smaller than what the filter reports by more than that factor, while the filter's own mean squared error is at most what it reports.", "quantifier": "every number of states, system, sequence of calls (propagations, observations, stored beliefs, corrections) at any times, every probability space, noises and weighting of the states", "why_tests_cant": "optimality quantifies over all estimators and all noise distributions; a rounding guard's effect after a million observations is not visible in a test that compares one run with a tolerance", "anchors": ["source/ikf/source/Estimator/IKalmanFilter.cpp:apply_propagation", "source/ikf/source/Estimator/IKalmanFilter.cpp:apply_private_observation", "source/ikf/source/Estimator/KalmanFilter.cpp:correction_step"]}
{"id": "C128", "title": "Testing an observation before it is processed", "statement": "The outlier test a caller can run by himself on H, R, r and Sigma agrees with the filter's own gate: an observation that passes it is accepted by the correction, one that fails it is refused.", "quantifier": "every size of state and observation, every covariance with a regular innovation covariance, every residual, every configuration", "why_tests_cant": "agreement of two differently computed verdicts at the threshold depends on all matrices and residuals; samples practically never hit the region where stabilisation matters", "anchors": ["source/ikf/source/Estimator/NormalizedInnovationSquared.cpp:check_NIS", "source/ikf/source/Estimator/KalmanFilter.cpp:correction_step"]}
{"id": "C129", "title": "A filter forgets its initial belief", "statement": "Two standalone filters that are given the same propagations and measurements, but were initialised differently, approach each other: where the process noise is at least the fraction alpha of the covariance moved on, filters that differ in the initial mean report the same covariance and the difference of their means, counted in reported standard deviations in any direction, shrinks by sqrt(1+alpha) per cycle, so that, if the state can be observed, the estimates agree to any accuracy after finitely many cycles, whatever is measured; the factor between the reported covariances of filters with different initial covariances approaches 1 geometrically, up to what is added for stability; and filters that differ in mean and covariance approach each other in both, geometrically, if one of them finds its residuals plausible.", "quantifier": "every number of states, time-varying system, sequence of predict-observe cycles of any length, measured values, pair of initial beliefs; outlier gate off", "why_tests_cant": "convergence is a statement about all horizons, all measured values and all pairs of initial beliefs; a test sees one run of one length", "anchors": ["source/ikf/source/Estimator/IKalmanFilter.cpp:apply_propagation", "source/ikf/source/Estimator/IKalmanFilter.cpp:apply_private_observation", "source/ikf/source/Estimator/KalmanFilter.cpp:correction_step"]}
{"id": "C130", "title": "Instance IDs are mere names", "statement": "Renaming the instances does not change what is estimated: a handler with the same freshly initialised instances under other IDs, given the same calls under these IDs (the dictionaries of joint observations being sorted anew, so that the states are stacked in another order), gives the same answers, and every newest belief and every cross-covariance between instances of the same time is the same under the new names; further instances in the second handler make no difference.", "quantifier": "every injective renaming, number and size of instances, in-order history of propagations, private and joint observations and set cross-covariances, configuration including the outlier gate, measured values", "why_tests_cant": "the order of the IDs decides which block comes first, which correlation factor is stored by whom and which half of the joint posterior is split; a test tries few orders and histories", "anchors": ["source/ikf/source/EstimatorHandler/IsolatedKalmanFilterHandler.cpp:apply_observation", "source/ikf/source/EstimatorHandler/IsolatedKalmanFilterHandler.cpp:stack_Sigma", "source/ikf/source/EstimatorHandler/IsolatedKalmanFilterHandler.cpp:split_right_upper_covariance", "source/ikf/source/Estimator/IIsolatedKalmanFilter.cpp:apply_private_observation"]}
{"id": "C131", "title": "Estimates depend linearly on the measured values, covariances not at all", "statement": "Take three handlers with the same freshly initialised instances except for their means, and make the same calls on them with different measured values (measurements, residuals, propagated means): if initial means and measured values of the third are the weighted means (with any weights l and 1-l) of those of the other two, and the three give the same answers (always, with the outlier test off), then all newest means of the third are the same weighted means of those of the other two, while the covariances, the cross-covariances and the times of the estimates are the same in all three.", "quantifier": "every weight, number and size of instances, in-order history of propagations, private and joint observations and set cross-covariances, configuration, measured values", "why_tests_cant": "superposition is a relation between three whole histories; a test compares a few numbers, and a dependence of a covariance on a measured value may appear in one branch only", "anchors": ["source/ikf/source/EstimatorHandler/IsolatedKalmanFilterHandler.cpp:apply_observation", "source/ikf/source/Estimator/IIsolatedKalmanFilter.cpp:apply_private_observation", "source/ikf/source/Estimator/IIsolatedKalmanFilter.cpp:apply_propagation", "source/ikf/include/ikf/Estimator/KalmanFilter.hpp:correction_step"]}
{"id": "C132", "title": "Groups of instances that never meet do not influence each other", "statement": "Put the freshly initialised instances of two handlers into one handler, and make on it the calls that were made on the two, in any order between the two groups: every call gives the answer it gave before, every instance ends with the newest belief, and every two of its group with the cross-covariance, they had in their own handler, and every two instances of different groups are reported uncorrelated.", "quantifier": "every number and size of instances in either group, in-order history of either group, interleaving of the two histories, configuration including the outlier test", "why_tests_cant": "non-interference is a relation between three whole histories over all interleavings; a test sees a few of them", "anchors": ["source/ikf/source/EstimatorHandler/IsolatedKalmanFilterHandler.cpp:apply_observation", "source/ikf/source/EstimatorHandler/IsolatedKalmanFilterHandler.cpp:stack_Sigma", "source/ikf/source/Estimator/IIsolatedKalmanFilter.cpp:apply_private_observation", "source/ikf/source/Estimator/IIsolatedKalmanFilter.cpp:apply_propagation"]}
{"id": "C133", "title": "Of the times only the order matters, of the horizon nothing", "statement": "Take two handlers with the same freshly initialised instances except for the times of their beliefs and their horizons, and make the same calls on both at times that are in the same order: every call gives the same answer, and the newest beliefs and cross-covariances are the same, each at its own time. (The propagation matrices carry all of the effect of elapsed time.)", "quantifier": "every strictly increasing change of the times, pair of horizons, number and size of instances, in-order history, configuration including the outlier test", "why_tests_cant": "a relation between two whole histories for every change of times; a dependence on a difference of times or on the horizon may show at one particular spacing only", "anchors": ["source/ikf/source/EstimatorHandler/IsolatedKalmanFilterHandler.cpp:apply_observation", "source/ikf/source/Estimator/IIsolatedKalmanFilter.cpp:apply_private_observation", "source/ikf/source/Estimator/IIsolatedKalmanFilter.cpp:apply_propagation", "source/ikf/include/ikf/Container/THistoryBuffer.hpp:THistoryBuffer"]}
{"id": "C134", "title": "The test for positive semidefinite covariances can be trusted when it says yes", "statement": "is_positive_semidefinite answers \"yes\" only for matrices that are symmetric up to the relative tolerance 1e-12 and whose lower triangle is that of a positive semidefinite matrix; it answers \"yes\" for every symmetric positive definite matrix of any size, hence for every positive semidefinite covariance that was stabilised by any positive amount before; it answers (rather than being undefined) for every square matrix. It should answer \"yes\" for every positive semidefinite matrix.", "quantifier": "every matrix of every size, in exact arithmetic", "why_tests_cant": "a factorisation with pivoting takes a different path for every order of the diagonal entries and every rank; tests try a few matrices", "anchors": ["source/ikf/source/utils/eigen_utils.cpp:is_positive_semidefinite", "source/ikf/source/utils/eigen_utils.cpp:is_symmetric", "source/ikf/source/utils/eigen_utils.cpp:stabilize_covariance"]}
{"id": "C135", "title": "Calls on different instances can be made in any order", "statement": "Take any history of propagations, private observations, joint observations and set correlations on the instances of a handler. Make the same calls in any other order in which every single instance still sees the calls that concern it in the same order. Every call is possible in the new order, is answered as before (accepted or rejected), and afterwards all newest beliefs and all cross-covariances are the same.", "quantifier": "every number of instances, every history of calls with fitting matrices, every reordering that keeps the order per instance, exact arithmetic", "why_tests_cant": "the number of admissible reorderings grows exponentially with the length of the history; tests run one of them", "anchors": ["source/ikf/source/EstimatorHandler/IsolatedKalmanFilterHandler.cpp:apply_observation", "source/ikf/source/Estimator/IIsolatedKalmanFilter.cpp:apply_propagation", "source/ikf/source/Estimator/IIsolatedKalmanFilter.cpp:apply_private_observation"]}
{"id": "C136", "title": "Propagating in steps or at once is the same", "statement": "An instance is propagated from t_a to t_b in any number of steps with transition matrices Phi_i and process noises Q_i, or at once with the product of the Phi_i and the accumulated process noise. Both are accepted; the newest belief and the cross-covariances with all other instances are the same, and so are the answers to all calls made afterwards and the estimates after them.", "quantifier": "every number of steps, every history of calls before and after, every number of instances, exact arithmetic", "why_tests_cant": "the factors of the correction buffer are multiplied up differently for every number of steps and every history; tests try a few step widths", "anchors": ["source/ikf/source/Estimator/IIsolatedKalmanFilter.cpp:apply_propagation", "source/ikf/source/EstimatorHandler/IsolatedKalmanFilterHandler.cpp:apply_observation"]}
{"id": "C137", "title": "A handler can be saved and restored", "statement": "Read the newest beliefs and the cross-covariances of all instances of a handler at a common time, initialise the instances of a fresh handler with these beliefs, and write the cross-covariances with set_Sigma_IJ_at_t (pairs that are uncorrelated may be left out, one direction of a pair suffices). All writes succeed; the fresh handler then has the same estimates, and from then on it gives the same answers as the old one to any calls and holds the same estimates after them.", "quantifier": "every history before saving, every number and size of instances, every order and choice of the saved pairs, every sequence of calls after restoring, exact arithmetic", "why_tests_cant": "the statement is about all pasts and all futures: a factorised cross-covariance can be right when read and still behave differently later", "anchors": ["source/ikf/source/EstimatorHandler/IsolatedKalmanFilterHandler.cpp:set_Sigma_IJ_at_t", "source/ikf/source/EstimatorHandler/IsolatedKalmanFilterHandler.cpp:get_Sigma_IJ_at_t", "source/ikf/source/Estimator/IKalmanFilter.cpp:initialize"]}
{"id": "C138", "title": "Instances can join and leave at any time", "statement": "An instance is added, and the answer is true, exactly if its ID is not in use, and removed, and the answer is true, exactly if there is one; otherwise nothing changes. Between calls, instances may be initialised and added to a handler under a new ID, and instances may be removed. The estimates are at all times those of a centralised filter in which a joining instance is a further, uncorrelated state and a leaving one is marginalised out. Calls that do not concern a removed instance answer and estimate as if it had stayed; calls on the others answer and estimate as if an added instance were not there. A removed instance leaves no trace: when its ID is used again, the new instance is correlated with exactly those instances that are correlated with it. A joining instance keeps the beliefs and correlations it brings and takes over the horizon of the handler.", "quantifier": "every history of calls, joins and leaves, every number and size of instances, every sequence of calls after, exact arithmetic", "why_tests_cant": "membership changes interleave with all histories, and a trace left behind shows only in some later call", "anchors": ["source/ikf/source/EstimatorHandler/IDICOHandler.cpp:add", "source/ikf/source/EstimatorHandler/IDICOHandler.cpp:remove"]}
{"id": "C139", "title": "Simultaneous observations count only by their total information", "statement": "Without regularisation (eps = 0; or neither Joseph form nor stabilisation asked for, where eps counts as measurement noise) and without the gate, what private observations of one time do to the estimates depends only on the sums of their information matrices H^T R^-1 H and of H^T R^-1 z per instance: two lists of observations, of any lengths, sizes and noises, that agree in these sums leave the same means and covariances, of the observed instances and of all their cross-covariances. In particular k readings of one sensor may be replaced by their mean with a k-th of the noise.", "quantifier": "every history before, every state size and number of instances, every two lists of observations with the same sums; exact arithmetic; measurement noises definite, configurations without gate and regularisation", "why_tests_cant": "an identity between sequences of different lengths and measurement sizes, for all prior covariances, singular ones included", "anchors": ["source/ikf/source/Estimator/IKalmanFilter.cpp:apply_private_observation", "source/ikf/source/Estimator/IIsolatedKalmanFilter.cpp:apply_private_observation", "source/ikf/source/Estimator/KalmanFilter.cpp:correction_step"]}
{"id": "C140", "title": "What a filter is surprised by", "statement": "For a filter on a correct model (noises at most what it was told, first covariance at least that of its first error, uncorrelated noises, any distributions) the residual of the next measurement has at most the covariance the filter expects, H S H^T + R + eps I, and r^T S^-1 r is on average at most the number m of its components, with equality if the noises are exactly as told. Hence with the outlier test on at a listed confidence and m at most 49, every call is answered and a good measurement is refused with probability at most m over the threshold in use. If the noises are exactly as told and have mean zero, the residual is news: it has mean zero and is uncorrelated with every linear function of all measurements seen before, so residuals of different measurements are uncorrelated. If moreover the noises are jointly Gaussian, a measurement of 1 to 49 components is accepted with exactly the probability the chi-square law with m degrees of freedom gives to the threshold in use, which is at least the confidence asked for. The bound on the refusals also holds for the isolated filters of a team: after any orderly run, for a measurement of one instance alone or a joint one of instances that know nothing of each other yet or were last measured together, with the threshold for the number of components measured.", "quantifier": "every linear system, run length, state size and measurement size, every probability space and distribution of state and noises with finite second moments; exact arithmetic; the earlier observations of the run are made with the test off, the next one with the test on", "why_tests_cant": "a statement about expectations and probabilities for all distributions and all histories; sampling gives a point estimate for one system", "anchors": ["source/ikf/source/Estimator/IKalmanFilter.cpp:apply_private_observation", "source/ikf/source/Estimator/KalmanFilter.cpp:correction_step", "source/ikf/source/Estimator/NormalizedInnovationSquared.cpp:check_NIS", "source/ikf/source/Estimator/NormalizedInnovationSquared.cpp:chi2inv", "source/ikf/source/Estimator/IIsolatedKalmanFilter.cpp:apply_private_observation", "source/ikf/source/EstimatorHandler/IsolatedKalmanFilterHandler.cpp:apply_observation"]}
{"id": "C141", "title": "Which measured values pass the outlier test", "statement": "With the outlier test on at a listed confidence, a measurement of a stand-alone filter with a belief at its time is answered true exactly if every linear combination of the components of its value deviates from the prediction by at most sqrt(q) of the standard deviations expected for that combination, where q is the threshold in use and H S H^T + R + eps I the expected covariance; every other value is answered false. The same holds for a measurement of one isolated filter of a team, and for a joint measurement of several at the time of their newest beliefs, with the stacked covariances as read, increased by 1e-12 I. The values that pass form a convex set, symmetric about the predicted measurement and containing it. A less certain filter, a larger noise told, a larger eps or a higher listed confidence lets every deviation pass that passed before. From 50 components on, only exactly the predicted value passes.", "quantifier": "every state and measurement size, every history of the filter or team, every set of participants, time, measured value, measurement matrix, noise matrix and listed confidence; exact arithmetic", "why_tests_cant": "a statement about every measured value and every direction in measurement space, an uncountable set", "anchors": ["source/ikf/source/Estimator/IKalmanFilter.cpp:apply_private_observation", "source/ikf/source/Estimator/KalmanFilter.cpp:correction_step", "source/ikf/source/Estimator/NormalizedInnovationSquared.cpp:check_NIS", "source/ikf/source/Estimator/NormalizedInnovationSquared.cpp:chi2inv", "source/ikf/source/EstimatorHandler/IsolatedKalmanFilterHandler.cpp:apply_observation"]}
{"id": "C142", "title": "The estimate is the best compromise", "statement": "A stand-alone filter with an estimate (mean mu, definite covariance P) at a time takes any number of linear measurements of that time. Its estimate afterwards is the one and only state x that minimises the cost of weighted least squares, (x-mu)^T P^-1 (x-mu) plus the sum over the measurements of (z-Hx)^T (R+eps I)^-1 (z-Hx): processing the measurements one by one gives the solution of the batch problem. The new covariance says by how much the cost of every other state is larger, and the least cost is the sum of the normalised innovations squared met on the way, which therefore does not depend on the order. With the outlier test on, a measured value passes exactly if there is a state whose cost is at most the threshold in use. For isolated filters, the same holds for the mean of an instance after a measurement of it alone, and for the stacked means of several instances after a joint measurement, where the stacked covariance counts increased by 1e-12 I. The covariance of these estimates says by how much the cost of every other state is larger.", "quantifier": "every history of the filter, every number, size, value and order of the measurements, every state to compare with; exact arithmetic; no regularisation but that of the measurement noise for the statements about several measurements and about covariances (Joseph form and stabilisation off, or eps zero)", "why_tests_cant": "optimality among all states for all inputs: a test compares with finitely many states", "anchors": ["source/ikf/source/Estimator/IKalmanFilter.cpp:apply_private_observation", "source/ikf/source/Estimator/KalmanFilter.cpp:correction_step", "source/ikf/source/Estimator/NormalizedInnovationSquared.cpp:check_NIS", "source/ikf/source/EstimatorHandler/IsolatedKalmanFilterHandler.cpp:apply_observation"]}
