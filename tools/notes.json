{
 "C08": {
  "note": "Exact for all queries except get_between_t1_t2 with equal bounds, where the claim is false of the code (c08_between_map_equal_bounds_fails)."
 },
 "C09": {
  "note": "True whenever some element is at or after t; false of the code exactly when the non-empty buffer is entirely older than t (c09_remove_before_fails), so the full claim cannot be proved."
 },
 "C13": {
  "note": "True if the queried stamp is stored; false of the code otherwise, both ways (c13_exist_before_fails)."
 },
 "C14": {
  "note": "The written index is right; the returned flag is false of the code (c14_index_at_fails: always false)."
 },
 "C16": {
  "note": "True whenever some entry is not stale; false of the code exactly when all entries are stale (c16_drop_stale_fails)."
 },
 "C20": {
  "note": "What the gate does is characterised completely. All 250 table entries are proved to be the chi-square quantiles (to 4 decimals), against the chi-square law of Mathlib's Gamma distribution, and the law of the normalised innovation of a consistent Gaussian residual is proved to be chi-square. The claim is false of the code: quantile of dim+1 (over-acceptance), zero threshold from dimension 50 (acceptance probability 0), undefined behaviour for unlisted confidences (c20_*_fails)."
 },
 "C28": {
  "note": "Proved for all histories of accepted calls with steps up to half the horizon; false of the code outside (c28_*_fails)."
 },
 "C29": {
  "note": "Proved for the eager flavour and, for the correction-buffer flavour, where it holds; false of the code in the remaining cases (c29_*_fails), each proved for all inputs."
 },
 "C33": {
  "note": "True unless two or more measurements share one stamp after t, where it is false of the code (c33_redo_after_fails)."
 },
 "C40": {
  "note": "True for all known observation types; false of the code for UNKNOWN ones (c40_sort_fails)."
 },
 "C41": {
  "note": "True of every schedule in which no try_lock times out; false of every schedule with a timeout (c41_timeout_fails)."
 },
 "C43": {
  "note": "True except for SKF and the order strategies, where it is false of the code (c43_fusion_fails, c43_order_fails)."
 },
 "C45": {
  "note": "Symmetry, the exact defect of the bound and a sufficient condition for positive semidefiniteness; the full claim is false of the code (c45_consistent_fails: for every weight)."
 },
 "C46": {
  "note": "True of the overloads given a measurement or a function; false of the one given the Jacobians (c46_jacobians_fails)."
 },
 "C48": {
  "note": "True under the assumption that the derived class keeps the tables inverse; false without it (c48_lookup_fails); the library neither establishes nor checks it."
 },
 "C49": {
  "note": "True of wrapToPi and friends; false of wrapTo2Pi (c49_wrapTo2Pi_fails)."
 },
 "C50": {
  "note": "True of the helpers in the cases stated; false of the code in the others (c50_*_fails); also the four-block vertcat and the three-vector vertcat_vec; the three-vector horcat_vec never yields a value (c50_horcat_vec3_fails)."
 },
 "C52": {
  "note": "True for files whose accepted rows contain only numbers; false of the code otherwise (c52_leak_fails, c52_blank_fails)."
 },
 "C58": {
  "note": "Roll and yaw are right for all angles away from gimbal lock; the pitch is wrong for every non-zero pitch (c58_pitch_fails)."
 },
 "C60": {
  "note": "True for symmetric arguments; false for asymmetric ones with positive semidefinite symmetric part (c60_asymmetric_fails)."
 },
 "C61": {
  "note": "True for the comma, numeric texts and equally long columns; false of the code otherwise (c61_*_fails)."
 },
 "C62": {
  "note": "True of fixed nuisance beliefs; false of the code in general (c62_fixed_fails)."
 },
 "C63": {
  "note": "True for one input; false of the code for every other number of inputs (c63_inputs_fails)."
 },
 "C73": {
  "note": "Holds whenever a participant of the other agent is free or two participants are free; if the only free participant is the caller's, an accepted observation throws (c73_single_free_fails)."
 },
 "C75": {
  "note": "The unconditional claim is false of the code (c75_one_each_fails: two agents, one free instance each, the call throws). c75_answer_partial says for every reachable state exactly when the call throws and what it answers otherwise (measurements of at least one row)."
 },
 "C74": {
  "note": "Assumes in-order calls and, for the main theorem, delivered requests; the lost request is c74_lost_request."
 },
 "C84": {
  "note": "EkfUser keeps the calls a filter class makes and leaves the numbers open; Linear1D is the class of the repository's example (theorem Linear1D.proper). Served is the condition on the measurements; it includes histories that reach further back than the handler's horizon, see C85."
 },
 "C85": {
  "note": "Fails: the instance trims its own history at its own newest estimate, the handler at the oldest measurement of any instance; after a gap in the data of one instance an accepted, delayed propagation finds no earlier estimate (null pointer). The partial theorem covers runs within the horizon of the initial estimates."
 },
 "C88": {
  "note": "The first sentence holds (c88_answered). The second fails for delayed measurements (c88_first_status_fails): the vector starts with the statuses of everything redone before it; the example therefore never reports a rejected delayed observation. c88_in_order_partial covers measurements in order."
 },
 "C89": {
  "note": "The claim about all simulated measurements fails (c89_first_step_fails): the handler discards, as too old, everything of the first time step after instance 0's propagation, because its buffer then holds one measurement and its span is 0; the other instances have no estimate at the first sample and the program reports (0,0) there (c89_first_sample). c89_trajectory_partial proves the claim with exactly those measurements left out. Random draws are parameters; statistics and plotting are not modelled."
 },
 "C90": {
  "note": "Two clauses fail. c90_stop_fails: run_ may begin once more after stop() returned (exactly once at most: c90_stop_partial). c90_destroy_fails: for every sequence of public calls containing a resume() there is a schedule in which the base destructor lets the worker call the pure virtual run_ (abort), because the thread is joined only in the base destructor; c90_destroy_partial gives the condition under which destruction is safe. Atomic steps are those of the worker between two shared accesses; the flags are atomic."
 },
 "C91": {
  "note": "Fails for rates that do not divide 1000 Hz (period truncated to ms), at 1001 Hz and above (no sleep at all) and for very small rates (integer wrap). Partial theorem: n cycles last n periods at least; c91_whole_ms gives the full claim for rates 1000/k."
 },
 "C92": {
  "note": "Fails: the value smoothed is the duration of the cycle before, the first one is an uninitialised member. c92_lag_partial says what is reported exactly."
 },
 "C93": {
  "note": "Holds for symmetric positive semidefinite matrices (c93_law_partial, c93_univariate). Fails otherwise: a negative variance is accepted and clipped, only the lower triangle is read, and an exception in setCovar leaves the new covariance beside the old transformation. Eigen's decompositions enter through the contract `Solver.Good`, shown satisfiable; the law of std::normal_distribution is assumed."
 },
 "C94": {
  "note": "Fails after an odd number of draws: the distribution keeps the second number of a pair over the seed (libstdc++). c94_seed_partial: exact for both parities; c94_reproducible: seeding before any draw is enough."
 },
 "C95": {
  "note": "Fails: quat2theta inverts theta2quat for the zero vector only, and small_angle_to_quaternion below two radians only; there the angle drops by 90 degrees, so it is not monotone. Unit norm, axis, inverse and the third-order bound hold for all vectors (bound up to two radians)."
 },
 "C96": {
  "note": "Fails: with an empty delimiter getTokens never returns (c96_tokens_fails). Holds for every other delimiter and all strings."
 },
 "C97": {
  "note": "Fails: a name without a dot is lost by getFileName, an extension may contain slashes, a parent that is the first name is not found, and a list in the working directory yields root paths. c97_*_partial: exact on dir/name.ext."
 },
 "C98": {
  "note": "Fails for createDirectoryRecursive: true for an existing regular file, false for an existing directory that cannot be read and for the root. createDirectoryFull has the full property (c98_full). POSIX mkdir/open/opendir are modelled, without links, `..` and concurrent changes."
 },
 "C99": {
  "note": "Fails: a new file in the working directory given by its bare name, or directly under the root, is never opened (c99_open_fails). c99_open_partial: every file with a directory part."
 },
 "C100": {
  "note": "c100_textbook: a sequence of accepted calls is a run of the textbook filter (Spec/StandaloneMath, matrices over Fin n); c100_refused, c100_frame, c100_dimensions, c100_defined cover refused calls, other times, misfitting and fitting shapes."
 },
 "C101": {
  "note": "False as stated: redo_updates_after_t looks measurements up in a map keyed by time, so of several later measurements with one stamp only one is redone (c101_chronological_fails), and a measurement older than the stored span is dropped (c101_horizon_fails). c101_chronological_partial proves it for every causal user filter without such clashes and with delays inside the horizon; c101_kalman instantiates it with a filter written with the library's own calls; c101_clash characterises what is left after a clash."
 },
 "C102": {
  "note": "False: the overload reads a belief through a pointer it never sets (c102_measurement_function_fails: every call is undefined)."
 },
 "C103": {
  "note": "False: process_measurement trims only the measurements (c103_beliefs_bounded_fails: the beliefs grow with the stream); an explicit check_horizon trims them (c103_check_horizon_partial) and the measurements (c103_check_horizon_meas)."
 },
 "C104": {
  "note": "c104_stored_covariances for one handler (and the decoupled and Schmidt variants), c104_team for teams of agents (C_IKF and C_DCI observations), c104_std for the filters without buffers; c104_variances reads off variances and correlations; c104_near, c104_solver discharge the condition on nearest_covariance."
 },
 "C68": {
  "note": "reset_buffer holds (c68_reset). set_horizon is false for the out-of-order flags (c68_set_horizon_fails: kept h/2 instead of h/4); c68_set_horizon_partial covers measurements and redo requests."
 },
 "C71": {
  "note": "False when the posterior is not delivered (c71_lost_posterior_fails, characterised by c71_lost_posterior); a lost request changes nothing (c71_lost_request_partial)."
 },
 "C72": {
  "note": "False with exactly one other agent: an outlier is answered true (c72_outlier_fails, c72_one_other_always_true); c72_true_applied_partial proves it otherwise; an answer false means nothing changed (c72_false_unchanged)."
 },
 "C105": {
  "note": "The theorems with the suffix _partial are about the functions whose whole body is in one scope of m_mtx (all public functions of the handlers but those named below), cut into accesses in any way, and about schedules without a time-out of try_lock (c105_timeout_fails: a thread whose lock timed out never returns, its next step is undefined behaviour). For std::lock_guard (DecoupledPropagationHandler) nothing is missing (c105_blocking). Refuted for schedule_redo_update (c105_requests_fails), the sensor ID (c105_sensor_id_fails) and calls on instances (c105_instance_fails, c105_lost_update_fails)."
 },
 "C106": {
  "note": "c106_together_partial: with joint observations of any participants, the covariances of instances of which those in contact, directly or through others, were last observed together (for instance of one instance, or of the participants of the last joint observation) are a covariance taken together. c106_groups_partial: instances observed jointly only as whole fixed groups, with no set_Sigma and no user-supplied beliefs. c106_std_pairs_partial: filters without buffers in fixed pairs, each private update after an accepted propagation with process noise of at least 1e-16 or an accepted joint update; then every joint update at equal times returns. c106_pair_partial: one observation, bound 1e-12 + eps. c106_team_fails, c106_pair_fails: the general statement is false; c106_std_throws_fails: and a joint update of the filters without buffers then throws."
 },
 "C107": {
  "note": "c107_outcome_partial, c107_first_step_partial, c107_two_bodies_partial, c107_two_bodies_exact_partial: never undefined for a duration >= 0; returns without joint observations; with them for at most two samples, and for two bodies whenever the clock advances in each step (exact arithmetic: up to 2e9 Hz). Missing: longer runs of more than two bodies with joint observations, where the check of the joint covariance may throw (c106_std_throws_fails shows such a state for the same filters). c107_records: every recorded mean is the centralised one of the calls made up to the record, that is without the observations of later instances in that step. c107_times_partial, c107_clock_exact: the recorded times, exact arithmetic when the rate divides 1e9; c107_drift_fails, c107_frozen_fails, c107_ignored_options_fails: refutations."
 },
 "C108": {
  "note": "c108_progress_partial, c108_done: for up to 2^30 steps, every call prints what the specification says, with the actual interval n / updStepPerc. c108_interval_fails, c108_zero_fails, c108_update_zero_fails: refutations. The text of a line is kept as its parts."
 },
 "C109": {
  "note": "c109_map, c109_multi, c109_insertions (the walk of a multi buffer is the stable sort of the insertions). The operation passed does not modify the buffer."
 },
 "C110": {
  "note": "c110_order, c110_weak_order, c110_timestamp. c110_seconds_partial: right for times more than 2 microseconds apart; c110_seconds_fails: a > d and not d < a."
 },
 "C111": {
  "note": "c111_restart_partial: with reset_buffer() the state is that of a new handler, for every history that did not crash. c111_instances: a run keeps the instances and their horizons. c111_reset_fails, c111_mixed_fails: concrete runs of the repository's example filter."
 },
 "C112": {
  "note": "c112_listed, c112_factor, c112_before, c112_propagate: the queries. c112_mutual, c112_only_together: every history of a handler with any filter class whose predict_to does nothing (as in the repository's). c112_stale_fails: set_Sigma_IJ_at_t followed by remove_beliefs_from_t."
 },
 "C113": {
  "note": "c113_vectors, c113_nested, c113_columns, c113_quat: round trips and places. c113_short: the exception for a short row. c113_rows_partial: as many vectors as elements; c113_rows_fails: any other number. c113_nested_fails, c113_quat_fails: the other cases that lose elements."
 },
 "C114": {
  "note": "c114_entry, c114_agree, c114_covariance, c114_order, c114_affine, c114_zero, c114_unbiased for N >= 2; c114_few_fails: N < 2. Real arithmetic."
 },
 "C115": {
  "note": "c115_consistent (at least; equal if exact), c115_unbiased, c115_optimal, each about the calls of the modelled filter for every outcome of chance. Real arithmetic; outlier rejection off (a gate makes the set of accepted measurements depend on chance)."
 },
 "C116": {
  "note": "c116_groups_partial: proved if joint observations are always of whole groups of instances that are correlated only among themselves. c116_accepts: the calls go through. c116_orderly_partial (with c116_orderly_accepts): participants may change from one joint observation to the next as long as those of each know nothing of each other yet, not even through others, or were last measured together (Spec/HonestChain keeps the books); then the covariance every single instance reports for itself covers its error, and so do the covariances of instances of which those in contact were last measured together. Missing: joint observations of instances that are in contact through others, and instances read together that are in contact but were not last measured together; there the statement is false: c116_pairs_fails (the covariances read are not even a covariance, so they cover no errors at all, from C106). c116_own_fails: even the variance a single instance reports for itself can be smaller than its mean squared error, after three pairwise observations around a triangle with everything told correctly. Real arithmetic; outlier rejection off or never triggered."
 },
 "C117": {
  "note": "c117_certainty_partial: proved for observations without the regularisation of the configuration (eps = 0; or, where no Joseph form and no stabilisation is asked for, any eps). With the default configuration the claim is false: c117_extra_fails (a further observation raises a zero covariance to 1e-16), c117_prior_fails (observing without noise, the filter that was less certain ends up more certain, by 1e-16). Real arithmetic. c117_regularised_partial: with any configuration (the default one included) and no further observations, the claim holds up to the factor (1 + delta)^k after k observations, where delta is the ratio of eps to the measurement noise."
 },
 "C118": {
  "note": "c118_bounded (with the regularisation of the configuration counted as noise), c118_full, c118_unobserved (without observations no bound exists). Real arithmetic."
 },
 "C119": {
  "note": "c119_any_order_partial, c119_stacked_partial, c119_isolated_partial: proved for observations without the regularisation of the configuration (eps = 0; or, where no Joseph form and no stabilisation is asked for, any eps). With the default configuration the claim is false: c119_order_fails (two observations of a scalar; the variances differ by about 1e-17). c119_regularised_partial: with any configuration, the default one included, the covariances of two orders differ at most by the factor (1 + delta)^(2k), where eps is at most the fraction delta of the noises and of the covariance at the end; missing: the means. Real arithmetic."
 },
 "C120": {
  "note": "c120_units_partial: proved without the regularisation of the configuration (eps = 0). With the default configuration the claim is false: c120_units_fails (1e-16 is added to covariances whatever the units). Real arithmetic. With any eps and the gate off the covariances agree up to a factor close to one (c120_regularised_partial)."
 },
 "C121": {
  "note": "c121_standalone: simulation of the instance by the standalone filter; c121_textbook, c121_bounded: C100 and C118 for the instance; c121_in_order: the calls of an in-order user meet the hypotheses"
 },
 "C122": {
  "note": "Proved for one thread and any program of calls (c122_sequential, c122_level, c122_disabled), and for any number of threads and schedules once the logger exists and nobody replaces its sinks (c122_threads_partial, c122_prepared_partial, c122_lines_partial). False otherwise: two threads whose first use of the log coincides (for instance each constructing a handler) both create a logger, and the second register_logger throws (c122_first_use_fails); setup_logger with sinks while another thread writes lets either call throw (c122_setup_fails)."
 },
 "C123": {
  "note": "Doubles in exact real arithmetic: c123_mean, c123_stddev, c123_spread, c123_extremes (any ordered type), c123_between, c123_order, c123_round (up to 19 digits). Refutations: c123_digits_fails, c123_negative_fails, c123_int_mean_fails, c123_empty_fails, c123_few_fails."
 },
 "C124": {
  "note": "c124_split, c124_names and c124_unreadable hold of every directory. Exact contents (c124_files_partial, c124_dirs_partial) need a directory without sockets and block devices: the code tests the bit S_IFDIR, which these modes have too, and lists them as directories (c124_special_fails). If the directory goes away between dirExist and opendir, readdir gets a null pointer (c124_race_fails)."
 },
 "C125": {
  "note": "Lines and words are characterised exactly (c125_lines, c125_words, both equivalences). Peeking is right on a good stream within the first 2 GiB with a word left (c125_peek_partial). What fails: carriage returns stay in the lines and paths (c125_crlf_fails); a list file without a directory in its name gives paths below the root (c125_bare_fails); the delimiter of getFirstTokenAndReset is ignored (c125_delim_fails), at the end of the text it leaves the stream failed (c125_end_fails), and positions beyond 2^31 are truncated to int (c125_far_fails). c125_ended_fails: a stream at its end is broken by a look."
 },
 "C126": {
  "note": "Proved for names the shell takes as they are (no blanks, special characters or leading dash; c126_removed_partial, c126_missing_partial). The name is pasted unquoted into a shell command, so of a name with a space the parts are removed and the directory stays (c126_space_fails). Names with characters special to the shell can run any command; the model gives no answer for them. c126_refused, c126_blank: the root, names ending in . or .. and blank names are refused."
 },
 "C127": {
  "note": "c127_covariance compares the filter with the one that gets eps = 0, for any sequence of accepted calls; with the gate off the latter accepts whatever the filter accepts (c127_accepted); c127_nearly_optimal combines it with C115 (honesty with any eps, optimality with eps = 0). The condition on the reported covariances is needed only with stabilisation, which adds eps to them after every observation."
 },
 "C128": {
  "note": "c128_accepted: passing implies acceptance, for every eps >= 0. c128_agree: exact agreement if eps = 0. c128_margin: with eps, refusals agree except within a factor sqrt(1+delta) of the threshold. Missing because false: with any eps > 0 some observation fails the test and is accepted (c128_borderline_fails); a confidence of 0 switches the filter's gate off and makes the test dereference the end of the table (c128_no_gate_fails); a residual of the wrong size passes the test and is refused by the filter (c128_size_fails)."
 },
 "C129": {
  "note": "c129_mean, c129_geometric and c129_limit hold with every configuration (Joseph form, stabilisation, eps), gate off; c129_covariance with delta = eps relative to the noise (delta = 0 without Joseph form or with eps = 0); c129_belief for delta = 0. c129_geometric and c129_limit use the bound of C118. The fraction alpha > 0 excludes states without process noise: such a filter forgets like 1/k, not geometrically."
 },
 "C130": {
  "note": "c130_names for all in-order calls with fitting matrices, started from freshly initialised instances (the user's predict_to is not consulted by in-order calls and may differ). The condition on nearest_covariance (AnyOrder) is discharged by c130_near for every exact eigenvalue solver; that on its result (NearOk) by c24_near."
 },
 "C131": {
  "note": "c131_linear for any three in-order runs with the same answers, from freshly initialised instances; c131_accepted: with the outlier test off, every call is accepted, and the third run exists."
 },
 "C132": {
  "note": "c132_groups for any two in-order runs from freshly initialised instances and any interleaving, accepted or rejected."
 },
 "C133": {
  "note": "c133_times for every strictly increasing change of times, any two horizons, any in-order run from freshly initialised instances."
 },
 "C65": {
  "note": "pairs of stamps; c65_accumulated: any sequence of steps; c65_stalls: the bound is real (a clock that never moves under truncating doubles)."
 },
 "C134": {
  "note": "c134_sound, c134_symmetric, c134_complete, c134_stabilised for all matrices; c134_posterior, c134_propagated: what the updates produce passes; c134_repair: where the code and the exact test of the other models agree; c134_singular_fails: some singular positive semidefinite matrices are refused (a zero pivot before a non-zero one is reported as a numerical issue). The factorisation is Eigen's, written down from Eigen 3.3/3.4, which is not part of /repo."
 },
 "C135": {
  "note": "c135_any_order: for every history and every reordering that no single instance notices (the calls that concern it come in the same order)."
 },
 "C136": {
  "note": "c136_at_once: for every number of steps and every history before and after."
 },
 "C137": {
  "note": "c137_restored: for every history before and every sequence of calls after."
 },
 "C138": {
  "note": "c138_answers states what add and remove answer and change. c138_members: the centralised reading of every history with joins and leaves. c138_leave, c138_join: the others do not notice. c138_reused_fails: the last sentence is false; remove (IDICOHandler.cpp:44-56) erases only the instance, the others keep their factors toward its ID, so an instance added under it later is listed as correlated by instances it does not list. c138_joining: a joining instance keeps its beliefs and factors and takes over the horizon of the handler."
 },
 "C139": {
  "note": "c139_standalone, c139_isolated, c139_average. That the regularisation of the default configuration breaks such identities is c119_order_fails (two orders of the same observations have the same sums)."
 },
 "C140": {
  "note": "c140_surprise, c140_gate (the threshold in use is that of m+1 degrees of freedom, see C20), c140_news, c140_white, c140_gaussian for a standalone filter; c140_isolated and c140_isolated_joint for the isolated filters of C116. The examples are the systems of C115 and C116: with the default configuration and any distributions at most 9 percent refused, with Gaussian noises at most 0.3 percent."
 },
 "C141": {
  "note": "c141_accepts, c141_convex, c141_monotone, c141_fifty (the threshold in use is that of m+1 degrees of freedom, zero from 50 components on, see C20). c141_isolated and c141_isolated_joint say the same of a measurement of one instance of a team of isolated filters and of a joint one, for which the covariance read and stacked is used plus 1e-12 I. The examples are a one-state filter: a value of 11 passes, 12 does not; and the team of C106, alone (4 passes, 5 does not) and jointly (5 passes, 6 does not)."
 },
 "C142": {
  "note": "c142_least, c142_order, c142_gate (threshold in use as in C141). The example is an estimate 0 with variance 1 and two readings 5 and 9 with variance 2. c142_isolated and c142_isolated_joint are the same for a measurement of one instance and a joint measurement of isolated instances; the stacked covariance of the latter counts increased by 1e-12 I. c142_isolated_spread and c142_isolated_joint_spread are what the covariance then says, with no regularisation but that of the measurement noise (and the 1e-12 I of the joint correction)."
 }
}