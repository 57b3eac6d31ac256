{
 "claims": [
  {
   "property": "C01",
   "status": "proved",
   "theorems": [
    "Ikf.c01_key_roundtrip",
    "Ikf.c01_key_order",
    "Ikf.c01_key_outcome",
    "Ikf.c01_out_of_range_collides",
    "Ikf.c01_negative_no_roundtrip"
   ],
   "note": ""
  },
  {
   "property": "C02",
   "status": "proved",
   "theorems": [
    "Ikf.c02_trichotomy",
    "Ikf.c02_order_laws"
   ],
   "note": ""
  },
  {
   "property": "C03",
   "status": "proved",
   "theorems": [
    "Ikf.c03_fromSec_normal",
    "Ikf.c03_fromSec_mono",
    "Ikf.c03_fromSec_invalid_zero",
    "Ikf.c03_fromSec_int",
    "Ikf.c03_toSec_mono",
    "Ikf.c03_sub_antitone"
   ],
   "note": ""
  },
  {
   "property": "C04",
   "status": "proved",
   "theorems": [
    "Ikf.c04_ms_roundtrip",
    "Ikf.c04_us_roundtrip",
    "Ikf.c04_ms_us_truncate"
   ],
   "note": ""
  },
  {
   "property": "C05",
   "status": "proved",
   "theorems": [
    "Ikf.c05_refines_finite_map",
    "Ikf.c05_last_insert_wins"
   ],
   "note": ""
  },
  {
   "property": "C06",
   "status": "proved",
   "theorems": [
    "Ikf.c06_get_before",
    "Ikf.c06_get_after",
    "Ikf.c06_exists",
    "Ikf.c06_extremes",
    "Ikf.c06_index_at",
    "Ikf.c06_at",
    "Ikf.c06_multi_neighbours"
   ],
   "note": ""
  },
  {
   "property": "C07",
   "status": "proved",
   "theorems": [
    "Ikf.c07_closest",
    "Ikf.c07_closest_near_optimal",
    "Ikf.c07_closest_exact"
   ],
   "note": ""
  },
  {
   "property": "C08",
   "status": "partial",
   "theorems": [
    "Ikf.c08_visit_map",
    "Ikf.c08_between_map_partial",
    "Ikf.c08_between_map_equal_bounds_fails",
    "Ikf.c08_multi",
    "Ikf.c08_multi_stamps"
   ],
   "note": "Exact for all queries except get_between_t1_t2 with equal bounds, where the claim is false of the code (c08_between_map_equal_bounds_fails)."
  },
  {
   "property": "C09",
   "status": "partial",
   "theorems": [
    "Ikf.c09_remove_before_partial",
    "Ikf.c09_remove_before_fails",
    "Ikf.c09_witness"
   ],
   "note": "True whenever some element is at or after t; false of the code exactly when the non-empty buffer is entirely older than t (c09_remove_before_fails), so the full claim cannot be proved."
  },
  {
   "property": "C10",
   "status": "proved",
   "theorems": [
    "Ikf.c10_remove_exact"
   ],
   "note": ""
  },
  {
   "property": "C11",
   "status": "proved",
   "theorems": [
    "Ikf.c11_subsample",
    "Ikf.c11_zero_ub"
   ],
   "note": ""
  },
  {
   "property": "C12",
   "status": "proved",
   "theorems": [
    "Ikf.c12_refines_bag",
    "Ikf.c12_size"
   ],
   "note": ""
  },
  {
   "property": "C13",
   "status": "partial",
   "theorems": [
    "Ikf.c13_exist_before_exact",
    "Ikf.c13_exist_before_partial",
    "Ikf.c13_exist_before_fails"
   ],
   "note": "True if the queried stamp is stored; false of the code otherwise, both ways (c13_exist_before_fails)."
  },
  {
   "property": "C14",
   "status": "partial",
   "theorems": [
    "Ikf.c14_index_at_fails",
    "Ikf.c14_index_at_partial"
   ],
   "note": "The written index is right; the returned flag is false of the code (c14_index_at_fails: always false)."
  },
  {
   "property": "C15",
   "status": "proved",
   "theorems": [
    "Ikf.c15_newest_kept",
    "Ikf.c15_span",
    "Ikf.c15_stream",
    "Ikf.c15_restricted"
   ],
   "note": ""
  },
  {
   "property": "C16",
   "status": "partial",
   "theorems": [
    "Ikf.c16_drop_stale_partial",
    "Ikf.c16_drop_stale_fails"
   ],
   "note": "True whenever some entry is not stale; false of the code exactly when all entries are stale (c16_drop_stale_fails)."
  },
  {
   "property": "C17",
   "status": "proved",
   "theorems": [
    "Ikf.c17_propagation",
    "Ikf.c17_propagation_stabilised",
    "Ikf.c17_mismatch",
    "Ikf.c17_nonsquare_undefined"
   ],
   "note": ""
  },
  {
   "property": "C18",
   "status": "proved",
   "theorems": [
    "Ikf.c18_kalman_update",
    "Ikf.c18_forms_coincide",
    "Ikf.c18_information",
    "Ikf.c18_dimensions"
   ],
   "note": ""
  },
  {
   "property": "C19",
   "status": "proved",
   "theorems": [
    "Ikf.Hdl.c19_private_residual",
    "Ikf.Hdl.c19_private_meas",
    "Ikf.Hdl.c19_belief_set",
    "Ikf.Hdl.c19_private_dim",
    "Ikf.Hdl.c19_joint_residual",
    "Ikf.Hdl.c19_joint_meas",
    "Ikf.Hdl.c19_joint_rejected"
   ],
   "note": ""
  },
  {
   "property": "C20",
   "status": "partial",
   "theorems": [
    "Ikf.c20_gate_partial",
    "Ikf.c20_off_by_one_fails",
    "Ikf.c20_high_dimension_fails",
    "Ikf.c20_unlisted_fails",
    "Ikf.c20_two_dof_fails",
    "Ikf.c20_table",
    "Ikf.c20_acceptance",
    "Ikf.c20_at_least_nominal",
    "Ikf.c20_one_dimension_fails",
    "Ikf.c20_high_dimension_probability_fails"
   ],
   "note": "What the gate does is characterised completely. All 250 table entries are proved to be the chi-square quantiles (to 4 decimals), against the chi-square law of Mathlib's Gamma distribution, and the law of the normalised innovation of a consistent Gaussian residual is proved to be chi-square. The claim is false of the code: quantile of dim+1 (over-acceptance), zero threshold from dimension 50 (acceptance probability 0), undefined behaviour for unlisted confidences (c20_*_fails)."
  },
  {
   "property": "C21",
   "status": "proved",
   "theorems": [
    "Ikf.Hdl.c21_roundtrip",
    "Ikf.Hdl.c21_unregistered",
    "Ikf.Hdl.c21_history",
    "Ikf.Hdl.c21_empty"
   ],
   "note": ""
  },
  {
   "property": "C22",
   "status": "proved",
   "theorems": [
    "Ikf.Hdl.c22_propagation",
    "Ikf.Hdl.Example.c22_example"
   ],
   "note": ""
  },
  {
   "property": "C23",
   "status": "proved",
   "theorems": [
    "Ikf.Hdl.c23_private",
    "Ikf.Hdl.c23_private_residual",
    "Ikf.Hdl.c23_other_stamp",
    "Ikf.Hdl.c23_zero_gain"
   ],
   "note": ""
  },
  {
   "property": "C24",
   "status": "proved",
   "theorems": [
    "Ikf.Hdl.c24_near",
    "Ikf.Hdl.c24_centralised",
    "Ikf.Hdl.c24_joint",
    "Ikf.Hdl.c24_joint_meas"
   ],
   "note": ""
  },
  {
   "property": "C25",
   "status": "proved",
   "theorems": [
    "Ikf.Hdl.c25_stack_symm",
    "Ikf.Hdl.c25_split",
    "Ikf.Hdl.c25_split_stack",
    "Ikf.Hdl.c25_stack_split"
   ],
   "note": ""
  },
  {
   "property": "C26",
   "status": "proved",
   "theorems": [
    "Ikf.Hdl.c26_fixed_residual",
    "Ikf.Hdl.c26_fixed_meas",
    "Ikf.Hdl.c26_fixed_never_accepted"
   ],
   "note": ""
  },
  {
   "property": "C27",
   "status": "proved",
   "theorems": [
    "Ikf.CInst.c27_corrections",
    "Ikf.Inst.c27_removeAfter",
    "Ikf.Inst.c27_removeFrom",
    "Ikf.Inst.c27_reset",
    "Ikf.Hdl.c27_handler_after",
    "Ikf.Hdl.c27_handler_from"
   ],
   "note": ""
  },
  {
   "property": "C28",
   "status": "partial",
   "theorems": [
    "Ikf.CInst.c28_lazy_eager_partial",
    "Ikf.CInst.c28_correction_horizon",
    "Ikf.CInst.c28_factor_without_correction_fails",
    "Ikf.CInst.c28_prior_correlation_fails",
    "Ikf.CInst.c28_reading_fails",
    "Ikf.CInst.c28_jump_fails"
   ],
   "note": "Proved for all histories of accepted calls with steps up to half the horizon; false of the code outside (c28_*_fails)."
  },
  {
   "property": "C29",
   "status": "partial",
   "theorems": [
    "Ikf.CInst.c29_eager",
    "Ikf.CInst.c29_corr_partial",
    "Ikf.CInst.c29_corr_kf_fails",
    "Ikf.CInst.c29_corr_recorded_fails",
    "Ikf.CInst.c29_private_fails"
   ],
   "note": "Proved for the eager flavour and, for the correction-buffer flavour, where it holds; false of the code in the remaining cases (c29_*_fails), each proved for all inputs."
  },
  {
   "property": "C30",
   "status": "proved",
   "theorems": [
    "Ikf.c30_predict",
    "Ikf.c30_exact",
    "Ikf.c30_closest",
    "Ikf.c30_no_change"
   ],
   "note": ""
  },
  {
   "property": "C31",
   "status": "proved",
   "theorems": [
    "Ikf.Inst.c31_isolated",
    "Ikf.c31_initialize",
    "Ikf.c31_no_belief",
    "Ikf.c31_current_is_newest"
   ],
   "note": ""
  },
  {
   "property": "C32",
   "status": "proved",
   "theorems": [
    "Ikf.c32_routing",
    "Ikf.c32_stored",
    "Ikf.c32_off"
   ],
   "note": ""
  },
  {
   "property": "C33",
   "status": "partial",
   "theorems": [
    "Ikf.c33_redo_after_partial",
    "Ikf.c33_redo_after_fails"
   ],
   "note": "True unless two or more measurements share one stamp after t, where it is false of the code (c33_redo_after_fails)."
  },
  {
   "property": "C34",
   "status": "proved",
   "theorems": [
    "Ikf.c34_unknown_id",
    "Ikf.c34_too_old",
    "Ikf.c34_same_stamp",
    "Ikf.c34_accepted",
    "Ikf.c34_disabled_untouched",
    "Ikf.c34_disabled",
    "Ikf.c34_lock_timeout"
   ],
   "note": ""
  },
  {
   "property": "C35",
   "status": "proved",
   "theorems": [
    "Ikf.c35_history_ordered",
    "Ikf.c35_sorted"
   ],
   "note": ""
  },
  {
   "property": "C36",
   "status": "proved",
   "theorems": [
    "Ikf.c36_converges",
    "Ikf.c36_order_independent",
    "Ikf.c36_histories_converge",
    "Ikf.c36_all_accepted"
   ],
   "note": ""
  },
  {
   "property": "C37",
   "status": "proved",
   "theorems": [
    "Ikf.c37_order_violated_iff",
    "Ikf.c37_no_violation_iff_append"
   ],
   "note": ""
  },
  {
   "property": "C38",
   "status": "proved",
   "theorems": [
    "Ikf.c38_redo_from",
    "Ikf.c38_redo_after",
    "Ikf.c38_flag_redone"
   ],
   "note": ""
  },
  {
   "property": "C39",
   "status": "proved",
   "theorems": [
    "Ikf.c39_request_served",
    "Ikf.c39_requests_gone",
    "Ikf.c39_schedule"
   ],
   "note": ""
  },
  {
   "property": "C40",
   "status": "partial",
   "theorems": [
    "Ikf.c40_sort_permutes",
    "Ikf.c40_sort_fails"
   ],
   "note": "True for all known observation types; false of the code for UNKNOWN ones (c40_sort_fails)."
  },
  {
   "property": "C41",
   "status": "partial",
   "theorems": [
    "Ikf.Lock.c41_no_timeout_partial",
    "Ikf.Lock.c41_timeout_fails",
    "Ikf.Lock.c41_safe_iff_no_timeout",
    "Ikf.Lock.c41_single_thread"
   ],
   "note": "True of every schedule in which no try_lock times out; false of every schedule with a timeout (c41_timeout_fails)."
  },
  {
   "property": "C42",
   "status": "proved",
   "theorems": [
    "Ikf.Registry.c42_finite_map",
    "Ikf.Registry.c42_frame",
    "Ikf.Registry.c42_added",
    "Ikf.Registry.c42_registered_configured",
    "Ikf.Registry.c42_types",
    "Ikf.Registry.c42_std"
   ],
   "note": ""
  },
  {
   "property": "C43",
   "status": "partial",
   "theorems": [
    "Ikf.Names.c43_get_belief",
    "Ikf.Names.c43_distinct",
    "Ikf.Names.c43_fusion_partial",
    "Ikf.Names.c43_fusion_parse",
    "Ikf.Names.c43_fusion_fails",
    "Ikf.Names.c43_order_fails"
   ],
   "note": "True except for SKF and the order strategies, where it is false of the code (c43_fusion_fails, c43_order_fails)."
  },
  {
   "property": "C44",
   "status": "proved",
   "theorems": [
    "Ikf.Hdl.c44_nuisance_residual",
    "Ikf.Hdl.c44_nuisance_meas",
    "Ikf.Hdl.c44_nuisance_fun",
    "Ikf.Hdl.c44_progress",
    "Ikf.Hdl.Example.c44_example",
    "Ikf.Hdl.Example.c44_fun_example",
    "Ikf.Hdl.c44_joint",
    "Ikf.Hdl.c44_joint_meas",
    "Ikf.Hdl.c44_fun",
    "Ikf.Hdl.c44_fun_missing",
    "Ikf.Hdl.c44_posterior",
    "Ikf.Hdl.c44_nuisance_cross",
    "Ikf.Hdl.c44_nuisance_covariances",
    "Ikf.Hdl.c44_all_essential"
   ],
   "note": ""
  },
  {
   "property": "C45",
   "status": "partial",
   "theorems": [
    "Ikf.c45_bound_partial",
    "Ikf.c45_psd_partial",
    "Ikf.c45_consistent_fails"
   ],
   "note": "Symmetry, the exact defect of the bound and a sufficient condition for positive semidefiniteness; the full claim is false of the code (c45_consistent_fails: for every weight)."
  },
  {
   "property": "C46",
   "status": "partial",
   "theorems": [
    "Ikf.Agents.c46_dispatch",
    "Ikf.Agents.c46_unknown",
    "Ikf.Agents.c46_jacobians_fails"
   ],
   "note": "True of the overloads given a measurement or a function; false of the one given the Jacobians (c46_jacobians_fails)."
  },
  {
   "property": "C47",
   "status": "proved",
   "theorems": [
    "Ikf.Agents.c47_strict",
    "Ikf.Agents.c47_relaxed_iff",
    "Ikf.Agents.c47_relaxed_strict"
   ],
   "note": ""
  },
  {
   "property": "C48",
   "status": "partial",
   "theorems": [
    "Ikf.Agents.c48_ids",
    "Ikf.Agents.c48_types",
    "Ikf.Agents.c48_lookup_partial",
    "Ikf.Agents.c48_lookup_fails"
   ],
   "note": "True under the assumption that the derived class keeps the tables inverse; false without it (c48_lookup_fails); the library neither establishes nor checks it."
  },
  {
   "property": "C49",
   "status": "partial",
   "theorems": [
    "Ikf.MathU.c49_wrap",
    "Ikf.MathU.c49_wrap_id",
    "Ikf.MathU.c49_wrap_degenerate",
    "Ikf.MathU.c49_wrap_float",
    "Ikf.MathU.c49_named",
    "Ikf.MathU.c49_wrapTo2Pi_fails",
    "Ikf.MathU.c49_deg_rad"
   ],
   "note": "True of wrapToPi and friends; false of wrapTo2Pi (c49_wrapTo2Pi_fails)."
  },
  {
   "property": "C50",
   "status": "partial",
   "theorems": [
    "Ikf.MatU.c50_horcat",
    "Ikf.MatU.c50_vertcat",
    "Ikf.MatU.c50_vertcat3",
    "Ikf.MatU.c50_horcat3",
    "Ikf.MatU.c50_horcat4",
    "Ikf.MatU.c50_horcat3_empty_fails",
    "Ikf.MatU.c50_horcat_vec_fails",
    "Ikf.MatU.c50_blkdiag_partial",
    "Ikf.MatU.c50_blkdiag_fails",
    "Ikf.MatU.c50_stack_sigma",
    "Ikf.MatU.c50_split_stack",
    "Ikf.MatU.c50_split",
    "Ikf.MatU.c50_split3",
    "Ikf.MatU.c50_split4",
    "Ikf.MatU.c50_split4_fails",
    "Ikf.MatU.c50_vertcat4",
    "Ikf.MatU.c50_vertcat_vec3",
    "Ikf.MatU.c50_horcat_vec3_fails"
   ],
   "note": "True of the helpers in the cases stated; false of the code in the others (c50_*_fails); also the four-block vertcat and the three-vector vertcat_vec; the three-vector horcat_vec never yields a value (c50_horcat_vec3_fails)."
  },
  {
   "property": "C51",
   "status": "proved",
   "theorems": [
    "Ikf.c51_symmetrize",
    "Ikf.c51_stabilize",
    "Ikf.c51_nonsquare"
   ],
   "note": ""
  },
  {
   "property": "C52",
   "status": "partial",
   "theorems": [
    "Ikf.Csv.c52_read",
    "Ikf.Csv.c52_clean_partial",
    "Ikf.Csv.c52_leak_fails",
    "Ikf.Csv.c52_blank_fails",
    "Ikf.Csv.c52_no_header"
   ],
   "note": "True for files whose accepted rows contain only numbers; false of the code otherwise (c52_leak_fails, c52_blank_fails)."
  },
  {
   "property": "C53",
   "status": "proved",
   "theorems": [
    "Ikf.MeasD.c53_interpolate",
    "Ikf.MeasD.c53_ratio_exact",
    "Ikf.MeasD.c53_psd",
    "Ikf.MeasD.c53_degenerate",
    "Ikf.MeasD.c53_extrapolates",
    "Ikf.MeasD.c53_getR",
    "Ikf.MeasD.c53_noise"
   ],
   "note": ""
  },
  {
   "property": "C54",
   "status": "proved",
   "theorems": [
    "Ikf.StdInst.c54_propagate",
    "Ikf.StdInst.c54_propagate_input",
    "Ikf.StdHdl.c54_unchanged",
    "Ikf.StdHdl.c54_increasing"
   ],
   "note": ""
  },
  {
   "property": "C55",
   "status": "proved",
   "theorems": [
    "Ikf.StdHdl.c55_progress",
    "Ikf.StdHdl.c55_throws",
    "Ikf.StdHdl.c55_simulation",
    "Ikf.StdHdl.c55_joint",
    "Ikf.StdHdl.c55_no_ub"
   ],
   "note": ""
  },
  {
   "property": "C56",
   "status": "proved",
   "theorems": [
    "Ikf.Hdl.c56_one_iteration",
    "Ikf.Hdl.c56_equals_one_shot",
    "Ikf.Hdl.c56_linear_belief_ub",
    "Ikf.Hdl.c56_zero_iterations_ub",
    "Ikf.Hdl.c56_premises_reachable",
    "Ikf.Hdl.Example.c56_example_ub",
    "Ikf.Hdl.Example.c56_example_one"
   ],
   "note": ""
  },
  {
   "property": "C57",
   "status": "proved",
   "theorems": [
    "Ikf.Hdl.c57_progress"
   ],
   "note": ""
  },
  {
   "property": "C58",
   "status": "partial",
   "theorems": [
    "Ikf.MathU.c58_rpy_partial",
    "Ikf.MathU.c58_pitch_fails"
   ],
   "note": "Roll and yaw are right for all angles away from gimbal lock; the pitch is wrong for every non-zero pitch (c58_pitch_fails)."
  },
  {
   "property": "C59",
   "status": "proved",
   "theorems": [
    "Ikf.MathU.c59_skew",
    "Ikf.MathU.c59_omega",
    "Ikf.MathU.c59_matExp"
   ],
   "note": ""
  },
  {
   "property": "C60",
   "status": "partial",
   "theorems": [
    "Ikf.MatU.c60_nearest",
    "Ikf.MatU.c60_unchanged",
    "Ikf.MatU.c60_covariance",
    "Ikf.MatU.c60_asymmetric_fails",
    "Ikf.MatU.c60_negative_diag"
   ],
   "note": "True for symmetric arguments; false for asymmetric ones with positive semidefinite symmetric part (c60_asymmetric_fails)."
  },
  {
   "property": "C61",
   "status": "partial",
   "theorems": [
    "Ikf.Csv.c61_roundtrip",
    "Ikf.Csv.c61_row",
    "Ikf.Csv.c61_delim_fails",
    "Ikf.Csv.c61_nan_fails",
    "Ikf.Csv.c61_ragged_fails"
   ],
   "note": "True for the comma, numeric texts and equally long columns; false of the code otherwise (c61_*_fails)."
  },
  {
   "property": "C62",
   "status": "partial",
   "theorems": [
    "Ikf.Hdl.c62_fixed_never_accepted",
    "Ikf.Hdl.Example.c62_fixed_fails",
    "Ikf.Hdl.c62_fixed_nuisance_partial"
   ],
   "note": "True of fixed nuisance beliefs; false of the code in general (c62_fixed_fails)."
  },
  {
   "property": "C63",
   "status": "partial",
   "theorems": [
    "Ikf.StdInst.c63_one_input_partial",
    "Ikf.StdInst.c63_inputs_fails"
   ],
   "note": "True for one input; false of the code for every other number of inputs (c63_inputs_fails)."
  },
  {
   "property": "C64",
   "status": "proved",
   "theorems": [
    "Ikf.Hdl.c64_iterations_affine",
    "Ikf.Hdl.Example.c64_example_affine",
    "Ikf.Hdl.Example.c64_example"
   ],
   "note": ""
  },
  {
   "property": "C65",
   "status": "proved",
   "theorems": [
    "Ikf.c65_assign",
    "Ikf.c65_accumulated",
    "Ikf.c65_stalls",
    "Ikf.c65_timestamped",
    "Ikf.c65_is_zero",
    "Ikf.c65_add_error",
    "Ikf.c65_sub_error",
    "Ikf.c65_sub_self",
    "Ikf.c65_add_comm",
    "Ikf.c65_exact"
   ],
   "note": "pairs of stamps; c65_accumulated: any sequence of steps; c65_stalls: the bound is real (a clock that never moves under truncating doubles)."
  },
  {
   "property": "C66",
   "status": "proved",
   "theorems": [
    "Ikf.Hdl.c66_centralised",
    "Ikf.Hdl.c66_full_update",
    "Ikf.Hdl.c66_full_update_meas",
    "Ikf.Hdl.c66_rejected",
    "Ikf.Hdl.c66_fixed_blocks_all",
    "Ikf.Hdl.c66_uninitialised_ub",
    "Ikf.Hdl.c66_unknown_ignored",
    "Ikf.Hdl.c66_progress",
    "Ikf.Hdl.Example.c66_example"
   ],
   "note": ""
  },
  {
   "property": "C67",
   "status": "proved",
   "theorems": [
    "Ikf.Hdl.c67_one_iteration",
    "Ikf.Hdl.c67_subset_never_processed",
    "Ikf.Hdl.c67_equals_one_shot",
    "Ikf.Hdl.Example.c67_example"
   ],
   "note": ""
  },
  {
   "property": "C68",
   "status": "partial",
   "theorems": [
    "Ikf.c68_reset",
    "Ikf.c68_set_horizon_partial",
    "Ikf.c68_set_horizon_fails"
   ],
   "note": "reset_buffer holds (c68_reset). set_horizon is false for the out-of-order flags (c68_set_horizon_fails: kept h/2 instead of h/4); c68_set_horizon_partial covers measurements and redo requests."
  },
  {
   "property": "C69",
   "status": "proved",
   "theorems": [
    "Ikf.Collab.c69_agents_centralised"
   ],
   "note": ""
  },
  {
   "property": "C70",
   "status": "proved",
   "theorems": [
    "Ikf.Collab.c70_agents_progress"
   ],
   "note": ""
  },
  {
   "property": "C71",
   "status": "partial",
   "theorems": [
    "Ikf.Collab.Example.c71_lost_posterior_fails",
    "Ikf.Collab.c71_lost_request_partial",
    "Ikf.Collab.c71_lost_posterior"
   ],
   "note": "False when the posterior is not delivered (c71_lost_posterior_fails, characterised by c71_lost_posterior); a lost request changes nothing (c71_lost_request_partial)."
  },
  {
   "property": "C72",
   "status": "partial",
   "theorems": [
    "Ikf.Collab.Example.c72_outlier_fails",
    "Ikf.Collab.c72_false_unchanged",
    "Ikf.Collab.c72_true_applied_partial",
    "Ikf.Collab.c72_one_other_always_true"
   ],
   "note": "False with exactly one other agent: an outlier is answered true (c72_outlier_fails, c72_one_other_always_true); c72_true_applied_partial proves it otherwise; an answer false means nothing changed (c72_false_unchanged)."
  },
  {
   "property": "C73",
   "status": "partial",
   "theorems": [
    "Ikf.Collab.c73_agents_nonlinear",
    "Ikf.Collab.c73_answer_partial",
    "Ikf.Collab.c73_lost_request",
    "Ikf.Collab.c73_lost_posterior",
    "Ikf.Collab.Example.c73_single_free_fails"
   ],
   "note": "Holds whenever a participant of the other agent is free or two participants are free; if the only free participant is the caller's, an accepted observation throws (c73_single_free_fails)."
  },
  {
   "property": "C74",
   "status": "proved",
   "theorems": [
    "Ikf.Collab.c74_agents",
    "Ikf.Collab.c74_others_untouched",
    "Ikf.Collab.c74_lost_request"
   ],
   "note": "Assumes in-order calls and, for the main theorem, delivered requests; the lost request is c74_lost_request."
  },
  {
   "property": "C75",
   "status": "partial",
   "theorems": [
    "Ikf.Collab.Example.c75_one_each_fails",
    "Ikf.Collab.c75_answer_partial"
   ],
   "note": "The unconditional claim is false of the code (c75_one_each_fails: two agents, one free instance each, the call throws). c75_answer_partial says for every reachable state exactly when the call throws and what it answers otherwise (measurements of at least one row)."
  },
  {
   "property": "C76",
   "status": "proved",
   "theorems": [
    "Ikf.Agents.c76_asked",
    "Ikf.Agents.c76_measurement",
    "Ikf.Agents.c76_quiesces",
    "Ikf.Agents.c76_delivered"
   ],
   "note": ""
  },
  {
   "property": "C77",
   "status": "proved",
   "theorems": [
    "Ikf.Agents.c77_discard"
   ],
   "note": ""
  },
  {
   "property": "C78",
   "status": "proved",
   "theorems": [
    "Ikf.Agents.c78_strict",
    "Ikf.Agents.c78_relaxed",
    "Ikf.Agents.c78_converges",
    "Ikf.Agents.c78_time_ordered",
    "Ikf.Agents.c78_arrival_order"
   ],
   "note": ""
  },
  {
   "property": "C79",
   "status": "proved",
   "theorems": [
    "Ikf.Access.c79_set_belief",
    "Ikf.Access.c79_get_no_change",
    "Ikf.Access.c79_get_exact",
    "Ikf.Access.c79_get_closest",
    "Ikf.Access.c79_get_predict",
    "Ikf.Access.c79_get_unknown",
    "Ikf.Access.c79_latest",
    "Ikf.Access.c79_factor",
    "Ikf.Access.c79_correction",
    "Ikf.Access.c79_beliefs",
    "Ikf.Access.c79_beliefs_exact",
    "Ikf.Access.c79_beliefs_too_few"
   ],
   "note": ""
  },
  {
   "property": "C80",
   "status": "proved",
   "theorems": [
    "Ikf.Access.c80_belief",
    "Ikf.Access.c80_beliefs",
    "Ikf.Access.c80_location_transparent",
    "Ikf.Access.c80_local_wins",
    "Ikf.Access.c80_type",
    "Ikf.Access.c80_prop_sensor"
   ],
   "note": ""
  },
  {
   "property": "C81",
   "status": "proved",
   "theorems": [
    "Ikf.PSt.c81_store",
    "Ikf.PSt.c81_write",
    "Ikf.PSt.c81_own_copies",
    "Ikf.PSt.c81_isolation",
    "Ikf.PSt.c81_shared_object"
   ],
   "note": ""
  },
  {
   "property": "C82",
   "status": "proved",
   "theorems": [
    "Ikf.Hdl.c82_iterated_step",
    "Ikf.Hdl.c82_progress",
    "Ikf.Hdl.c82_iterated_filter",
    "Ikf.Hdl.Example.c82_example"
   ],
   "note": ""
  },
  {
   "property": "C83",
   "status": "proved",
   "theorems": [
    "Ikf.Hdl.c83_predicted",
    "Ikf.Hdl.c83_predict_first",
    "Ikf.Hdl.c83_predict_first_schmidt",
    "Ikf.Hdl.c83_missing",
    "Ikf.Hdl.c83_unknown",
    "Ikf.Hdl.c83_decoupled",
    "Ikf.Hdl.c83_answer_to_agents",
    "Ikf.Hdl.c83_answer_beliefs",
    "Ikf.Hdl.Example.c83_example"
   ],
   "note": ""
  },
  {
   "property": "C84",
   "status": "proved",
   "theorems": [
    "Ikf.Hdl.c84_centralised",
    "Ikf.Hdl.c84_accepted",
    "Ikf.Hdl.c84_prompt",
    "Ikf.Hdl.c84_order_irrelevant",
    "Ikf.Hdl.c84_unknown",
    "Ikf.Hdl.c84_added"
   ],
   "note": "EkfUser keeps the calls a filter class makes and leaves the numbers open; Linear1D is the class of the repository's example (theorem Linear1D.proper). Served is the condition on the measurements; it includes histories that reach further back than the handler's horizon, see C85."
  },
  {
   "property": "C85",
   "status": "partial",
   "theorems": [
    "Ikf.Hdl.c85_within_horizon_partial",
    "Ikf.Hdl.c85_horizon_fails"
   ],
   "note": "Fails: the instance trims its own history at its own newest estimate, the handler at the oldest measurement of any instance; after a gap in the data of one instance an accepted, delayed propagation finds no earlier estimate (null pointer). The partial theorem covers runs within the horizon of the initial estimates."
  },
  {
   "property": "C86",
   "status": "proved",
   "theorems": [
    "Ikf.Hdl.c86_history",
    "Ikf.Hdl.c86_belief_at"
   ],
   "note": ""
  },
  {
   "property": "C87",
   "status": "proved",
   "theorems": [
    "Ikf.Linear1D.c87_motion",
    "Ikf.Linear1D.c87_elapsed",
    "Ikf.Linear1D.c87_jacobian",
    "Ikf.Linear1D.c87_noise",
    "Ikf.Linear1D.c87_noise_positive",
    "Ikf.Linear1D.c87_split",
    "Ikf.Linear1D.c87_private",
    "Ikf.Linear1D.c87_joint"
   ],
   "note": ""
  },
  {
   "property": "C88",
   "status": "partial",
   "theorems": [
    "Ikf.c88_answered",
    "Ikf.c88_in_order_partial",
    "Ikf.c88_first_status_fails"
   ],
   "note": "The first sentence holds (c88_answered). The second fails for delayed measurements (c88_first_status_fails): the vector starts with the statuses of everything redone before it; the example therefore never reports a rejected delayed observation. c88_in_order_partial covers measurements in order."
  },
  {
   "property": "C89",
   "status": "partial",
   "theorems": [
    "Ikf.DelayDemo.c89_times",
    "Ikf.DelayDemo.c89_simulated",
    "Ikf.DelayDemo.c89_history_partial",
    "Ikf.DelayDemo.c89_trajectory_partial",
    "Ikf.DelayDemo.c89_first_sample",
    "Ikf.DelayDemo.c89_first_step_fails"
   ],
   "note": "The claim about all simulated measurements fails (c89_first_step_fails): the handler discards, as too old, everything of the first time step after instance 0's propagation, because its buffer then holds one measurement and its span is 0; the other instances have no estimate at the first sample and the program reports (0,0) there (c89_first_sample). c89_trajectory_partial proves the claim with exactly those measurements left out. Random draws are parameters; statistics and plotting are not modelled."
  },
  {
   "property": "C90",
   "status": "partial",
   "theorems": [
    "Ikf.Cyc.c90_stop_partial",
    "Ikf.Cyc.c90_stop_fails",
    "Ikf.Cyc.c90_paused",
    "Ikf.Cyc.c90_terminate",
    "Ikf.Cyc.c90_progress",
    "Ikf.Cyc.c90_joined",
    "Ikf.Cyc.c90_destroy_partial",
    "Ikf.Cyc.c90_destroy_fails"
   ],
   "note": "Two clauses fail. c90_stop_fails: run_ may begin once more after stop() returned (exactly once at most: c90_stop_partial). c90_destroy_fails: for every sequence of public calls containing a resume() there is a schedule in which the base destructor lets the worker call the pure virtual run_ (abort), because the thread is joined only in the base destructor; c90_destroy_partial gives the condition under which destruction is safe. Atomic steps are those of the worker between two shared accesses; the flags are atomic."
  },
  {
   "property": "C91",
   "status": "partial",
   "theorems": [
    "Ikf.Rate.c91_period",
    "Ikf.Rate.c91_maximum",
    "Ikf.Rate.c91_cycle",
    "Ikf.Rate.c91_rate_partial",
    "Ikf.Rate.c91_whole_ms",
    "Ikf.Rate.c91_rate_fails",
    "Ikf.Rate.c91_range"
   ],
   "note": "Fails for rates that do not divide 1000 Hz (period truncated to ms), at 1001 Hz and above (no sleep at all) and for very small rates (integer wrap). Partial theorem: n cycles last n periods at least; c91_whole_ms gives the full claim for rates 1000/k."
  },
  {
   "property": "C92",
   "status": "partial",
   "theorems": [
    "Ikf.Cyc.c92_lag_partial",
    "Ikf.Cyc.c92_report_fails"
   ],
   "note": "Fails: the value smoothed is the duration of the cycle before, the first one is an uninitialised member. c92_lag_partial says what is reported exactly."
  },
  {
   "property": "C93",
   "status": "partial",
   "theorems": [
    "Ikf.Noise.c93_univariate",
    "Ikf.Normal.c93_law_partial",
    "Ikf.Normal.c93_cholesky",
    "Ikf.Normal.c93_accepted_fails",
    "Ikf.Normal.c93_exception_fails"
   ],
   "note": "Holds for symmetric positive semidefinite matrices (c93_law_partial, c93_univariate). Fails otherwise: a negative variance is accepted and clipped, only the lower triangle is read, and an exception in setCovar leaves the new covariance beside the old transformation. Eigen's decompositions enter through the contract `Solver.Good`, shown satisfiable; the law of std::normal_distribution is assumed."
  },
  {
   "property": "C94",
   "status": "partial",
   "theorems": [
    "Ikf.Noise.c94_seed_partial",
    "Ikf.Noise.c94_seed_fails",
    "Ikf.Noise.c94_reproducible",
    "Ikf.Noise.c94_seed_modulo"
   ],
   "note": "Fails after an odd number of draws: the distribution keeps the second number of a pair over the seed (libstdc++). c94_seed_partial: exact for both parities; c94_reproducible: seeding before any draw is enough."
  },
  {
   "property": "C95",
   "status": "partial",
   "theorems": [
    "Ikf.Quat.c95_unit",
    "Ikf.Quat.c95_inverse",
    "Ikf.Quat.c95_approximation",
    "Ikf.Quat.c95_round_trip_partial",
    "Ikf.Quat.c95_round_trip_fails",
    "Ikf.Quat.c95_monotone_partial",
    "Ikf.Quat.c95_monotone_fails"
   ],
   "note": "Fails: quat2theta inverts theta2quat for the zero vector only, and small_angle_to_quaternion below two radians only; there the angle drops by 90 degrees, so it is not monotone. Unit norm, axis, inverse and the third-order bound hold for all vectors (bound up to two radians)."
  },
  {
   "property": "C96",
   "status": "partial",
   "theorems": [
    "Ikf.PathStr.c96_tokens_partial",
    "Ikf.PathStr.c96_tokens_fails",
    "Ikf.PathStr.c96_tokens_char",
    "Ikf.PathStr.c96_first",
    "Ikf.PathStr.c96_check_path"
   ],
   "note": "Fails: with an empty delimiter getTokens never returns (c96_tokens_fails). Holds for every other delimiter and all strings."
  },
  {
   "property": "C97",
   "status": "partial",
   "theorems": [
    "Ikf.PathStr.c97_parts_partial",
    "Ikf.PathStr.c97_parts_fails",
    "Ikf.PathStr.c97_parent_partial",
    "Ikf.PathStr.c97_parent_fails",
    "Ikf.PathStr.c97_list_partial",
    "Ikf.PathStr.c97_list_fails"
   ],
   "note": "Fails: a name without a dot is lost by getFileName, an extension may contain slashes, a parent that is the first name is not found, and a list in the working directory yields root paths. c97_*_partial: exact on dir/name.ext."
  },
  {
   "property": "C98",
   "status": "partial",
   "theorems": [
    "Ikf.FileSys.c98_created_partial",
    "Ikf.FileSys.c98_frame",
    "Ikf.FileSys.c98_true",
    "Ikf.FileSys.c98_full",
    "Ikf.FileSys.c98_file_fails",
    "Ikf.FileSys.c98_unreadable_fails",
    "Ikf.FileSys.c98_root_fails"
   ],
   "note": "Fails for createDirectoryRecursive: true for an existing regular file, false for an existing directory that cannot be read and for the root. createDirectoryFull has the full property (c98_full). POSIX mkdir/open/opendir are modelled, without links, `..` and concurrent changes."
  },
  {
   "property": "C99",
   "status": "partial",
   "theorems": [
    "Ikf.FileSys.c99_open_partial",
    "Ikf.FileSys.c99_true",
    "Ikf.FileSys.c99_open_fails"
   ],
   "note": "Fails: a new file in the working directory given by its bare name, or directly under the root, is never opened (c99_open_fails). c99_open_partial: every file with a directory part."
  },
  {
   "property": "C100",
   "status": "proved",
   "theorems": [
    "Ikf.SKF.c100_refused",
    "Ikf.SKF.c100_textbook",
    "Ikf.SKF.c100_eps_zero",
    "Ikf.SKF.c100_defined",
    "Ikf.SKF.c100_dimensions",
    "Ikf.SKF.c100_propagated_belief",
    "Ikf.SKF.c100_frame",
    "Ikf.SKF.c100_readers"
   ],
   "note": "c100_textbook: a sequence of accepted calls is a run of the textbook filter (Spec/StandaloneMath, matrices over Fin n); c100_refused, c100_frame, c100_dimensions, c100_defined cover refused calls, other times, misfitting and fitting shapes."
  },
  {
   "property": "C101",
   "status": "partial",
   "theorems": [
    "Ikf.c101_order_exists",
    "Ikf.c101_chronological_partial",
    "Ikf.c101_order_free",
    "Ikf.c101_clash",
    "Ikf.DelayExample.c101_chronological_fails",
    "Ikf.DelayExample.c101_horizon_fails",
    "Ikf.KalmanUser.c101_kalman"
   ],
   "note": "False as stated: redo_updates_after_t looks measurements up in a map keyed by time, so of several later measurements with one stamp only one is redone (c101_chronological_fails), and a measurement older than the stored span is dropped (c101_horizon_fails). c101_chronological_partial proves it for every causal user filter without such clashes and with delays inside the horizon; c101_kalman instantiates it with a filter written with the library's own calls; c101_clash characterises what is left after a clash."
  },
  {
   "property": "C102",
   "status": "partial",
   "theorems": [
    "Ikf.SKF.c102_measurement_function_fails"
   ],
   "note": "False: the overload reads a belief through a pointer it never sets (c102_measurement_function_fails: every call is undefined)."
  },
  {
   "property": "C103",
   "status": "partial",
   "theorems": [
    "Ikf.c103_beliefs_bounded_fails",
    "Ikf.c103_check_horizon_partial",
    "Ikf.c103_check_horizon_meas"
   ],
   "note": "False: process_measurement trims only the measurements (c103_beliefs_bounded_fails: the beliefs grow with the stream); an explicit check_horizon trims them (c103_check_horizon_partial) and the measurements (c103_check_horizon_meas)."
  },
  {
   "property": "C104",
   "status": "proved",
   "theorems": [
    "Ikf.Hdl.c104_stored_covariances",
    "Ikf.Hdl.c104_variances",
    "Ikf.Hdl.c104_near",
    "Ikf.Hdl.c104_solver",
    "Ikf.Hdl.Example.c104_example",
    "Ikf.Collab.Net.c104_team",
    "Ikf.Collab.Example.c104_team_example",
    "Ikf.StdHdl.c104_std",
    "Ikf.StdHdl.Example.c104_std_example"
   ],
   "note": "c104_stored_covariances for one handler (and the decoupled and Schmidt variants), c104_team for teams of agents (C_IKF and C_DCI observations), c104_std for the filters without buffers; c104_variances reads off variances and correlations; c104_near, c104_solver discharge the condition on nearest_covariance."
  },
  {
   "property": "C105",
   "status": "partial",
   "theorems": [
    "Ikf.Conc.c105_one_by_one_partial",
    "Ikf.Conc.c105_real_time_partial",
    "Ikf.Conc.c105_no_race_partial",
    "Ikf.Conc.c105_no_new_crash_partial",
    "Ikf.Conc.c105_no_deadlock",
    "Ikf.Conc.c105_blocking",
    "Ikf.Conc.c105_timeout_fails",
    "Ikf.Conc.c105_invariant_partial",
    "Ikf.Conc.c105_covariances_partial",
    "Ikf.Conc.c105_process_alone",
    "Ikf.Conc.c105_streams_partial",
    "Ikf.Conc.c105_any_order",
    "Ikf.Conc.c105_two_calls_fails",
    "Ikf.Conc.c105_requests_fails",
    "Ikf.Conc.c105_sensor_id_fails",
    "Ikf.Conc.c105_instance_fails",
    "Ikf.Conc.c105_lost_update_fails",
    "Ikf.Conc.c105_every_feed",
    "Ikf.Conc.c105_schedule_partial"
   ],
   "note": "The theorems with the suffix _partial are about the functions whose whole body is in one scope of m_mtx (all public functions of the handlers but those named below), cut into accesses in any way, and about schedules without a time-out of try_lock (c105_timeout_fails: a thread whose lock timed out never returns, its next step is undefined behaviour). For std::lock_guard (DecoupledPropagationHandler) nothing is missing (c105_blocking). Refuted for schedule_redo_update (c105_requests_fails), the sensor ID (c105_sensor_id_fails) and calls on instances (c105_instance_fails, c105_lost_update_fails)."
  },
  {
   "property": "C106",
   "status": "partial",
   "theorems": [
    "Ikf.Hdl.c106_groups_partial",
    "Ikf.Hdl.c106_pair_partial",
    "Ikf.Hdl.c106_together_partial",
    "Ikf.Hdl.TeamEx.c106_team_fails",
    "Ikf.Hdl.TeamEx.c106_pair_fails",
    "Ikf.StdHdl.c106_std_pairs_partial",
    "Ikf.StdHdl.TeamEx.c106_std_throws_fails"
   ],
   "note": "c106_together_partial: with joint observations of any participants, the covariances of instances of which those in contact, directly or through others, were last observed together (for instance of one instance, or of the participants of the last joint observation) are a covariance taken together. c106_groups_partial: instances observed jointly only as whole fixed groups, with no set_Sigma and no user-supplied beliefs. c106_std_pairs_partial: filters without buffers in fixed pairs, each private update after an accepted propagation with process noise of at least 1e-16 or an accepted joint update; then every joint update at equal times returns. c106_pair_partial: one observation, bound 1e-12 + eps. c106_team_fails, c106_pair_fails: the general statement is false; c106_std_throws_fails: and a joint update of the filters without buffers then throws."
  },
  {
   "property": "C107",
   "status": "partial",
   "theorems": [
    "Ikf.SimpleCmd.c107_outcome_partial",
    "Ikf.SimpleCmd.c107_records",
    "Ikf.SimpleCmd.c107_ignored_options_fails",
    "Ikf.SimpleCmd.c107_clock_exact",
    "Ikf.SimpleCmd.c107_times_partial",
    "Ikf.SimpleCmd.c107_drift_fails",
    "Ikf.SimpleCmd.c107_frozen_fails",
    "Ikf.SimpleCmd.c107_two_bodies_partial",
    "Ikf.SimpleCmd.c107_two_bodies_exact_partial",
    "Ikf.SimpleCmd.c107_first_step_partial"
   ],
   "note": "c107_outcome_partial, c107_first_step_partial, c107_two_bodies_partial, c107_two_bodies_exact_partial: never undefined for a duration >= 0; returns without joint observations; with them for at most two samples, and for two bodies whenever the clock advances in each step (exact arithmetic: up to 2e9 Hz). Missing: longer runs of more than two bodies with joint observations, where the check of the joint covariance may throw (c106_std_throws_fails shows such a state for the same filters). c107_records: every recorded mean is the centralised one of the calls made up to the record, that is without the observations of later instances in that step. c107_times_partial, c107_clock_exact: the recorded times, exact arithmetic when the rate divides 1e9; c107_drift_fails, c107_frozen_fails, c107_ignored_options_fails: refutations."
  },
  {
   "property": "C108",
   "status": "partial",
   "theorems": [
    "Ikf.PBar.c108_progress_partial",
    "Ikf.PBar.c108_done",
    "Ikf.PBar.c108_interval_fails",
    "Ikf.PBar.c108_zero_fails",
    "Ikf.PBar.c108_update_zero_fails"
   ],
   "note": "c108_progress_partial, c108_done: for up to 2^30 steps, every call prints what the specification says, with the actual interval n / updStepPerc. c108_interval_fails, c108_zero_fails, c108_update_zero_fails: refutations. The text of a line is kept as its parts."
  },
  {
   "property": "C109",
   "status": "proved",
   "theorems": [
    "Ikf.c109_map",
    "Ikf.c109_multi",
    "Ikf.c109_insertions"
   ],
   "note": "c109_map, c109_multi, c109_insertions (the walk of a multi buffer is the stable sort of the insertions). The operation passed does not modify the buffer."
  },
  {
   "property": "C110",
   "status": "partial",
   "theorems": [
    "Ikf.Stamped.c110_order",
    "Ikf.Stamped.c110_weak_order",
    "Ikf.Stamped.c110_timestamp",
    "Ikf.Stamped.c110_seconds_partial",
    "Ikf.Stamped.c110_seconds_fails"
   ],
   "note": "c110_order, c110_weak_order, c110_timestamp. c110_seconds_partial: right for times more than 2 microseconds apart; c110_seconds_fails: a > d and not d < a."
  },
  {
   "property": "C111",
   "status": "partial",
   "theorems": [
    "Ikf.Hdl.c111_restart_partial",
    "Ikf.Hdl.c111_instances",
    "Ikf.Hdl.c111_reset_fails",
    "Ikf.Hdl.c111_mixed_fails"
   ],
   "note": "c111_restart_partial: with reset_buffer() the state is that of a new handler, for every history that did not crash. c111_instances: a run keeps the instances and their horizons. c111_reset_fails, c111_mixed_fails: concrete runs of the repository's example filter."
  },
  {
   "property": "C112",
   "status": "partial",
   "theorems": [
    "Ikf.Inst.c112_listed",
    "Ikf.Inst.c112_factor",
    "Ikf.Inst.c112_before",
    "Ikf.Inst.c112_propagate",
    "Ikf.Hdl.c112_mutual",
    "Ikf.Hdl.c112_only_together",
    "Ikf.Hdl.c112_stale_fails"
   ],
   "note": "c112_listed, c112_factor, c112_before, c112_propagate: the queries. c112_mutual, c112_only_together: every history of a handler with any filter class whose predict_to does nothing (as in the repository's). c112_stale_fails: set_Sigma_IJ_at_t followed by remove_beliefs_from_t."
  },
  {
   "property": "C113",
   "status": "partial",
   "theorems": [
    "Ikf.Conv.c113_vectors",
    "Ikf.Conv.c113_nested",
    "Ikf.Conv.c113_short",
    "Ikf.Conv.c113_nested_fails",
    "Ikf.Conv.c113_columns",
    "Ikf.Conv.c113_rows_partial",
    "Ikf.Conv.c113_rows_fails",
    "Ikf.Conv.c113_quat",
    "Ikf.Conv.c113_quat_fails"
   ],
   "note": "c113_vectors, c113_nested, c113_columns, c113_quat: round trips and places. c113_short: the exception for a short row. c113_rows_partial: as many vectors as elements; c113_rows_fails: any other number. c113_nested_fails, c113_quat_fails: the other cases that lose elements."
  },
  {
   "property": "C114",
   "status": "partial",
   "theorems": [
    "Ikf.Conv.c114_entry",
    "Ikf.Conv.c114_agree",
    "Ikf.Conv.c114_covariance",
    "Ikf.Conv.c114_order",
    "Ikf.Conv.c114_affine",
    "Ikf.Conv.c114_zero",
    "Ikf.Conv.c114_few_fails",
    "Ikf.Conv.c114_unbiased"
   ],
   "note": "c114_entry, c114_agree, c114_covariance, c114_order, c114_affine, c114_zero, c114_unbiased for N >= 2; c114_few_fails: N < 2. Real arithmetic."
  },
  {
   "property": "C115",
   "status": "proved",
   "theorems": [
    "Ikf.Honest.c115_consistent",
    "Ikf.Honest.c115_unbiased",
    "Ikf.Honest.c115_optimal"
   ],
   "note": "c115_consistent (at least; equal if exact), c115_unbiased, c115_optimal, each about the calls of the modelled filter for every outcome of chance. Real arithmetic; outlier rejection off (a gate makes the set of accepted measurements depend on chance)."
  },
  {
   "property": "C116",
   "status": "partial",
   "theorems": [
    "Ikf.Honest.c116_orderly_partial",
    "Ikf.Honest.c116_orderly_accepts",
    "Ikf.Honest.c116_own_fails",
    "Ikf.Honest.c116_groups_partial",
    "Ikf.Honest.c116_accepts",
    "Ikf.Honest.c116_pairs_fails"
   ],
   "note": "c116_groups_partial: proved if joint observations are always of whole groups of instances that are correlated only among themselves. c116_accepts: the calls go through. c116_orderly_partial (with c116_orderly_accepts): participants may change from one joint observation to the next as long as those of each know nothing of each other yet, not even through others, or were last measured together (Spec/HonestChain keeps the books); then the covariance every single instance reports for itself covers its error, and so do the covariances of instances of which those in contact were last measured together. Missing: joint observations of instances that are in contact through others, and instances read together that are in contact but were not last measured together; there the statement is false: c116_pairs_fails (the covariances read are not even a covariance, so they cover no errors at all, from C106). c116_own_fails: even the variance a single instance reports for itself can be smaller than its mean squared error, after three pairwise observations around a triangle with everything told correctly. Real arithmetic; outlier rejection off or never triggered."
  },
  {
   "property": "C117",
   "status": "partial",
   "theorems": [
    "Ikf.Certainty.c117_certainty_partial",
    "Ikf.Certainty.c117_extra_fails",
    "Ikf.Certainty.c117_prior_fails",
    "Ikf.Certainty.c117_regularised_partial"
   ],
   "note": "c117_certainty_partial: proved for observations without the regularisation of the configuration (eps = 0; or, where no Joseph form and no stabilisation is asked for, any eps). With the default configuration the claim is false: c117_extra_fails (a further observation raises a zero covariance to 1e-16), c117_prior_fails (observing without noise, the filter that was less certain ends up more certain, by 1e-16). Real arithmetic. c117_regularised_partial: with any configuration (the default one included) and no further observations, the claim holds up to the factor (1 + delta)^k after k observations, where delta is the ratio of eps to the measurement noise."
  },
  {
   "property": "C118",
   "status": "proved",
   "theorems": [
    "Ikf.Bounded.c118_bounded",
    "Ikf.Bounded.c118_full",
    "Ikf.Bounded.c118_unobserved"
   ],
   "note": "c118_bounded (with the regularisation of the configuration counted as noise), c118_full, c118_unobserved (without observations no bound exists). Real arithmetic."
  },
  {
   "property": "C119",
   "status": "partial",
   "theorems": [
    "Ikf.Simultaneous.c119_any_order_partial",
    "Ikf.Simultaneous.c119_stacked_partial",
    "Ikf.Simultaneous.c119_isolated_partial",
    "Ikf.Simultaneous.c119_order_fails",
    "Ikf.Simultaneous.c119_regularised_partial"
   ],
   "note": "c119_any_order_partial, c119_stacked_partial, c119_isolated_partial: proved for observations without the regularisation of the configuration (eps = 0; or, where no Joseph form and no stabilisation is asked for, any eps). With the default configuration the claim is false: c119_order_fails (two observations of a scalar; the variances differ by about 1e-17). c119_regularised_partial: with any configuration, the default one included, the covariances of two orders differ at most by the factor (1 + delta)^(2k), where eps is at most the fraction delta of the noises and of the covariance at the end; missing: the means. Real arithmetic."
  },
  {
   "property": "C120",
   "status": "partial",
   "theorems": [
    "Ikf.Units.c120_units_partial",
    "Ikf.Units.c120_units_fails",
    "Ikf.Units.c120_regularised_partial"
   ],
   "note": "c120_units_partial: proved without the regularisation of the configuration (eps = 0). With the default configuration the claim is false: c120_units_fails (1e-16 is added to covariances whatever the units). Real arithmetic. With any eps and the gate off the covariances agree up to a factor close to one (c120_regularised_partial)."
  },
  {
   "property": "C121",
   "status": "proved",
   "theorems": [
    "Ikf.Solo.c121_standalone",
    "Ikf.Solo.c121_textbook",
    "Ikf.Solo.c121_bounded",
    "Ikf.Solo.c121_in_order"
   ],
   "note": "c121_standalone: simulation of the instance by the standalone filter; c121_textbook, c121_bounded: C100 and C118 for the instance; c121_in_order: the calls of an in-order user meet the hypotheses"
  },
  {
   "property": "C122",
   "status": "partial",
   "theorems": [
    "Ikf.Log.c122_sequential",
    "Ikf.Log.c122_level",
    "Ikf.Log.c122_disabled",
    "Ikf.Log.c122_threads_partial",
    "Ikf.Log.c122_prepared_partial",
    "Ikf.Log.c122_lines_partial",
    "Ikf.Log.c122_first_use_fails",
    "Ikf.Log.c122_setup_fails"
   ],
   "note": "Proved for one thread and any program of calls (c122_sequential, c122_level, c122_disabled), and for any number of threads and schedules once the logger exists and nobody replaces its sinks (c122_threads_partial, c122_prepared_partial, c122_lines_partial). False otherwise: two threads whose first use of the log coincides (for instance each constructing a handler) both create a logger, and the second register_logger throws (c122_first_use_fails); setup_logger with sinks while another thread writes lets either call throw (c122_setup_fails)."
  },
  {
   "property": "C123",
   "status": "partial",
   "theorems": [
    "Ikf.Stats.c123_mean",
    "Ikf.Stats.c123_stddev",
    "Ikf.Stats.c123_spread",
    "Ikf.Stats.c123_extremes",
    "Ikf.Stats.c123_between",
    "Ikf.Stats.c123_order",
    "Ikf.Stats.c123_round",
    "Ikf.Stats.c123_digits_fails",
    "Ikf.Stats.c123_negative_fails",
    "Ikf.Stats.c123_int_mean_fails",
    "Ikf.Stats.c123_empty_fails",
    "Ikf.Stats.c123_few_fails"
   ],
   "note": "Doubles in exact real arithmetic: c123_mean, c123_stddev, c123_spread, c123_extremes (any ordered type), c123_between, c123_order, c123_round (up to 19 digits). Refutations: c123_digits_fails, c123_negative_fails, c123_int_mean_fails, c123_empty_fails, c123_few_fails."
  },
  {
   "property": "C124",
   "status": "partial",
   "theorems": [
    "Ikf.Listing.c124_files_partial",
    "Ikf.Listing.c124_dirs_partial",
    "Ikf.Listing.c124_split",
    "Ikf.Listing.c124_names",
    "Ikf.Listing.c124_unreadable",
    "Ikf.Listing.c124_special_fails",
    "Ikf.Listing.c124_race_fails"
   ],
   "note": "c124_split, c124_names and c124_unreadable hold of every directory. Exact contents (c124_files_partial, c124_dirs_partial) need a directory without sockets and block devices: the code tests the bit S_IFDIR, which these modes have too, and lists them as directories (c124_special_fails). If the directory goes away between dirExist and opendir, readdir gets a null pointer (c124_race_fails)."
  },
  {
   "property": "C125",
   "status": "partial",
   "theorems": [
    "Ikf.Listing.c125_lines",
    "Ikf.Listing.c125_unopened",
    "Ikf.Listing.c125_paths",
    "Ikf.Listing.c125_crlf_fails",
    "Ikf.Listing.c125_bare_fails",
    "Ikf.Listing.c125_words",
    "Ikf.Listing.c125_peek_partial",
    "Ikf.Listing.c125_delim_fails",
    "Ikf.Listing.c125_end_fails",
    "Ikf.Listing.c125_ended_fails",
    "Ikf.Listing.c125_far_fails"
   ],
   "note": "Lines and words are characterised exactly (c125_lines, c125_words, both equivalences). Peeking is right on a good stream within the first 2 GiB with a word left (c125_peek_partial). What fails: carriage returns stay in the lines and paths (c125_crlf_fails); a list file without a directory in its name gives paths below the root (c125_bare_fails); the delimiter of getFirstTokenAndReset is ignored (c125_delim_fails), at the end of the text it leaves the stream failed (c125_end_fails), and positions beyond 2^31 are truncated to int (c125_far_fails). c125_ended_fails: a stream at its end is broken by a look."
  },
  {
   "property": "C126",
   "status": "partial",
   "theorems": [
    "Ikf.Listing.c126_removed_partial",
    "Ikf.Listing.c126_missing_partial",
    "Ikf.Listing.c126_refused",
    "Ikf.Listing.c126_blank",
    "Ikf.Listing.c126_space_fails"
   ],
   "note": "Proved for names the shell takes as they are (no blanks, special characters or leading dash; c126_removed_partial, c126_missing_partial). The name is pasted unquoted into a shell command, so of a name with a space the parts are removed and the directory stays (c126_space_fails). Names with characters special to the shell can run any command; the model gives no answer for them. c126_refused, c126_blank: the root, names ending in . or .. and blank names are refused."
  },
  {
   "property": "C127",
   "status": "proved",
   "theorems": [
    "Ikf.NearOptimal.c127_covariance",
    "Ikf.NearOptimal.c127_accepted",
    "Ikf.NearOptimal.c127_nearly_optimal"
   ],
   "note": "c127_covariance compares the filter with the one that gets eps = 0, for any sequence of accepted calls; with the gate off the latter accepts whatever the filter accepts (c127_accepted); c127_nearly_optimal combines it with C115 (honesty with any eps, optimality with eps = 0). The condition on the reported covariances is needed only with stabilisation, which adds eps to them after every observation."
  },
  {
   "property": "C128",
   "status": "partial",
   "theorems": [
    "Ikf.PreCheck.c128_accepted",
    "Ikf.PreCheck.c128_agree",
    "Ikf.PreCheck.c128_margin",
    "Ikf.PreCheck.c128_borderline_fails",
    "Ikf.PreCheck.c128_no_gate_fails",
    "Ikf.PreCheck.c128_size_fails"
   ],
   "note": "c128_accepted: passing implies acceptance, for every eps >= 0. c128_agree: exact agreement if eps = 0. c128_margin: with eps, refusals agree except within a factor sqrt(1+delta) of the threshold. Missing because false: with any eps > 0 some observation fails the test and is accepted (c128_borderline_fails); a confidence of 0 switches the filter's gate off and makes the test dereference the end of the table (c128_no_gate_fails); a residual of the wrong size passes the test and is refused by the filter (c128_size_fails)."
  },
  {
   "property": "C129",
   "status": "proved",
   "theorems": [
    "Ikf.Forget.c129_mean",
    "Ikf.Forget.c129_geometric",
    "Ikf.Forget.c129_limit",
    "Ikf.Forget.c129_covariance",
    "Ikf.Forget.c129_belief"
   ],
   "note": "c129_mean, c129_geometric and c129_limit hold with every configuration (Joseph form, stabilisation, eps), gate off; c129_covariance with delta = eps relative to the noise (delta = 0 without Joseph form or with eps = 0); c129_belief for delta = 0. c129_geometric and c129_limit use the bound of C118. The fraction alpha > 0 excludes states without process noise: such a filter forgets like 1/k, not geometrically."
  },
  {
   "property": "C130",
   "status": "proved",
   "theorems": [
    "Ikf.Rename.c130_names",
    "Ikf.Rename.c130_near"
   ],
   "note": "c130_names for all in-order calls with fitting matrices, started from freshly initialised instances (the user's predict_to is not consulted by in-order calls and may differ). The condition on nearest_covariance (AnyOrder) is discharged by c130_near for every exact eigenvalue solver; that on its result (NearOk) by c24_near."
  },
  {
   "property": "C131",
   "status": "proved",
   "theorems": [
    "Ikf.Linear.c131_linear",
    "Ikf.Linear.c131_accepted"
   ],
   "note": "c131_linear for any three in-order runs with the same answers, from freshly initialised instances; c131_accepted: with the outlier test off, every call is accepted, and the third run exists."
  },
  {
   "property": "C132",
   "status": "proved",
   "theorems": [
    "Ikf.Groups.c132_groups"
   ],
   "note": "c132_groups for any two in-order runs from freshly initialised instances and any interleaving, accepted or rejected."
  },
  {
   "property": "C133",
   "status": "proved",
   "theorems": [
    "Ikf.Retime.c133_times"
   ],
   "note": "c133_times for every strictly increasing change of times, any two horizons, any in-order run from freshly initialised instances."
  },
  {
   "property": "C134",
   "status": "partial",
   "theorems": [
    "Ikf.Ldlt.c134_sound",
    "Ikf.Ldlt.c134_symmetric",
    "Ikf.Ldlt.c134_complete",
    "Ikf.Ldlt.c134_posterior",
    "Ikf.Ldlt.c134_propagated",
    "Ikf.Ldlt.c134_repair",
    "Ikf.Ldlt.c134_stabilised",
    "Ikf.Ldlt.c134_singular_fails"
   ],
   "note": "c134_sound, c134_symmetric, c134_complete, c134_stabilised for all matrices; c134_posterior, c134_propagated: what the updates produce passes; c134_repair: where the code and the exact test of the other models agree; c134_singular_fails: some singular positive semidefinite matrices are refused (a zero pivot before a non-zero one is reported as a numerical issue). The factorisation is Eigen's, written down from Eigen 3.3/3.4, which is not part of /repo."
  },
  {
   "property": "C135",
   "status": "proved",
   "theorems": [
    "Ikf.Commute.c135_any_order"
   ],
   "note": "c135_any_order: for every history and every reordering that no single instance notices (the calls that concern it come in the same order)."
  },
  {
   "property": "C136",
   "status": "proved",
   "theorems": [
    "Ikf.Commute.c136_at_once"
   ],
   "note": "c136_at_once: for every number of steps and every history before and after."
  },
  {
   "property": "C137",
   "status": "proved",
   "theorems": [
    "Ikf.Saved.c137_restored"
   ],
   "note": "c137_restored: for every history before and every sequence of calls after."
  },
  {
   "property": "C138",
   "status": "partial",
   "theorems": [
    "Ikf.Members.c138_members",
    "Ikf.Members.c138_joining",
    "Ikf.Members.c138_answers",
    "Ikf.Members.c138_leave",
    "Ikf.Members.c138_join",
    "Ikf.Members.Example.c138_reused_fails"
   ],
   "note": "c138_answers states what add and remove answer and change. c138_members: the centralised reading of every history with joins and leaves. c138_leave, c138_join: the others do not notice. c138_reused_fails: the last sentence is false; remove (IDICOHandler.cpp:44-56) erases only the instance, the others keep their factors toward its ID, so an instance added under it later is listed as correlated by instances it does not list. c138_joining: a joining instance keeps its beliefs and factors and takes over the horizon of the handler."
  },
  {
   "property": "C139",
   "status": "proved",
   "theorems": [
    "Ikf.Simultaneous.c139_standalone",
    "Ikf.Simultaneous.c139_average",
    "Ikf.Simultaneous.c139_isolated"
   ],
   "note": "c139_standalone, c139_isolated, c139_average. That the regularisation of the default configuration breaks such identities is c119_order_fails (two orders of the same observations have the same sums)."
  },
  {
   "property": "C140",
   "status": "proved",
   "theorems": [
    "Ikf.Honest.c140_surprise",
    "Ikf.Honest.c140_gate",
    "Ikf.Honest.c140_news",
    "Ikf.Honest.c140_white",
    "Ikf.Honest.c140_gaussian",
    "Ikf.Honest.c140_isolated",
    "Ikf.Honest.c140_isolated_joint"
   ],
   "note": "c140_surprise, c140_gate (the threshold in use is that of m+1 degrees of freedom, see C20), c140_news, c140_white, c140_gaussian for a standalone filter; c140_isolated and c140_isolated_joint for the isolated filters of C116. The examples are the systems of C115 and C116: with the default configuration and any distributions at most 9 percent refused, with Gaussian noises at most 0.3 percent."
  },
  {
   "property": "C141",
   "status": "proved",
   "theorems": [
    "Ikf.Honest.c141_accepts",
    "Ikf.Honest.c141_convex",
    "Ikf.Honest.c141_monotone",
    "Ikf.Honest.c141_fifty",
    "Ikf.Honest.c141_isolated",
    "Ikf.Honest.c141_isolated_joint"
   ],
   "note": "c141_accepts, c141_convex, c141_monotone, c141_fifty (the threshold in use is that of m+1 degrees of freedom, zero from 50 components on, see C20). c141_isolated and c141_isolated_joint say the same of a measurement of one instance of a team of isolated filters and of a joint one, for which the covariance read and stacked is used plus 1e-12 I. The examples are a one-state filter: a value of 11 passes, 12 does not; and the team of C106, alone (4 passes, 5 does not) and jointly (5 passes, 6 does not)."
  },
  {
   "property": "C142",
   "status": "proved",
   "theorems": [
    "Ikf.Simultaneous.c142_least",
    "Ikf.Simultaneous.c142_order",
    "Ikf.Simultaneous.c142_gate",
    "Ikf.Simultaneous.c142_isolated",
    "Ikf.Simultaneous.c142_isolated_spread",
    "Ikf.Simultaneous.c142_isolated_joint",
    "Ikf.Simultaneous.c142_isolated_joint_spread"
   ],
   "note": "c142_least, c142_order, c142_gate (threshold in use as in C141). The example is an estimate 0 with variance 1 and two readings 5 and 9 with variance 2. c142_isolated and c142_isolated_joint are the same for a measurement of one instance and a joint measurement of isolated instances; the stacked covariance of the latter counts increased by 1e-12 I. c142_isolated_spread and c142_isolated_joint_spread are what the covariance then says, with no regularisation but that of the measurement noise (and the 1e-12 I of the joint correction)."
  }
 ]
}