{
 "claims": [
  {
   "property": "C01",
   "status": "proved",
   "theorems": [
    "FlowMC.C01_update_window",
    "FlowMC.C01_negative_start",
    "FlowMC.C01_fresh",
    "FlowMC.C01_reject"
   ],
   "note": ""
  },
  {
   "property": "C02",
   "status": "proved",
   "theorems": [
    "FlowMC.C02_append_log",
    "FlowMC.C02_calls"
   ],
   "note": ""
  },
  {
   "property": "C03",
   "status": "partial",
   "theorems": [
    "FlowMC.C03_overflow_destroys",
    "FlowMC.C03_clamp_partial"
   ],
   "note": "The full statement is false of the code; the negation is proved with a concrete witness and the _partial theorem says what does hold. XLA clamps the start offset, so an overflowing write overwrites earlier rows."
  },
  {
   "property": "C04",
   "status": "partial",
   "theorems": [
    "FlowMC.C04_roundtrip_partial",
    "FlowMC.C04_roundtrip_default",
    "FlowMC.C04_other_files",
    "FlowMC.C04_roundtrip_fails"
   ],
   "note": "The full statement is false of the code; the negation is proved with a concrete witness and the _partial theorem says what does hold. cursor and cursor_dim are not saved."
  },
  {
   "property": "C05",
   "status": "proved",
   "theorems": [
    "FlowMC.C05_state_update",
    "FlowMC.C05_other_keys",
    "FlowMC.C05_distinct_keys",
    "FlowMC.C05_update_state_strategy",
    "FlowMC.C05_update_state_bad",
    "FlowMC.C05_history"
   ],
   "note": ""
  },
  {
   "property": "C06",
   "status": "partial",
   "theorems": [
    "FlowMC.C06_load_always_raises",
    "FlowMC.C06_saved_partial",
    "FlowMC.C06_swapped_partial"
   ],
   "note": "The full statement is false of the code; the negation is proved with a concrete witness and the _partial theorem says what does hold. np.load refuses the pickled dictionary; and name/data are passed to the constructor in the wrong order."
  },
  {
   "property": "C07",
   "status": "proved",
   "theorems": [
    "FlowMC.C07_explicit_wins",
    "FlowMC.C07_bundle",
    "FlowMC.C07_neither"
   ],
   "note": ""
  },
  {
   "property": "C08",
   "status": "proved",
   "theorems": [
    "FlowMC.C08_sequential",
    "FlowMC.C08_append",
    "FlowMC.C08_sample",
    "FlowMC.C08_no_order",
    "FlowMC.C08_start"
   ],
   "note": ""
  },
  {
   "property": "C09",
   "status": "proved",
   "theorems": [
    "FlowMC.C09_prefix_effects",
    "FlowMC.C09_sample",
    "FlowMC.C09_lambda",
    "FlowMC.C09_lambda_sample"
   ],
   "note": ""
  },
  {
   "property": "C10",
   "status": "proved",
   "theorems": [
    "FlowMC.C10_kwargs"
   ],
   "note": ""
  },
  {
   "property": "C11",
   "status": "partial",
   "theorems": [
    "FlowMC.C11_reuses_keys",
    "FlowMC.C11_training_rows_misplaced",
    "FlowMC.C11_overwrites_production"
   ],
   "note": "The full statement is false of the code; the negation is proved with a concrete witness and the _partial theorem says what does hold. a second sample() reuses the first run's keys (the sampler's key is never advanced), and because strategy cursors and the state's target names are not reset, its training rows overwrite the first run's production samples."
  },
  {
   "property": "C12",
   "status": "proved",
   "theorems": [
    "FlowMC.C12_sequence",
    "FlowMC.C12_bundle",
    "FlowMC.C12_pt_bundle",
    "FlowMC.C12_chain_batching"
   ],
   "note": ""
  },
  {
   "property": "C13",
   "status": "proved",
   "theorems": [
    "FlowMC.C13_chain_independence",
    "FlowMC.C13_recorded",
    "FlowMC.C13_tempering_keys",
    "FlowMC.C13_tempering",
    "FlowMC.C13_optimization"
   ],
   "note": ""
  },
  {
   "property": "C14",
   "status": "proved",
   "theorems": [
    "FlowMC.C14_recorded",
    "FlowMC.C14_logp_local"
   ],
   "note": ""
  },
  {
   "property": "C15",
   "status": "proved",
   "theorems": [
    "FlowMC.C15_recorded",
    "FlowMC.C15_logp_nf"
   ],
   "note": ""
  },
  {
   "property": "C16",
   "status": "proved",
   "theorems": [
    "FlowMC.C16_recorded",
    "FlowMC.C16_grw",
    "FlowMC.C16_mala",
    "FlowMC.C16_hmc",
    "FlowMC.C16_nf",
    "FlowMC.C16_serial_rows",
    "FlowMC.C16_nf_rows"
   ],
   "note": ""
  },
  {
   "property": "C17",
   "status": "proved",
   "theorems": [
    "FlowMC.C17_recorded",
    "FlowMC.C17_thinned_rows",
    "FlowMC.C17_returned_row"
   ],
   "note": ""
  },
  {
   "property": "C18",
   "status": "partial",
   "theorems": [
    "FlowMC.C18_no_row_lost_partial",
    "FlowMC.C18_overwrites",
    "FlowMC.C18_row_lost"
   ],
   "note": "The full statement is false of the code; the negation is proved with a concrete witness and the _partial theorem says what does hold. the guarantee holds exactly when the thinning divides the number of steps."
  },
  {
   "property": "C19",
   "status": "proved",
   "theorems": [
    "FlowMC.C19_success",
    "FlowMC.C19_frame",
    "FlowMC.C19_bad_site"
   ],
   "note": ""
  },
  {
   "property": "C20",
   "status": "proved",
   "theorems": [
    "FlowMC.C20_kernel",
    "FlowMC.C20_nf_kernel",
    "FlowMC.C20_chain",
    "FlowMC.C20_nf_chain",
    "FlowMC.C20_chain_or_start",
    "FlowMC.C20_nf_chain_or_start",
    "FlowMC.C20_recorded"
   ],
   "note": ""
  },
  {
   "property": "C21",
   "status": "proved",
   "theorems": [
    "FlowMC.C21_hmc",
    "FlowMC.C21_accept_probability",
    "FlowMC.C21_accept_certain",
    "FlowMC.C21_grw",
    "FlowMC.C21_mala",
    "FlowMC.C21_flow"
   ],
   "note": ""
  },
  {
   "property": "C22",
   "status": "proved",
   "theorems": [
    "FlowMC.C22_grw_reversible",
    "FlowMC.C22_grw_invariant",
    "FlowMC.C22_grw_detailedBalance",
    "FlowMC.C22_proposal_law",
    "FlowMC.C22_moves"
   ],
   "note": ""
  },
  {
   "property": "C23",
   "status": "proved",
   "theorems": [
    "FlowMC.C23_mala_reversible",
    "FlowMC.C23_mala_invariant",
    "FlowMC.C23_mala_detailedBalance",
    "FlowMC.C23_proposal_law",
    "FlowMC.C23_moves"
   ],
   "note": ""
  },
  {
   "property": "C24",
   "status": "proved",
   "theorems": [
    "FlowMC.C24_verlet",
    "FlowMC.C24_reversible",
    "FlowMC.C24_volume",
    "FlowMC.C24_trajectory",
    "FlowMC.C24_velocity"
   ],
   "note": ""
  },
  {
   "property": "C25",
   "status": "partial",
   "theorems": [
    "FlowMC.C25_hmc_reversible_partial",
    "FlowMC.C25_hmc_invariant_partial",
    "FlowMC.C25_not_invariant"
   ],
   "note": "The full statement is false of the code; the negation is proved with a concrete witness and the _partial theorem says what does hold. with a correlated condition_matrix the kinetic energy broadcasts p^2 over both indices of the metric, so the accept/reject energy is not that of the N(0, M^-1) momentum actually drawn; the diagonal case is proved."
  },
  {
   "property": "C26",
   "status": "proved",
   "theorems": [
    "FlowMC.C26_sweep_rows",
    "FlowMC.C26_flow_reversible",
    "FlowMC.C26_flow_invariant"
   ],
   "note": ""
  },
  {
   "property": "C27",
   "status": "proved",
   "theorems": [
    "FlowMC.C27_count",
    "FlowMC.C27_flow_logprob",
    "FlowMC.C27_batch_bound",
    "FlowMC.C27_target_logprob"
   ],
   "note": ""
  },
  {
   "property": "C28",
   "status": "proved",
   "theorems": [
    "FlowMC.C28_serial_rows",
    "FlowMC.C28_recorded"
   ],
   "note": ""
  },
  {
   "property": "C29",
   "status": "proved",
   "theorems": [
    "FlowMC.C29_optimization_draws",
    "FlowMC.C29_kernel_draws",
    "FlowMC.C29_flow_draws",
    "FlowMC.C29_exchange_draws",
    "FlowMC.C29_training_draws",
    "FlowMC.C29_temper_draws",
    "FlowMC.C29_kernel",
    "FlowMC.C29_step_key",
    "FlowMC.C29_steps_disjoint",
    "FlowMC.C29_takeSteps",
    "FlowMC.C29_chains_disjoint",
    "FlowMC.C29_trainModel",
    "FlowMC.C29_parallelTempering",
    "FlowMC.C29_footprint",
    "FlowMC.C29_next_key",
    "FlowMC.C29_run_disjoint",
    "FlowMC.C29_sample"
   ],
   "note": ""
  },
  {
   "property": "C30",
   "status": "proved",
   "theorems": [
    "FlowMC.C30_exchange_permutes",
    "FlowMC.C30_pair"
   ],
   "note": ""
  },
  {
   "property": "C31",
   "status": "proved",
   "theorems": [
    "FlowMC.C31_pair_reversible",
    "FlowMC.C31_sweep_invariant"
   ],
   "note": ""
  },
  {
   "property": "C32",
   "status": "proved",
   "theorems": [
    "FlowMC.C32_chain",
    "FlowMC.C32_call",
    "FlowMC.C32_cold_chain"
   ],
   "note": ""
  },
  {
   "property": "C33",
   "status": "proved",
   "theorems": [
    "FlowMC.C33_adaptation",
    "FlowMC.C33_gaps"
   ],
   "note": ""
  },
  {
   "property": "C34",
   "status": "partial",
   "theorems": [
    "FlowMC.C34_exceeds_maximum",
    "FlowMC.C34_bounded_partial"
   ],
   "note": "The full statement is false of the code; the negation is proved with a concrete witness and the _partial theorem says what does hold. the hottest temperature can exceed the configured maximum after adaptation."
  },
  {
   "property": "C35",
   "status": "proved",
   "theorems": [
    "FlowMC.C35_flag_off",
    "FlowMC.C35_flag_on",
    "FlowMC.C35_frozen",
    "FlowMC.C35_training",
    "FlowMC.C35_frame"
   ],
   "note": ""
  },
  {
   "property": "C36",
   "status": "partial",
   "theorems": [
    "FlowMC.C36_same_target_iff",
    "FlowMC.C36_different_targets"
   ],
   "note": "The full statement is false of the code; the negation is proved with a concrete witness and the _partial theorem says what does hold. the cold replica targets logpdf + logprior while the local and global steppers target logpdf alone: equal iff the prior is constant."
  },
  {
   "property": "C37",
   "status": "proved",
   "theorems": [
    "FlowMC.C37_passthrough",
    "FlowMC.C37_transformed",
    "FlowMC.C37_inverse_pair",
    "FlowMC.C37_mlpAffine",
    "FlowMC.C37_scalarAffine",
    "FlowMC.C37_rqSpline"
   ],
   "note": ""
  },
  {
   "property": "C38",
   "status": "proved",
   "theorems": [
    "FlowMC.C38_inverse_pair",
    "FlowMC.C38_masks",
    "FlowMC.C38_constructed",
    "FlowMC.C38_affineCoupling",
    "FlowMC.C38_layer",
    "FlowMC.C38_layers"
   ],
   "note": ""
  },
  {
   "property": "C39",
   "status": "proved",
   "theorems": [
    "FlowMC.C39_knots",
    "FlowMC.C39_valid"
   ],
   "note": ""
  },
  {
   "property": "C40",
   "status": "proved",
   "theorems": [
    "FlowMC.C40_strictMono",
    "FlowMC.C40_continuous",
    "FlowMC.C40_linear_below",
    "FlowMC.C40_linear_above",
    "FlowMC.C40_knots",
    "FlowMC.C40_surjective",
    "FlowMC.C40_bijective"
   ],
   "note": ""
  },
  {
   "property": "C41",
   "status": "proved",
   "theorems": [
    "FlowMC.C41_inv_fwd",
    "FlowMC.C41_fwd_inv",
    "FlowMC.C41_inv_logdet",
    "FlowMC.C41_guard_inactive_default"
   ],
   "note": ""
  },
  {
   "property": "C42",
   "status": "proved",
   "theorems": [
    "FlowMC.C42_logdet_is_log_derivative",
    "FlowMC.C42_logdet_eq"
   ],
   "note": ""
  },
  {
   "property": "C43",
   "status": "partial",
   "theorems": [
    "FlowMC.C43_inverse_pair_partial",
    "FlowMC.C43_masks",
    "FlowMC.C43_constructed",
    "FlowMC.C43_new_flow_inverse",
    "FlowMC.C43_trained_not_invertible"
   ],
   "note": "The full statement is false of the code; the negation is proved with a concrete witness and the _partial theorem says what does hold. inside each layer inverse applies the inverse of the affine part before the inverse of the spline part (the same order as forward), so it is the inverse only while ScalarAffine's scale and shift have their initial value 0; both are trainable. For newly constructed flows proved from hypotheses on the constructor's arguments only (C43_new_flow_inverse)."
  },
  {
   "property": "C44",
   "status": "partial",
   "theorems": [
    "FlowMC.C44_realNVP",
    "FlowMC.C44_realNVP_constructed",
    "FlowMC.C44_spline_partial",
    "FlowMC.C44_realNVP_idealFlow",
    "FlowMC.C44_spline_idealFlow_partial",
    "FlowMC.C44_trained_spline_wrong_density",
    "FlowMC.C44_spline_as_constructed"
   ],
   "note": "The full statement is false of the code; the negation is proved with a concrete witness and the _partial theorem says what does hold. proved in full for RealNVP (0/1 masks, default base); for the spline flow proved while the affine parts are untrained; a trained witness is proved to sample from a different density than exp(log_prob)."
  },
  {
   "property": "C45",
   "status": "partial",
   "theorems": [
    "FlowMC.C45_realNVP_partial",
    "FlowMC.C45_spline_partial",
    "FlowMC.C45_not_normalised"
   ],
   "note": "The full statement is false of the code; the negation is proved with a concrete witness and the _partial theorem says what does hold. the whitening Jacobian is missing, so the integral is the product of the data standard deviations; this is proved for both flows, also after training."
  },
  {
   "property": "C46",
   "status": "partial",
   "theorems": [
    "FlowMC.C46_stdGaussian",
    "FlowMC.C46_stdGaussian_eq",
    "FlowMC.C46_gaussian",
    "FlowMC.C46_realNVP_partial",
    "FlowMC.C46_spline",
    "FlowMC.C46_realNVP_base_iff",
    "FlowMC.C46_realNVP_ignores_base"
   ],
   "note": "The full statement is false of the code; the negation is proved with a concrete witness and the _partial theorem says what does hold. RealNVP.log_prob always uses N(0,I); proved to match iff the base is standard normal (one-dimensional Gaussian family); proved for the spline flow with every Gaussian base."
  },
  {
   "property": "C47",
   "status": "proved",
   "theorems": [
    "FlowMC.C47_num_bins",
    "FlowMC.C47_layout",
    "FlowMC.C47_layer",
    "FlowMC.C47_network",
    "FlowMC.C47_layers"
   ],
   "note": ""
  },
  {
   "property": "C48",
   "status": "proved",
   "theorems": [
    "FlowMC.C48_call",
    "FlowMC.C48_best_snapshot"
   ],
   "note": ""
  },
  {
   "property": "C49",
   "status": "proved",
   "theorems": [
    "FlowMC.C49_batches",
    "FlowMC.C49_epoch"
   ],
   "note": ""
  },
  {
   "property": "C50",
   "status": "proved",
   "theorems": [
    "FlowMC.C50_loss_log",
    "FlowMC.C50_losses_per_call"
   ],
   "note": ""
  },
  {
   "property": "C51",
   "status": "partial",
   "theorems": [
    "FlowMC.C51_recent_rows_partial",
    "FlowMC.C51_window_zero",
    "FlowMC.C51_misaligned"
   ],
   "note": "The full statement is false of the code; the negation is proved with a concrete witness and the _partial theorem says what does hold. history_window = 0 trains on everything, and chains with different numbers of finite rows are misaligned by reshape."
  },
  {
   "property": "C52",
   "status": "partial",
   "theorems": [
    "FlowMC.C52_frozen_decay_partial",
    "FlowMC.C52_frozen_iff_zero",
    "FlowMC.C52_not_frozen",
    "FlowMC.C52_mask_decay_breaks_inverse",
    "FlowMC.C52_base_decay_breaks_density"
   ],
   "note": "The full statement is false of the code; the negation is proved with a concrete witness and the _partial theorem says what does hold. adamw's weight decay multiplies every frozen parameter by 1 - 1e-4 lr per step; consequences proved: trained RealNVP masks are not 0/1 and inverse no longer inverts forward; the trained default base no longer matches RealNVP.log_prob."
  },
  {
   "property": "C53",
   "status": "proved",
   "theorems": [
    "FlowMC.C53_call",
    "FlowMC.C53_bounds",
    "FlowMC.C53_bounds_real",
    "FlowMC.C53_zero_steps"
   ],
   "note": ""
  },
  {
   "property": "C54",
   "status": "proved",
   "theorems": [
    "FlowMC.C54_constructor",
    "FlowMC.C54_call"
   ],
   "note": ""
  },
  {
   "property": "C55",
   "status": "proved",
   "theorems": [
    "FlowMC.C55_endpoints",
    "FlowMC.C55_velocity",
    "FlowMC.C55_velocity_eq",
    "FlowMC.C55_training",
    "FlowMC.C55_loss_zero_iff"
   ],
   "note": ""
  },
  {
   "property": "C56",
   "status": "partial",
   "theorems": [
    "FlowMC.C56_density_partial",
    "FlowMC.C56_wrong_density"
   ],
   "note": "The full statement is false of the code; the negation is proved with a concrete witness and the _partial theorem says what does hold. Solver.log_prob evaluates the base density at x1 instead of x0; the exact discrepancy is proved for every smooth field (Liouville's formula)."
  },
  {
   "property": "C57",
   "status": "proved",
   "theorems": [
    "FlowMC.C57_accounting",
    "FlowMC.C57_training_leaves_production"
   ],
   "note": ""
  },
  {
   "property": "C58",
   "status": "proved",
   "theorems": [
    "FlowMC.C58_production_frozen",
    "FlowMC.C58_runs",
    "FlowMC.C58_training_source"
   ],
   "note": ""
  },
  {
   "property": "C59",
   "status": "proved",
   "theorems": [
    "FlowMC.C59_global_in_sync"
   ],
   "note": ""
  },
  {
   "property": "C60",
   "status": "proved",
   "theorems": [
    "FlowMC.C60_trainer",
    "FlowMC.C60_schedule",
    "FlowMC.C60_order",
    "FlowMC.C60_capacity",
    "FlowMC.C60_capacity_short"
   ],
   "note": ""
  },
  {
   "property": "C61",
   "status": "proved",
   "theorems": [
    "FlowMC.C61_accounting",
    "FlowMC.C61_cold_temperature",
    "FlowMC.C61_call_sites",
    "FlowMC.C61_initial_ladder",
    "FlowMC.C61_tempered_steps"
   ],
   "note": ""
  },
  {
   "property": "C62",
   "status": "proved",
   "theorems": [
    "FlowMC.C62_ctor",
    "FlowMC.C62_tempered_ctor",
    "FlowMC.C62_pytree"
   ],
   "note": ""
  },
  {
   "property": "C63",
   "status": "proved",
   "theorems": [
    "FlowMC.C63_production",
    "FlowMC.C63_given_training",
    "FlowMC.C63_sample"
   ],
   "note": ""
  },
  {
   "property": "C64",
   "status": "proved",
   "theorems": [
    "FlowMC.C64_step_target",
    "FlowMC.C64_tempered",
    "FlowMC.C64_infinite_temperature"
   ],
   "note": ""
  },
  {
   "property": "C65",
   "status": "partial",
   "theorems": [
    "FlowMC.C65_replicas_reset",
    "FlowMC.C65_replicas_not_continued"
   ],
   "note": "The full statement is false of the code; the negation is proved with a concrete witness and the _partial theorem says what does hold. outside training the replica positions are computed and thrown away."
  },
  {
   "property": "C66",
   "status": "proved",
   "theorems": [
    "FlowMC.C66_tempered_never_raises",
    "FlowMC.C66_tempered_any_prior",
    "FlowMC.C66_never_raises"
   ],
   "note": ""
  },
  {
   "property": "C67",
   "status": "proved",
   "theorems": [
    "FlowMC.C67_serial_rows",
    "FlowMC.C67_production",
    "FlowMC.C67_given_training",
    "FlowMC.C67_sample",
    "FlowMC.C67_sweep_rows",
    "FlowMC.C67_grw",
    "FlowMC.C67_mala",
    "FlowMC.C67_hmc",
    "FlowMC.C67_flow"
   ],
   "note": ""
  },
  {
   "property": "C68",
   "status": "proved",
   "theorems": [
    "FlowMC.C68_epoch",
    "FlowMC.C68_small",
    "FlowMC.C68_best_snapshot",
    "FlowMC.C68_stats"
   ],
   "note": ""
  },
  {
   "property": "C69",
   "status": "proved",
   "theorems": [
    "FlowMC.C69_whitened",
    "FlowMC.C69_spline_stats",
    "FlowMC.C69_nvp_stats",
    "FlowMC.C69_fm_stats"
   ],
   "note": ""
  },
  {
   "property": "C70",
   "status": "proved",
   "theorems": [
    "FlowMC.C70_grw",
    "FlowMC.C70_mala",
    "FlowMC.C70_flow",
    "FlowMC.C70_serial_rows",
    "FlowMC.C70_sweep_rows",
    "FlowMC.C70_production",
    "FlowMC.C70_given_training",
    "FlowMC.C70_sample"
   ],
   "note": ""
  },
  {
   "property": "C71",
   "status": "proved",
   "theorems": [
    "FlowMC.C71_flow",
    "FlowMC.C71_alternating",
    "FlowMC.C71_production",
    "FlowMC.C71_given_training"
   ],
   "note": ""
  },
  {
   "property": "C72",
   "status": "proved",
   "theorems": [
    "FlowMC.C72_production",
    "FlowMC.C72_given_training",
    "FlowMC.C72_sample"
   ],
   "note": ""
  },
  {
   "property": "C73",
   "status": "proved",
   "theorems": [
    "FlowMC.C73_flow",
    "FlowMC.C73_correct_iff",
    "FlowMC.C73_loop_iff",
    "FlowMC.C73_sweep_rows",
    "FlowMC.C73_realNVP",
    "FlowMC.C73_realNVP_samples_base",
    "FlowMC.C73_production_iff"
   ],
   "note": ""
  },
  {
   "property": "C74",
   "status": "proved",
   "theorems": [
    "FlowMC.C74_grw",
    "FlowMC.C74_mala",
    "FlowMC.C74_flow",
    "FlowMC.C74_serial_rows",
    "FlowMC.C74_sweep_rows",
    "FlowMC.C74_production",
    "FlowMC.C74_given_training",
    "FlowMC.C74_sample"
   ],
   "note": ""
  },
  {
   "property": "C75",
   "status": "proved",
   "theorems": [
    "FlowMC.C75_log_prob",
    "FlowMC.C75_surplus",
    "FlowMC.C75_any_ranges",
    "FlowMC.C75_sample",
    "FlowMC.C75_density",
    "FlowMC.C75_gap",
    "FlowMC.C75_gap_mass",
    "FlowMC.C75_gaussians"
   ],
   "note": ""
  },
  {
   "property": "C76",
   "status": "proved",
   "theorems": [
    "FlowMC.C76_batch",
    "FlowMC.C76_expected",
    "FlowMC.C76_divergence",
    "FlowMC.C76_minimiser",
    "FlowMC.C76_realNVP",
    "FlowMC.C76_spline_untrained"
   ],
   "note": ""
  },
  {
   "property": "C77",
   "status": "proved",
   "theorems": [
    "FlowMC.C77_travel",
    "FlowMC.C77_stationary",
    "FlowMC.C77_first_step",
    "FlowMC.C77_direction",
    "FlowMC.C77_noise"
   ],
   "note": ""
  },
  {
   "property": "C78",
   "status": "partial",
   "theorems": [
    "FlowMC.C78_cold_chain_drifts",
    "FlowMC.C78_not_kept",
    "FlowMC.C78_first_call_partial"
   ],
   "note": "The full statement is false of the code; the negation is proved with a concrete witness and the _partial theorem says what does hold. outside training the replica positions are thrown away, so the same stored replica is offered to the walker again and again: the walker's distribution drifts to the hot one from the second call on (C78_cold_chain_drifts, C78_not_kept); the first call is exact."
  },
  {
   "property": "C79",
   "status": "proved",
   "theorems": [
    "FlowMC.C79_travel",
    "FlowMC.C79_any_momentum",
    "FlowMC.C79_outliers",
    "FlowMC.C79_first_step"
   ],
   "note": ""
  },
  {
   "property": "C80",
   "status": "proved",
   "theorems": [
    "FlowMC.C80_raises",
    "FlowMC.C80_edges",
    "FlowMC.C80_counts",
    "FlowMC.C80_unwritten",
    "FlowMC.C80_fresh",
    "FlowMC.C80_acceptance",
    "FlowMC.C80_acceptance_tempered",
    "FlowMC.C80_positions"
   ],
   "note": ""
  },
  {
   "property": "C81",
   "status": "proved",
   "theorems": [
    "FlowMC.C81_loads_iff",
    "FlowMC.C81_all_from_file",
    "FlowMC.C81_round_trip",
    "FlowMC.C81_last_save"
   ],
   "note": ""
  },
  {
   "property": "C82",
   "status": "proved",
   "theorems": [
    "FlowMC.C82_names",
    "FlowMC.C82_error",
    "FlowMC.C82_leaves",
    "FlowMC.C82_same",
    "FlowMC.C82_idempotent",
    "FlowMC.C82_round_trip",
    "FlowMC.C82_checkpoint"
   ],
   "note": ""
  },
  {
   "property": "C83",
   "status": "proved",
   "theorems": [
    "FlowMC.C83_production",
    "FlowMC.C83_sample",
    "FlowMC.C83_adaptive"
   ],
   "note": ""
  },
  {
   "property": "C84",
   "status": "proved",
   "theorems": [
    "FlowMC.C84_sequence",
    "FlowMC.C84_take_steps",
    "FlowMC.C84_train_model",
    "FlowMC.C84_update_state",
    "FlowMC.C84_tempering"
   ],
   "note": ""
  },
  {
   "property": "C85",
   "status": "proved",
   "theorems": [
    "FlowMC.C85_training",
    "FlowMC.C85_extends"
   ],
   "note": ""
  },
  {
   "property": "C86",
   "status": "proved",
   "theorems": [
    "FlowMC.C86_spline",
    "FlowMC.C86_realNVP",
    "FlowMC.C86_same_draws"
   ],
   "note": ""
  },
  {
   "property": "C87",
   "status": "proved",
   "theorems": [
    "FlowMC.C87_training",
    "FlowMC.C87_extends"
   ],
   "note": ""
  },
  {
   "property": "C88",
   "status": "proved",
   "theorems": [
    "FlowMC.C88_production",
    "FlowMC.C88_sample",
    "FlowMC.C88_adaptive"
   ],
   "note": ""
  },
  {
   "property": "C89",
   "status": "proved",
   "theorems": [
    "FlowMC.C89_production",
    "FlowMC.C89_sample",
    "FlowMC.C89_adaptive"
   ],
   "note": ""
  },
  {
   "property": "C90",
   "status": "proved",
   "theorems": [
    "FlowMC.C90_production",
    "FlowMC.C90_sample",
    "FlowMC.C90_adaptive"
   ],
   "note": ""
  },
  {
   "property": "C91",
   "status": "proved",
   "theorems": [
    "FlowMC.C91_inverse",
    "FlowMC.C91_density",
    "FlowMC.C91_correct_iff",
    "FlowMC.C91_sweep_rows",
    "FlowMC.C91_trained_wrong",
    "FlowMC.C91_trivial",
    "FlowMC.C91_production_iff",
    "FlowMC.C91_production_wrong"
   ],
   "note": ""
  },
  {
   "property": "C92",
   "status": "proved",
   "theorems": [
    "FlowMC.C92_logProb",
    "FlowMC.C92_proposals",
    "FlowMC.C92_optimizerState",
    "FlowMC.C92_step",
    "FlowMC.C92_train",
    "FlowMC.C92_call",
    "FlowMC.C92_sweep",
    "FlowMC.C92_is_realNVP",
    "FlowMC.C92_is_spline",
    "FlowMC.C92_is_stats",
    "FlowMC.C92_is_adamw",
    "FlowMC.C92_base"
   ],
   "note": ""
  },
  {
   "property": "C93",
   "status": "proved",
   "theorems": [
    "FlowMC.C93_steps",
    "FlowMC.C93_uniform",
    "FlowMC.C93_production"
   ],
   "note": ""
  },
  {
   "property": "C94",
   "status": "proved",
   "theorems": [
    "FlowMC.C94_composition",
    "FlowMC.C94_recorded",
    "FlowMC.C94_converges"
   ],
   "note": ""
  },
  {
   "property": "C95",
   "status": "proved",
   "theorems": [
    "FlowMC.C95_production",
    "FlowMC.C95_sample",
    "FlowMC.C95_adaptive",
    "FlowMC.C95_interval"
   ],
   "note": ""
  },
  {
   "property": "C96",
   "status": "proved",
   "theorems": [
    "FlowMC.C96_production",
    "FlowMC.C96_sample",
    "FlowMC.C96_adaptive"
   ],
   "note": ""
  },
  {
   "property": "C97",
   "status": "proved",
   "theorems": [
    "FlowMC.C97_any_order",
    "FlowMC.C97_any_start"
   ],
   "note": ""
  },
  {
   "property": "C98",
   "status": "partial",
   "theorems": [
    "FlowMC.C98_half_turn",
    "FlowMC.C98_no_convergence",
    "FlowMC.C98_rows_half_turn",
    "FlowMC.C98_short_partial",
    "FlowMC.C98_rows_partial"
   ],
   "note": "The full statement is false of the code; the negation is proved with a concrete witness and the _partial theorem says what does hold. for a standard normal target, identity mass matrix and every n_leapfrog >= 1 there is a step size for which every HMC step is exactly half a turn: every step moves x to -x and is accepted whatever momentum is drawn, so each row is the start up to its sign and the law never converges (C98_half_turn, C98_rows_half_turn, C98_no_convergence). Proved: convergence from every start when K m_i step^2 n (n + 2) < 3 for a K-Lipschitz gradient (always for n_leapfrog = 0); exactness for all settings is C25, mixtures with other kernels are C97."
  },
  {
   "property": "C99",
   "status": "proved",
   "theorems": [
    "FlowMC.C99_averages"
   ],
   "note": ""
  },
  {
   "property": "C100",
   "status": "proved",
   "theorems": [
    "FlowMC.C100_production",
    "FlowMC.C100_sample",
    "FlowMC.C100_adaptive"
   ],
   "note": ""
  },
  {
   "property": "C101",
   "status": "proved",
   "theorems": [
    "FlowMC.C101_production",
    "FlowMC.C101_sample",
    "FlowMC.C101_adaptive",
    "FlowMC.C101_interval"
   ],
   "note": ""
  },
  {
   "property": "C102",
   "status": "proved",
   "theorems": [
    "FlowMC.C102_bias",
    "FlowMC.C102_rows",
    "FlowMC.C102_means",
    "FlowMC.C102_walls"
   ],
   "note": ""
  },
  {
   "property": "C103",
   "status": "proved",
   "theorems": [
    "FlowMC.C103_credible",
    "FlowMC.C103_adaptive",
    "FlowMC.C103_walls"
   ],
   "note": ""
  },
  {
   "property": "C104",
   "status": "proved",
   "theorems": [
    "FlowMC.C104_local",
    "FlowMC.C104_flow"
   ],
   "note": ""
  },
  {
   "property": "C105",
   "status": "proved",
   "theorems": [
    "FlowMC.C105_kernel",
    "FlowMC.C105_serial",
    "FlowMC.C105_group",
    "FlowMC.C105_take_steps",
    "FlowMC.C105_train_model",
    "FlowMC.C105_update_state",
    "FlowMC.C105_tempering",
    "FlowMC.C105_sequence",
    "FlowMC.C105_bundle",
    "FlowMC.C105_pt_bundle",
    "FlowMC.C105_optimize"
   ],
   "note": ""
  },
  {
   "property": "C106",
   "status": "partial",
   "theorems": [
    "FlowMC.C106_nan",
    "FlowMC.C106_overcounts",
    "FlowMC.C106_scalar_partial",
    "FlowMC.C106_one_partial"
   ],
   "note": "The full statement is false of the code; the negation is proved with a concrete witness and the _partial theorem says what does hold. get_initial_hamiltonian takes condition_matrix**-0.5 entry by entry, so for every diagonal matrix of dimension at least two it returns NaN (proved for all inputs), and for matrices with positive entries the kinetic energy is d times too large; it is proved right for a number as condition matrix and in dimension one."
  },
  {
   "property": "C107",
   "status": "proved",
   "theorems": [
    "FlowMC.C107_certificate",
    "FlowMC.C107_good_flow",
    "FlowMC.C107_perfect",
    "FlowMC.C107_close",
    "FlowMC.C107_recorded"
   ],
   "note": ""
  },
  {
   "property": "C108",
   "status": "proved",
   "theorems": [
    "FlowMC.C108_step",
    "FlowMC.C108_rate",
    "FlowMC.C108_recorded"
   ],
   "note": ""
  },
  {
   "property": "C109",
   "status": "proved",
   "theorems": [
    "FlowMC.C109_enough",
    "FlowMC.C109_production",
    "FlowMC.C109_adaptive",
    "FlowMC.C109_positive"
   ],
   "note": ""
  },
  {
   "property": "C110",
   "status": "proved",
   "theorems": [
    "FlowMC.C110_kernel",
    "FlowMC.C110_serial",
    "FlowMC.C110_group",
    "FlowMC.C110_replicas",
    "FlowMC.C110_take_steps",
    "FlowMC.C110_update_state",
    "FlowMC.C110_sequence",
    "FlowMC.C110_sample",
    "FlowMC.C110_production",
    "FlowMC.C110_bundle"
   ],
   "note": ""
  },
  {
   "property": "C111",
   "status": "proved",
   "theorems": [
    "FlowMC.C111_frozen_step",
    "FlowMC.C111_frozen_chain",
    "FlowMC.C111_frozen_flow",
    "FlowMC.C111_run",
    "FlowMC.C111_gradient_chain",
    "FlowMC.C111_gradient_entered",
    "FlowMC.C111_exchange",
    "FlowMC.C111_tempering",
    "FlowMC.C111_escape_grw",
    "FlowMC.C111_escape_mala",
    "FlowMC.C111_escape_hmc",
    "FlowMC.C111_escape_flow",
    "FlowMC.C111_enter_posInf",
    "FlowMC.C111_escape_mala_exact",
    "FlowMC.C111_escape_hmc_exact"
   ],
   "note": ""
  },
  {
   "property": "C112",
   "status": "proved",
   "theorems": [
    "FlowMC.C112_separate",
    "FlowMC.C112_shared",
    "FlowMC.C112_training_samples"
   ],
   "note": ""
  },
  {
   "property": "C113",
   "status": "proved",
   "theorems": [
    "FlowMC.C113_positive",
    "FlowMC.C113_production",
    "FlowMC.C113_adaptive"
   ],
   "note": ""
  },
  {
   "property": "C114",
   "status": "proved",
   "theorems": [
    "FlowMC.C114_no_noise",
    "FlowMC.C114_pace",
    "FlowMC.C114_gain",
    "FlowMC.C114_which_way",
    "FlowMC.C114_climbs",
    "FlowMC.C114_noise",
    "FlowMC.C114_overshoots"
   ],
   "note": ""
  },
  {
   "property": "C115",
   "status": "proved",
   "theorems": [
    "FlowMC.C115_rate",
    "FlowMC.C115_improves",
    "FlowMC.C115_decay",
    "FlowMC.C115_when",
    "FlowMC.C115_memory"
   ],
   "note": ""
  },
  {
   "property": "C116",
   "status": "proved",
   "theorems": [
    "FlowMC.C116_step",
    "FlowMC.C116_flat_mala",
    "FlowMC.C116_flat_hmc",
    "FlowMC.C116_serial",
    "FlowMC.C116_serial_flat",
    "FlowMC.C116_take_steps"
   ],
   "note": ""
  },
  {
   "property": "C117",
   "status": "proved",
   "theorems": [
    "FlowMC.C117_sees",
    "FlowMC.C117_one_rung",
    "FlowMC.C117_certain",
    "FlowMC.C117_best_moves",
    "FlowMC.C117_call",
    "FlowMC.C117_production"
   ],
   "note": ""
  },
  {
   "property": "C118",
   "status": "proved",
   "theorems": [
    "FlowMC.C118_backwards",
    "FlowMC.C118_stationary"
   ],
   "note": ""
  },
  {
   "property": "C119",
   "status": "proved",
   "theorems": [
    "FlowMC.C119_thinned",
    "FlowMC.C119_split"
   ],
   "note": ""
  },
  {
   "property": "C120",
   "status": "proved",
   "theorems": [
    "FlowMC.C120_thinning",
    "FlowMC.C120_longer"
   ],
   "note": ""
  },
  {
   "property": "C121",
   "status": "proved",
   "theorems": [
    "FlowMC.C121_autocovariances"
   ],
   "note": ""
  },
  {
   "property": "C122",
   "status": "proved",
   "theorems": [
    "FlowMC.C122_positive",
    "FlowMC.C122_effective_size"
   ],
   "note": ""
  },
  {
   "property": "C123",
   "status": "proved",
   "theorems": [
    "FlowMC.C123_decay",
    "FlowMC.C123_effective_size",
    "FlowMC.C123_how_many",
    "FlowMC.C123_perfect"
   ],
   "note": ""
  },
  {
   "property": "C124",
   "status": "proved",
   "theorems": [
    "FlowMC.C124_rotation",
    "FlowMC.C124_certain",
    "FlowMC.C124_probability",
    "FlowMC.C124_close",
    "FlowMC.C124_adaptation"
   ],
   "note": ""
  },
  {
   "property": "C125",
   "status": "proved",
   "theorems": [
    "FlowMC.C125_independent",
    "FlowMC.C125_pooled",
    "FlowMC.C125_flow",
    "FlowMC.C125_error_bars",
    "FlowMC.C125_at_most",
    "FlowMC.C125_thinning",
    "FlowMC.C125_longer"
   ],
   "note": ""
  }
 ]
}