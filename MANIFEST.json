{
 "claims": [
  {
   "property": "C01",
   "status": "proved",
   "theorems": [
    "PySGMCMC.DataBatches.C01_batches_are_aligned_windows"
   ],
   "note": ""
  },
  {
   "property": "C02",
   "status": "proved",
   "theorems": [
    "PySGMCMC.DataBatches.C02_first_next_fails_iff",
    "PySGMCMC.DataBatches.C02_failed_generator_is_exhausted",
    "PySGMCMC.DataBatches.C02_valid_generator_never_fails"
   ],
   "note": ""
  },
  {
   "property": "C03",
   "status": "proved",
   "theorems": [
    "PySGMCMC.DataBatches.C03_dataset_unchanged"
   ],
   "note": ""
  },
  {
   "property": "C04",
   "status": "proved",
   "theorems": [
    "PySGMCMC.DataBatches.C04_drawable_iff",
    "PySGMCMC.DataBatches.C04_row_frequency",
    "PySGMCMC.DataBatches.C04_every_row_reachable",
    "PySGMCMC.DataBatches.C04_uniform_iff"
   ],
   "note": ""
  },
  {
   "property": "C05",
   "status": "proved",
   "theorems": [
    "PySGMCMC.DataBatches.C05_shuffled_pairs_preserved"
   ],
   "note": ""
  },
  {
   "property": "C06",
   "status": "partial",
   "theorems": [
    "PySGMCMC.DataBatches.C06_caller_arrays_modified",
    "PySGMCMC.DataBatches.C06_caller_arrays_partial"
   ],
   "note": "False of the code: in-place shuffle of numpy views reorders the caller's arrays (C06_caller_arrays_modified). Proved part: only reordering, pairs kept, unchanged when the batch has at most one row."
  },
  {
   "property": "C07",
   "status": "proved",
   "theorems": [
    "PySGMCMC.DataBatches.C07_explicit_seed",
    "PySGMCMC.DataBatches.C07_no_seed",
    "PySGMCMC.DataBatches.C07_shuffled_explicit_seed",
    "PySGMCMC.DataBatches.C07_shuffled_no_seed",
    "PySGMCMC.DataBatches.C07_shuffled_same_windows"
   ],
   "note": ""
  },
  {
   "property": "C08",
   "status": "proved",
   "theorems": [
    "PySGMCMC.Schedules.C08_constant_schedule",
    "PySGMCMC.Schedules.C08_islice"
   ],
   "note": ""
  },
  {
   "property": "C09",
   "status": "proved",
   "theorems": [
    "PySGMCMC.SamplerBase.C09_counting",
    "PySGMCMC.SamplerBase.C09_counting_base"
   ],
   "note": ""
  },
  {
   "property": "C10",
   "status": "proved",
   "theorems": [
    "PySGMCMC.SamplerBase.C10_recording_is_transparent",
    "PySGMCMC.SamplerBase.C10_base_sampler",
    "PySGMCMC.SamplerBase.C10_step_k"
   ],
   "note": ""
  },
  {
   "property": "C11",
   "status": "proved",
   "theorems": [
    "PySGMCMC.SamplerBase.C11_feed_dict_checked",
    "PySGMCMC.SamplerBase.C11_rejected_in_between",
    "PySGMCMC.SamplerBase.C11_failed_step"
   ],
   "note": ""
  },
  {
   "property": "C12",
   "status": "proved",
   "theorems": [
    "PySGMCMC.Chain.C12_sghmc_sampler",
    "PySGMCMC.Chain.C12_sgld_sampler",
    "PySGMCMC.SamplerBase.C12_mass_matrix_frozen",
    "PySGMCMC.SamplerBase.C12_adapting_during_burn_in"
   ],
   "note": ""
  },
  {
   "property": "C13",
   "status": "partial",
   "theorems": [
    "PySGMCMC.Chain.C13_sghmc_partial",
    "PySGMCMC.Chain.C13_sgld_partial",
    "PySGMCMC.Chain.C13_sghmc_violated",
    "PySGMCMC.Chain.C13_sgld_violated"
   ],
   "note": "False of the code: with burn_in_steps = 0 no mass matrix is ever fed, so SGHMC and SGLD keep using the adaptive estimate (C13_sghmc_violated, C13_sgld_violated: displacements under constant gradient and zero noise differ). Proved part: no run is fed a mass matrix and the first step uses the initial one."
  },
  {
   "property": "C14",
   "status": "partial",
   "theorems": [
    "PySGMCMC.SamplerBase.C14_sample_form_partial",
    "PySGMCMC.SamplerBase.C14_violated"
   ],
   "note": "False of the code for one target parameter: a list during burn-in, the bare array afterwards (C14_violated). Proved part: with two or more parameters always the list of all of them, and the exact form in each phase for one parameter."
  },
  {
   "property": "C15",
   "status": "partial",
   "theorems": [
    "PySGMCMC.SamplerBase.C15_feed_dict_partial",
    "PySGMCMC.SamplerBase.C15_violated"
   ],
   "note": "False of the code after burn-in with burn_in_steps > 0: the caller's dictionary is replaced (C15_violated). Proved part: respected in every other phase and by all samplers without burn-in."
  },
  {
   "property": "C16",
   "status": "proved",
   "theorems": [
    "PySGMCMC.SamplerBase.C16_finite_batches",
    "PySGMCMC.SamplerBase.C16_finite_batches_base"
   ],
   "note": "The hypothesis Reliable excludes other failures, as in the statement."
  },
  {
   "property": "C17",
   "status": "proved",
   "theorems": [
    "PySGMCMC.Sampling.C17_arguments",
    "PySGMCMC.Sampling.C17_defaults"
   ],
   "note": ""
  },
  {
   "property": "C18",
   "status": "partial",
   "theorems": [
    "PySGMCMC.Sampling.C18_rejections_partial",
    "PySGMCMC.Sampling.C18_unknown_method",
    "PySGMCMC.Sampling.C18_self_dropped"
   ],
   "note": "False of the code for the single keyword `self`, which is accepted and ignored (C18_self_dropped). Proved part: the exact iff for all other keyword dictionaries (keywords cls/sampling_method clash with get_sampler's own parameters: TypeError)."
  },
  {
   "property": "C19",
   "status": "partial",
   "theorems": [
    "PySGMCMC.Sampling.C19_supported_partial",
    "PySGMCMC.Sampling.C19_violated"
   ],
   "note": "False of the code: is_supported is exactly {SGHMC, SGLD}, the other two enum members are reported unsupported (C19_violated)."
  },
  {
   "property": "C20",
   "status": "partial",
   "theorems": [
    "PySGMCMC.Sampling.C20_schedule_partial",
    "PySGMCMC.Sampling.C20_end_to_end_partial",
    "PySGMCMC.Sampling.C20_violated"
   ],
   "note": "False of the code for SGLD, which drops its schedule (C20_violated). Proved part: all other classes, and all other arguments."
  },
  {
   "property": "C21",
   "status": "proved",
   "theorems": [
    "PySGMCMC.TensorUtils.C21_roundtrip",
    "PySGMCMC.TensorUtils.C21_rowMajor",
    "PySGMCMC.TensorUtils.C21_unvectorize_fails",
    "PySGMCMC.TensorUtils.C21_vectorize_rejects"
   ],
   "note": ""
  },
  {
   "property": "C22",
   "status": "proved",
   "theorems": [
    "PySGMCMC.TensorUtils.C22_order_statistic",
    "PySGMCMC.TensorUtils.C22_order_independent",
    "PySGMCMC.TensorUtils.C22_half"
   ],
   "note": ""
  },
  {
   "property": "C23",
   "status": "proved",
   "theorems": [
    "PySGMCMC.TensorUtils.C23_safe_divide"
   ],
   "note": ""
  },
  {
   "property": "C24",
   "status": "proved",
   "theorems": [
    "PySGMCMC.TensorUtils.C24_safe_sqrt",
    "PySGMCMC.TensorUtils.C24_monotone"
   ],
   "note": ""
  },
  {
   "property": "C25",
   "status": "proved",
   "theorems": [
    "PySGMCMC.TensorUtils.C25_pdist",
    "PySGMCMC.TensorUtils.C25_errors"
   ],
   "note": ""
  },
  {
   "property": "C26",
   "status": "proved",
   "theorems": [
    "PySGMCMC.TensorUtils.C26_success",
    "PySGMCMC.TensorUtils.C26_entries",
    "PySGMCMC.TensorUtils.C26_other_inputs"
   ],
   "note": ""
  },
  {
   "property": "C27",
   "status": "proved",
   "theorems": [
    "PySGMCMC.TensorUtils.C27_distance_matrix",
    "PySGMCMC.TensorUtils.C27_metric"
   ],
   "note": ""
  },
  {
   "property": "C28",
   "status": "proved",
   "theorems": [
    "PySGMCMC.SamplerInit.C28_constructor_init"
   ],
   "note": ""
  },
  {
   "property": "C29",
   "status": "proved",
   "theorems": [
    "PySGMCMC.Chain.C29_sghmc_sampler",
    "PySGMCMC.Chain.C29_sgld_sampler",
    "PySGMCMC.SGHMC.C29_sghmc_statistics",
    "PySGMCMC.SGLD.C29_sgld_statistics"
   ],
   "note": ""
  },
  {
   "property": "C30",
   "status": "proved",
   "theorems": [
    "PySGMCMC.SGHMC.C30_sghmc_bounds",
    "PySGMCMC.SGLD.C30_sgld_bounds"
   ],
   "note": ""
  },
  {
   "property": "C31",
   "status": "proved",
   "theorems": [
    "PySGMCMC.SGHMC.C31_any_order",
    "PySGMCMC.SGHMC.C31_single_parameter",
    "PySGMCMC.SGHMC.C31_equation10"
   ],
   "note": ""
  },
  {
   "property": "C32",
   "status": "proved",
   "theorems": [
    "PySGMCMC.SGHMC.C32_noise"
   ],
   "note": ""
  },
  {
   "property": "C33",
   "status": "proved",
   "theorems": [
    "PySGMCMC.Chain.C33_sghmc_sampler",
    "PySGMCMC.Chain.C33_sgld_sampler",
    "PySGMCMC.Relativistic.C33_relativistic_coherent",
    "PySGMCMC.SGHMC.C33_sghmc_coherent",
    "PySGMCMC.SGLD.C33_sgld_coherent",
    "PySGMCMC.Chain.C33_sample_is_variables"
   ],
   "note": ""
  },
  {
   "property": "C34",
   "status": "proved",
   "theorems": [
    "PySGMCMC.SGLD.C34_any_order",
    "PySGMCMC.SGLD.C34_noise",
    "PySGMCMC.SGLD.C34_langevin_step"
   ],
   "note": ""
  },
  {
   "property": "C35",
   "status": "proved",
   "theorems": [
    "PySGMCMC.Relativistic.C35_speed_limit",
    "PySGMCMC.Relativistic.C35_chain"
   ],
   "note": ""
  },
  {
   "property": "C36",
   "status": "proved",
   "theorems": [
    "PySGMCMC.Relativistic.C36_finite_step",
    "PySGMCMC.Relativistic.C36_stays_finite",
    "PySGMCMC.Relativistic.C36_nan_forever",
    "PySGMCMC.Relativistic.C36_iff"
   ],
   "note": ""
  },
  {
   "property": "C37",
   "status": "partial",
   "theorems": [
    "PySGMCMC.Relativistic.C37_construct_partial",
    "PySGMCMC.Relativistic.C37_violated"
   ],
   "note": "False of the code for every parameter that does not have exactly one element (C37_violated): the momentum is a scalar variable and the increment is reshaped to it. C37_construct_partial characterises the accepted inputs exactly."
  },
  {
   "property": "C38",
   "status": "partial",
   "theorems": [
    "PySGMCMC.Seeds.C38_violated",
    "PySGMCMC.Seeds.C38_no_seed_partial",
    "PySGMCMC.Seeds.C38_sghmc_clones",
    "PySGMCMC.Seeds.C38_sgld_clones",
    "PySGMCMC.Seeds.C38_relativistic_clones"
   ],
   "note": "False of the code whenever a seed is given (C38_violated: identical noise in all parameters of equal size; C38_*_clones: parameters with equal start and gradient stay equal forever). C38_no_seed_partial: without sampler seed all noise ops of a graph have different generator states."
  },
  {
   "property": "C39",
   "status": "proved",
   "theorems": [
    "PySGMCMC.Relativistic.C39_log_concave"
   ],
   "note": ""
  },
  {
   "property": "C40",
   "status": "partial",
   "theorems": [
    "PySGMCMC.Relativistic.C40_relativistic_any_order",
    "PySGMCMC.Relativistic.C40_relativistic_partial",
    "PySGMCMC.SGHMC.C40_sghmc_partial",
    "PySGMCMC.SGHMC.C40_violated",
    "PySGMCMC.SGLD.C40_sgld_partial",
    "PySGMCMC.SVGD.C40_svgd_deterministic"
   ],
   "note": "False of the code when the cost couples several target parameters: the gradient of one parameter may see the old or the new value of another one, depending on the runtime's order (C40_violated). Proved part: deterministic whenever each gradient depends on its own parameter only, in particular for one parameter; C31_any_order/C34_any_order say exactly what can happen otherwise."
  },
  {
   "property": "C41",
   "status": "proved",
   "theorems": [
    "PySGMCMC.SVGD.C41_kernel",
    "PySGMCMC.SVGD.C41_degenerate",
    "PySGMCMC.SVGD.C41_collapsed_start"
   ],
   "note": ""
  },
  {
   "property": "C42",
   "status": "partial",
   "theorems": [
    "PySGMCMC.SVGD.C42_violated",
    "PySGMCMC.SVGD.C42_common_coordinate_partial"
   ],
   "note": "False of the code (C42_violated, for every configuration): the kernel gradient enters the descent step with the wrong sign, so outer particles are attracted. Proved: coordinates in which all particles agree do not move."
  },
  {
   "property": "C43",
   "status": "proved",
   "theorems": [
    "PySGMCMC.SVGD.C43_step",
    "PySGMCMC.SVGD.C43_chain"
   ],
   "note": ""
  },
  {
   "property": "C44",
   "status": "partial",
   "theorems": [
    "PySGMCMC.SVGD.C44_construct_partial",
    "PySGMCMC.SVGD.C44_violated"
   ],
   "note": "False of the code (C44_violated): a single particle, one-dimensional and scalar particles are rejected because tf.squeeze also removes these axes. Proved: the exact condition under which the constructor succeeds."
  },
  {
   "property": "C45",
   "status": "proved",
   "theorems": [
    "PySGMCMC.SVGD.C45_translation",
    "PySGMCMC.SVGD.C45_relabel_kernel",
    "PySGMCMC.SVGD.C45_relabel_step"
   ],
   "note": ""
  },
  {
   "property": "C46",
   "status": "proved",
   "theorems": [
    "PySGMCMC.SampleChains.C46_get_values",
    "PySGMCMC.SampleChains.C46_table",
    "PySGMCMC.SampleChains.C46_array",
    "PySGMCMC.SampleChains.C46_negative_burn",
    "PySGMCMC.SampleChains.C46_errors"
   ],
   "note": ""
  },
  {
   "property": "C47",
   "status": "proved",
   "theorems": [
    "PySGMCMC.SampleChains.C47_get_item",
    "PySGMCMC.SampleChains.C47_bad_index",
    "PySGMCMC.SampleChains.C47_duplicate_names"
   ],
   "note": ""
  },
  {
   "property": "C48",
   "status": "proved",
   "theorems": [
    "PySGMCMC.SampleChains.C48_point",
    "PySGMCMC.SampleChains.C48_bad_index"
   ],
   "note": ""
  },
  {
   "property": "C49",
   "status": "partial",
   "theorems": [
    "PySGMCMC.SampleChains.C49_keep_all_partial",
    "PySGMCMC.SampleChains.C49_violated"
   ],
   "note": "False of the code: keep_every is ignored (C49_violated, for every n, k >= 2). Proved: for keep_every=1 exactly the next n samples are recorded."
  },
  {
   "property": "C50",
   "status": "partial",
   "theorems": [
    "PySGMCMC.SampleChains.C50_recorded_partial",
    "PySGMCMC.SampleChains.C50_single_partial",
    "PySGMCMC.SampleChains.C50_violated_boundary",
    "PySGMCMC.SampleChains.C50_violated_vector"
   ],
   "note": "False for samplers with a single parameter: a trace across the burn-in boundary cannot be read (C50_violated_boundary), a vector cannot be recorded after burn-in (C50_violated_vector). Proved: all samplers with two or more parameters at any time, and single parameters within one phase."
  },
  {
   "property": "C51",
   "status": "partial",
   "theorems": [
    "PySGMCMC.SampleChains.C51_full_slice_partial",
    "PySGMCMC.SampleChains.C51_violated",
    "PySGMCMC.SampleChains.C51_violated_reversed"
   ],
   "note": "False of the code: slices are applied to time and names at once; every proper selection of parameters raises AssertionError (C51_violated) and [::-1] mixes up the names (C51_violated_reversed). Proved: trace[:] is the trace."
  },
  {
   "property": "C52",
   "status": "proved",
   "theorems": [
    "PySGMCMC.SampleChains.C52_multitrace",
    "PySGMCMC.SampleChains.C52_succeeds",
    "PySGMCMC.SampleChains.C52_failure"
   ],
   "note": ""
  },
  {
   "property": "C53",
   "status": "proved",
   "theorems": [
    "PySGMCMC.BaseModel.C53_normalize",
    "PySGMCMC.BaseModel.C53_roundtrip",
    "PySGMCMC.BaseModel.C53_constant",
    "PySGMCMC.BaseModel.C53_given"
   ],
   "note": ""
  },
  {
   "property": "C54",
   "status": "proved",
   "theorems": [
    "PySGMCMC.BaseModel.C54_normalize",
    "PySGMCMC.BaseModel.C54_empty",
    "PySGMCMC.BaseModel.C54_given"
   ],
   "note": ""
  },
  {
   "property": "C55",
   "status": "proved",
   "theorems": [
    "PySGMCMC.BaseModel.C55_incumbent",
    "PySGMCMC.BaseModel.C55_empty"
   ],
   "note": ""
  },
  {
   "property": "C56",
   "status": "proved",
   "theorems": [
    "PySGMCMC.BaseModel.C56_update",
    "PySGMCMC.BaseModel.C56_history",
    "PySGMCMC.BaseModel.C56_update_errors",
    "PySGMCMC.BaseModel.C56_succeeds"
   ],
   "note": ""
  },
  {
   "property": "C57",
   "status": "proved",
   "theorems": [
    "PySGMCMC.BNN.C57_construct"
   ],
   "note": ""
  },
  {
   "property": "C58",
   "status": "proved",
   "theorems": [
    "PySGMCMC.BNN.C58_collect",
    "PySGMCMC.BNN.C58_stops",
    "PySGMCMC.BNN.C58_failure"
   ],
   "note": ""
  },
  {
   "property": "C59",
   "status": "partial",
   "theorems": [
    "PySGMCMC.BNN.C59_count_partial",
    "PySGMCMC.BNN.C59_violated"
   ],
   "note": "False of the code for configurations with too few iterations (C59_violated: for every n_iters <= burn_in_steps + 1 no network is stored and predict returns NaN without error). Proved: the exact number of stored networks, and the exact condition for n_nets."
  },
  {
   "property": "C60",
   "status": "proved",
   "theorems": [
    "PySGMCMC.BNN.C60_untrained",
    "PySGMCMC.BNN.C60_failed_first"
   ],
   "note": ""
  },
  {
   "property": "C61",
   "status": "proved",
   "theorems": [
    "PySGMCMC.BNN.C61_summary",
    "PySGMCMC.BNN.C61_same_errors"
   ],
   "note": ""
  },
  {
   "property": "C62",
   "status": "proved",
   "theorems": [
    "PySGMCMC.BNN.C62_pointwise"
   ],
   "note": ""
  },
  {
   "property": "C63",
   "status": "partial",
   "theorems": [
    "PySGMCMC.BNN.C63_total_partial",
    "PySGMCMC.BNN.C63_violated"
   ],
   "note": "False of the code (C63_violated: one stored network gives variance 0 whatever its noise estimate). Proved: the returned variance is the law-of-total-variance value minus the mean of the predicted noise variances."
  },
  {
   "property": "C64",
   "status": "partial",
   "theorems": [
    "PySGMCMC.BNN.C64_average_partial",
    "PySGMCMC.BNN.C64_gaussian_partial",
    "PySGMCMC.BNN.C64_order_partial",
    "PySGMCMC.BNN.C64_violated"
   ],
   "note": "False of the code for minibatches with another number of rows than batch_size (C64_violated: factor rows/batch_size). Proved: for full minibatches the average, its relation to the Gaussian log density including the 1e-16 guard, and order independence for all minibatches."
  },
  {
   "property": "C65",
   "status": "proved",
   "theorems": [
    "PySGMCMC.BNN.C65_weight_prior",
    "PySGMCMC.BNN.C65_log_variance_prior"
   ],
   "note": ""
  },
  {
   "property": "C66",
   "status": "proved",
   "theorems": [
    "PySGMCMC.BNN.C66_rowwise",
    "PySGMCMC.BNN.C66_bounded"
   ],
   "note": ""
  },
  {
   "property": "C67",
   "status": "partial",
   "theorems": [
    "PySGMCMC.BNN.C67_stored_partial",
    "PySGMCMC.BNN.C67_single_variable",
    "PySGMCMC.BNN.C67_array",
    "PySGMCMC.BNN.C67_forms_partial"
   ],
   "note": "False of the code for networks with a single variable (C67_single_variable: ValueError or TypeError). Proved: for stored lists of arrays (two or more variables, see C67_forms_partial) every variable has exactly its stored value."
  },
  {
   "property": "C68",
   "status": "proved",
   "theorems": [
    "PySGMCMC.Objectives.C68_rosenbrock",
    "PySGMCMC.Objectives.C68_rosenbrock_value",
    "PySGMCMC.Objectives.C68_banana",
    "PySGMCMC.Objectives.C68_goldstein_price"
   ],
   "note": ""
  },
  {
   "property": "C69",
   "status": "proved",
   "theorems": [
    "PySGMCMC.Objectives.C69_bohachevski",
    "PySGMCMC.Objectives.C69_levy",
    "PySGMCMC.Objectives.C69_sin_one",
    "PySGMCMC.Objectives.C69_sin_two",
    "PySGMCMC.Objectives.C69_sinc"
   ],
   "note": ""
  },
  {
   "property": "C70",
   "status": "proved",
   "theorems": [
    "PySGMCMC.Objectives.C70_density",
    "PySGMCMC.Objectives.C70_integral",
    "PySGMCMC.Objectives.C70_predefined",
    "PySGMCMC.Objectives.C70_rejected"
   ],
   "note": ""
  },
  {
   "property": "C71",
   "status": "proved",
   "theorems": [
    "PySGMCMC.Objectives.C71_negated",
    "PySGMCMC.Objectives.C71_involutive",
    "PySGMCMC.Objectives.C71_order"
   ],
   "note": ""
  },
  {
   "property": "C72",
   "status": "proved",
   "theorems": [
    "PySGMCMC.SamplerBase.C72_constructor_checks",
    "PySGMCMC.SamplerBase.C72_burn_in_checks"
   ],
   "note": ""
  },
  {
   "property": "C73",
   "status": "partial",
   "theorems": [
    "PySGMCMC.Relativistic.C73_relativistic_cost_partial",
    "PySGMCMC.SGHMC.C73_cost_partial",
    "PySGMCMC.SGHMC.C73_violated",
    "PySGMCMC.SGLD.C73_sgld_cost_partial",
    "PySGMCMC.SVGD.C73_svgd_cost"
   ],
   "note": "False of the code: nothing orders the cost node before the parameter assignments (C73_violated). Proved part: every parameter enters the returned cost with its value before or after the step."
  },
  {
   "property": "C74",
   "status": "proved",
   "theorems": [
    "PySGMCMC.Seeds.C74_seed_reproducible",
    "PySGMCMC.Seeds.C74_same_seed"
   ],
   "note": ""
  },
  {
   "property": "C75",
   "status": "partial",
   "theorems": [
    "PySGMCMC.BNN.C75_rejected_partial",
    "PySGMCMC.BNN.C75_violated_nan",
    "PySGMCMC.BNN.C75_violated_net"
   ],
   "note": "False of the code (C75_violated_nan: failure while sampler or batches are built loses the stored networks, predict silently returns NaN; C75_violated_net: failure while the network is built makes predict fail). Proved: a call rejected by the shape check changes nothing."
  },
  {
   "property": "C76",
   "status": "proved",
   "theorems": [
    "PySGMCMC.Objectives.C76_branin",
    "PySGMCMC.Objectives.C76_branin_documented"
   ],
   "note": ""
  },
  {
   "property": "C77",
   "status": "proved",
   "theorems": [
    "PySGMCMC.Objectives.C77_camelback"
   ],
   "note": ""
  },
  {
   "property": "C78",
   "status": "proved",
   "theorems": [
    "PySGMCMC.Objectives.C78_hartmann3",
    "PySGMCMC.Objectives.C78_hartmann6",
    "PySGMCMC.Objectives.C78_short"
   ],
   "note": ""
  },
  {
   "property": "C79",
   "status": "proved",
   "theorems": [
    "PySGMCMC.SampleChains.C79_anonymous",
    "PySGMCMC.SampleChains.C79_scalar"
   ],
   "note": ""
  },
  {
   "property": "C80",
   "status": "proved",
   "theorems": [
    "PySGMCMC.SamplerDiagnostics.C80_diagnostics",
    "PySGMCMC.SamplerDiagnostics.C80_chains",
    "PySGMCMC.SamplerDiagnostics.C80_failure",
    "PySGMCMC.SamplerDiagnostics.C80_defaults"
   ],
   "note": ""
  },
  {
   "property": "C81",
   "status": "proved",
   "theorems": [
    "PySGMCMC.ComputeEss.C81_extract",
    "PySGMCMC.ComputeEss.C81_extract_error"
   ],
   "note": ""
  },
  {
   "property": "C82",
   "status": "partial",
   "theorems": [
    "PySGMCMC.ComputeEss.C82_banana_partial",
    "PySGMCMC.ComputeEss.C82_gmm_partial",
    "PySGMCMC.ComputeEss.C82_violated"
   ],
   "note": "False of the code (C82_violated: --keep-every has no effect, thinning is always by 10). Proved: the property for --keep-every 10, for the two-parameter and the one-parameter benchmarks."
  },
  {
   "property": "C83",
   "status": "proved",
   "theorems": [
    "PySGMCMC.ComputeEss.C83_stepsizes",
    "PySGMCMC.ComputeEss.C83_upper_end",
    "PySGMCMC.ComputeEss.C83_counts"
   ],
   "note": ""
  },
  {
   "property": "C84",
   "status": "proved",
   "theorems": [
    "PySGMCMC.ComputeEss.C84_accepts",
    "PySGMCMC.ComputeEss.C84_rejects"
   ],
   "note": ""
  },
  {
   "property": "C85",
   "status": "proved",
   "theorems": [
    "PySGMCMC.BNN.C85_units",
    "PySGMCMC.BNN.C85_same_transform"
   ],
   "note": ""
  },
  {
   "property": "C86",
   "status": "proved",
   "theorems": [
    "PySGMCMC.BNNSampler.C86_arguments",
    "PySGMCMC.BNNSampler.C86_own_parameters",
    "PySGMCMC.BNNSampler.C86_unknown"
   ],
   "note": ""
  },
  {
   "property": "C87",
   "status": "partial",
   "theorems": [
    "PySGMCMC.BNNSampler.C87_schedule_partial",
    "PySGMCMC.BNNSampler.C87_violated"
   ],
   "note": "False of the code (C87_violated: with SGLD the sampler always uses the constant stepsize 0.01). Proved: the property for SGHMC."
  },
  {
   "property": "C88",
   "status": "proved",
   "theorems": [
    "PySGMCMC.Chain.C88_sghmc_chain",
    "PySGMCMC.Chain.C88_sghmc_deterministic"
   ],
   "note": ""
  },
  {
   "property": "C89",
   "status": "proved",
   "theorems": [
    "PySGMCMC.Chain.C89_sgld_chain",
    "PySGMCMC.Chain.C89_sgld_deterministic"
   ],
   "note": ""
  },
  {
   "property": "C90",
   "status": "proved",
   "theorems": [
    "PySGMCMC.Chain.C90_relativistic_chain",
    "PySGMCMC.Chain.C90_relativistic_deterministic"
   ],
   "note": ""
  },
  {
   "property": "C91",
   "status": "proved",
   "theorems": [
    "PySGMCMC.Chain.C91_svgd_chain",
    "PySGMCMC.Chain.C91_separated"
   ],
   "note": ""
  },
  {
   "property": "C92",
   "status": "proved",
   "theorems": [
    "PySGMCMC.C92_exactly_one",
    "PySGMCMC.C92_number_of_draws",
    "PySGMCMC.C92_draws_determine",
    "PySGMCMC.DataBatches.C92_batches"
   ],
   "note": ""
  },
  {
   "property": "C93",
   "status": "proved",
   "theorems": [
    "PySGMCMC.Chain.C93_sgld_law"
   ],
   "note": ""
  },
  {
   "property": "C94",
   "status": "proved",
   "theorems": [
    "PySGMCMC.Chain.C94_sghmc_law",
    "PySGMCMC.Chain.C94_limit_variance"
   ],
   "note": ""
  },
  {
   "property": "C95",
   "status": "proved",
   "theorems": [
    "PySGMCMC.BNNPosterior.C95_default_network",
    "PySGMCMC.BNNSystem.C95_train_and_predict",
    "PySGMCMC.BNNSystem.C95_variables"
   ],
   "note": ""
  },
  {
   "property": "C96",
   "status": "proved",
   "theorems": [
    "PySGMCMC.BurnInAverage.C96_sghmc_average",
    "PySGMCMC.BurnInAverage.C96_sgld_average",
    "PySGMCMC.BurnInAverage.C96_sghmc_limit",
    "PySGMCMC.BurnInAverage.C96_sgld_limit",
    "PySGMCMC.BurnInAverage.C96_sghmc_frozen",
    "PySGMCMC.BurnInAverage.C96_sgld_frozen"
   ],
   "note": ""
  },
  {
   "property": "C97",
   "status": "proved",
   "theorems": [
    "PySGMCMC.SVGD.C97_kernel_gradient",
    "PySGMCMC.SVGD.C97_descent"
   ],
   "note": ""
  },
  {
   "property": "C98",
   "status": "partial",
   "theorems": [
    "PySGMCMC.MultiTrace.C98_unstepped_partial",
    "PySGMCMC.MultiTrace.C98_recorded_partial",
    "PySGMCMC.MultiTrace.C98_burnin_violated"
   ],
   "note": "False of the code: pymc3_multitrace runs the variable initializer after get_sampler, which resets momenta, running averages and (in the witness: parameters initialized before working copies) the positions of burnt-in samplers (C98_burnin_violated). Proved: exactly what is recorded instead for every order, and the property for samplers that were not stepped before."
  },
  {
   "property": "C99",
   "status": "partial",
   "theorems": [
    "PySGMCMC.Chain.C99_sghmc_restart_partial",
    "PySGMCMC.Chain.C99_sgld_restart_partial",
    "PySGMCMC.Chain.C99_relativistic_restart_partial",
    "PySGMCMC.SamplerInit.C99_reinit_partial",
    "PySGMCMC.SamplerInit.C99_working_copy_violated",
    "PySGMCMC.Chain.C99_restart_violated"
   ],
   "note": "False of the code for initial values that change between runs (random ones): the working copy may keep the previous value (C99_working_copy_violated), and the chain then differs from one started at the parameters (C99_restart_violated). Proved: for every order which value the working copy gets (equal to the parameter if the initial value did not change), and the chains of SGHMC, SGLD and relativistic SGHMC from separate values of parameters and working copies; SVGD has no working copies (C91)."
  },
  {
   "property": "C100",
   "status": "partial",
   "theorems": [
    "PySGMCMC.BNN.C100_lookup",
    "PySGMCMC.BNN.C100_incumbent_partial",
    "PySGMCMC.BNN.C100_constant",
    "PySGMCMC.BNN.C100_missing",
    "PySGMCMC.BNN.C100_untrained",
    "PySGMCMC.BNN.C100_violated"
   ],
   "note": "False of the code: BayesianNeuralNetwork derives from object, so it has no get_incumbent at all (C100_missing, C100_lookup). In a class deriving from it and from BaseModel the property is false with output normalization: the returned value is the smallest normalized label, and the point is in normalized units (C100_violated). Proved for such a class: which point is returned in every setting, that without normalization it is the best training point with its label, the NaN case of constant labels (C100_constant) and the failure before training (C100_untrained)."
  },
  {
   "property": "C101",
   "status": "partial",
   "theorems": [
    "PySGMCMC.BNN.C101_update_partial",
    "PySGMCMC.BNN.C101_missing",
    "PySGMCMC.BNN.C101_rejected",
    "PySGMCMC.BNN.C101_violated",
    "PySGMCMC.BNN.C101_violated_mean"
   ],
   "note": "False of the code: BayesianNeuralNetwork derives from object, so it has no update at all (C101_missing). In a class deriving from it and from BaseModel the property is false with normalization: train stores normalized data, and update concatenates raw data to it (C101_violated, C101_violated_mean). Proved for such a class: without normalization, for every sequence of updates, the network holds the concatenation of all data; update before training or with other shapes is rejected (C101_rejected)."
  },
  {
   "property": "C102",
   "status": "partial",
   "theorems": [
    "PySGMCMC.BNNGraph.C102_first_partial",
    "PySGMCMC.BNNGraph.C102_retrain_violated",
    "PySGMCMC.BNNGraph.C102_default_first_partial",
    "PySGMCMC.BNNGraph.C102_default_violated",
    "PySGMCMC.BNNGraph.C102_predict_violated",
    "PySGMCMC.BNNGraph.C102_prior_violated"
   ],
   "note": "False of the code: the working copies the samplers create are themselves trainable, so the (k+1)-th training in a graph samples (2^(k+1)-1)n variables (C102_retrain_violated); the default network cannot be trained twice in one graph (C102_default_violated); predict and the prior are affected (C102_predict_violated, C102_prior_violated). Proved: the first training in a fresh graph samples exactly the network's variables (C102_first_partial)."
  },
  {
   "property": "C103",
   "status": "proved",
   "theorems": [
    "PySGMCMC.Invariance.C103_sgld_invariant",
    "PySGMCMC.Invariance.C103_sgld_polynomial"
   ],
   "note": ""
  },
  {
   "property": "C104",
   "status": "proved",
   "theorems": [
    "PySGMCMC.Invariance.C104_relativistic_invariant"
   ],
   "note": ""
  },
  {
   "property": "C105",
   "status": "proved",
   "theorems": [
    "PySGMCMC.Invariance.C105_sghmc_invariant",
    "PySGMCMC.Invariance.C105_sghmc_polynomial"
   ],
   "note": ""
  },
  {
   "property": "C106",
   "status": "partial",
   "theorems": [
    "PySGMCMC.WindowBias.C106_gradient_partial",
    "PySGMCMC.WindowBias.C106_unbiased_iff",
    "PySGMCMC.WindowBias.C106_violated",
    "PySGMCMC.WindowBias.C106_sgld_partial"
   ],
   "note": "False of the code unless the batch size is 1 or the number of rows (C106_unbiased_iff): batches are contiguous windows, so row i of N is drawn with weight min(i+1, b, N-b+1, N-i)/(b(N-b+1)); rows near both ends are underrepresented (C106_violated). Proved: the minibatch gradients average to the gradient of the loss with these weights, and SGLD then leaves the corresponding density invariant up to the step-size error (C106_gradient_partial, C106_sgld_partial)."
  },
  {
   "property": "C107",
   "status": "proved",
   "theorems": [
    "PySGMCMC.ShuffledFair.C107_fair_in_the_long_run",
    "PySGMCMC.ShuffledFair.C107_first_batch"
   ],
   "note": ""
  },
  {
   "property": "C108",
   "status": "partial",
   "theorems": [
    "PySGMCMC.BNNPosterior.C108_target_partial",
    "PySGMCMC.BNNPosterior.C108_posterior_iff",
    "PySGMCMC.BNNPosterior.C108_violated",
    "PySGMCMC.BNNPosterior.C108_proper"
   ],
   "note": "False of the code unless the batch size is 1 or the number of rows (C108_posterior_iff): with generate_batches' windows the likelihood of row i enters with power N*w_i (w_i the weights of C106), and if batch_size exceeds the number of rows N every row enters with power N/batch_size < 1, because the cost divides by the configured batch size (C108_violated). Proved: the exact density that is targeted for every batch size (C108_target_partial) and that it is proper with all moments (C108_proper)."
  },
  {
   "property": "C109",
   "status": "proved",
   "theorems": [
    "PySGMCMC.BNNPosterior.C109_sgld",
    "PySGMCMC.BNNPosterior.C109_sghmc",
    "PySGMCMC.BNNPosterior.C109_default_layout",
    "PySGMCMC.BNNPosterior.C109_default_network"
   ],
   "note": ""
  },
  {
   "property": "C110",
   "status": "partial",
   "theorems": [
    "PySGMCMC.Rounded.C110_safe_divide",
    "PySGMCMC.Rounded.C110_accuracy",
    "PySGMCMC.Rounded.C110_default_partial",
    "PySGMCMC.Rounded.C110_violated",
    "PySGMCMC.Rounded.C110_safe_sqrt",
    "PySGMCMC.Rounded.C110_safe_sqrt_monotone"
   ],
   "note": "False for float16: the default small_constant 1e-16 rounds to zero there, so safe_divide(1, 0) is infinite and safe_divide(0, 0) NaN (C110_violated). Proved: the statement for every format and every representable positive small_constant (C110_safe_divide, C110_accuracy), for the default constant in every format that can hold 2^-54, in particular float32 and float64 (C110_default_partial), and for safe_sqrt without restriction."
  },
  {
   "property": "C111",
   "status": "proved",
   "theorems": [
    "PySGMCMC.Rounded.C111_dimension",
    "PySGMCMC.Rounded.C111_squareform",
    "PySGMCMC.Rounded.C111_midpoint",
    "PySGMCMC.Rounded.C111_midpoint_overflow",
    "PySGMCMC.Rounded.C111_median"
   ],
   "note": ""
  },
  {
   "property": "C112",
   "status": "proved",
   "theorems": [
    "PySGMCMC.Rounded.C112_zero_one",
    "PySGMCMC.Rounded.C112_array",
    "PySGMCMC.Rounded.C112_standardize"
   ],
   "note": ""
  },
  {
   "property": "C113",
   "status": "proved",
   "theorems": [
    "PySGMCMC.Rounded.C113_speed_limit",
    "PySGMCMC.Rounded.C113_direction",
    "PySGMCMC.Rounded.C113_stall",
    "PySGMCMC.Rounded.C113_position",
    "PySGMCMC.Rounded.C113_noise"
   ],
   "note": ""
  },
  {
   "property": "C114",
   "status": "proved",
   "theorems": [
    "PySGMCMC.Rounded.C114_statistics",
    "PySGMCMC.Rounded.C114_rate",
    "PySGMCMC.Rounded.C114_overflow"
   ],
   "note": ""
  },
  {
   "property": "C115",
   "status": "proved",
   "theorems": [
    "PySGMCMC.Rounded.C115_sghmc_sigma",
    "PySGMCMC.Rounded.C115_sghmc",
    "PySGMCMC.Rounded.C115_sgld_sigma",
    "PySGMCMC.Rounded.C115_sgld"
   ],
   "note": ""
  },
  {
   "property": "C116",
   "status": "proved",
   "theorems": [
    "PySGMCMC.Rounded.C116_hist",
    "PySGMCMC.Rounded.C116_adj",
    "PySGMCMC.Rounded.C116_run",
    "PySGMCMC.Rounded.C116_frozen",
    "PySGMCMC.Rounded.C116_defaults"
   ],
   "note": ""
  },
  {
   "property": "C117",
   "status": "proved",
   "theorems": [
    "PySGMCMC.Rounded.C117_mean",
    "PySGMCMC.Rounded.C117_standardize",
    "PySGMCMC.Rounded.C117_constant"
   ],
   "note": ""
  },
  {
   "property": "C118",
   "status": "proved",
   "theorems": [
    "PySGMCMC.Rounded.C118_predict",
    "PySGMCMC.Rounded.C118_single",
    "PySGMCMC.Rounded.C118_unnormalized"
   ],
   "note": ""
  },
  {
   "property": "C119",
   "status": "proved",
   "theorems": [
    "PySGMCMC.Chain.C119_sgld_step",
    "PySGMCMC.Chain.C119_sgld_moment"
   ],
   "note": ""
  },
  {
   "property": "C120",
   "status": "proved",
   "theorems": [
    "PySGMCMC.Chain.C120_sghmc_step",
    "PySGMCMC.Chain.C120_sghmc_moment"
   ],
   "note": ""
  },
  {
   "property": "C121",
   "status": "proved",
   "theorems": [
    "PySGMCMC.BNNSystemSGLD.C121_train_and_predict",
    "PySGMCMC.BNNSystemSGLD.C121_variables"
   ],
   "note": ""
  },
  {
   "property": "C122",
   "status": "partial",
   "theorems": [
    "PySGMCMC.BNNMalformed.C122_shape",
    "PySGMCMC.BNNMalformed.C122_labels_sghmc_partial",
    "PySGMCMC.BNNMalformed.C122_labels_sgld_partial",
    "PySGMCMC.BNNMalformed.C122_empty_violated"
   ],
   "note": "The last clause is false of the code: with SGHMC an empty data set is accepted, training succeeds and every stored network consists of NaN (C122_empty_violated), because the batch generator yields empty batches and the gradient is scaled by 1/0. Proved: arrays that are not matrices (C122_shape) and label vectors of the wrong length (C122_labels_sghmc_partial, C122_labels_sgld_partial) are rejected."
  },
  {
   "property": "C123",
   "status": "proved",
   "theorems": [
    "PySGMCMC.Chain.C123_sgld_converges",
    "PySGMCMC.Chain.C123_error_vanishes"
   ],
   "note": ""
  },
  {
   "property": "C124",
   "status": "proved",
   "theorems": [
    "PySGMCMC.BaseModel.C124_elements",
    "PySGMCMC.BaseModel.C124_recover",
    "PySGMCMC.BaseModel.C124_empty",
    "PySGMCMC.BaseModel.C124_trained"
   ],
   "note": ""
  },
  {
   "property": "C125",
   "status": "proved",
   "theorems": [
    "PySGMCMC.Chain.C125_sghmc_converges"
   ],
   "note": ""
  },
  {
   "property": "C126",
   "status": "proved",
   "theorems": [
    "PySGMCMC.Chain.C126_sgld_averages",
    "PySGMCMC.Chain.C126_long_runs"
   ],
   "note": ""
  },
  {
   "property": "C127",
   "status": "proved",
   "theorems": [
    "PySGMCMC.Chain.C127_sghmc_averages"
   ],
   "note": ""
  },
  {
   "property": "C128",
   "status": "proved",
   "theorems": [
    "PySGMCMC.Chain.C128_sgld_forgets"
   ],
   "note": ""
  },
  {
   "property": "C129",
   "status": "proved",
   "theorems": [
    "PySGMCMC.Chain.C129_mixtures_forget"
   ],
   "note": ""
  },
  {
   "property": "C130",
   "status": "proved",
   "theorems": [
    "PySGMCMC.Chain.C130_sghmc_forgets"
   ],
   "note": ""
  },
  {
   "property": "C131",
   "status": "proved",
   "theorems": [
    "PySGMCMC.Chain.C131_mixtures_forget"
   ],
   "note": ""
  },
  {
   "property": "C132",
   "status": "proved",
   "theorems": [
    "PySGMCMC.Chain.C132_sgld_posterior"
   ],
   "note": ""
  },
  {
   "property": "C133",
   "status": "proved",
   "theorems": [
    "PySGMCMC.Chain.C133_sgld_mixtures"
   ],
   "note": ""
  },
  {
   "property": "C134",
   "status": "proved",
   "theorems": [
    "PySGMCMC.Chain.C134_sghmc_posterior"
   ],
   "note": ""
  },
  {
   "property": "C135",
   "status": "proved",
   "theorems": [
    "PySGMCMC.Chain.C135_sghmc_mixtures"
   ],
   "note": ""
  },
  {
   "property": "C136",
   "status": "proved",
   "theorems": [
    "PySGMCMC.Dtypes.C136_sghmc",
    "PySGMCMC.Dtypes.C136_sgld",
    "PySGMCMC.Dtypes.C136_relativistic",
    "PySGMCMC.Dtypes.C136_svgd",
    "PySGMCMC.Dtypes.C136_network"
   ],
   "note": ""
  },
  {
   "property": "C137",
   "status": "partial",
   "theorems": [
    "PySGMCMC.Dtypes.C137_pdist_partial",
    "PySGMCMC.Dtypes.C137_pdist_violated",
    "PySGMCMC.Dtypes.C137_squareform",
    "PySGMCMC.Dtypes.C137_median"
   ],
   "note": "False of pdist for a matrix with one row: tf.convert_to_tensor([]) is a float32 tensor whatever the type of the input (C137_pdist_violated), so an SVGD sampler with one float64 particle fails on mixed types. Proved: pdist of two or more rows (C137_pdist_partial), squareform and median without restriction."
  },
  {
   "property": "C138",
   "status": "proved",
   "theorems": [
    "PySGMCMC.Chain.C138_sgld_coupled"
   ],
   "note": ""
  },
  {
   "property": "C139",
   "status": "proved",
   "theorems": [
    "PySGMCMC.Chain.C139_sghmc_coupled"
   ],
   "note": ""
  },
  {
   "property": "C140",
   "status": "proved",
   "theorems": [
    "PySGMCMC.Chain.C140_sghmc_uniform"
   ],
   "note": ""
  },
  {
   "property": "C141",
   "status": "partial",
   "theorems": [
    "PySGMCMC.SVGD.C141_svgd_partial",
    "PySGMCMC.SVGD.C141_svgd_chain_partial",
    "PySGMCMC.SGHMC.C141_sghmc_partial",
    "PySGMCMC.SGHMC.C141_sghmc_lost_violated",
    "PySGMCMC.SGHMC.C141_sghmc_step_violated",
    "PySGMCMC.SGLD.C141_sgld_partial",
    "PySGMCMC.SGLD.C141_sgld_lost_violated",
    "PySGMCMC.SGLD.C141_sgld_step_violated",
    "PySGMCMC.Relativistic.C141_relativistic_partial",
    "PySGMCMC.Relativistic.C141_relativistic_lost_violated",
    "PySGMCMC.Relativistic.C141_relativistic_step_violated",
    "PySGMCMC.Relativistic.C141_relativistic_far_violated"
   ],
   "note": "Holds for SVGD (C141_svgd_partial, C141_svgd_chain_partial). False for SGHMC, SGLD and relativistic SGHMC: they add the step to their own vectorized copy of the parameter and then overwrite the parameter with it (base_classes.py:103, sghmc.py:241-250, sgld.py:201-211, relativistic_sghmc.py:132-140), so an assigned value only influences where the next gradient is evaluated; with a linear cost no assignment has any effect on any sample (C141_*_lost_violated)."
  },
  {
   "property": "C142",
   "status": "proved",
   "theorems": [
    "PySGMCMC.Chain.C142_sgld_orders"
   ],
   "note": ""
  },
  {
   "property": "C143",
   "status": "proved",
   "theorems": [
    "PySGMCMC.Gradients.C143_gradients",
    "PySGMCMC.Gradients.C143_none",
    "PySGMCMC.Gradients.C143_construct",
    "PySGMCMC.Gradients.C143_columns",
    "PySGMCMC.Gradients.C143_columns_relativistic",
    "PySGMCMC.Chain.C143_sgld_follows",
    "PySGMCMC.Chain.C143_sghmc_follows",
    "PySGMCMC.Gradients.C143_relativistic_follows"
   ],
   "note": ""
  },
  {
   "property": "C144",
   "status": "proved",
   "theorems": [
    "PySGMCMC.Chain.C144_sghmc_orders"
   ],
   "note": ""
  },
  {
   "property": "C145",
   "status": "proved",
   "theorems": [
    "PySGMCMC.BNNSystem.C145_cost",
    "PySGMCMC.BNNSystem.C145_construct",
    "PySGMCMC.BNNSystem.C145_gradients",
    "PySGMCMC.BNNSystem.C145_default_network",
    "PySGMCMC.BNNSystem.C145_train"
   ],
   "note": ""
  },
  {
   "property": "C146",
   "status": "proved",
   "theorems": [
    "PySGMCMC.SVGDGraph.C146_cost",
    "PySGMCMC.SVGDGraph.C146_gradient",
    "PySGMCMC.SVGDGraph.C146_none",
    "PySGMCMC.SVGDGraph.C146_rows",
    "PySGMCMC.SVGDGraph.C146_svgd_follows"
   ],
   "note": ""
  },
  {
   "property": "C147",
   "status": "proved",
   "theorems": [
    "PySGMCMC.Gradients.C147_sgld_posterior",
    "PySGMCMC.Gradients.C147_sghmc_posterior",
    "PySGMCMC.Gradients.C147_regression"
   ],
   "note": ""
  },
  {
   "property": "C148",
   "status": "proved",
   "theorems": [
    "PySGMCMC.Rounded.C148_noise",
    "PySGMCMC.Rounded.C148_run"
   ],
   "note": ""
  },
  {
   "property": "C149",
   "status": "partial",
   "theorems": [
    "PySGMCMC.Rounded.C149_exact",
    "PySGMCMC.Rounded.C149_exact_default_net",
    "PySGMCMC.Rounded.C149_likelihood",
    "PySGMCMC.Rounded.C149_mean_gradient",
    "PySGMCMC.Rounded.C149_gradient_partial",
    "PySGMCMC.Rounded.C149_violated",
    "PySGMCMC.Rounded.C149_violated_default_net",
    "PySGMCMC.Rounded.C149_violated_forever",
    "PySGMCMC.Rounded.C149_violated_forever_sgld",
    "PySGMCMC.Rounded.C149_violated_predict"
   ],
   "note": "The log likelihood and the gradient for the predicted mean are always numbers. The gradient for the predicted log variance is a number as long as exp(f_log_var) does not overflow (C149_gradient_partial); beyond that it is NaN whatever the label (C149_violated: 0 * inf in the gradient of exp), although the cost itself is still an ordinary number, and for the default network that is the gradient of the output bias on every non-empty minibatch (C149_violated_default_net); the parameters of SGHMC are NaN from then on (C149_violated_forever)."
  },
  {
   "property": "C150",
   "status": "partial",
   "theorems": [
    "PySGMCMC.Rounded.C150_entry",
    "PySGMCMC.Rounded.C150_diagonal",
    "PySGMCMC.Rounded.C150_order",
    "PySGMCMC.Rounded.C150_bandwidth_partial",
    "PySGMCMC.Rounded.C150_direction",
    "PySGMCMC.Rounded.C150_violated"
   ],
   "note": "Entries, diagonal and order hold for every positive bandwidth (C150_entry, C150_diagonal, C150_order). The bandwidth is a positive number if the median squared distance is at least 64 n times the smallest number and at most 1/64 of the largest (C150_bandwidth_partial). For distinct particles whose squared distances underflow, the bandwidth is 0 and the whole kernel matrix NaN (C150_violated)."
  }
 ]
}