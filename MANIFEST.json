{
 "claims": [
  {
   "property": "C01",
   "status": "proved",
   "theorems": [
    "Verif.C01_roundtrip"
   ],
   "note": ""
  },
  {
   "property": "C02",
   "status": "proved",
   "theorems": [
    "Verif.C02_counts_and_sorts",
    "Verif.C02_out_of_range",
    "Verif.C02_default",
    "Verif.C02_default_empty"
   ],
   "note": ""
  },
  {
   "property": "C03",
   "status": "proved",
   "theorems": [
    "Verif.C03_exact",
    "Verif.C03_degenerate"
   ],
   "note": ""
  },
  {
   "property": "C04",
   "status": "proved",
   "theorems": [
    "Verif.C04_exact"
   ],
   "note": ""
  },
  {
   "property": "C05",
   "status": "proved",
   "theorems": [
    "Verif.C05_dimension"
   ],
   "note": ""
  },
  {
   "property": "C06",
   "status": "proved",
   "theorems": [
    "Verif.C06_exact",
    "Verif.C06_any_hash",
    "Verif.C06_complete_iff",
    "Verif.C06_too_many",
    "Verif.C06_vacuum"
   ],
   "note": ""
  },
  {
   "property": "C07",
   "status": "proved",
   "theorems": [
    "Verif.C07_multiplicity",
    "Verif.C07_total"
   ],
   "note": ""
  },
  {
   "property": "C08",
   "status": "proved",
   "theorems": [
    "Verif.C08_exact"
   ],
   "note": ""
  },
  {
   "property": "C09",
   "status": "proved",
   "theorems": [
    "Verif.C09_count",
    "Verif.C09_k_partitions"
   ],
   "note": ""
  },
  {
   "property": "C10",
   "status": "proved",
   "theorems": [
    "Verif.C10_count",
    "Verif.C10_exact_divisions",
    "Verif.C10_total"
   ],
   "note": ""
  },
  {
   "property": "C11",
   "status": "proved",
   "theorems": [
    "Verif.C11_entries",
    "Verif.C11_particles",
    "Verif.C11_vacuum"
   ],
   "note": ""
  },
  {
   "property": "C12",
   "status": "proved",
   "theorems": [
    "Verif.C12_trace",
    "Verif.C12_addends"
   ],
   "note": ""
  },
  {
   "property": "C13",
   "status": "proved",
   "theorems": [
    "Verif.C13_ryser",
    "Verif.C13_scattering",
    "Verif.C13_vacuum"
   ],
   "note": ""
  },
  {
   "property": "C14",
   "status": "proved",
   "theorems": [
    "Verif.C14_chinHuh"
   ],
   "note": ""
  },
  {
   "property": "C15",
   "status": "proved",
   "theorems": [
    "Verif.C15_glynn",
    "Verif.C15_reflected"
   ],
   "note": ""
  },
  {
   "property": "C16",
   "status": "proved",
   "theorems": [
    "Verif.C16_classic"
   ],
   "note": ""
  },
  {
   "property": "C17",
   "status": "proved",
   "theorems": [
    "Verif.C17_interchangeable",
    "Verif.C17_unknown"
   ],
   "note": ""
  },
  {
   "property": "C18",
   "status": "partial",
   "theorems": [
    "Verif.C18_shape",
    "Verif.C18_degenerate",
    "Verif.C18_mismatch_partial",
    "Verif.C18_more_particles_false"
   ],
   "note": "The claim 'amplitude 0 on particle-number mismatch' is false when there are more output than input particles (C18_more_particles_false); proved for fewer output particles."
  },
  {
   "property": "C19",
   "status": "proved",
   "theorems": [
    "Verif.C19_no_state"
   ],
   "note": ""
  },
  {
   "property": "C20",
   "status": "proved",
   "theorems": [
    "Verif.C20_ryser"
   ],
   "note": ""
  },
  {
   "property": "C21",
   "status": "proved",
   "theorems": [
    "Verif.C21_chinHuh",
    "Verif.C21_agree"
   ],
   "note": ""
  },
  {
   "property": "C22",
   "status": "proved",
   "theorems": [
    "Verif.C22_probability"
   ],
   "note": ""
  },
  {
   "property": "C23",
   "status": "proved",
   "theorems": [
    "Verif.C23_distribution"
   ],
   "note": ""
  },
  {
   "property": "C24",
   "status": "proved",
   "theorems": [
    "Verif.C24_probability",
    "Verif.C24_distribution"
   ],
   "note": ""
  },
  {
   "property": "C25",
   "status": "proved",
   "theorems": [
    "Verif.C25_weighted",
    "Verif.C25_weightless"
   ],
   "note": ""
  },
  {
   "property": "C26",
   "status": "proved",
   "theorems": [
    "Verif.C26_sample"
   ],
   "note": ""
  },
  {
   "property": "C27",
   "status": "proved",
   "theorems": [
    "Verif.C27_sample"
   ],
   "note": ""
  },
  {
   "property": "C28",
   "status": "proved",
   "theorems": [
    "Verif.C28_sample"
   ],
   "note": ""
  },
  {
   "property": "C29",
   "status": "proved",
   "theorems": [
    "Verif.C29_gcc",
    "Verif.C29_gccAssignment",
    "Verif.C29_gcc_total",
    "Verif.C29_gccb",
    "Verif.C29_gccb_total"
   ],
   "note": ""
  },
  {
   "property": "C30",
   "status": "proved",
   "theorems": [
    "Verif.C30_joint",
    "Verif.C30_memory"
   ],
   "note": ""
  },
  {
   "property": "C31",
   "status": "proved",
   "theorems": [
    "Verif.C31_sample",
    "Verif.C31_shape"
   ],
   "note": ""
  },
  {
   "property": "C32",
   "status": "proved",
   "theorems": [
    "Verif.C32_sample",
    "Verif.C32_shape"
   ],
   "note": ""
  },
  {
   "property": "C33",
   "status": "proved",
   "theorems": [
    "Verif.C33_distribution",
    "Verif.C33_unweighted"
   ],
   "note": ""
  },
  {
   "property": "C34",
   "status": "partial",
   "theorems": [
    "Verif.C34_embeds_partial",
    "Verif.C34_unitary_iff",
    "Verif.C34_fails"
   ],
   "note": "The block structure and the orthonormality of the first m columns hold (C34_embeds_partial); unitarity of the whole expanded matrix fails unless all singular values are 0 or 1 (C34_unitary_iff, C34_fails)."
  },
  {
   "property": "C35",
   "status": "proved",
   "theorems": [
    "Verif.C35_sample",
    "Verif.C35_shape",
    "Verif.C35_dilation"
   ],
   "note": ""
  },
  {
   "property": "C36",
   "status": "proved",
   "theorems": [
    "Verif.C36_lossy",
    "Verif.C36_length"
   ],
   "note": ""
  },
  {
   "property": "C37",
   "status": "proved",
   "theorems": [
    "Verif.C37_shape",
    "Verif.C37_exact",
    "Verif.C37_unitary",
    "Verif.C37_vacuum",
    "Verif.C37_modes"
   ],
   "note": ""
  },
  {
   "property": "C38",
   "status": "proved",
   "theorems": [
    "Verif.C38_outcome",
    "Verif.C38_norm",
    "Verif.C38_sample"
   ],
   "note": ""
  },
  {
   "property": "C39",
   "status": "partial",
   "theorems": [
    "Verif.C39_count_partial",
    "Verif.C39_fails",
    "Verif.C39_empty"
   ],
   "note": "False: every call for N >= 1 samples returns th*(N//th+1) > N samples (C39_fails); the exact number is proved in C39_count_partial."
  },
  {
   "property": "C40",
   "status": "partial",
   "theorems": [
    "Verif.C40_law_partial",
    "Verif.C40_fails"
   ],
   "note": "False: the particle number of the approximated modes accumulates over calls (C40_fails); C40_law_partial gives the law after every history."
  },
  {
   "property": "C41",
   "status": "proved",
   "theorems": [
    "Verif.C41_split",
    "Verif.C41_zero"
   ],
   "note": ""
  },
  {
   "property": "C42",
   "status": "proved",
   "theorems": [
    "Verif.C42_shape",
    "Verif.C42_law",
    "Verif.C42_in_use"
   ],
   "note": ""
  },
  {
   "property": "C43",
   "status": "proved",
   "theorems": [
    "Verif.C43_split",
    "Verif.C43_threads",
    "Verif.C43_count",
    "Verif.C43_empty",
    "Verif.C43_total"
   ],
   "note": ""
  },
  {
   "property": "C44",
   "status": "partial",
   "theorems": [
    "Verif.C44_parts",
    "Verif.C44_iff",
    "Verif.C44_law_partial",
    "Verif.C44_fails"
   ],
   "note": "The weights sum to 1 iff eta is 0 or 1 or the exact part has at most one particle per mode (C44_iff); then they are the loss probabilities (C44_law_partial). Otherwise every call raises ValueError (C44_fails)."
  },
  {
   "property": "C45",
   "status": "partial",
   "theorems": [
    "Verif.C45_raises",
    "Verif.C45_fails",
    "Verif.C45_law_partial"
   ],
   "note": "False: at hierarchy level m (and 0) every call raises TypeError, because hstack with an empty part yields a float array (C45_fails, C45_raises). At level m-1 the law is the exact one averaged over column permutations (C45_law_partial)."
  },
  {
   "property": "C46",
   "status": "partial",
   "theorems": [
    "Verif.C46_matrix_partial",
    "Verif.C46_fails",
    "Verif.C46_unsmeared"
   ],
   "note": "False for 1 <= h <= m-2: the smearing acts on the first m-h modes instead of the last ones (C46_fails); C46_matrix_partial gives the matrices actually used."
  },
  {
   "property": "C47",
   "status": "proved",
   "theorems": [
    "Verif.C47_qft",
    "Verif.C47_block"
   ],
   "note": ""
  },
  {
   "property": "C48",
   "status": "proved",
   "theorems": [
    "Verif.C48_phases"
   ],
   "note": ""
  },
  {
   "property": "C49",
   "status": "proved",
   "theorems": [
    "Verif.C49_assertion",
    "Verif.C49_value",
    "Verif.C49_metric"
   ],
   "note": ""
  },
  {
   "property": "C50",
   "status": "proved",
   "theorems": [
    "Verif.C50_tabulated",
    "Verif.C50_symmetric"
   ],
   "note": ""
  },
  {
   "property": "C51",
   "status": "proved",
   "theorems": [
    "Verif.C51_sufficient"
   ],
   "note": ""
  },
  {
   "property": "C52",
   "status": "partial",
   "theorems": [
    "Verif.C52_fails",
    "Verif.C52_factors_partial",
    "Verif.C52_product_partial",
    "Verif.C52_zero"
   ],
   "note": "False as stated: a superfluous 1 is often appended (C52_fails); exactly when is given in C52_factors_partial. 0 never terminates (C52_zero)."
  },
  {
   "property": "C53",
   "status": "partial",
   "theorems": [
    "Verif.C53_approximate",
    "Verif.C53_all_states",
    "Verif.C53_sum",
    "Verif.C53_distribution_partial",
    "Verif.C53_outcomes_replaced",
    "Verif.C53_order_none",
    "Verif.C53_fails"
   ],
   "note": "The frequencies are proved for every strategy (C53_approximate, C53_sum). The configured number of samples is ignored by calculate_distribution, which always draws 5000 (C53_distribution_partial, C53_fails); calculate_probabilities_of_outcomes replaces the configured outcomes of the object (C53_outcomes_replaced)."
  },
  {
   "property": "C54",
   "status": "proved",
   "theorems": [
    "Verif.C54_generate",
    "Verif.C54_generate_raises",
    "Verif.C54_current",
    "Verif.C54_isolated",
    "Verif.C54_simulate",
    "Verif.C54_caller",
    "Verif.C54_copy",
    "Verif.C54_shared"
   ],
   "note": "Dispatch, isolation of generated strategies and of the caller's matrix are proved over all histories. Finding: for UNIFORM_LOSSES_BOBS the strategy shares the factory's permanent calculator, so later changes of that calculator reach it (C54_shared)."
  },
  {
   "property": "C55",
   "status": "partial",
   "theorems": [
    "Verif.C55_matrix",
    "Verif.C55_decode",
    "Verif.C55_too_many",
    "Verif.C55_no_samples",
    "Verif.C55_columns_iff",
    "Verif.C55_law_partial",
    "Verif.C55_fails"
   ],
   "note": "Decoding and matrix transfer are proved. The wrapper always passes the first n columns (C55_columns_iff), so the law is the one of the input 1^n 0^(m-n) instead of the given one (C55_law_partial, C55_fails)."
  },
  {
   "property": "C56",
   "status": "proved",
   "theorems": [
    "Verif.C56_transmissivities",
    "Verif.C56_unitary"
   ],
   "note": ""
  },
  {
   "property": "C57",
   "status": "proved",
   "theorems": [
    "Verif.C57_shape",
    "Verif.C57_sample"
   ],
   "note": ""
  },
  {
   "property": "C58",
   "status": "proved",
   "theorems": [
    "Verif.C58_sample",
    "Verif.C58_mode"
   ],
   "note": ""
  },
  {
   "property": "C59",
   "status": "proved",
   "theorems": [
    "Verif.C59_exact",
    "Verif.C59_tolerance",
    "Verif.C59_one_mode"
   ],
   "note": ""
  },
  {
   "property": "C60",
   "status": "proved",
   "theorems": [
    "Verif.C60_sample",
    "Verif.C60_permuted"
   ],
   "note": ""
  },
  {
   "property": "C61",
   "status": "partial",
   "theorems": [
    "Verif.C61_result",
    "Verif.C61_duplicates",
    "Verif.C61_impossible",
    "Verif.C61_zero",
    "Verif.C61_exact_partial"
   ],
   "note": "Proved for distinct outcomes of positive probability (C61_exact_partial). Repeated outcomes (C61_duplicates), outcomes with a wrong number of particles or modes (C61_impossible) and outcomes of probability zero (C61_zero) make the method run forever; the probabilities are those of the input 1^n 0^(m-n), see C55."
  },
  {
   "property": "C62",
   "status": "partial",
   "theorems": [
    "Verif.C62_result_partial",
    "Verif.C62_no_more",
    "Verif.C62_contains",
    "Verif.C62_terminates",
    "Verif.C62_never",
    "Verif.C62_fails"
   ],
   "note": "The returned probabilities are exact and at least min(k, dim) states are returned (C62_result_partial), with probability 1 if enough states are possible (C62_terminates). False: more than k states are returned, namely all whose probability exceeds the isclose tolerance (C62_contains, C62_fails). C62_no_more: more than k states are returned only if all of them but one do not sum to one up to the tolerance."
  },
  {
   "property": "C63",
   "status": "proved",
   "theorems": [
    "Verif.C63_error_bound",
    "Verif.C63_enough_samples"
   ],
   "note": ""
  },
  {
   "property": "C64",
   "status": "proved",
   "theorems": [
    "Verif.C64_network",
    "Verif.C64_network_enough",
    "Verif.C64_network_uniform",
    "Verif.C64_error_bound",
    "Verif.C64_enough_samples"
   ],
   "note": ""
  },
  {
   "property": "C65",
   "status": "proved",
   "theorems": [
    "Verif.C65_network",
    "Verif.C65_unbiased",
    "Verif.C65_unbiased_losses"
   ],
   "note": ""
  },
  {
   "property": "C66",
   "status": "proved",
   "theorems": [
    "Verif.C66_lossy_network",
    "Verif.C66_bobs",
    "Verif.C66_agree"
   ],
   "note": ""
  },
  {
   "property": "C67",
   "status": "partial",
   "theorems": [
    "Verif.C67_fails",
    "Verif.C67_configuration",
    "Verif.C67_no_configuration",
    "Verif.C67_init_partial"
   ],
   "note": "False: the constructor always raises AttributeError, because it reads attributes that are never set (C67_fails); nor is it enough to set them in a subclass, since the configuration lacks approximated_modes_number (C67_configuration), and calculate_distribution reads a missing attribute as well (C67_no_configuration). What is built when a caller supplies all of them is in C67_init_partial."
  },
  {
   "property": "C68",
   "status": "partial",
   "theorems": [
    "Verif.C68_outcomes",
    "Verif.C68_probabilities_partial",
    "Verif.C68_law_partial",
    "Verif.C68_count"
   ],
   "note": "On an object with the missing attributes supplied: the enumeration is right (C68_outcomes), but the probabilities of the 100 matrices are concatenated instead of averaged, and the Fourier transform acts on the output side (C68_probabilities_partial, C68_count). C68_law_partial gives the joint law of the returned numbers for independent uniform phases."
  },
  {
   "property": "C69",
   "status": "partial",
   "theorems": [
    "Verif.C69_state_partial",
    "Verif.C69_iff",
    "Verif.C69_fails"
   ],
   "note": "False: particles of the last approximated mode are dropped (C69_fails); exactly then the state is wrong (C69_iff); the state returned is in C69_state_partial."
  },
  {
   "property": "C70",
   "status": "proved",
   "theorems": [
    "Verif.C70_version_b",
    "Verif.C70_uniform_b",
    "Verif.C70_uniform",
    "Verif.C70_network",
    "Verif.C70_fixed",
    "Verif.C70_separable",
    "Verif.C70_bobs",
    "Verif.C70_uniform_bobs"
   ],
   "note": ""
  },
  {
   "property": "C71",
   "status": "proved",
   "theorems": [
    "Verif.C71_ryser",
    "Verif.C71_chinHuh",
    "Verif.C71_glynn_surplus",
    "Verif.C71_glynn_deficit",
    "Verif.C71_glynn_vacuum",
    "Verif.C71_classic",
    "Verif.C71_classic_vacuum",
    "Verif.C71_classic_surplus",
    "Verif.C71_disagree",
    "Verif.C71_glynn_nonzero"
   ],
   "note": ""
  },
  {
   "property": "C72",
   "status": "proved",
   "theorems": [
    "Verif.C72_isolated",
    "Verif.C72_permanent"
   ],
   "note": ""
  },
  {
   "property": "C73",
   "status": "proved",
   "theorems": [
    "Verif.C73_metric",
    "Verif.C73_entries",
    "Verif.C73_value",
    "Verif.C73_unitary"
   ],
   "note": ""
  },
  {
   "property": "C74",
   "status": "partial",
   "theorems": [
    "Verif.C74_fewer_partial",
    "Verif.C74_any",
    "Verif.C74_uniform_raises",
    "Verif.C74_fails",
    "Verif.C74_glynn_fails"
   ],
   "note": "False: C74_fails (default Ryser calculator, outcome with more particles), C74_glynn_fails (fewer), C74_uniform_raises. True for outcomes with fewer particles with the other calculators (C74_fewer_partial); C74_any gives the value returned in general for the Ryser and Chin-Huh calculators."
  },
  {
   "property": "C75",
   "status": "proved",
   "theorems": [
    "Verif.C75_shared",
    "Verif.C75_probabilities"
   ],
   "note": ""
  },
  {
   "property": "C76",
   "status": "proved",
   "theorems": [
    "Verif.C76_returns",
    "Verif.C76_never",
    "Verif.C76_unweighted_returns",
    "Verif.C76_unweighted_never",
    "Verif.C76_unweighted_marked",
    "Verif.C76_unweighted_dark",
    "Verif.C76_marked_witness"
   ],
   "note": ""
  },
  {
   "property": "C77",
   "status": "partial",
   "theorems": [
    "Verif.C77_constructor",
    "Verif.C77_fails",
    "Verif.C77_levels_partial",
    "Verif.C77_calculator_state"
   ],
   "note": "False: no level outside 0..m-1 ever yields a sample (C77_fails); the constructor returns exactly for levels 0..k (C77_constructor), k the number of modes of the calculator input state, and if k is not m sampling always raises (C77_calculator_state). Levels 1..m-1 work for collision-free exact parts (C77_levels_partial)."
  },
  {
   "property": "C78",
   "status": "proved",
   "theorems": [
    "Verif.C78_network",
    "Verif.C78_calculators",
    "Verif.C78_samplers"
   ],
   "note": ""
  },
  {
   "property": "C79",
   "status": "proved",
   "theorems": [
    "Verif.C79_network",
    "Verif.C79_calculators",
    "Verif.C79_samplers"
   ],
   "note": ""
  },
  {
   "property": "C80",
   "status": "proved",
   "theorems": [
    "Verif.C80_network",
    "Verif.C80_calculator",
    "Verif.C80_samplers"
   ],
   "note": ""
  },
  {
   "property": "C81",
   "status": "proved",
   "theorems": [
    "Verif.C81_network",
    "Verif.C81_fixed",
    "Verif.C81_uniform",
    "Verif.C81_samplers"
   ],
   "note": ""
  },
  {
   "property": "C82",
   "status": "proved",
   "theorems": [
    "Verif.C82_exact",
    "Verif.C82_uniform",
    "Verif.C82_lossy_network",
    "Verif.C82_fixed_loss",
    "Verif.C82_uniform_loss",
    "Verif.C82_bobs",
    "Verif.C82_uniform_bobs",
    "Verif.C82_configuration"
   ],
   "note": ""
  },
  {
   "property": "C83",
   "status": "partial",
   "theorems": [
    "Verif.C83_calculators",
    "Verif.C83_exact",
    "Verif.C83_uniform",
    "Verif.C83_network",
    "Verif.C83_fixed_partial",
    "Verif.C83_separable_partial",
    "Verif.C83_bobs_partial",
    "Verif.C83_bobs_even",
    "Verif.C83_uniform_bobs_partial",
    "Verif.C83_fails"
   ],
   "note": "The claim holds for the exact samplers and calculators and the lossy-network sampler. For the approximate samplers the exact means are proved and differ from the claim: C83_fails gives witnesses."
  },
  {
   "property": "C84",
   "status": "proved",
   "theorems": [
    "Verif.C84_history",
    "Verif.C84_last",
    "Verif.C84_simulate",
    "Verif.C84_samples"
   ],
   "note": ""
  },
  {
   "property": "C85",
   "status": "partial",
   "theorems": [
    "Verif.C85_isolated_partial",
    "Verif.C85_given_partial",
    "Verif.C85_network_partial",
    "Verif.C85_exact_partial",
    "Verif.C85_overwritten",
    "Verif.C85_set_by_other",
    "Verif.C85_constructor",
    "Verif.C85_fails"
   ],
   "note": "False: C85_overwritten, C85_set_by_other, C85_constructor and the concrete C85_fails. True as long as nobody writes another matrix into the calculator (C85_isolated_partial, C85_given_partial, for lossy networks C85_network_partial); exact calculators are never affected (C85_exact_partial)."
  },
  {
   "property": "C86",
   "status": "partial",
   "theorems": [
    "Verif.C86_draw_partial",
    "Verif.C86_draw_fails",
    "Verif.C86_gcc_partial",
    "Verif.C86_gcc_one",
    "Verif.C86_losses_partial",
    "Verif.C86_losses_rare_partial",
    "Verif.C86_losses_fails",
    "Verif.C86_bobs_partial",
    "Verif.C86_bobs_fails",
    "Verif.C86_fixed_partial",
    "Verif.C86_fixed_rare_partial",
    "Verif.C86_fixed_fails"
   ],
   "note": "The code violates the claim with probability about 2^-53 per draw (C86_losses_fails, C86_bobs_fails, C86_fixed_fails, C86_draw_fails). The partial theorems give safety under a condition on the computed sum and bounds of the failure probabilities."
  },
  {
   "property": "C87",
   "status": "proved",
   "theorems": [
    "Verif.C87_draw",
    "Verif.C87_law",
    "Verif.C87_raises",
    "Verif.C87_sample"
   ],
   "note": "All operations of the sampler except the squared permanents are modelled in binary64 arithmetic; the permanents enter with an error bound as a hypothesis, met for example by correctly rounded values (sqNear_rounded)."
  },
  {
   "property": "C88",
   "status": "proved",
   "theorems": [
    "Verif.C88_permanent",
    "Verif.C88_number",
    "Verif.C88_square"
   ],
   "note": "The operation counts and sizes are permOps and permSize; the arithmetic is any with the errors of Spec/ComplexFloats.lean, an instance is textbookArith. No overflow is modelled."
  },
  {
   "property": "C89",
   "status": "proved",
   "theorems": [
    "Verif.C89_law",
    "Verif.C89_raises",
    "Verif.C89_sample"
   ],
   "note": "End to end: C87 with the hypothesis on the squared permanents proved from C88. The bound is useful for small inputs (2^-25 for two particles); it grows like n^(2 n)."
  },
  {
   "property": "C90",
   "status": "proved",
   "theorems": [
    "Verif.C90_probability",
    "Verif.C90_distribution"
   ],
   "note": "End to end with C88; 2^-28 for two particles through a rotation. The 2 k! 2^-1074 term is what the code can lose by dividing by k! and multiplying by k! again."
  },
  {
   "property": "C91",
   "status": "proved",
   "theorems": [
    "Verif.C91_probability",
    "Verif.C91_distribution",
    "Verif.C91_weighted",
    "Verif.C91_weightless"
   ],
   "note": "Includes the vacuum, which the code treats separately, and set_weightless histories (bit by bit)."
  },
  {
   "property": "C92",
   "status": "proved",
   "theorems": [
    "Verif.C92_left",
    "Verif.C92_version_b",
    "Verif.C92_version_b_sample",
    "Verif.C92_version_b_rare",
    "Verif.C92_bobs_input",
    "Verif.C92_bobs",
    "Verif.C92_bobs_exact",
    "Verif.C92_fixed"
   ],
   "note": "Complements C86 (the runs that raise) with the law of the draws. Bounds are at most about 2^-42 per sample for 170 particles."
  },
  {
   "property": "C93",
   "status": "proved",
   "theorems": [
    "Verif.C93_ryser",
    "Verif.C93_chinHuh",
    "Verif.C93_number"
   ],
   "note": "Complements C88 (single permanents). The error is absolute, in units of the largest intermediate product; it is not relative to the permanent."
  },
  {
   "property": "C94",
   "status": "proved",
   "theorems": [
    "Verif.C94_law",
    "Verif.C94_sample",
    "Verif.C94_rare"
   ],
   "note": "The bound grows like m^t / t! times the rounding error of one pmf entry; it is small for a few particles and is not sharp."
  },
  {
   "property": "C95",
   "status": "proved",
   "theorems": [
    "Verif.C95_uniform",
    "Verif.C95_uniform_sample",
    "Verif.C95_uniform_rare",
    "Verif.C95_network",
    "Verif.C95_network_sample",
    "Verif.C95_network_rare"
   ],
   "note": "The numerical singular value decomposition is an input (C35); its error enters through the stored expanded matrix."
  },
  {
   "property": "C96",
   "status": "proved",
   "theorems": [
    "Verif.C96_calculators",
    "Verif.C96_exact",
    "Verif.C96_uniform",
    "Verif.C96_network",
    "Verif.C96_pairs"
   ],
   "note": "The means of C83 are the patterns of one particle."
  },
  {
   "property": "C97",
   "status": "proved",
   "theorems": [
    "Verif.C97_law",
    "Verif.C97_sample",
    "Verif.C97_rare"
   ],
   "note": "B is lawBound S 1 (squareErr t e S), as in C89."
  },
  {
   "property": "C98",
   "status": "proved",
   "theorems": [
    "Verif.C98_distribution",
    "Verif.C98_unweighted"
   ],
   "note": "The statement is about the values that are recorded; C76 says when the loops end in exact arithmetic."
  },
  {
   "property": "C99",
   "status": "partial",
   "theorems": [
    "Verif.C99_small_partial",
    "Verif.C99_fails"
   ],
   "note": "False beyond 22 modes: C99_fails."
  },
  {
   "property": "C100",
   "status": "partial",
   "theorems": [
    "Verif.C100_moderate_partial",
    "Verif.C100_relative",
    "Verif.C100_float",
    "Verif.C100_fails",
    "Verif.C100_binomial"
   ],
   "note": "False for large spaces: C100_fails."
  },
  {
   "property": "C101",
   "status": "partial",
   "theorems": [
    "Verif.C101_copied",
    "Verif.C101_fixed",
    "Verif.C101_uniform",
    "Verif.C101_uniform_partial",
    "Verif.C101_fails"
   ],
   "note": "False for uniform losses after a change of the number of particles or of the transmissivity: C101_fails."
  },
  {
   "property": "C102",
   "status": "proved",
   "theorems": [
    "Verif.C102_shape",
    "Verif.C102_fixed",
    "Verif.C102_sample",
    "Verif.C102_network"
   ],
   "note": ""
  },
  {
   "property": "C103",
   "status": "proved",
   "theorems": [
    "Verif.C103_left",
    "Verif.C103_shape",
    "Verif.C103_uniform",
    "Verif.C103_sample"
   ],
   "note": ""
  },
  {
   "property": "C104",
   "status": "proved",
   "theorems": [
    "Verif.C104_qft",
    "Verif.C104_input",
    "Verif.C104_refused",
    "Verif.C104_law",
    "Verif.C104_sample",
    "Verif.C104_rare"
   ],
   "note": ""
  },
  {
   "property": "C105",
   "status": "proved",
   "theorems": [
    "Verif.C105_permanent",
    "Verif.C105_calculators",
    "Verif.C105_samplers",
    "Verif.C105_networks",
    "Verif.C105_marginal"
   ],
   "note": ""
  },
  {
   "property": "C106",
   "status": "partial",
   "theorems": [
    "Verif.C106_exact_partial",
    "Verif.C106_product",
    "Verif.C106_product_iff",
    "Verif.C106_fails",
    "Verif.C106_composite",
    "Verif.C106_raises"
   ],
   "note": "False as stated: C106_fails (product), C106_composite (a composite factor), and C52 (superfluous 1). Exactly when it works is C106_product_iff."
  },
  {
   "property": "C107",
   "status": "partial",
   "theorems": [
    "Verif.C107_list",
    "Verif.C107_zero",
    "Verif.C107_symmetric",
    "Verif.C107_bound_partial",
    "Verif.C107_dicts",
    "Verif.C107_exceeds",
    "Verif.C107_order"
   ],
   "note": "False as stated: C107_exceeds (distance above one) and C107_order (order of the key set). The other clauses are proved."
  },
  {
   "property": "C108",
   "status": "proved",
   "theorems": [
    "Verif.C108_bound",
    "Verif.C108_samples",
    "Verif.C108_sufficient",
    "Verif.C108_guarantee"
   ],
   "note": ""
  },
  {
   "property": "C109",
   "status": "partial",
   "theorems": [
    "Verif.C109_count",
    "Verif.C109_count_fails",
    "Verif.C109_result_partial",
    "Verif.C109_coverage",
    "Verif.C109_no_more",
    "Verif.C109_fails"
   ],
   "note": "False as stated: C109_count_fails and C109_fails (one state too few for 15 particles in 20 modes). The other clauses are proved; C109_no_more says when more states than asked for are returned."
  },
  {
   "property": "C110",
   "status": "proved",
   "theorems": [
    "Verif.C110_network",
    "Verif.C110_frequencies",
    "Verif.C110_many_samples",
    "Verif.C110_error_bound",
    "Verif.C110_enough_samples",
    "Verif.C110_lossy_error_bound",
    "Verif.C110_lossy_enough_samples"
   ],
   "note": ""
  },
  {
   "property": "C111",
   "status": "proved",
   "theorems": [
    "Verif.C111_fixed",
    "Verif.C111_uniform",
    "Verif.C111_exact",
    "Verif.C111_network",
    "Verif.C111_difference"
   ],
   "note": ""
  },
  {
   "property": "C112",
   "status": "proved",
   "theorems": [
    "Verif.C112_fixed",
    "Verif.C112_uniform",
    "Verif.C112_sampler",
    "Verif.C112_unitary"
   ],
   "note": ""
  },
  {
   "property": "C113",
   "status": "proved",
   "theorems": [
    "Verif.C113_fixed",
    "Verif.C113_one",
    "Verif.C113_uniform",
    "Verif.C113_calculator",
    "Verif.C113_sampler",
    "Verif.C113_tight",
    "Verif.C113_other_inputs"
   ],
   "note": ""
  },
  {
   "property": "C114",
   "status": "proved",
   "theorems": [
    "Verif.C114_sample",
    "Verif.C114_tolerance"
   ],
   "note": ""
  },
  {
   "property": "C115",
   "status": "proved",
   "theorems": [
    "Verif.C115_distance",
    "Verif.C115_sampler",
    "Verif.C115_tight",
    "Verif.C115_uniform_bobs"
   ],
   "note": ""
  },
  {
   "property": "C116",
   "status": "proved",
   "theorems": [
    "Verif.C116_fixed",
    "Verif.C116_uniform",
    "Verif.C116_calculator",
    "Verif.C116_bobs",
    "Verif.C116_total"
   ],
   "note": ""
  },
  {
   "property": "C117",
   "status": "proved",
   "theorems": [
    "Verif.C117_sample",
    "Verif.C117_pair",
    "Verif.C117_identity"
   ],
   "note": ""
  },
  {
   "property": "C118",
   "status": "proved",
   "theorems": [
    "Verif.C118_fixed",
    "Verif.C118_uniform",
    "Verif.C118_order"
   ],
   "note": ""
  },
  {
   "property": "C119",
   "status": "proved",
   "theorems": [
    "Verif.C119_law",
    "Verif.C119_sample",
    "Verif.C119_rare"
   ],
   "note": ""
  },
  {
   "property": "C120",
   "status": "proved",
   "theorems": [
    "Verif.C120_split",
    "Verif.C120_object",
    "Verif.C120_fails",
    "Verif.C120_gain"
   ],
   "note": ""
  },
  {
   "property": "C121",
   "status": "proved",
   "theorems": [
    "Verif.C121_losses",
    "Verif.C121_law",
    "Verif.C121_point",
    "Verif.C121_tolerance",
    "Verif.C121_distance",
    "Verif.C121_floats",
    "Verif.C121_attained"
   ],
   "note": ""
  },
  {
   "property": "C122",
   "status": "proved",
   "theorems": [
    "Verif.C122_embeds",
    "Verif.C122_block",
    "Verif.C122_network",
    "Verif.C122_sample",
    "Verif.C122_expands",
    "Verif.C122_approximate",
    "Verif.C122_attained"
   ],
   "note": ""
  },
  {
   "property": "C123",
   "status": "proved",
   "theorems": [
    "Verif.C123_stable",
    "Verif.C123_subunitary",
    "Verif.C123_unique",
    "Verif.C123_ordered",
    "Verif.C123_floats",
    "Verif.C123_exceeds",
    "Verif.C123_distance",
    "Verif.C123_vanishes",
    "Verif.C123_different"
   ],
   "note": ""
  },
  {
   "property": "C124",
   "status": "proved",
   "theorems": [
    "Verif.C124_law",
    "Verif.C124_survivors",
    "Verif.C124_uniform",
    "Verif.C124_calculator",
    "Verif.C124_uniform_calculator",
    "Verif.C124_sampler",
    "Verif.C124_sampler_b",
    "Verif.C124_sharp"
   ],
   "note": ""
  },
  {
   "property": "C125",
   "status": "proved",
   "theorems": [
    "Verif.C125_law",
    "Verif.C125_survivors",
    "Verif.C125_uniform",
    "Verif.C125_calculator",
    "Verif.C125_uniform_calculator",
    "Verif.C125_entries",
    "Verif.C125_singular",
    "Verif.C125_scaled"
   ],
   "note": ""
  },
  {
   "property": "C126",
   "status": "proved",
   "theorems": [
    "Verif.C126_error_bound",
    "Verif.C126_enough_samples",
    "Verif.C126_uniform"
   ],
   "note": ""
  },
  {
   "property": "C127",
   "status": "proved",
   "theorems": [
    "Verif.C127_law",
    "Verif.C127_sampler",
    "Verif.C127_lossless",
    "Verif.C127_sharp",
    "Verif.C127_optimal"
   ],
   "note": ""
  },
  {
   "property": "C128",
   "status": "proved",
   "theorems": [
    "Verif.C128_network",
    "Verif.C128_network_enough",
    "Verif.C128_uniform",
    "Verif.C128_bobs",
    "Verif.C128_bobs_estimate"
   ],
   "note": ""
  },
  {
   "property": "C129",
   "status": "proved",
   "theorems": [
    "Verif.C129_fixed",
    "Verif.C129_uniform",
    "Verif.C129_fixed_estimate",
    "Verif.C129_uniform_estimate",
    "Verif.C129_sharp"
   ],
   "note": ""
  }
 ]
}