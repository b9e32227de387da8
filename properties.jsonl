{"id": "C01", "title": "Occupation -> assignment -> occupation is the identity", "statement": "For every mode-occupation tuple s with at least one mode, mode_assignment_to_mode_occupation(mode_occupation_to_mode_assignment(s), len(s)) returns s without raising.", "quantifier": "every non-empty list of non-negative occupations, of any length and size", "why_tests_cant": "infinitely many states; a test samples a handful of tuples", "anchors": ["theboss/boson_sampling_utilities/boson_sampling_utilities.py:mode_assignment_to_mode_occupation", "theboss/boson_sampling_utilities/boson_sampling_utilities.py:mode_occupation_to_mode_assignment"]}
{"id": "C02", "title": "Assignment -> occupation counts particles; converting back sorts", "statement": "For every mode assignment a and m >= 1: if all modes lie in [0,m) the occupation has m entries, entry i is the number of particles of a in mode i, the total is len(a), and converting back gives sorted(a). A mode >= m or < -m raises IndexError. With the default m the length is max(a)+1; an empty assignment with the default raises ValueError.", "quantifier": "every list of integer modes, every m", "why_tests_cant": "needs all assignments including permutations, repeated and out-of-range modes", "anchors": ["theboss/boson_sampling_utilities/boson_sampling_utilities.py:mode_assignment_to_mode_occupation", "theboss/boson_sampling_utilities/boson_sampling_utilities.py:mode_occupation_to_mode_assignment"]}
{"id": "C03", "title": "generate_possible_states lists exactly the n-particle states, and terminates", "statement": "For n >= 0 and m >= 1 generate_possible_states(n, m) terminates and returns every m-tuple of non-negative integers with sum n exactly once, in strictly descending lexicographic order. For n < 0 or m < 1 it returns the empty list.", "quantifier": "all integers n and m", "why_tests_cant": "completeness and termination of a while loop for all n, m", "anchors": ["theboss/boson_sampling_utilities/boson_sampling_utilities.py:generate_possible_states", "theboss/boson_sampling_utilities/boson_sampling_utilities.py:_generate_possible_n_particle_states"]}
{"id": "C04", "title": "generate_possible_states with losses lists exactly the states with at most n particles", "statement": "For n >= 0 and m >= 1 generate_possible_states(n, m, losses=True) returns every m-tuple with sum <= n exactly once, ordered by ascending particle number and, within one particle number, descending lexicographically.", "quantifier": "all integers n and m", "why_tests_cant": "unbounded n, m", "anchors": ["theboss/boson_sampling_utilities/boson_sampling_utilities.py:generate_possible_states"]}
{"id": "C05", "title": "bosonic_space_dimension equals the number of generated states", "statement": "For n >= 0, m >= 1 and either losses flag, bosonic_space_dimension(n, m, losses) == len(generate_possible_states(n, m, losses)) (exact binomials).", "quantifier": "all n >= 0, m >= 1, both flags", "why_tests_cant": "a counting identity (stars and bars) over all n, m", "anchors": ["theboss/boson_sampling_utilities/boson_sampling_utilities.py:bosonic_space_dimension", "theboss/boson_sampling_utilities/boson_sampling_utilities.py:generate_possible_states"]}
{"id": "C06", "title": "Lossy inputs are exactly the sub-states with the requested particle number", "statement": "For every non-vacuum initial state s and k >= 0, generate_lossy_n_particle_input_states(s, k) returns, each exactly once, precisely the states l with l <= s in every mode and sum(l) == k (nothing for k > sum(s)), provided the tuple hash is injective on these states; this proviso is exact: for any hash only such states are returned, one per hash value, and all of them only if the hash is injective on them. For the vacuum it returns the vacuum.", "quantifier": "every initial state, every k", "why_tests_cant": "unbounded states and combinatorial de-duplication", "anchors": ["theboss/boson_sampling_utilities/boson_sampling_utilities.py:generate_lossy_n_particle_input_states"]}
{"id": "C07", "title": "Number of ways to lose particles", "statement": "For every state s, every k and every sub-state l of s with k particles, the number of k-element particle subsets of s that leave l equals prod_i binom(s_i, l_i), the multiplicity the exact calculator uses; over the generated lossy inputs these multiplicities sum to binom(sum(s), k).", "quantifier": "every state and every k", "why_tests_cant": "Vandermonde-type identity over all states", "anchors": ["theboss/distribution_calculators/bs_distribution_calculator_with_fixed_losses.py:__compute_lossy_input_multiplicity", "theboss/boson_sampling_utilities/boson_sampling_utilities.py:generate_lossy_n_particle_input_states"]}
{"id": "C08", "title": "generate_state_types lists every state type once", "statement": "For m >= 1 and n >= 0 generate_state_types(m, n) returns exactly the non-increasing m-tuples of non-negative integers with sum n, each once; with losses=True exactly those with sum <= n, each once.", "quantifier": "all m >= 1, n >= 0, both flags", "why_tests_cant": "recursive partition generator; completeness for all sizes", "anchors": ["theboss/boson_sampling_utilities/boson_sampling_utilities.py:generate_state_types"]}
{"id": "C09", "title": "compute_number_of_state_types counts the generated state types", "statement": "For m >= 1, n >= 0 and either flag, compute_number_of_state_types(m, n, losses) == len(generate_state_types(m, n, losses)); compute_number_of_k_element_integer_partitions_of_n(k, n) is the number of multisets of k positive integers with sum n for all k, n >= 1.", "quantifier": "all k, m, n, both flags", "why_tests_cant": "recurrence correct for all arguments", "anchors": ["theboss/boson_sampling_utilities/boson_sampling_utilities.py:compute_number_of_state_types", "theboss/boson_sampling_utilities/boson_sampling_utilities.py:compute_number_of_k_element_integer_partitions_of_n"]}
{"id": "C10", "title": "compute_number_of_states_of_given_type counts the states of a type", "statement": "For every state type t, compute_number_of_states_of_given_type(t) equals the number of distinct mode permutations of t (exact factorials), every floor division in it being exact; summed over generate_state_types(m, n) it gives bosonic_space_dimension(n, m).", "quantifier": "every tuple of non-negative integers; all m, n", "why_tests_cant": "multinomial count over all tuples", "anchors": ["theboss/boson_sampling_utilities/boson_sampling_utilities.py:compute_number_of_states_of_given_type"]}
{"id": "C11", "title": "Effective scattering matrix entries", "statement": "For an m-column matrix U and states S, T fitting it, with at least one particle each, EffectiveScatteringMatrixCalculator.calculate() has sum(T) rows and sum(S) columns and its (a,b) entry is U[row mode of output particle a][mode of input particle b], particles listed in mode order; if either state is vacuum it returns the empty list.", "quantifier": "every matrix, every pair of states", "why_tests_cant": "unbounded shapes and occupations", "anchors": ["theboss/boson_sampling_utilities/boson_sampling_utilities.py:EffectiveScatteringMatrixCalculator.calculate"]}
{"id": "C12", "title": "Code iteration visits every sub-state exactly once", "statement": "During one compute_permanent() of the Ryser or Chin-Huh calculator the addends correspond to a sequence of vectors r that starts at 0, changes one entry by one per step, and lists every vector 0 <= r <= input state exactly once; the loop terminates.", "quantifier": "every input state of length >= 1", "why_tests_cant": "exhaustiveness and termination of an in-place reflected mixed-radix code for all radices", "anchors": ["theboss/boson_sampling_utilities/permanent_calculators/bs_permanent_calculator_base.py:BSGuanCodeBasedPermanentCalculatorBase", "theboss/boson_sampling_utilities/permanent_calculators/bs_submatrices_permanent_calculator_base.py:BSGuanBasedSubmatricesPermanentCalculatorBase"]}
{"id": "C13", "title": "Ryser calculator returns the permanent", "statement": "For every square matrix U and states S, T of equal length fitting U with equal particle number, RyserPermanentCalculator.compute_permanent() returns the permanent of the effective scattering matrix of (U, S, T) (1 for the vacuum), in exact arithmetic.", "quantifier": "every matrix over a field of characteristic 0, every pair of states with equal particle number", "why_tests_cant": "algebraic identity over all matrices and bunching patterns", "anchors": ["theboss/boson_sampling_utilities/permanent_calculators/ryser_permanent_calculator.py:RyserPermanentCalculator", "theboss/boson_sampling_utilities/permanent_calculators/bs_permanent_calculator_base.py:compute_permanent"]}
{"id": "C14", "title": "Chin-Huh calculator returns the permanent", "statement": "Same claim for ChinHuhPermanentCalculator.", "quantifier": "every matrix over a field of characteristic 0, every pair of states with equal particle number", "why_tests_cant": "algebraic identity over all matrices and bunching patterns", "anchors": ["theboss/boson_sampling_utilities/permanent_calculators/chin_huh_permanent_calculator.py:ChinHuhPermanentCalculator"]}
{"id": "C15", "title": "Glynn calculator returns the permanent", "statement": "Same claim for GlynnGrayPermanentCalculator, for any Gray-code index generator that visits every sign pattern once.", "quantifier": "every matrix, every pair of states with equal particle number", "why_tests_cant": "algebraic identity over all matrices and bunching patterns", "anchors": ["theboss/boson_sampling_utilities/permanent_calculators/glynn_gray_permanent_calculator.py:GlynnGrayPermanentCalculator"]}
{"id": "C16", "title": "Classic calculator returns the permanent", "statement": "Same claim for ClassicPermanentCalculator (Laplace recursion).", "quantifier": "every matrix, every pair of states with equal particle number", "why_tests_cant": "recursion correct for all sizes", "anchors": ["theboss/boson_sampling_utilities/permanent_calculators/classic_permanent_calculator.py:ClassicPermanentCalculator"]}
{"id": "C17", "title": "All permanent calculators are interchangeable", "statement": "For every square matrix and every pair of equal-length states with equal particle number, the calculators built by the factory for each of the four types return the same value; an unknown type behaves as Chin-Huh.", "quantifier": "every matrix and pair of states, all four calculator types", "why_tests_cant": "agreement on every instance", "anchors": ["theboss/boson_sampling_utilities/permanent_calculators/bs_permanent_calculator_factory.py:BSPermanentCalculatorFactory"]}
{"id": "C18", "title": "Shape errors and particle-number mismatch", "statement": "The Ryser and Chin-Huh calculators raise AttributeError exactly when the matrix is not square, the states differ in length, or are longer than the matrix. When input and output particle numbers differ the amplitude is 0.", "quantifier": "every matrix shape and every pair of states", "why_tests_cant": "all mismatching instances", "anchors": ["theboss/boson_sampling_utilities/permanent_calculators/bs_permanent_calculator_base.py:_can_calculation_be_performed", "theboss/boson_sampling_utilities/permanent_calculators/bs_permanent_calculator_base.py:compute_permanent"]}
{"id": "C19", "title": "Calculators carry no state between computations", "statement": "For every sequence of setter calls (matrix, input_state, output_state) and compute_permanent calls on one Ryser or Chin-Huh calculator, each returned permanent (or error) equals that of a fresh calculator constructed with the current matrix and states.", "quantifier": "every finite history of setter and compute calls", "why_tests_cant": "every history of one mutable object", "anchors": ["theboss/boson_sampling_utilities/permanent_calculators/bs_permanent_calculator_base.py", "theboss/boson_sampling_utilities/permanent_calculators/ryser_permanent_calculator.py", "theboss/boson_sampling_utilities/permanent_calculators/chin_huh_permanent_calculator.py"]}
{"id": "C20", "title": "Ryser submatrix calculator returns all one-particle-removed permanents", "statement": "For every square matrix U, input S and output T with sum(S) == sum(T) + 1, BSCCRyserSubmatricesPermanentCalculator.compute_permanents() returns len(S) values; the i-th is the permanent for input S minus one particle in mode i and output T when S_i > 0, and 0 when S_i == 0.", "quantifier": "every matrix, all states with sum(S) = sum(T)+1", "why_tests_cant": "simultaneous incremental computation correct for every instance", "anchors": ["theboss/boson_sampling_utilities/permanent_calculators/bs_cc_ryser_submatrices_permanent_calculator.py:BSCCRyserSubmatricesPermanentCalculator", "theboss/boson_sampling_utilities/permanent_calculators/bs_submatrices_permanent_calculator_base.py:compute_permanents"]}
{"id": "C21", "title": "Chin-Huh submatrix calculator returns the same permanents", "statement": "Same claim for BSCCCHSubmatricesPermanentCalculator; hence both submatrix calculators agree on every instance.", "quantifier": "every matrix, all states with sum(S) = sum(T)+1", "why_tests_cant": "agreement on every instance", "anchors": ["theboss/boson_sampling_utilities/permanent_calculators/bs_cc_ch_submatrices_permanent_calculator.py:BSCCCHSubmatricesPermanentCalculator"]}
{"id": "C22", "title": "Exact fixed-loss calculator returns the physical probability", "statement": "For every interferometer U, input S, number k <= sum(S) of particles left and outcome T with k particles, the fixed-loss calculator's probability of T equals the average over all k-element subsets of the input particles of |Perm(U_{L,T})|^2 / (prod L! prod T!), L being the surviving state; it is non-negative.", "quantifier": "every matrix, input, k and outcome", "why_tests_cant": "exact formula over all instances including bunched inputs", "anchors": ["theboss/distribution_calculators/bs_distribution_calculator_with_fixed_losses.py"]}
{"id": "C23", "title": "Fixed-loss distribution is a probability distribution", "statement": "If the interferometer columns are orthonormal, calculate_distribution() of the fixed-loss calculator is non-negative, sums to 1, and its i-th entry is the probability of the i-th state of get_outcomes_in_proper_order().", "quantifier": "every isometric matrix, every input and k", "why_tests_cant": "normalisation for all isometries, not sampled unitaries", "anchors": ["theboss/distribution_calculators/bs_distribution_calculator_with_fixed_losses.py:calculate_distribution", "theboss/distribution_calculators/bs_distribution_calculator_with_fixed_losses.py:get_outcomes_in_proper_order"]}
{"id": "C24", "title": "Uniform-loss distribution is the binomial mixture and sums to one", "statement": "For transmissivity eta, the uniform-loss calculator's probability of an outcome with l particles is binom(n,l) eta^l (1-eta)^(n-l) times the fixed-loss probability; for orthonormal columns the whole distribution over states with at most n particles sums to 1 and is aligned with get_outcomes_in_proper_order().", "quantifier": "every eta in [0,1], isometric matrix and input", "why_tests_cant": "normalisation over a continuum of parameters", "anchors": ["theboss/distribution_calculators/bs_exact_distribution_with_uniform_losses.py"]}
{"id": "C25", "title": "set_weightless only rescales and can be undone", "statement": "After any history of set_weightless calls, the probabilities depend only on the last flag: with False (or no call) they are the weighted ones, with True each outcome of l >= 1 particles gets the fixed-loss probability for l particles.", "quantifier": "every history of set_weightless calls", "why_tests_cant": "histories of a mutable object", "anchors": ["theboss/distribution_calculators/bs_exact_distribution_with_uniform_losses.py:set_weightless"]}
{"id": "C26", "title": "GCC sampler draws from the exact BosonSampling distribution", "statement": "For every interferometer with orthonormal columns and input S with n particles, each sample of GeneralizedCliffordsSimulationStrategy.simulate equals a state T with n particles with probability exactly |Perm(U_{S,T})|^2/(prod S! prod T!).", "quantifier": "every isometric matrix, every input (bunched or not), every outcome", "why_tests_cant": "a distributional claim; tests only estimate it statistically for a few unitaries", "anchors": ["theboss/simulation_strategies/generalized_cliffords_simulation_strategy.py"]}
{"id": "C27", "title": "Mode-assignment GCC sampler draws from the same distribution", "statement": "Same claim for ModeAssignmentGeneralizedCliffordsSimulationStrategyInterface.", "quantifier": "every isometric matrix, every input, every outcome", "why_tests_cant": "a distributional claim", "anchors": ["theboss/simulation_strategies/mode_assignment_generalized_cliffords_simulation_strategy.py"]}
{"id": "C28", "title": "GCC version B sampler draws from the exact BosonSampling distribution", "statement": "Same claim for GeneralizedCliffordsBSimulationStrategy, which samples with a random particle order and submatrix permanents.", "quantifier": "every isometric matrix, every input, every outcome", "why_tests_cant": "a distributional claim relying on averaging over particle orders", "anchors": ["theboss/simulation_strategies/generalized_cliffords_b_simulation_strategy.py"]}
{"id": "C29", "title": "Samples are well-formed and as many as requested", "statement": "On every run of the GCC, mode-assignment GCC and GCC-B strategies that does not raise, simulate(s, N) returns exactly N samples, each with len(s) non-negative entries and sum(s) particles; the run always terminates.", "quantifier": "every matrix, input, N and every sequence of random draws", "why_tests_cant": "all random choices", "anchors": ["theboss/simulation_strategies/generalized_cliffords_simulation_strategy.py:simulate", "theboss/simulation_strategies/generalized_cliffords_b_simulation_strategy.py:simulate", "theboss/simulation_strategies/mode_assignment_generalized_cliffords_simulation_strategy.py:simulate"]}
{"id": "C30", "title": "Samples of one simulate call are independent; the cache is invisible", "statement": "simulate(s, N) of the GCC strategy returns N samples whose joint probability is the product of the single-sample probabilities: the cached conditional distributions of earlier samples do not influence later ones.", "quantifier": "every isometric matrix, input, N and list of outcomes", "why_tests_cant": "joint distribution over histories", "anchors": ["theboss/simulation_strategies/generalized_cliffords_simulation_strategy.py:_fill_r_sample", "theboss/simulation_strategies/generalized_cliffords_simulation_strategy.py:_calculate_new_layer_of_pmfs"]}
{"id": "C31", "title": "Uniform-loss GCC sampler draws from the uniform-loss distribution", "statement": "For orthonormal columns and eta in [0,1], a sample of GeneralizedCliffordsUniformLossesSimulationStrategy equals T with probability binom(n,l) eta^l (1-eta)^(n-l) times the exact fixed-loss probability of T, l = sum(T).", "quantifier": "every isometric matrix, input, eta and outcome", "why_tests_cant": "a distributional claim", "anchors": ["theboss/simulation_strategies/generalized_cliffords_uniform_losses_simulation_strategy.py"]}
{"id": "C32", "title": "Uniform-loss GCC-B sampler draws from the uniform-loss distribution", "statement": "Same claim for GeneralizedCliffordsBUniformLossesSimulationStrategy.", "quantifier": "every isometric matrix, input, eta and outcome", "why_tests_cant": "a distributional claim; the class has no tests at all", "anchors": ["theboss/simulation_strategies/generalized_cliffords_b_uniform_losses_simulation_strategy.py"]}
{"id": "C33", "title": "Partially computed distributions contain only exact entries", "statement": "In the list returned by compute_distribution_up_to_accuracy every entry is either the initial placeholder or the exact uniform-loss probability of the state at the same position of generate_possible_states(n, m, losses=True), whatever the random draws were.", "quantifier": "every input, eta, accuracy and every sequence of random draws", "why_tests_cant": "all random paths of a fill-in computation", "anchors": ["theboss/simulation_strategies/generalized_cliffords_uniform_losses_simulation_strategy.py:compute_distribution_up_to_accuracy"]}
{"id": "C34", "title": "Expanded interferometer embeds the lossy network", "statement": "For every matrix M with singular values at most 1, prepare_interferometer_matrix_in_expanded_space(M) is a 2m x 2m unitary matrix whose top-left block is M.", "quantifier": "every m x m matrix with singular values <= 1 and every valid SVD of it", "why_tests_cant": "matrix identity over all matrices; the repository test compares with a bound method and can never fail", "anchors": ["theboss/boson_sampling_utilities/boson_sampling_utilities.py:prepare_interferometer_matrix_in_expanded_space", "theboss/boson_sampling_utilities/boson_sampling_utilities.py:_compute_loss_transfer_matrix_expansion"]}
{"id": "C35", "title": "Lossy-network GCC sampler draws from the marginal of the expanded experiment", "statement": "For every M with singular values <= 1 and input S, each sample of LossyNetworksGeneralizedCliffordsSimulationStrategy has len(S) entries and at most sum(S) particles, and equals T with probability equal to the sum over all environment states E of the BosonSampling probability of T followed by E in the expanded network.", "quantifier": "every sub-unitary matrix, input and outcome", "why_tests_cant": "a distributional claim", "anchors": ["theboss/simulation_strategies/lossy_networks_generalized_cliffords_simulation_strategy.py"]}
{"id": "C36", "title": "Lossy network evolution is multiplication by the given matrix", "statement": "For every square matrix M and vector x, LossyNetworkSimulationStrategy(M).simulate(x) equals M x, hence equals LosslessNetworkSimulationStrategy(M).simulate(x).", "quantifier": "every square matrix, every vector, every valid SVD", "why_tests_cant": "matrix identity over all matrices", "anchors": ["theboss/network_simulation_strategy/lossy_network_simulation_strategy.py", "theboss/network_simulation_strategy/lossless_network_simulation_strategy.py"]}
{"id": "C37", "title": "Fixed-loss approximate sampler: shape and particle number", "statement": "Every sample of FixedLossSimulationStrategy has number_of_observed_modes entries and at most number_of_photons_left particles on every run; exactly number_of_photons_left when the evolved state has norm >= 1.", "quantifier": "every network, input and sequence of random draws", "why_tests_cant": "all random draws", "anchors": ["theboss/simulation_strategies/fixed_loss_simulation_strategy.py"]}
{"id": "C38", "title": "Fixed-loss approximate sampler: particles are i.i.d. from the mode probabilities", "statement": "For given mode probabilities p with sum <= 1 the outcome T of FixedLossSimulationStrategy has the multinomial probability k!/(prod T_i! (k-|T|)!) prod p_i^{T_i} (1 - sum p)^{k-|T|}; the prepared state is a unit vector for inputs of 1..m particles and its norm survives any unitary network.", "quantifier": "every probability vector, k and outcome", "why_tests_cant": "a distributional claim", "anchors": ["theboss/simulation_strategies/fixed_loss_simulation_strategy.py:_calculate_approximation_of_boson_sampling_outcome", "theboss/simulation_strategies/fixed_loss_simulation_strategy.py:_prepare_initial_state"]}
{"id": "C39", "title": "BOBS returns the requested number of samples", "statement": "NonuniformLossesApproximationStrategy.simulate(s, N) returns exactly N samples for every N >= 1 and thread number; the empty list for N < 1.", "quantifier": "every N and thread number", "why_tests_cant": "all pairs (N, threads)", "anchors": ["theboss/simulation_strategies/nonuniform_losses_approximation_strategy.py:simulate"]}
{"id": "C40", "title": "BOBS simulate calls are independent of earlier calls", "statement": "The state fed to the sampler in a simulate call of NonuniformLossesApproximationStrategy depends only on that call's input: the approximated block receives exactly the particles of the approximated modes of the current input, whatever calls were made before.", "quantifier": "every history of simulate calls", "why_tests_cant": "histories of calls on one object; tests call simulate once per object", "anchors": ["theboss/simulation_strategies/nonuniform_losses_approximation_strategy.py:simulate"]}
{"id": "C41", "title": "BOBS splits the losses correctly", "statement": "For every matrix M with a non-zero singular value, the extracted uniform loss l and the remaining network A satisfy M = sqrt(1-l) A, 1-l is the largest squared singular value of M, and A has largest singular value 1.", "quantifier": "every matrix and every valid SVD", "why_tests_cant": "matrix identity over all matrices", "anchors": ["theboss/simulation_strategies/nonuniform_losses_approximation_strategy.py:_extract_losses_from_the_interferometer"]}
{"id": "C42", "title": "BOBS loss channel never creates particles and is binomial per mode", "statement": "The lossy input drawn by NonuniformLossesApproximationStrategy has the same length as its argument, is mode-wise at most the argument, and equals l with probability prod_i binom(s_i,l_i) eta^{l_i} (1-eta)^{s_i-l_i}, eta = 1 - extracted losses (losses within the isclose tolerance 1e-8 count as none).", "quantifier": "every state, every extracted loss in [0,1), every sequence of draws", "why_tests_cant": "a distributional claim", "anchors": ["theboss/simulation_strategies/nonuniform_losses_approximation_strategy.py:_compute_lossy_input", "theboss/simulation_strategies/nonuniform_losses_approximation_strategy.py:choice"]}
{"id": "C43", "title": "Uniform-loss BOBS returns the requested number of samples, evenly split", "statement": "Every completed call of LossyStateApproximationSimulationStrategy.simulate(s, N) returns exactly N samples for every N >= 1 and thread number; per-thread numbers differ by at most one; the empty list for N < 1. For 1 <= hierarchy_level < m, a unitary matrix and at most one particle per exactly treated mode no call raises.", "quantifier": "every N and thread number >= 1", "why_tests_cant": "all pairs (N, threads)", "anchors": ["theboss/simulation_strategies/lossy_state_approximated_simulation_strategy.py:_distribute_uniformly", "theboss/simulation_strategies/lossy_state_approximated_simulation_strategy.py:simulate"]}
{"id": "C44", "title": "Uniform-loss BOBS mixes lossy inputs with a probability vector", "statement": "For every input and eta in [0,1] the weights LossyStateApproximationSimulationStrategy attaches to the lossy states of the exactly treated part sum to 1 and equal the probability that uniform losses leave that state, so that sampling does not raise.", "quantifier": "every input state (bunched or not), every eta", "why_tests_cant": "all states; only collision-free inputs are commonly tried", "anchors": ["theboss/simulation_strategies/lossy_state_approximated_simulation_strategy.py:_prepare_not_approximated_lossy_mixed_state_parts_weights"]}
{"id": "C45", "title": "Uniform-loss BOBS at full hierarchy level is exact", "statement": "With hierarchy_level equal to the number of modes and transmissivity 1, LossyStateApproximationSimulationStrategy samples from the exact BosonSampling distribution of the given interferometer and input.", "quantifier": "every unitary and every input", "why_tests_cant": "a distributional claim over all inputs", "anchors": ["theboss/simulation_strategies/lossy_state_approximated_simulation_strategy.py:_get_matrix_for_approximate_sampling", "theboss/simulation_strategies/lossy_state_approximated_simulation_strategy.py:_permuted_interferometer_matrix"]}
{"id": "C46", "title": "Uniform-loss BOBS smears exactly the approximated modes", "statement": "For hierarchy level k the random phases and the QFT act on the modes whose particles are approximated (input modes k..m-1) and leave the exactly treated modes 0..k-1 untouched.", "quantifier": "every m and hierarchy level 0 <= k <= m", "why_tests_cant": "index bookkeeping for all m, k", "anchors": ["theboss/simulation_strategies/lossy_state_approximated_simulation_strategy.py:__init__", "theboss/simulation_strategies/lossy_state_approximated_simulation_strategy.py:_get_input_state_for_sampling"]}
{"id": "C47", "title": "QFT matrices are unitary", "statement": "compute_qft_matrix(n) is unitary for n >= 1, and generate_qft_matrix_for_first_m_modes(m, M) is a unitary that equals the QFT on the first m modes and the identity on the rest for 0 <= m <= M.", "quantifier": "all n, m <= M", "why_tests_cant": "root-of-unity identity for all n", "anchors": ["theboss/quantum_computations_utilities.py:compute_qft_matrix", "theboss/boson_sampling_utilities/boson_sampling_utilities.py:generate_qft_matrix_for_first_m_modes"]}
{"id": "C48", "title": "Random-phase matrices are diagonal unitaries", "statement": "For every draw of the phases generate_random_phases_matrix_for_first_m_modes(m, M) is a diagonal unitary equal to the identity beyond mode m.", "quantifier": "all m <= M and all random draws", "why_tests_cant": "all draws", "anchors": ["theboss/boson_sampling_utilities/boson_sampling_utilities.py:generate_random_phases_matrix_for_first_m_modes"]}
{"id": "C49", "title": "Total variation distance is a metric bounded by one", "statement": "count_total_variation_distance is symmetric, zero exactly for equal lists, satisfies the triangle inequality, and lies in [0,1] for probability vectors; lists of different length raise AssertionError.", "quantifier": "all lists of reals", "why_tests_cant": "all distributions", "anchors": ["theboss/quantum_computations_utilities.py:count_total_variation_distance"]}
{"id": "C50", "title": "Dictionary TVD treats missing outcomes as zero and agrees with the list TVD", "statement": "count_total_variation_distance_dicts depends only on the probability functions extended by zero, is symmetric, and equals count_total_variation_distance of the two lists obtained by tabulating both dictionaries on any duplicate-free list of outcomes covering both key sets.", "quantifier": "all pairs of dictionaries", "why_tests_cant": "all key sets and iteration orders", "anchors": ["theboss/quantum_computations_utilities.py:count_total_variation_distance_dicts"]}
{"id": "C51", "title": "Sample-size bound is sufficient and minimal", "statement": "For outcomes_number K >= 0, error probability p in (0,1], distance d > 0 let N = compute_minimal_number_of_samples_for_desired_accuracy(K,p,d). Then count_tv_distance_error_bound_of_experiment_results(K,N,p) < d, and for every 1 <= N' < N the bound is >= d.", "quantifier": "all K, p, d", "why_tests_cant": "real-analytic inequality over a continuum", "anchors": ["theboss/quantum_computations_utilities.py:compute_minimal_number_of_samples_for_desired_accuracy", "theboss/quantum_computations_utilities.py:count_tv_distance_error_bound_of_experiment_results"]}
{"id": "C52", "title": "get_prime_factors returns the prime factorisation", "statement": "For every integer n >= 2 get_prime_factors(n) terminates and returns primes, in non-decreasing order, whose product is n.", "quantifier": "all n >= 2", "why_tests_cant": "all integers", "anchors": ["theboss/quantum_computations_utilities.py:get_prime_factors"]}
{"id": "C53", "title": "Sample-based distribution: empirical frequencies of the configured number of samples", "statement": "BSSampleBasedDistributionCalculator.calculate_distribution() draws the configured samples_number samples and returns, for each outcome of get_outcomes_in_proper_order(), the fraction of samples equal to it; the entries sum to 1 when every sample is among the outcomes.", "quantifier": "every strategy result, every outcome list, every samples_number", "why_tests_cant": "all sample sequences and configurations", "anchors": ["theboss/distribution_calculators/bs_sample_based_distribution_calculator.py"]}
{"id": "C54", "title": "Strategy factory dispatch and isolation", "statement": "For every history of setter and generate_strategy calls, generate_strategy builds the strategy of the current type (fixed-loss for unmapped types) from the current configuration, and no generated strategy's matrix update changes the factory's calculator or other generated strategies.", "quantifier": "every history of factory and strategy calls", "why_tests_cant": "aliasing across arbitrary histories", "anchors": ["theboss/simulation_strategies/simulation_strategy_factory.py"]}
{"id": "C55", "title": "Clifford R wrapper: result decoding and input columns", "statement": "CliffordsRSimulationStrategy.simulate(s, N) decodes the R sampler's 1-based column-major result into N occupation tuples of len(s) modes with sum(s) particles each, and passes to R exactly the interferometer columns occupied by the input.", "quantifier": "every matrix, input, N and R result", "why_tests_cant": "all inputs and all external results", "anchors": ["theboss/simulation_strategies/cliffords_r_simulation_strategy.py"]}
{"id": "C56", "title": "Transmissivities extracted from a matrix", "statement": "get_modes_transmissivity_values_from_matrix(M) returns m values in ascending order whose sum is the squared Frobenius norm of M and whose product is |det M|^2; all are 1 when M is unitary.", "quantifier": "every square matrix and valid SVD", "why_tests_cant": "matrix identity", "anchors": ["theboss/boson_sampling_utilities/boson_sampling_utilities.py:get_modes_transmissivity_values_from_matrix"]}
{"id": "C57", "title": "Uniform-loss approximate sampler: shape and law", "statement": "Every run of UniformLossSimulationStrategy.simulate(s, N) returns N samples of one entry per mode with at most sum(s) particles; for a network with singular values at most 1 a sample equals T with probability sum_l binom(n,l) eta^l (1-eta)^(n-l) P_l(T), P_l being the phase-averaged multinomial law of l independent particles.", "quantifier": "every matrix with singular values at most 1, input, eta in [0,1], N and sequence of draws", "why_tests_cant": "a distributional claim over all networks", "anchors": ["theboss/simulation_strategies/uniform_loss_simulation_strategy.py:simulate"]}
{"id": "C58", "title": "BOBS samples follow the Brod-Oszmaniec approximation", "statement": "On a new NonuniformLossesApproximationStrategy with k approximated modes a sample of simulate(s, N) equals T with the probability obtained by putting the particles of the first k modes together into one of them chosen uniformly, losing each particle with the extracted loss probability, applying QFT and independent random phases to the first k modes and then the network with the extracted losses divided out, and reading the first m modes of any unitary dilation. Which of the k modes is chosen has no influence on that probability.", "quantifier": "every network with singular values at most 1, k, thread number, input, N and sequence of draws", "why_tests_cant": "a distributional claim over all networks and inputs", "anchors": ["theboss/simulation_strategies/nonuniform_losses_approximation_strategy.py:_simulate_in_parallel", "theboss/simulation_strategies/nonuniform_losses_approximation_strategy.py:_get_matrix_for_approximate_sampling"]}
{"id": "C59", "title": "BOBS without approximated modes is exact", "statement": "With approximated_modes_number <= 0 NonuniformLossesApproximationStrategy samples, in every call of every history, from the exact output law of the lossy network: extracting the largest uniform loss and applying it to the input does not change the law (unless the extracted loss is positive but below the isclose tolerance 1e-8, in which case it is dropped). With one approximated mode the same holds as long as no earlier call had particles in that mode.", "quantifier": "every network with singular values at most 1, input, history of calls, N and sequence of draws", "why_tests_cant": "a distributional identity over all networks", "anchors": ["theboss/simulation_strategies/nonuniform_losses_approximation_strategy.py:_extract_losses_from_the_interferometer", "theboss/simulation_strategies/nonuniform_losses_approximation_strategy.py:_compute_lossy_input"]}
{"id": "C60", "title": "Law of the samples of uniform-loss BOBS", "statement": "For 1 <= hierarchy_level < m, a unitary matrix and weights that are a probability vector (see C44), a sample of LossyStateApproximationSimulationStrategy.simulate(s, N) equals T with the probability obtained by letting each particle survive with probability eta, putting the surviving particles of the approximated modes into the first of them, applying QFT and random phases to the first m - hierarchy_level modes and the interferometer with uniformly permuted columns.", "quantifier": "every unitary, hierarchy level, eta in [0,1], input, N, sample index and outcome", "why_tests_cant": "a distributional claim over all interferometers and inputs", "anchors": ["theboss/simulation_strategies/lossy_state_approximated_simulation_strategy.py:_simulate_in_parallel", "theboss/simulation_strategies/lossy_state_approximated_simulation_strategy.py:_get_input_state_for_sampling"]}
{"id": "C61", "title": "find_probabilities returns the probability of every requested outcome", "statement": "CliffordsRSimulationStrategy.find_probabilities(s, outcomes) returns, with probability 1, a dictionary whose keys are exactly the outcomes and whose values are their exact probabilities, for every list of outcomes of the experiment.", "quantifier": "every matrix, input, list of outcomes, R sampler meeting its contract and sequence of draws; unbounded number of loop iterations", "why_tests_cant": "almost-sure termination and exactness over all draws; tests see finitely many runs and cannot observe non-termination", "anchors": ["theboss/simulation_strategies/cliffords_r_simulation_strategy.py:find_probabilities"]}
{"id": "C62", "title": "find_probabilities_of_n_random_states returns the requested number of states", "statement": "find_probabilities_of_n_random_states(s, k) returns with probability 1 the exact probabilities of min(k, dimension) distinct states, if at least that many states have positive probability.", "quantifier": "every unitary, input, k, R sampler meeting its contract and sequence of draws", "why_tests_cant": "almost-sure termination and exactness over all draws", "anchors": ["theboss/simulation_strategies/cliffords_r_simulation_strategy.py:find_probabilities_of_n_random_states"]}
{"id": "C63", "title": "The error bound of an estimated distribution holds with the stated confidence", "statement": "For N >= 1 samples and 0 < delta <= 1, the distribution estimated by the sample-based calculator from either generalized Clifford & Clifford sampler differs from the exact distribution by at least count_tv_distance_error_bound_of_experiment_results(K, N, delta) in total variation (count_total_variation_distance) with probability at most delta; with at least compute_minimal_number_of_samples_for_desired_accuracy(K, delta, d) samples it is within d except with probability delta. K is the number of outcomes.", "quantifier": "every unitary, input, N, delta, d and sequence of draws", "why_tests_cant": "a tail bound on a random distance: finitely many runs cannot establish a failure probability", "anchors": ["theboss/quantum_computations_utilities.py:count_tv_distance_error_bound_of_experiment_results", "theboss/quantum_computations_utilities.py:compute_minimal_number_of_samples_for_desired_accuracy", "theboss/quantum_computations_utilities.py:count_total_variation_distance", "theboss/distribution_calculators/bs_sample_based_distribution_calculator.py", "theboss/simulation_strategies/generalized_cliffords_simulation_strategy.py:simulate", "theboss/simulation_strategies/generalized_cliffords_b_simulation_strategy.py:simulate"]}
{"id": "C64", "title": "The error bound holds with uniform losses", "statement": "The same for uniform losses: with the outcomes of the exact uniform-loss calculator, the distribution estimated from either sampler with uniform losses is within the computed error bound of the exact one except with probability delta, and the computed minimal number of samples is enough. Likewise for the sampler of lossy networks and the probabilities of its network, with losses that may differ from mode to mode; with equal losses, against the exact uniform-loss calculator.", "quantifier": "every unitary, input, transmissivity in [0,1], N, delta, d and sequence of draws", "why_tests_cant": "a tail bound on a random distance", "anchors": ["theboss/quantum_computations_utilities.py:count_tv_distance_error_bound_of_experiment_results", "theboss/distribution_calculators/bs_exact_distribution_with_uniform_losses.py:calculate_probabilities_of_outcomes", "theboss/distribution_calculators/bs_sample_based_distribution_calculator.py", "theboss/simulation_strategies/generalized_cliffords_uniform_losses_simulation_strategy.py:simulate", "theboss/simulation_strategies/generalized_cliffords_b_uniform_losses_simulation_strategy.py:simulate"]}
{"id": "C65", "title": "Estimated distributions are unbiased", "statement": "For every number of samples the expectation of each entry of the distribution estimated by the sample-based calculator is the corresponding entry of the exactly calculated distribution, for the lossless samplers and for those with uniform losses, and the estimation raises with probability 0. For the sampler of lossy networks it is the probability of the outcome of the network.", "quantifier": "every unitary, input, transmissivity, number of samples, entry and sequence of draws", "why_tests_cant": "an identity of expectations over all draws", "anchors": ["theboss/distribution_calculators/bs_sample_based_distribution_calculator.py", "theboss/boson_sampling_simulator.py"]}
{"id": "C66", "title": "Samplers and exact calculator agree on uniform losses", "statement": "For a unitary U and 0 < eta <= 1 (eta = 1 or 1 - eta above the isclose tolerance 1e-8), each outcome has, in every sample of the two uniform-loss samplers on U, of the lossy-network sampler on sqrt(eta) U and of BOBS without approximated modes on sqrt(eta) U after any history of calls, exactly the probability the uniform-loss exact calculator reports for it.", "quantifier": "every unitary, singular value decomposition of sqrt(eta) U, eta, input, history, N, sample index and outcome", "why_tests_cant": "equality of four distributions and a calculator's output over all networks and inputs", "anchors": ["theboss/simulation_strategies/lossy_networks_generalized_cliffords_simulation_strategy.py:simulate", "theboss/simulation_strategies/nonuniform_losses_approximation_strategy.py:simulate", "theboss/simulation_strategies/generalized_cliffords_uniform_losses_simulation_strategy.py:simulate", "theboss/simulation_strategies/generalized_cliffords_b_uniform_losses_simulation_strategy.py:simulate", "theboss/distribution_calculators/bs_exact_distribution_with_uniform_losses.py:calculate_probabilities_of_outcomes"]}
{"id": "C67", "title": "The separable-state distribution calculator can be constructed", "statement": "BSApproximatedLossyDistributionCalculator(configuration, permanent_calculator) returns a usable calculator for every experiment configuration of the project.", "quantifier": "every configuration, matrix and permanent calculator", "why_tests_cant": "the class is not covered by any test; the claim is about every configuration", "anchors": ["theboss/distribution_calculators/bs_appriximated_distribution_from_separable_states_calculator.py:__init__", "theboss/distribution_calculators/bs_appriximated_distribution_from_separable_states_calculator.py:_prepare_initial_matrix", "theboss/distribution_calculators/bs_appriximated_distribution_from_separable_states_calculator.py:calculate_distribution"]}
{"id": "C68", "title": "Separable-state calculator: one averaged marginal probability per outcome", "statement": "calculate_probabilities_of_outcomes(outcomes) returns one number per outcome, the average over the drawn matrices (with independent uniform phases) of the probability that the first m of the 2m modes show it; the 2m-mode states summed for an outcome are exactly those extending it with the remaining particles.", "quantifier": "every network, state, list of outcomes and sequence of draws", "why_tests_cant": "requires summing over all environment states and all draws", "anchors": ["theboss/distribution_calculators/bs_appriximated_distribution_from_separable_states_calculator.py:calculate_probabilities_of_outcomes", "theboss/distribution_calculators/bs_appriximated_distribution_from_separable_states_calculator.py:_calculate_probability_of_outcome", "theboss/distribution_calculators/bs_appriximated_distribution_from_separable_states_calculator.py:_get_2m_outcomes_corresponding_to_the_outcome", "theboss/distribution_calculators/bs_appriximated_distribution_from_separable_states_calculator.py:_generate_effective_matrix"]}
{"id": "C69", "title": "Separable-state calculator: bunching keeps all particles", "statement": "_prepare_initial_state returns the 2m-mode state with all particles of the approximated modes in the last approximated mode, the other modes unchanged and m further empty modes.", "quantifier": "every state and number of approximated modes", "why_tests_cant": "the loss of particles depends on the occupation of one mode", "anchors": ["theboss/distribution_calculators/bs_appriximated_distribution_from_separable_states_calculator.py:_prepare_initial_state"]}
{"id": "C70", "title": "The samples of one call are independent", "statement": "For every sampler the probability that simulate(S, N) returns exactly the list l is the product over l of the single-sample law (version B, both uniform-loss samplers, lossy-network sampler, fixed-loss and uniform-loss approximate samplers, BOBS after any history and over all its processes, uniform-loss BOBS).", "quantifier": "every network, input, transmissivity, history and list of outcomes", "why_tests_cant": "a product formula for the joint law of arbitrarily many draws", "anchors": ["theboss/simulation_strategies/generalized_cliffords_b_simulation_strategy.py:simulate", "theboss/simulation_strategies/generalized_cliffords_uniform_losses_simulation_strategy.py:simulate", "theboss/simulation_strategies/generalized_cliffords_b_uniform_losses_simulation_strategy.py:simulate", "theboss/simulation_strategies/lossy_networks_generalized_cliffords_simulation_strategy.py:simulate", "theboss/simulation_strategies/fixed_loss_simulation_strategy.py:simulate", "theboss/simulation_strategies/uniform_loss_simulation_strategy.py:simulate", "theboss/simulation_strategies/nonuniform_losses_approximation_strategy.py:simulate", "theboss/simulation_strategies/lossy_state_approximated_simulation_strategy.py:simulate"]}
{"id": "C71", "title": "Permanent calculators on states with different particle numbers", "statement": "For every square matrix and fitting states: the Ryser calculator returns the sum over the maps from output to input particles that are surjective, Chin-Huh the sum over the maps with all fibres odd, the classic calculator the sum over the injective maps from input to output particles (1 or 0 for vacuum input, IndexError for vacuum output only), Glynn the permanent with the first T.sum input particles if there are enough, IndexError if there are fewer but some, and 1 if one state is the vacuum.", "quantifier": "every matrix over a field of characteristic 0, every pair of states, every Gray code", "why_tests_cant": "the sums range over all maps between particles; tests only use equal particle numbers", "anchors": ["theboss/boson_sampling_utilities/permanent_calculators/ryser_permanent_calculator.py:_update_sums", "theboss/boson_sampling_utilities/permanent_calculators/chin_huh_permanent_calculator.py:_update_sums", "theboss/boson_sampling_utilities/permanent_calculators/glynn_gray_permanent_calculator.py:compute_permanent", "theboss/boson_sampling_utilities/permanent_calculators/classic_permanent_calculator.py:compute_permanent"]}
{"id": "C72", "title": "Factory-built permanent calculators are isolated objects", "statement": "In every history of setter calls on the factory, generate_calculator calls, setter and compute_permanent calls on the generated calculators and in-place changes of the arrays by the caller, compute_permanent of a generated calculator gives what a fresh calculator of the factory's type gives on the matrix and states this calculator currently refers to: its own latest ones, else those of the factory at the time of generation (None states become empty lists).", "quantifier": "every history, calculator type, matrix and state", "why_tests_cant": "quantifies over all interleavings of calls on several objects sharing arrays", "anchors": ["theboss/boson_sampling_utilities/permanent_calculators/bs_permanent_calculator_factory.py:generate_calculator", "theboss/boson_sampling_utilities/permanent_calculators/bs_permanent_calculator_factory.py:__init__", "theboss/boson_sampling_utilities/permanent_calculators/bs_permanent_calculator_base.py:__init__"]}
{"id": "C73", "title": "The distance between matrices is a unitarily invariant metric", "statement": "count_distance_between_matrices is non-negative, zero exactly for equal matrices, symmetric, satisfies the triangle inequality, bounds every entry's difference and does not change when both matrices are multiplied by a unitary from either side. Its square is tr((A-B)^H (A-B)).", "quantifier": "all complex matrices of equal shape and all unitaries", "why_tests_cant": "statement about all real-valued matrix triples", "anchors": ["theboss/quantum_computations_utilities.py:count_distance_between_matrices"]}
{"id": "C74", "title": "Outcomes whose particle number cannot occur have probability 0", "statement": "calculate_probabilities_of_outcomes gives probability 0 to every outcome whose particle number differs from the number of particles left (fixed losses) or exceeds the number of input particles (uniform losses).", "quantifier": "every network, input, number of particles left, outcome and permanent calculator type", "why_tests_cant": "tests only use outcomes from calculate_distribution, which all have the right particle number", "anchors": ["theboss/distribution_calculators/bs_distribution_calculator_with_fixed_losses.py:__compute_probability_of_outcome_state_for_indistinguishable_photons", "theboss/distribution_calculators/bs_exact_distribution_with_uniform_losses.py:_calculate_probability_of_outcome", "theboss/boson_sampling_utilities/permanent_calculators/ryser_permanent_calculator.py:_update_sums"]}
{"id": "C75", "title": "Exact calculators sharing a permanent calculator do not influence each other", "statement": "In every history of computations of fixed-loss and uniform-loss calculators that share one permanent calculator object (failing computations, foreign changes of its attributes and pool workers with arbitrary copies included), every computation returns or raises what it would with a fresh permanent calculator of the same type for every permanent.", "quantifier": "every history, network, configuration, permanent calculator type and initial state of the shared object", "why_tests_cant": "quantifies over all interleavings and over all leftovers of aborted computations", "anchors": ["theboss/distribution_calculators/bs_distribution_calculator_with_fixed_losses.py:calculate_probabilities_of_outcomes", "theboss/distribution_calculators/bs_exact_distribution_with_uniform_losses.py:calculate_probabilities_of_outcomes", "theboss/boson_sampling_utilities/permanent_calculators/bs_permanent_calculator_base.py:compute_permanent"]}
{"id": "C76", "title": "When the computation of a distribution up to an accuracy ends", "statement": "compute_distribution_up_to_accuracy returns with probability 1 if the accuracy is at most 1, minus the number u of states that no draw can record when missing values are marked by -1 (plus the tolerance of isclose), and otherwise never returns; compute_unweighted_distribution_up_to_accuracy likewise with the bound 1 for positive transmissivity and 0 for transmissivity 0, minus (u+1)/n when missing values are marked.", "quantifier": "every interferometer, input, transmissivity in [0,1], accuracy, earlier state of the object and permanent calculator backend", "why_tests_cant": "almost-sure termination and non-termination are statements about infinitely many runs", "anchors": ["theboss/simulation_strategies/generalized_cliffords_uniform_losses_simulation_strategy.py:compute_distribution_up_to_accuracy", "theboss/simulation_strategies/generalized_cliffords_uniform_losses_simulation_strategy.py:compute_unweighted_distribution_up_to_accuracy", "theboss/simulation_strategies/generalized_cliffords_uniform_losses_simulation_strategy.py:_fill_r_sample"]}
{"id": "C77", "title": "Uniform-loss BOBS: levels outside the range mean exact simulation", "statement": "A hierarchy level that is not one of 0..m-1 (comment 'Assume exact simulation if hierarchy level is not specified') gives a sampler that simulates the uniformly lossy experiment exactly; it can be built on every permanent calculator holding the interferometer matrix.", "quantifier": "every integer hierarchy level, matrix, transmissivity, input and number of modes of the calculator's input state", "why_tests_cant": "quantifies over all integer levels and states of the shared permanent calculator", "anchors": ["theboss/simulation_strategies/lossy_state_approximated_simulation_strategy.py:__init__", "theboss/simulation_strategies/lossy_state_approximated_simulation_strategy.py:simulate", "theboss/simulation_strategies/lossy_state_approximated_simulation_strategy.py:_prepare_approximated_input_state", "theboss/simulation_strategies/lossy_state_approximated_simulation_strategy.py:_get_matrix_for_approximate_sampling", "theboss/boson_sampling_utilities/boson_sampling_utilities.py:generate_qft_matrix_for_first_m_modes", "theboss/quantum_computations_utilities.py:compute_qft_matrix"]}
{"id": "C78", "title": "Phases and complex conjugation change no result", "statement": "Multiplying the rows and columns of the interferometer by phases, or conjugating it, changes neither the probabilities of the exact calculators nor the joint law of the samples of the three exact and the two uniform-loss samplers; the same holds for the sampler of lossy networks and the phases and the conjugation of its network.", "quantifier": "every interferometer, all phases, every input, transmissivity, number of samples and event on the list of samples", "why_tests_cant": "an equality of distributions over a continuum of matrices", "anchors": ["theboss/distribution_calculators/bs_distribution_calculator_with_fixed_losses.py:calculate_probabilities_of_outcomes", "theboss/distribution_calculators/bs_exact_distribution_with_uniform_losses.py:calculate_probabilities_of_outcomes", "theboss/simulation_strategies/generalized_cliffords_simulation_strategy.py:simulate", "theboss/simulation_strategies/mode_assignment_generalized_cliffords_simulation_strategy.py:simulate", "theboss/simulation_strategies/generalized_cliffords_b_simulation_strategy.py:simulate", "theboss/simulation_strategies/generalized_cliffords_uniform_losses_simulation_strategy.py:simulate", "theboss/simulation_strategies/generalized_cliffords_b_uniform_losses_simulation_strategy.py:simulate", "theboss/simulation_strategies/lossy_networks_generalized_cliffords_simulation_strategy.py:simulate"]}
{"id": "C79", "title": "Relabelling the modes relabels the outcomes", "statement": "If the interferometer's outputs are permuted by one permutation and its inputs by another, the probabilities of the exact calculators and the joint laws of the samples of the five samplers are those of the original experiment with the states permuted accordingly; likewise for the sampler of lossy networks.", "quantifier": "every interferometer, every two permutations, every input, transmissivity, number of samples and event on the list of samples", "why_tests_cant": "an equality of distributions for every pair of permutations", "anchors": ["theboss/distribution_calculators/bs_distribution_calculator_with_fixed_losses.py:calculate_probabilities_of_outcomes", "theboss/distribution_calculators/bs_exact_distribution_with_uniform_losses.py:calculate_probabilities_of_outcomes", "theboss/simulation_strategies/generalized_cliffords_simulation_strategy.py:simulate", "theboss/simulation_strategies/mode_assignment_generalized_cliffords_simulation_strategy.py:simulate", "theboss/simulation_strategies/generalized_cliffords_b_simulation_strategy.py:simulate", "theboss/simulation_strategies/generalized_cliffords_uniform_losses_simulation_strategy.py:simulate", "theboss/simulation_strategies/generalized_cliffords_b_uniform_losses_simulation_strategy.py:simulate", "theboss/simulation_strategies/lossy_networks_generalized_cliffords_simulation_strategy.py:simulate"]}
{"id": "C80", "title": "Time reversal", "statement": "The probability of T for input S through U equals the probability of S for input T through the conjugate transpose of U, for the fixed-loss calculator without losses and for every sample of the three exact samplers, and of the sampler of lossy networks if no particle is lost.", "quantifier": "every interferometer, every two states with equal particle numbers, number of samples and sample index", "why_tests_cant": "an equality between distributions of different experiments", "anchors": ["theboss/distribution_calculators/bs_distribution_calculator_with_fixed_losses.py:calculate_probabilities_of_outcomes", "theboss/simulation_strategies/generalized_cliffords_simulation_strategy.py:simulate", "theboss/simulation_strategies/mode_assignment_generalized_cliffords_simulation_strategy.py:simulate", "theboss/simulation_strategies/generalized_cliffords_b_simulation_strategy.py:simulate", "theboss/simulation_strategies/lossy_networks_generalized_cliffords_simulation_strategy.py:simulate"]}
{"id": "C81", "title": "Losses after the interferometer equal losses before it", "statement": "Keeping k random particles of the outcomes of the distribution for l >= k particles left gives the probabilities for k particles left; thinning the distribution for transmissivity x with y gives the one for x*y. The samples of the three exact samplers, thinned with y, have the joint law of the uniform-loss samplers for y, and those of the uniform-loss samplers for x, thinned with y, the joint law for x*y. The samples of a lossy network, thinned with y, have the joint law of the network multiplied by sqrt(y).", "quantifier": "every interferometer, input, l, k, transmissivities x and y, outcome, number of samples and event on the list of samples", "why_tests_cant": "an equality between distributions of different experiments for a continuum of matrices and transmissivities", "anchors": ["theboss/distribution_calculators/bs_distribution_calculator_with_fixed_losses.py:calculate_probabilities_of_outcomes", "theboss/distribution_calculators/bs_exact_distribution_with_uniform_losses.py:calculate_probabilities_of_outcomes", "theboss/simulation_strategies/generalized_cliffords_simulation_strategy.py:simulate", "theboss/simulation_strategies/mode_assignment_generalized_cliffords_simulation_strategy.py:simulate", "theboss/simulation_strategies/generalized_cliffords_b_simulation_strategy.py:simulate", "theboss/simulation_strategies/generalized_cliffords_uniform_losses_simulation_strategy.py:simulate", "theboss/simulation_strategies/generalized_cliffords_b_uniform_losses_simulation_strategy.py:simulate", "theboss/simulation_strategies/lossy_networks_generalized_cliffords_simulation_strategy.py:simulate"]}
{"id": "C82", "title": "From the strategy factory to the samples", "statement": "The results of BosonSamplingSimulator for a strategy generated by the factory, after any further actions, are independent samples of the law of the strategy's type. For GCC, LOSSY_NET_GCC and UNIFORM_LOSSES_GCC the matrix is the one of the factory's permanent calculator at generation or the one set last on the strategy, not the configuration's; for FIXED_LOSS (also for types without an entry) and UNIFORM_LOSS it is the configuration's matrix at generation; for BOBS and UNIFORM_LOSSES_BOBS the calculator's. Transmissivity, level and particle number are the configuration's at generation. By default one sample is requested.", "quantifier": "every history of the factory before and after generating the strategy, every matrix, input, number of samples, list of outcomes and state left by earlier calls", "why_tests_cant": "needs the joint law of the returned lists after arbitrary histories of a factory with shared mutable calculators and configurations", "anchors": ["theboss/boson_sampling_simulator.py:get_classical_simulation_results", "theboss/simulation_strategies/simulation_strategy_factory.py:generate_strategy"]}
{"id": "C83", "title": "Mean numbers of particles per output mode", "statement": "In every sample of every sampler, and averaged over the distributions of the exact calculators, the mean number of particles in mode j is eta * sum_c S_c |U_jc|^2: the intensity of the particles sent through the network one by one, eta being the probability that a particle survives (k/n when k of n particles are left; for lossy networks the losses are those of the matrix).", "quantifier": "every interferometer or network, every input with any occupations, every mode, every sample of a call and every state left by earlier calls", "why_tests_cant": "means are sums over infinitely many runs and real matrices; statistical tests of samplers compare few outcomes of few matrices up to noise and do not see systematically spread means", "anchors": ["theboss/simulation_strategies/generalized_cliffords_simulation_strategy.py:simulate", "theboss/simulation_strategies/mode_assignment_generalized_cliffords_simulation_strategy.py:simulate", "theboss/simulation_strategies/generalized_cliffords_b_simulation_strategy.py:simulate", "theboss/simulation_strategies/generalized_cliffords_uniform_losses_simulation_strategy.py:simulate", "theboss/simulation_strategies/generalized_cliffords_b_uniform_losses_simulation_strategy.py:simulate", "theboss/distribution_calculators/bs_distribution_calculator_with_fixed_losses.py:calculate_probabilities_of_outcomes", "theboss/distribution_calculators/bs_exact_distribution_with_uniform_losses.py:calculate_probabilities_of_outcomes", "theboss/simulation_strategies/fixed_loss_simulation_strategy.py:simulate", "theboss/simulation_strategies/uniform_loss_simulation_strategy.py:simulate", "theboss/simulation_strategies/nonuniform_losses_approximation_strategy.py:simulate", "theboss/simulation_strategies/lossy_state_approximated_simulation_strategy.py:simulate", "theboss/simulation_strategies/lossy_networks_generalized_cliffords_simulation_strategy.py:simulate"]}
{"id": "C84", "title": "Histories of samplers and exact calculators on shared permanent calculators", "statement": "In every sequence of actions \u2014 permanent calculators, samplers and exact calculators being built, sharing calculators, drawing samples, computing probabilities, being given new matrices, with failing calls in between \u2014 all results are jointly distributed like independent runs, each depending only on its arguments, the class of the object, and the type and the current matrix of its permanent calculator; the samples of each call are independent boson-sampling outcomes of that matrix.", "quantifier": "every heap, every sequence of actions of any length, every state of the objects, every matrix and input", "why_tests_cant": "interleavings of objects with shared mutable state are unbounded, and their results are random; tests use each object alone and once", "anchors": ["theboss/simulation_strategies/generalized_cliffords_simulation_strategy.py:simulate", "theboss/simulation_strategies/mode_assignment_generalized_cliffords_simulation_strategy.py:simulate", "theboss/simulation_strategies/generalized_cliffords_b_simulation_strategy.py:simulate", "theboss/simulation_strategies/generalized_cliffords_uniform_losses_simulation_strategy.py:simulate", "theboss/simulation_strategies/generalized_cliffords_b_uniform_losses_simulation_strategy.py:simulate", "theboss/simulation_strategies/lossy_networks_generalized_cliffords_simulation_strategy.py:simulate", "theboss/simulation_strategies/generalized_cliffords_simulation_strategy.py:simulate", "theboss/simulation_strategies/mode_assignment_generalized_cliffords_simulation_strategy.py:simulate", "theboss/simulation_strategies/generalized_cliffords_b_simulation_strategy.py:simulate", "theboss/simulation_strategies/generalized_cliffords_uniform_losses_simulation_strategy.py:simulate", "theboss/simulation_strategies/generalized_cliffords_b_uniform_losses_simulation_strategy.py:simulate"]}
{"id": "C85", "title": "A sampler draws from the matrix it was given", "statement": "Whatever happens to other objects, a sampler draws from the matrix its calculator had when the sampler was built, or the last one given to its set_new_matrix, even if the permanent calculator was also given to other samplers or exact calculators.", "quantifier": "every history between the time the sampler is given a matrix and the call of simulate", "why_tests_cant": "needs all interleavings of several objects; the violation is silent: the samples are plausible but belong to another matrix", "anchors": ["theboss/simulation_strategies/generalized_cliffords_simulation_strategy.py:simulate", "theboss/simulation_strategies/mode_assignment_generalized_cliffords_simulation_strategy.py:simulate", "theboss/simulation_strategies/generalized_cliffords_b_simulation_strategy.py:simulate", "theboss/simulation_strategies/generalized_cliffords_uniform_losses_simulation_strategy.py:simulate", "theboss/simulation_strategies/generalized_cliffords_b_uniform_losses_simulation_strategy.py:simulate", "theboss/simulation_strategies/lossy_networks_generalized_cliffords_simulation_strategy.py:simulate", "theboss/simulation_strategies/generalized_cliffords_simulation_strategy.py:simulate", "theboss/simulation_strategies/mode_assignment_generalized_cliffords_simulation_strategy.py:simulate", "theboss/simulation_strategies/generalized_cliffords_b_simulation_strategy.py:simulate"]}
{"id": "C86", "title": "Drawn indices stay in range in floating-point arithmetic", "statement": "Whatever random() returns, the index drawn from computed (rounded) weights is the index of an existing entry: _sample_from_latest_pmf never runs past the end of the pmf and draws a positive entry, the number of particles left is at most the number of particles, choice never returns None, and no particle of the fixed-loss sampler is dropped.", "quantifier": "every rounding to nearest (any tie rule), every value k/2^53 of random(), every list of nonnegative floats, every input, matrix, number of samples", "why_tests_cant": "the failures have probability about 2^-53 per draw, so no test run ever sees them, but they are exceptions or lost particles in long runs", "anchors": ["theboss/simulation_strategies/generalized_cliffords_simulation_strategy.py:_sample_from_latest_pmf", "theboss/simulation_strategies/generalized_cliffords_b_uniform_losses_simulation_strategy.py:_get_number_of_particles_left", "theboss/simulation_strategies/nonuniform_losses_approximation_strategy.py:choice", "theboss/simulation_strategies/fixed_loss_simulation_strategy.py:_calculate_approximation_of_boson_sampling_outcome"]}
{"id": "C87", "title": "Rounding moves the law of the Clifford samplers by a bounded amount", "statement": "With all weights, pmfs, sums and comparisons rounded and random() a multiple of 2^-53, the probability of every set of sample lists differs from its exact value by at most N (n (2 (c - 1) + (8 m^2 + 32 m + 10 L + 30) / 2^53) + (1 + m + ... + m^(n-1)) (4 m L a + 2^-200)), where N samples are drawn, n particles, m modes, L states below the input, and the squared permanents have relative error c - 1 and absolute error a (c <= 5/4); the probability of an exception has the same bound.", "quantifier": "every rounding to nearest, every interferometer with orthonormal columns, every input with at most 170 particles and 6 m + 6 + 2 L <= 2^50 for m modes and L states below the input, every number of samples, every set of sample lists, underflow included", "why_tests_cant": "a statistical test resolves about 1e-3, the claim is about 1e-13 for all inputs at once", "anchors": ["theboss/simulation_strategies/generalized_cliffords_simulation_strategy.py:simulate", "theboss/simulation_strategies/generalized_cliffords_simulation_strategy.py:_calculate_new_layer_of_pmfs", "theboss/simulation_strategies/generalized_cliffords_simulation_strategy.py:_calculate_weights", "theboss/simulation_strategies/generalized_cliffords_simulation_strategy.py:_calculate_outputs_probability", "theboss/simulation_strategies/mode_assignment_generalized_cliffords_simulation_strategy.py:simulate"]}
{"id": "C88", "title": "Permanent calculators in floating-point arithmetic have a bounded error", "statement": "In floating-point arithmetic every calculator of the factory returns the permanent of the exact matrix up to ((1 + 2^-48)^K - 1) B, where K counts the operations whose errors can add up and B is the size of the numbers added: with n particles, m modes, L states below the input, and stored entries that are e operations away from the exact ones, K = n (n + e + 1), B = n! for the classic one; K = n (n (e + 2) + 2^(n-1) (2 e + 3) + 1) + 1 + 2^(n-1), B = n^n for Glynn; K = 3 L + 1 + n (L (e + 2) + 2), B = 2^n n^n for Ryser; K = 3 L + 1 + n (m (e + 2) + L (2 e + 3) + 2), B = n^n for Chin-Huh. abs(permanent) ** 2 has error ((1 + 2^-48)^(2 K + 3) - 1) B^2 and is nonnegative.", "quantifier": "every arithmetic with the usual errors of complex128 (underflow included), every Gray code, every type number, every square matrix with entries of modulus at most 1, every pair of states with equal sums of at most 1000 particles", "why_tests_cant": "the calculators add up to L terms that cancel; a test compares a few small matrices with a tolerance chosen to pass", "anchors": ["theboss/boson_sampling_utilities/permanent_calculators/bs_permanent_calculator_base.py:compute_permanent", "theboss/boson_sampling_utilities/permanent_calculators/ryser_permanent_calculator.py:_update_sums", "theboss/boson_sampling_utilities/permanent_calculators/chin_huh_permanent_calculator.py:_update_sums", "theboss/boson_sampling_utilities/permanent_calculators/glynn_gray_permanent_calculator.py:compute_permanent", "theboss/boson_sampling_utilities/permanent_calculators/classic_permanent_calculator.py:compute_permanent", "theboss/boson_sampling_utilities/permanent_calculators/bs_permanent_calculator_factory.py:generate_calculator"]}
{"id": "C89", "title": "The law of the Clifford samplers with everything in floating-point arithmetic", "statement": "With the matrix stored in floating point, the permanents computed by any calculator of the factory in floating-point arithmetic and the draws rounded, the probability of every set of sample lists differs from that of the exact sampler with the exact unitary matrix by at most N times the bound of C87 with c = 1 and a = ((1 + 2^-48)^(2 K + 3) - 1) B^2, where K and B are those of C88; so does the probability of an exception from 0, and for one sample the probability of an output from |perm|^2 / (S! T!).", "quantifier": "every arithmetic with the usual errors, every rounding to nearest, every matrix with orthonormal columns and every stored version of it, every input with at most 170 particles and 6 m + 6 + 2 L <= 2^50 for m modes and L states below the input, both samplers, every type number, every number of samples, every set of sample lists", "why_tests_cant": "combines the errors of all stages for all inputs; statistical tests resolve about 1e-3", "anchors": ["theboss/simulation_strategies/generalized_cliffords_simulation_strategy.py:simulate", "theboss/simulation_strategies/mode_assignment_generalized_cliffords_simulation_strategy.py:simulate", "theboss/boson_sampling_utilities/permanent_calculators/bs_permanent_calculator_base.py:compute_permanent", "theboss/boson_sampling_utilities/permanent_calculators/bs_permanent_calculator_factory.py:generate_calculator"]}
{"id": "C90", "title": "The fixed-loss distribution in floating-point arithmetic", "statement": "With a stored matrix and any permanent calculator of the factory in floating-point arithmetic, the fixed-loss calculator returns for every outcome with k particles a nonnegative number that differs from the exact probability p for the exact unitary matrix by at most (6 m + 7 + L) / 2^52 * p + 2 (q + (2 m + L + 2 k! + 1) 2^-1074), where m is the number of modes, L the number of states below the input and q the error of a squared permanent in C88; calculate_distribution returns one such number for every outcome, in order, and both the total distance to the exact distribution and the distance of the sum to 1 are at most (6 m + 7 + L) / 2^52 plus that second term for every outcome.", "quantifier": "every rounding to nearest and every complex arithmetic with the usual errors, underflow included; every matrix with orthonormal columns and stored version, every input with at most 1000 particles and L below 2^52, every number of particles left, every outcome, every type number, every injective hash", "why_tests_cant": "tests compare the sums and a few probabilities of small matrices with a tolerance; that the multiplicity survives its float product and int() and that the two factors k! do not lose small probabilities needs an argument for all inputs", "anchors": ["theboss/distribution_calculators/bs_distribution_calculator_with_fixed_losses.py:calculate_distribution", "theboss/distribution_calculators/bs_distribution_calculator_with_fixed_losses.py:__compute_probability_of_outcome_state_for_indistinguishable_photons", "theboss/distribution_calculators/bs_distribution_calculator_with_fixed_losses.py:__compute_lossy_input_multiplicity", "theboss/boson_sampling_utilities/permanent_calculators/bs_permanent_calculator_base.py:compute_permanent"]}
{"id": "C91", "title": "The uniform-loss distribution in floating-point arithmetic", "statement": "In the setting of C90 and for a float eta in [0, 1], the uniform-loss calculator returns for every outcome with l <= n particles a nonnegative number that differs from the exact value p = C(n,l) eta^l (1-eta)^(n-l) p_l by at most (6 m + n + 13 + L) / 2^52 * p + u with u = 4 (q + (2 m + L + 2 n! + 1) 2^-1074) + 2^(n - 1067); calculate_distribution returns one such number for every outcome, in order, with total distance to the exact distribution, and distance of the sum to 1, at most (6 m + n + 13 + L) / 2^52 plus u for every outcome. After any history of set_weightless calls the numbers are bit by bit those of a new calculator, or after set_weightless(True) those of the fixed-loss calculator and 1 for the vacuum.", "quantifier": "as C90, every float eta in [0, 1], every history of set_weightless calls", "why_tests_cant": "weights, fixed-loss values and their product are rounded separately; tests use one or two values of eta", "anchors": ["theboss/distribution_calculators/bs_exact_distribution_with_uniform_losses.py:_calculate_probability_of_outcome", "theboss/distribution_calculators/bs_exact_distribution_with_uniform_losses.py:_initialize_weights", "theboss/distribution_calculators/bs_exact_distribution_with_uniform_losses.py:set_weightless", "theboss/distribution_calculators/bs_distribution_calculator_with_fixed_losses.py:calculate_distribution"]}
{"id": "C92", "title": "The law of the lossy samplers in floating-point arithmetic", "statement": "For a float transmissivity eta in [0, 1] and n <= 170 particles, version B with uniform losses keeps k particles with a probability that differs from C(n,k) eta^k (1-eta)^(n-k) by at most (10 n + 28) / 2^53, and for every set of lists of samples the probability of the set in a call of N samples differs from that of the exact algorithm by at most N (10 n + 28) / 2^53; each sample then has the law of C32, and the call raises with at most this probability. For the approximation of nonuniform losses the lossy input differs from independent binomial losses by at most (12 n + 28 m) / 2^53 for every outcome, and a whole call by at most that much per sample drawn; without approximated modes each sample has the law of the lossy network up to this number. For fixed losses, k photons thrown into m modes with computed mode probabilities of total error d give every outcome its multinomial probability up to k (14 m / 2^53 + 4 d).", "quantifier": "every rounding to nearest; every float eta or losses in [0, 1], every input with at most 170 particles, every number of samples, every permanent calculator (version B, whole calls), every matrix and decomposition, every history of calls (approximation), every list of computed mode probabilities", "why_tests_cant": "the distances are of order 10^-14 and cannot be seen in samples; a swap of kept and lost particles is visible only if eta is not 1/2", "anchors": ["theboss/simulation_strategies/generalized_cliffords_b_uniform_losses_simulation_strategy.py:_get_number_of_particles_left", "theboss/simulation_strategies/generalized_cliffords_b_uniform_losses_simulation_strategy.py:simulate", "theboss/simulation_strategies/nonuniform_losses_approximation_strategy.py:_compute_lossy_input", "theboss/simulation_strategies/nonuniform_losses_approximation_strategy.py:simulate", "theboss/simulation_strategies/fixed_loss_simulation_strategy.py:_calculate_approximation_of_boson_sampling_outcome"]}
{"id": "C93", "title": "The submatrix permanent calculators in floating-point arithmetic", "statement": "For a stored matrix whose entries are those of an exact matrix with entries of modulus at most 1 up to e roundings, an input S and an output T with |S| = |T| + 1 <= 1000, a new Ryser submatrix calculator returns one number per mode: exactly 0 where S has no particle, and elsewhere the permanent with one particle removed from that mode up to ((1 + 2^-48)^K - 1) 2^n (n + 1)^n, where n = |T|, L = prod (S_i + 1) and K = 3 L + 4 + n (L (e + 2) + 2); the Chin-Huh submatrix calculator returns the same permanents up to ((1 + 2^-48)^K' - 1) (n + 1)^n with K' = 3 L + 4 + n (m (e + 2) + e + L (2 e + 3) + 3).", "quantifier": "every rounding to nearest and every complex arithmetic with the stated error; every stored matrix, every input and output with at most 1000 particles, every number of modes", "why_tests_cant": "the error depends on the size of the numbers that cancel, not on that of the result; a test compares a few permanents with a tolerance chosen by hand", "anchors": ["theboss/boson_sampling_utilities/permanent_calculators/bs_submatrices_permanent_calculator_base.py:compute_permanents", "theboss/boson_sampling_utilities/permanent_calculators/bs_cc_ryser_submatrices_permanent_calculator.py:_update_permanents", "theboss/boson_sampling_utilities/permanent_calculators/bs_cc_ch_submatrices_permanent_calculator.py:_update_permanents"]}
{"id": "C94", "title": "Version B of the Clifford sampler in floating-point arithmetic", "statement": "Run with floating-point operations, the Ryser submatrix calculator and numpy.random.choice, version B on a stored matrix whose entries are those of an exact interferometer up to e roundings has, for every set of results, the probability of the exact sampler up to N B, where B = t 16 (m + 1) / 2^53 + 2 eps sum_{i<t} m^(i+1) / (i+1)! with t particles and m modes, and eps is the rounding error ((1 + 2^-48)^K - 1) ((t + 1) (2 t)^(t - 1))^2 of one entry of the pmf. In particular every sample equals T with the boson-sampling probability up to N B, and a result other than N samples with the modes and particles of the input has probability at most N B.", "quantifier": "every rounding to nearest and every complex arithmetic with the stated error; every interferometer and input with at most 1000 particles and 2^20 modes, every number of samples", "why_tests_cant": "a pmf entry can be smaller than its rounding error, so no test of single steps bounds the law of the output; the test suite compares sample frequencies with wide tolerances", "anchors": ["theboss/simulation_strategies/generalized_cliffords_b_simulation_strategy.py:simulate", "theboss/simulation_strategies/generalized_cliffords_b_simulation_strategy.py:_fill_r_sample", "theboss/simulation_strategies/generalized_cliffords_b_simulation_strategy.py:_compute_pmf", "theboss/simulation_strategies/generalized_cliffords_b_simulation_strategy.py:_sample_from_pmf"]}
{"id": "C95", "title": "Lossy versions of version B in floating-point arithmetic", "statement": "Version B with uniform losses: with the conventions of C94 and at most 170 particles every sample equals T with probability binomial(t, |T|, eta) times the fixed-loss probability, up to N ((10 t + 28) / 2^53 + B). Version B for lossy networks: if the stored expanded matrix is within e roundings of the exact dilation obtained from a singular value decomposition with singular values at most 1, every sample equals T with the probability of every dilation of the lossy matrix, up to N B for 2 m modes. Results of any other shape have at most these probabilities.", "quantifier": "every rounding to nearest and every complex arithmetic with the stated error; every transmissivity that is a float, every lossy matrix with singular values at most 1, every input with at most 170 (uniform losses) or 1000 particles (networks), up to 2^20 modes (twice the modes for networks), every number of samples", "why_tests_cant": "the exact law mixes all numbers of lost particles; rounding errors in the weights and in the pmfs add up over every branch", "anchors": ["theboss/simulation_strategies/generalized_cliffords_b_uniform_losses_simulation_strategy.py:simulate", "theboss/simulation_strategies/lossy_networks_generalized_cliffords_simulation_strategy.py:simulate"]}
{"id": "C96", "title": "Correlations between the modes of a sample", "statement": "For every pattern R of output modes, the mean number of ways to find the particles of R among those of a sample (the product of binomials of the occupation numbers) is the sum, over all sets of |R| input particles, of the probability that these particles on their own leave the interferometer as R. This holds for the three exact samplers. It is multiplied by eta^|R| in both samplers and in the exact calculator with uniform losses, and by binom(k, |R|) / binom(n, |R|) in the exact calculator with k of n particles kept. For lossy networks it holds with the lossy matrix itself. For two modes it is the rate of coincidences written with two-particle amplitudes.", "quantifier": "every interferometer, input, pattern of output modes, transmissivity and number of samples, every sample of a run; lossy matrices with singular values at most 1", "why_tests_cant": "correlations average over all outcomes; the test suite compares at most whole distributions for fixed small inputs and no correlations", "anchors": ["theboss/simulation_strategies/generalized_cliffords_simulation_strategy.py:simulate", "theboss/simulation_strategies/generalized_cliffords_b_simulation_strategy.py:simulate", "theboss/simulation_strategies/generalized_cliffords_uniform_losses_simulation_strategy.py:simulate", "theboss/simulation_strategies/generalized_cliffords_b_uniform_losses_simulation_strategy.py:simulate", "theboss/simulation_strategies/lossy_networks_generalized_cliffords_simulation_strategy.py:simulate", "theboss/distribution_calculators/bs_distribution_calculator_with_fixed_losses.py:calculate_distribution", "theboss/distribution_calculators/bs_exact_distribution_with_uniform_losses.py:calculate_probabilities_of_outcomes"]}
{"id": "C97", "title": "Version A with uniform losses in floating-point arithmetic", "statement": "With the matrix stored in floating point, the permanents computed by any calculator of the factory and the draws rounded, version A with uniform losses gives every set of lists of N samples the probability of the exact algorithm up to N (B + n / 2^53), where n <= 170 is the number of particles and B the bound of C89 for one sample. In particular every sample equals T with probability binomial(n, |T|, eta) times the fixed-loss probability of T, up to this number, and a result other than N samples with the modes of the input and at most its particles, exceptions included, has at most this probability.", "quantifier": "every rounding to nearest and every complex arithmetic with the usual errors; every matrix with orthonormal columns and stored version, every input with at most 170 particles and 6 m + 6 + 2 L <= 2^50 for m modes and L states below the input, every transmissivity in [0, 1], every number of samples, every type number", "why_tests_cant": "photons are lost one by one before each layer, and the layers are cached between samples; the errors of all branches add up and are far below what frequencies of samples resolve", "anchors": ["theboss/simulation_strategies/generalized_cliffords_uniform_losses_simulation_strategy.py:simulate", "theboss/simulation_strategies/generalized_cliffords_uniform_losses_simulation_strategy.py:_fill_r_sample", "theboss/simulation_strategies/generalized_cliffords_uniform_losses_simulation_strategy.py:_calculate_new_layer_of_pmfs", "theboss/simulation_strategies/generalized_cliffords_simulation_strategy.py:_sample_from_latest_pmf"]}
{"id": "C98", "title": "Distributions up to an accuracy in floating-point arithmetic", "statement": "Whatever the draws, if compute_distribution_up_to_accuracy returns, entry i of the list is the placeholder, or a nonnegative number that differs from the exact probability p, for the exact matrix, of the i-th state of generate_possible_states(n, m, losses=True) by at most (8 m + 2 L + n + 14) / 2^52 * p + 3 r + 2^(n - 1067), where r = L (q + (m + 2) 2^-1074) n! + (m + 1) 2^-1074, L is the number of states below the input and q the error of a squared permanent in C88. The sum of the list as Python computes it is at least accuracy - 1e-8 - 2^-78. For compute_unweighted_distribution_up_to_accuracy the entries are placeholders or fixed-loss probabilities up to (8 m + 2 L + 8) / 2^52 * p + 2 r, and the computed sum divided by n is at least accuracy - 1e-8 - 2^-78.", "quantifier": "as C97 but with 8 m + 2 L + n + 14 <= 2^50, every float transmissivity in [0, 1], every accuracy, every sequence of draws, placeholders 0 and -1", "why_tests_cant": "which entries are computed depends on the draws; tests compare the sum of one run with the accuracy", "anchors": ["theboss/simulation_strategies/generalized_cliffords_uniform_losses_simulation_strategy.py:compute_distribution_up_to_accuracy", "theboss/simulation_strategies/generalized_cliffords_uniform_losses_simulation_strategy.py:compute_unweighted_distribution_up_to_accuracy", "theboss/simulation_strategies/generalized_cliffords_uniform_losses_simulation_strategy.py:_calculate_new_layer_of_pmfs", "theboss/simulation_strategies/generalized_cliffords_uniform_losses_simulation_strategy.py:_initialize_simulation"]}
{"id": "C99", "title": "Counting the states of a type in floating-point arithmetic", "statement": "compute_number_of_states_of_given_type returns exactly the number of distinct mode permutations of the type, although scipy's factorial and the floor divisions work with floats. This holds for at most 22 modes and every iteration order of the value set. It is false beyond: for seven ones and 22 zeros the function returns 1560779 instead of 1560780.", "quantifier": "every rounding to nearest, every type with at most 22 modes, every order of the set of values; counterexample with 29 modes for every rounding", "why_tests_cant": "all tests use a handful of modes, where every factorial is a float; wrong values appear only with more than 22 modes", "anchors": ["theboss/boson_sampling_utilities/boson_sampling_utilities.py:compute_number_of_states_of_given_type"]}
{"id": "C100", "title": "The dimension of the bosonic space in floating-point arithmetic", "statement": "bosonic_space_dimension returns exactly the number of states of m modes with n particles (with losses: at most n). With the floats of scipy's binom this holds if n < 20 or m <= 20 and there are at most 2^47 states. Without losses the result can only be right if the number of states is itself a float; it is wrong for 12 particles in 116 modes and for 20 particles in 44 modes, whatever formula scipy uses beyond 20 factors. Binomials up to 30 are exact. Whenever the product formula is used (and n + m <= 2^52), the result is within 116 / 2^53 of the number, relatively, plus one half per rounding to an integer.", "quantifier": "every rounding to nearest, every n, m >= 1 with the stated bounds, with and without losses; every implementation of the remaining binomials by floats", "why_tests_cant": "spaces of more than 2^47 states are never enumerated in a test, so nobody compares the number with a count", "anchors": ["theboss/boson_sampling_utilities/boson_sampling_utilities.py:bosonic_space_dimension"]}
{"id": "C101", "title": "Exact calculators and changes of configurations", "statement": "An exact calculator works on a copy of the configuration it is given: later changes of that object, of other configurations or of other calculators do not matter. Its public attribute configuration may be changed or replaced; then a fixed-loss calculator computes what a fresh one would for its current configuration. A uniform-loss calculator does too, if the number of particles and the transmissivity are those its weights were computed for (by the constructor or by set_weightless(False)). Otherwise it is wrong: a new transmissivity has no effect, and an added particle raises IndexError.", "quantifier": "every history of constructors, changes of configuration objects, assignments of the attribute and set_weightless calls on any number of calculators, every division of the outcomes among worker processes; counterexamples with one mode", "why_tests_cant": "tests build one calculator per configuration and never change it afterwards", "anchors": ["theboss/distribution_calculators/bs_distribution_calculator_with_fixed_losses.py:__init__", "theboss/distribution_calculators/bs_exact_distribution_with_uniform_losses.py:set_weightless"]}
{"id": "C102", "title": "The fixed-loss sampler in floating-point arithmetic", "statement": "With all its operations rounded (square root, division, phases, products, evolution, squared moduli, cumulative sums, draws from a grid) the fixed-loss sampler never raises, each sample has one entry per mode and at most k particles, and for every set of results of N samples the probability differs from that of exact arithmetic with real phases by at most N k m (12 eps + 2^-40), where eps is the error of the entries computed by the network strategy. So each sample follows the phase-averaged multinomial law of C38 up to this bound. The lossless strategy, summing one term after the other, has eps <= m (m + 1) / 2^46.", "quantifier": "every rounding to nearest, every complex arithmetic with the usual errors, every number of modes up to 2^40, every contraction matrix, input, number of particles left, number of samples and set of results", "why_tests_cant": "a bias of this size cannot be seen in any feasible number of samples, and exact phases cannot be drawn in a test", "anchors": ["theboss/simulation_strategies/fixed_loss_simulation_strategy.py:simulate", "theboss/simulation_strategies/fixed_loss_simulation_strategy.py:_prepare_initial_state", "theboss/simulation_strategies/fixed_loss_simulation_strategy.py:_calculate_probabilities"]}
{"id": "C103", "title": "The uniform-loss approximate sampler in floating-point arithmetic", "statement": "For up to 170 particles numpy's check of the computed binomial weights never fails, the number of particles left is binomial up to (18 n + 45) / 2^53, no run raises, and for every set of results of N samples the probability differs from that of exact arithmetic by at most N ((18 n + 45) / 2^53 + n m (12 eps + 2^-40)); so each sample follows the law of C57 up to this bound.", "quantifier": "every rounding to nearest, every float transmissivity in [0, 1], every input of 1 to 170 particles, every number of modes up to 2^40, every contraction matrix, number of samples and set of results", "why_tests_cant": "a rejected weight vector would need a particular transmissivity and number of particles, and a bias of this size cannot be seen in samples", "anchors": ["theboss/simulation_strategies/uniform_loss_simulation_strategy.py:simulate"]}
{"id": "C104", "title": "The uniform-loss BOBS sampler in floating-point arithmetic", "statement": "With the Fourier matrix, the phases, the matrix products, the weights and the permanents computed in floats, the sampler that applies uniform losses to the input gives every set of lists of N samples the probability of exact arithmetic with real phases and the exact matrix, up to N times an explicit bound for one sample: (18 b + 45) / 2^53 + (16 M + 6 a + 45) / 2^53 plus the bound of C94 for entries known up to m (2 (e + 3 + m) + 2 (m - h - 1)^2 + 3 + m) operations, with a particles in the h exactly treated modes, M states below them and b particles in the others. So each sample follows the law of C60 up to this bound. The computed Fourier matrix of k modes is off by at most ((k - 1)^2 + 1) / 2^46 per entry. numpy accepts the weights of the input states if every exactly treated mode has at most one particle (or eta is 0 or 1). If the exact weights sum to at most 1 - 2^-25, every run that draws a sample raises ValueError.", "quantifier": "every rounding to nearest, every complex arithmetic with the usual errors, every unitary matrix of up to 2^20 modes and stored version with errors up to (1 + 2^-48)^e - 1, every 1 <= h < m, every float transmissivity in [0, 1], every input of at most 170 particles and at most 2^20 states below its exactly treated part, every number of threads and samples, every set of results", "why_tests_cant": "whether numpy accepts the weights depends on rounded sums, and a bias of this size cannot be seen in samples", "anchors": ["theboss/simulation_strategies/lossy_state_approximated_simulation_strategy.py:simulate", "theboss/simulation_strategies/lossy_state_approximated_simulation_strategy.py:_get_matrix_for_approximate_sampling", "theboss/simulation_strategies/lossy_state_approximated_simulation_strategy.py:_prepare_not_approximated_lossy_mixed_state_parts_weights", "theboss/simulation_strategies/lossy_state_approximated_simulation_strategy.py:_get_input_state_for_sampling"]}
{"id": "C105", "title": "Experiments side by side", "statement": "If an interferometer consists of two interferometers between which nothing passes, then every permanent calculator returns the product of the permanents of the two parts (0 if particles would have to pass over), the uniform-loss calculator returns the product of the probabilities of the two parts, and the fixed-loss calculator that product times the probability of sharing the remaining particles this way. The samplers of version A and B, the uniform-loss samplers and the sampler for lossy networks observe the two parts independently, each with the law it has alone; so added modes, their particles and their interferometer do not change what happens in the others.", "quantifier": "every two square matrices (calculators), every two interferometers or contraction networks and every singular value decomposition (samplers), all inputs, outcomes, numbers of samples and pairs of events of the two parts, every history of the objects", "why_tests_cant": "independence of two parts of the samples is a statement about the joint law for all pairs of events; tests use single small interferometers", "anchors": ["theboss/boson_sampling_utilities/permanent_calculators/bs_permanent_calculator_base.py:compute_permanent", "theboss/distribution_calculators/bs_exact_distribution_with_uniform_losses.py:calculate_probabilities_of_outcomes", "theboss/simulation_strategies/generalized_cliffords_b_simulation_strategy.py:simulate", "theboss/simulation_strategies/lossy_networks_generalized_cliffords_simulation_strategy.py:simulate"]}
{"id": "C106", "title": "Prime factors with Python's numbers", "statement": "get_prime_factors divides with / and takes numpy's square root, so it works on an integer only until the first division and on floats afterwards. Still it returns the prime factors of n in non-decreasing order (their product is n). This fails: the list may end with a superfluous 1 (C52), 2^55 + 2 gives values with another product, and 7 (2^54 + 9) gives the factor 9. What holds: only the first division can round, so the product is p * round(n / p) with p the least prime factor (n itself if n is prime), which is n exactly if n is prime or n / p is a float; in these cases, in particular for all n up to 2^54, the values are those of C52. An odd n from 2^64 on raises TypeError.", "quantifier": "every rounding to nearest, every n >= 2 (odd ones below 2^64 except in the statement about TypeError)", "why_tests_cant": "the failures need numbers beyond 2^54, whose trial division takes minutes; the tests do not call the function", "anchors": ["theboss/quantum_computations_utilities.py:get_prime_factors"]}
{"id": "C107", "title": "Total variation distances in floating-point arithmetic", "statement": "count_total_variation_distance and count_total_variation_distance_dicts with rounded arithmetic still satisfy C49 and C50: the distance of float distributions over n outcomes is the exact one up to the relative error n / 2^52 (and the absolute error 2^-1075), zero for equal inputs, at most the smallest float apart if it is zero, symmetric, at most one for probability vectors, and independent of the iteration order of the key set. The last two fail: two vectors with sum exactly one can have the computed distance 1 + 2^-52, and the dictionary version gives 1 - 2^-53 or 1 for the same dictionaries, depending on the order of the set. What holds is 1 + n / 2^52 + 2^-1075 as bound, and the relative error for every order.", "quantifier": "every rounding to nearest (for symmetry one that treats both signs alike), all lists and dictionaries of floats with at most 2^52 entries, every iteration order of the key set", "why_tests_cant": "tests compare distances of a few distributions up to a tolerance; the failures need entries near the rounding unit", "anchors": ["theboss/quantum_computations_utilities.py:count_total_variation_distance", "theboss/quantum_computations_utilities.py:count_total_variation_distance_dicts"]}
{"id": "C108", "title": "Error bounds and sample numbers in floating-point arithmetic", "statement": "If log and pow(., 2) have the relative error e at most 1/4, then count_tv_distance_error_bound_of_experiment_results returns the exact bound up to the factor F = (1 + 2e)(1 + 2^-50); compute_minimal_number_of_samples_for_desired_accuracy returns the exact number unless an integer lies within the factor (1 + 2e)^2 (1 + 2^-50) of the exact quotient, always a positive number N for which the error bound is below F d, while F times the bound for any smaller number is at least d. With N samples the estimate of C63 is within F d of the exact distribution except with probability at most the error probability.", "quantifier": "every rounding to nearest, every accuracy e <= 1/4 of the library functions, all outcome numbers, up to 2^200 samples, float error probabilities in (0, 1], distances from 2^-200 to 1", "why_tests_cant": "the tests do not call these functions with values for which the truncation is critical", "anchors": ["theboss/quantum_computations_utilities.py:count_tv_distance_error_bound_of_experiment_results", "theboss/quantum_computations_utilities.py:compute_minimal_number_of_samples_for_desired_accuracy"]}
{"id": "C109", "title": "Probabilities of random states found with R, in floating-point arithmetic", "statement": "find_probabilities_of_n_random_states with the number of states as int of a scipy float and rounded sums: when it returns, the entries belong to distinct states of the experiment with the floats R reported, they carry all of the probability up to the tolerance of isclose, the accuracy of R and one rounding error per state, and there are at least as many as asked for (or as many as there are states). The last clause fails: int(binom(n + m - 1, m - 1)) is the number of states or one less, for 15 particles in 20 modes it is one less under every rounding to nearest, and then a call that asks for all states can return all but one. It is right for n + m <= 31.", "quantifier": "every rounding to nearest, every R sampler, all matrices and inputs; the number of states for min(n, m - 1) < 20 and at most 2^47 states", "why_tests_cant": "the smallest experiment with the wrong number of states has almost two thousand million states", "anchors": ["theboss/simulation_strategies/cliffords_r_simulation_strategy.py:CliffordsRSimulationStrategy.find_probabilities_of_n_random_states"]}
{"id": "C110", "title": "Distributions estimated from samples, entirely in floating-point arithmetic", "statement": "With the matrix stored in floats, the sampler (version A, mode assignments, version B, either sampler with uniform losses, or the sampler of lossy networks for a network with the same losses in all modes), the counts and frequencies of the sample-based calculator, the exact calculator, count_total_variation_distance and the error bound all in floating-point arithmetic: the computed distance between the computed frequencies and the computed distribution is below the computed error bound for probability delta, enlarged by explicit rounding terms, except with probability at most delta plus the error of the sampler per sample; likewise below the accuracy d with the computed number of samples for d. With at most 2^53 samples every frequency is the exact fraction rounded once; beyond that a count stops to grow.", "quantifier": "every rounding to nearest, every type of permanent calculator, every accuracy of log and pow(., 2) of at most 1/4, all interferometers of up to 2^20 modes and inputs with at most 170 particles, 2^52 outcomes and 6 m + 6 + 2 L <= 2^50 for m modes and L states below the input, all numbers of samples up to 2^53, every float delta in (0, 1] and every d from 2^-200 to 1, every float transmissivity in [0, 1]", "why_tests_cant": "the statement is about probabilities of rare events in long computations, for all inputs and all roundings", "anchors": ["theboss/distribution_calculators/bs_sample_based_distribution_calculator.py:BSSampleBasedDistributionCalculator.calculate_approximate_distribution", "theboss/quantum_computations_utilities.py:count_total_variation_distance", "theboss/quantum_computations_utilities.py:count_tv_distance_error_bound_of_experiment_results", "theboss/quantum_computations_utilities.py:compute_minimal_number_of_samples_for_desired_accuracy"]}
{"id": "C111", "title": "Coincidences in the approximate samplers", "statement": "In every sample of the samplers that replace the input by particles spread evenly, with random phases, over the first n modes, the mean number of ordered pairs of particles with the first in mode a and the second in mode b is k(k-1)/n^2 times (rate + same) when k particles are left and eta^2 (1 - 1/n) (rate + same) with uniform losses eta: rate is the rate of coincidences of one particle in each of the first n modes, with its interference terms, and same is the sum over these modes c of |A_ac|^2 |A_bc|^2, both particles coming from one mode. The exact samplers give rate alone (times eta^2), so the approximation keeps the interference of all pairs of different modes and differs by the explicit term.", "quantifier": "every network with singular values at most 1, every input with at least one particle, every pair of modes (also equal ones), every transmissivity, every sample of a call", "why_tests_cant": "means over continuously distributed phases and over all runs, for all matrices; the tests compare no correlations", "anchors": ["theboss/simulation_strategies/fixed_loss_simulation_strategy.py:simulate", "theboss/simulation_strategies/uniform_loss_simulation_strategy.py:simulate", "theboss/simulation_strategies/generalized_cliffords_uniform_losses_simulation_strategy.py:simulate", "theboss/simulation_strategies/generalized_cliffords_b_uniform_losses_simulation_strategy.py:simulate", "theboss/simulation_strategies/lossy_networks_generalized_cliffords_simulation_strategy.py:simulate"]}
{"id": "C112", "title": "The separable samplers are exact samplers with a random input", "statement": "For an input with n particles, 1 <= n <= m, every sample of the fixed-loss sampler with k particles left equals T with exactly the average, over all n^k placements of k particles in the first n modes, of the probability that exact boson sampling on the same (possibly lossy) network shows T for the Fock state of the placement; this is also the average of the probabilities of the exact sampler for lossy networks. With uniform losses eta the number k is binomial. So the random phases, although every single particle is propagated on its own, reproduce full bosonic interference of a classically random input.", "quantifier": "every network with singular values at most 1 and every embedding of it into an interferometer, every number of particles left, every outcome, every sample of a call", "why_tests_cant": "an identity between integrals over continuously many phases and sums of permanents, for all matrices and sizes; the tests only compare sampled histograms", "anchors": ["theboss/simulation_strategies/fixed_loss_simulation_strategy.py:simulate", "theboss/simulation_strategies/uniform_loss_simulation_strategy.py:simulate", "theboss/simulation_strategies/lossy_networks_generalized_cliffords_simulation_strategy.py:simulate"]}
{"id": "C113", "title": "Accuracy of the separable samplers", "statement": "For one particle in each of the first n modes, the total variation distance between the law of a sample of the fixed-loss sampler and the exact law for a uniformly random set of k <= n survivors is at most 1 - n(n-1)...(n-k+1)/n^k <= k(k-1)/(2n); with uniform losses eta it is at most eta^2 (n-1)/2, also against the exact samplers, and with at most one particle left the sampler is exact. The first bound is attained (identity network, n = k = 2). Only the number of input particles is used: for particles in other modes the distance can be 1.", "quantifier": "every network with singular values at most 1, every n, every k <= n, every transmissivity, every set of outcomes, every sample of a call", "why_tests_cant": "a bound on the distance of two distributions for all matrices and sizes; the tests use fixed tolerances on a few sampled histograms", "anchors": ["theboss/simulation_strategies/fixed_loss_simulation_strategy.py:simulate", "theboss/simulation_strategies/uniform_loss_simulation_strategy.py:simulate", "theboss/simulation_strategies/lossy_networks_generalized_cliffords_simulation_strategy.py:simulate", "theboss/distribution_calculators/bs_distribution_calculator_with_fixed_losses.py:calculate_distribution", "theboss/simulation_strategies/generalized_cliffords_b_uniform_losses_simulation_strategy.py:simulate"]}
{"id": "C114", "title": "The sampler for non-uniform losses is an exact sampler with a partly random input", "statement": "In every history, a sample of the sampler with K approximated modes equals T with exactly the average, over all ways to throw the particles of the approximated modes (including those left there by earlier calls) independently and uniformly into these K modes, of the probability that exact boson sampling on the same lossy network shows T; particles in other modes stay where they are. So the random phases, the Fourier transform and the binomial number of bunched particles have no other effect, and with K = 0 the sampler is exact. When the extracted loss is within the tolerance 1e-8 of the code, the same holds with the rescaled network.", "quantifier": "every network with singular values at most 1, every number of approximated modes, every history of calls, every input state, every outcome, every sample of a call", "why_tests_cant": "an identity between integrals over continuously many phases, binomial sums and sums of permanents, for all matrices and sizes; the tests only compare sampled histograms", "anchors": ["theboss/simulation_strategies/nonuniform_losses_approximation_strategy.py:simulate", "theboss/simulation_strategies/lossy_networks_generalized_cliffords_simulation_strategy.py:simulate"]}
{"id": "C115", "title": "Accuracy of the sampler for non-uniform losses", "statement": "With one particle in each of the K approximated modes and no particles there in earlier calls, the total variation distance between the law of a sample and the exact law of the lossy network is at most eta^2 (K-1)/2, where 1 - eta is the loss extracted from the network; the same against the law of the exact sampler for lossy networks. The bound is attained (two uncoupled modes, K = 2, no losses). The related sampler for uniform losses has no such bound: with two of four uncoupled modes approximated and no losses its distance from the exact law is 1.", "quantifier": "every network with singular values at most 1, every K, every such history, every set of outcomes, every sample of a call", "why_tests_cant": "a bound on the distance of two distributions for all matrices and sizes; the tests use fixed tolerances on a few sampled histograms", "anchors": ["theboss/simulation_strategies/nonuniform_losses_approximation_strategy.py:simulate", "theboss/simulation_strategies/lossy_networks_generalized_cliffords_simulation_strategy.py:simulate", "theboss/simulation_strategies/lossy_state_approximated_simulation_strategy.py:simulate"]}
{"id": "C116", "title": "Distributions estimated from the approximate samplers", "statement": "The distribution that the sample-based calculator estimates with N samples over all outcomes is within count_tv_distance_error_bound_of_experiment_results plus the distance of the sampler from the exact law, except with probability delta. For one particle in each of the first n modes the distance is k(k-1)/(2n) for the sampler with k particles left and eta^2 (n-1)/2 for the sampler with uniform losses, also against the exact calculator for uniform losses. For the sampler with non-uniform losses and one particle in each of the K approximated modes it is eta^2 (K-1)/2 plus (N'-N)/(2N), with the error bound for N' samples, where N' > N is the number of samples the sampler returns; each of its estimates adds up to N'/N > 1 and is no distribution.", "quantifier": "every network with singular values at most 1, every such input, every transmissivity in [0, 1], every number of samples, every delta in (0, 1]; for the sum of the estimate every input and every history", "why_tests_cant": "a tail bound on a random distance for all matrices and sizes; finitely many runs cannot establish a failure probability", "anchors": ["theboss/distribution_calculators/bs_sample_based_distribution_calculator.py:BSSampleBasedDistributionCalculator.calculate_approximate_distribution", "theboss/quantum_computations_utilities.py:count_tv_distance_error_bound_of_experiment_results", "theboss/simulation_strategies/fixed_loss_simulation_strategy.py:simulate", "theboss/simulation_strategies/uniform_loss_simulation_strategy.py:simulate", "theboss/simulation_strategies/nonuniform_losses_approximation_strategy.py:simulate"]}
{"id": "C117", "title": "The sampler for uniform losses with approximated modes measures its input on the way", "statement": "For 1 <= h < m, a unitary matrix and at most one particle in each of the h exactly treated modes (or transmissivity 0 or 1), LossyStateApproximationSimulationStrategy draws its samples from the law of the following exact experiment: a binomial number of the particles of the approximated modes survives and enters mode h, the particles of the exactly treated modes survive independently; this state passes the Fourier transform of the first m - h modes, the numbers of particles leaving it are measured, and the measured state enters the given interferometer through modes assigned uniformly at random. Consequently, for three modes, h = 1, no losses and one particle in each of the first two modes, every sample is one of two particles entering the interferometer together through a random mode, although only one particle is approximated.", "quantifier": "every unitary matrix, every hierarchy level below the number of modes, every such input, every transmissivity in [0, 1], every number of samples and threads, every outcome", "why_tests_cant": "an identity of probability laws with an average over continuous phases; a finite number of runs cannot establish it", "anchors": ["theboss/simulation_strategies/lossy_state_approximated_simulation_strategy.py:_get_matrix_for_approximate_sampling", "theboss/simulation_strategies/lossy_state_approximated_simulation_strategy.py:_permuted_interferometer_matrix", "theboss/simulation_strategies/lossy_state_approximated_simulation_strategy.py:simulate", "theboss/boson_sampling_utilities/boson_sampling_utilities.py:generate_qft_matrix_for_first_m_modes", "theboss/boson_sampling_utilities/boson_sampling_utilities.py:generate_random_phases_matrix_for_first_m_modes"]}
{"id": "C118", "title": "The error bounds of the separable samplers are attained", "statement": "For modes that are not coupled and one particle in each of the first n of them, the total variation distance between the law of a sample of FixedLossSimulationStrategy with k <= n particles left and the exact law equals 1 - n(n-1)...(n-k+1)/n^k for every n and k; for UniformLossSimulationStrategy it equals the mean of this number over the binomial number of survivors, and is at least eta^2 (1-eta)^(n-2) (n-1)/2. So the bounds of C113 cannot be improved for any n, k, and for strong losses not even in the constant.", "quantifier": "every number of modes, every such input, every number of particles left, every transmissivity in [0, 1], every number of samples", "why_tests_cant": "equality of distances of probability laws for all sizes; estimates from samples give neither the laws nor all sizes", "anchors": ["theboss/simulation_strategies/fixed_loss_simulation_strategy.py:simulate", "theboss/simulation_strategies/uniform_loss_simulation_strategy.py:simulate"]}
{"id": "C119", "title": "The approximate sampler for non-uniform losses in floating-point arithmetic", "statement": "Computed with float64/complex128, NonuniformLossesApproximationStrategy.simulate has, for every set of results, the probability of the exact sampler up to an explicit bound per drawn sample: (12 n + 28 m) 2^-53 for the losses applied to the input plus the bound of C94 for 2m modes with the accuracy of the computed embedding of the network. In particular each sample equals T with the probability of the approximation (C40, C58) up to the bound, and other results than m-mode samples with at most the particles of the input are that rare.", "quantifier": "every size, every input with at most 170 particles (earlier calls included), every number of samples and threads, every object whose losses are a float in [0, 1] and whose stored matrix is within e operations of a contraction, every rounding with the IEEE error bounds; accuracy of the SVD-based embedding as stated", "why_tests_cant": "bounds the error of the law for all sets of results, all sizes and all roundings; a run shows single samples for one rounding", "anchors": ["theboss/simulation_strategies/nonuniform_losses_approximation_strategy.py:simulate", "theboss/simulation_strategies/nonuniform_losses_approximation_strategy.py:_simulate_in_parallel", "theboss/simulation_strategies/nonuniform_losses_approximation_strategy.py:_get_matrix_for_approximate_sampling", "theboss/simulation_strategies/lossy_networks_generalized_cliffords_simulation_strategy.py:simulate"]}
{"id": "C120", "title": "Extraction of the uniform losses by the constructor in floating-point arithmetic", "statement": "Computed with float64/complex128, the constructor of NonuniformLossesApproximationStrategy splits a network with largest squared singular value M >= 2^-48 into uniform losses within 3 * 2^-53 of 1 - M and a matrix within an explicit bound, proportional to 1 / M, of the network divided by sqrt(M); the resulting object satisfies the conditions of C119, where losses slightly below zero act as zero. With all singular values at most 2^-28 the losses become 1 and the matrix is divided by zero, and for the single singular value 5 * 2^-28 the stored matrix has a singular value above 1.", "quantifier": "every size up to 2^19 modes, all singular values, every number of approximated modes and threads, every rounding with the IEEE error bounds; accuracy of the factors of the SVD as stated", "why_tests_cant": "bounds the cancellation in 1 - (1 - s^2) for all networks and all roundings; tests use networks with M near 1", "anchors": ["theboss/simulation_strategies/nonuniform_losses_approximation_strategy.py:_extract_losses_from_the_interferometer", "theboss/simulation_strategies/nonuniform_losses_approximation_strategy.py:__init__"]}
{"id": "C121", "title": "Neglected losses and rounded losses change the law of the samples by little", "statement": "When each particle survives with probability x instead of y, the probability of every event changes by at most n |x - y| for n particles. So NonuniformLossesApproximationStrategy, which neglects extracted losses l up to 1e-8, samples within total variation distance n l of the approximation with these losses (attained for a single mode), the bound of C115 holds for all networks with this addition, and constructor and simulate computed with float64/complex128 give samples within an explicit bound of the approximation for the exact largest singular value.", "quantifier": "every network with singular values at most 1, every input and number of approximated modes, every set of results; for floats: largest squared singular value at least 2^-48, at most 170 particles, every rounding with the IEEE error bounds, accuracy of the SVD and of the embedding as stated", "why_tests_cant": "a bound on the distance of laws for all losses and networks; differences of order 1e-8 are far below the resolution of sampling tests", "anchors": ["theboss/simulation_strategies/nonuniform_losses_approximation_strategy.py:_compute_lossy_input", "theboss/simulation_strategies/nonuniform_losses_approximation_strategy.py:_extract_losses_from_the_interferometer", "theboss/simulation_strategies/nonuniform_losses_approximation_strategy.py:simulate"]}
{"id": "C122", "title": "The expanded interferometer of a lossy network in floating-point arithmetic", "statement": "Computed with float64/complex128 from a backward stable singular value decomposition, prepare_interferometer_matrix_in_expanded_space returns an array within an explicit bound of one that embeds the network into an interferometer with twice the modes. The bound is of order 2^-24, since square roots of 1 - s^2 lose half of the digits, and this loss is real: one rounding of a singular value can move the array 2^-27 away from every embedding. The top left block keeps full accuracy. Hence the sampler for lossy networks gives samples within an explicit distance of the law of the network, and the assumption of C119 to C121 about the embedding holds for the function of the library.", "quantifier": "every network with singular values at most 1, up to 2^19 modes, every rounding with the IEEE error bounds, every backward stable decomposition; for the samplers every input with at most 170 particles, every number of samples and every set of results", "why_tests_cant": "covers all networks, roundings and decompositions, also those with degenerate or almost lossless modes where the digits are lost; tests compare a few matrices up to a tolerance", "anchors": ["theboss/boson_sampling_utilities/boson_sampling_utilities.py:prepare_interferometer_matrix_in_expanded_space", "theboss/boson_sampling_utilities/boson_sampling_utilities.py:_compute_loss_transfer_matrix_expansion", "theboss/simulation_strategies/lossy_networks_generalized_cliffords_simulation_strategy.py:simulate", "theboss/simulation_strategies/nonuniform_losses_approximation_strategy.py:simulate"]}
{"id": "C123", "title": "Transmissivities of nearby networks, and transmissivities and distances in floating-point arithmetic", "statement": "The square roots of the values returned by get_modes_transmissivity_values_from_matrix for two networks differ, one by one, by at most count_distance_between_matrices of the networks; so they do not depend on the singular value decomposition. Computed with float64 from a backward stable decomposition they are in ascending order, not negative and within an explicit bound of the exact ones, but may exceed 1 for a lossless network. The computed distance is within an explicit factor of the exact one up to an underflow term of order 2^-530, is 0 for equal matrices, and also for different matrices whose entries differ by at most 2^-600.", "quantifier": "all square networks of all sizes and all their singular value decompositions; for floats every rounding with the IEEE error bounds, every backward stable decomposition, matrices with at most 2^40 entries", "why_tests_cant": "Weyl's inequality for all pairs of matrices; tests compare single matrices and never see underflow", "anchors": ["theboss/boson_sampling_utilities/boson_sampling_utilities.py:get_modes_transmissivity_values_from_matrix", "theboss/quantum_computations_utilities.py:count_distance_between_matrices"]}
{"id": "C124", "title": "A small error in the matrix of the interferometer changes the distributions by little", "statement": "For two unitary matrices the total variation distance between the exact output laws of n particles is at most n times count_distance_between_matrices of the matrices. count_total_variation_distance of the two distributions returned by the exact calculator with fixed losses is at most the number of particles left times that distance, with uniform losses at most eta times n times that distance. The laws of single samples returned by the two Clifford and Clifford samplers obey the bound for n particles. Already for one particle and two modes the bound cannot be improved by more than the factor sqrt 2.", "quantifier": "all unitary matrices of all sizes, all input states, all numbers of particles left, all transmissivities from 0 to 1, all sets of outcomes; collision-free hashes of the substates as in C23", "why_tests_cant": "a perturbation bound for all pairs of networks; tests use single matrices", "anchors": ["theboss/quantum_computations_utilities.py:count_distance_between_matrices", "theboss/quantum_computations_utilities.py:count_total_variation_distance", "theboss/distribution_calculators/bs_distribution_calculator_with_fixed_losses.py:calculate_distribution", "theboss/distribution_calculators/bs_exact_distribution_with_uniform_losses.py", "theboss/simulation_strategies/generalized_cliffords_simulation_strategy.py:simulate", "theboss/simulation_strategies/generalized_cliffords_b_simulation_strategy.py:simulate"]}
{"id": "C125", "title": "Distributions of matrices that are only nearly unitary", "statement": "For any matrix B at distance d (count_distance_between_matrices) from a unitary matrix A, count_total_variation_distance between the distributions the exact calculators return for B and for A is at most D + D^2/2 with D = k d (1+d)^(k-1), where k is the number of particles left (with uniform losses the number of initial particles); the numbers returned for B are not negative and their sum is within 2D + D^2 of 1. Entries with errors up to u give d <= m u; a matrix with singular values s_i is at distance sqrt(sum (s_i - 1)^2) from a unitary matrix. The calculators do not normalise: if all entries are too large by the factor 1 + delta, the probabilities of n particles sum up to (1+delta)^(2n).", "quantifier": "all square complex matrices and unitary matrices of all sizes, all input states, all numbers of particles left, all transmissivities from 0 to 1; collision-free hashes of the substates as in C23", "why_tests_cant": "a perturbation bound for all matrices; tests use matrices that are unitary up to rounding and compare with tolerances", "anchors": ["theboss/distribution_calculators/bs_distribution_calculator_with_fixed_losses.py:calculate_distribution", "theboss/distribution_calculators/bs_exact_distribution_with_uniform_losses.py", "theboss/quantum_computations_utilities.py:count_distance_between_matrices", "theboss/quantum_computations_utilities.py:count_total_variation_distance"]}
{"id": "C126", "title": "Distributions estimated from samples of a nearby interferometer", "statement": "Let the samples be drawn with a unitary matrix B instead of A. The distribution estimated from N samples of either Clifford and Clifford sampler is within count_tv_distance_error_bound_of_experiment_results plus n times count_distance_between_matrices(A, B) of the exact distribution for A, except with probability at most delta; with uniform losses the last term carries the factor eta. For a wanted distance d the number of samples the code computes for d minus that term is enough.", "quantifier": "all unitary matrices, input states, numbers of samples, 0 < delta <= 1, transmissivities from 0 to 1", "why_tests_cant": "a statement about probabilities over all random draws and all pairs of matrices", "anchors": ["theboss/distribution_calculators/bs_sample_based_distribution_calculator.py", "theboss/quantum_computations_utilities.py:count_tv_distance_error_bound_of_experiment_results", "theboss/quantum_computations_utilities.py:compute_minimal_number_of_samples_for_desired_accuracy", "theboss/quantum_computations_utilities.py:count_distance_between_matrices"]}
{"id": "C127", "title": "Nearby lossy networks have nearby laws", "statement": "For two networks with losses (matrices A and B whose singular values are at most 1) and n particles, the total variation distance between the laws of a sample of the sampler for lossy networks is at most 2 n times count_distance_between_matrices(A, B), whatever decompositions the sampler is given, over outcomes with any number of particles left. The same bound holds between a lossy network and the Clifford and Clifford sampler of a unitary matrix, which says what neglecting the losses costs. The factor 2 is optimal: one particle in one mode attains it in the limit of small losses.", "quantifier": "all matrices with singular values at most 1, their singular value decompositions, input states, numbers of samples, sets of outcomes", "why_tests_cant": "a statement about the laws for all pairs of matrices; samples would only show it for single pairs and up to statistical errors", "anchors": ["theboss/simulation_strategies/lossy_networks_generalized_cliffords_simulation_strategy.py", "theboss/simulation_strategies/generalized_cliffords_b_simulation_strategy.py", "theboss/boson_sampling_utilities/boson_sampling_utilities.py:prepare_interferometer_matrix_in_expanded_space", "theboss/quantum_computations_utilities.py:count_distance_between_matrices"]}
{"id": "C128", "title": "Samplers that work with a nearby lossy network", "statement": "Let a sampler work with the matrix B instead of A. The distribution estimated from N samples of the sampler for lossy networks is within count_tv_distance_error_bound_of_experiment_results plus 2 n times count_distance_between_matrices(A, B) of the law of the network A, except with probability at most delta, and the number of samples the code computes for the remaining distance is enough. Replacing losses that differ between the modes by the uniform-loss sampler with (U, eta) costs at most 2 n times the distance of A from sqrt(eta) U. The approximate sampler for non-uniform losses is as stable, after every history, although the losses it extracts may differ, and the errors of its estimated distributions add up.", "quantifier": "all matrices with singular values at most 1, all decompositions, input states, histories, numbers of samples, 0 < delta <= 1", "why_tests_cant": "a statement about probabilities over all random draws and all pairs of matrices", "anchors": ["theboss/simulation_strategies/lossy_networks_generalized_cliffords_simulation_strategy.py", "theboss/simulation_strategies/generalized_cliffords_b_uniform_losses_simulation_strategy.py", "theboss/simulation_strategies/nonuniform_losses_approximation_strategy.py", "theboss/distribution_calculators/bs_sample_based_distribution_calculator.py", "theboss/quantum_computations_utilities.py:count_distance_between_matrices"]}
{"id": "C129", "title": "Separable samplers that work with a nearby network", "statement": "Let the separable samplers work with the matrices A and B. The laws of the samples of the fixed-loss sampler with k particles left differ in total variation by at most 2 k times count_distance_between_matrices(A, B), those of the uniform-loss sampler by at most 2 eta n times it, whatever decompositions are used and wherever the samples stand; for one particle in one mode with the transmission amplitudes x and y the distance is (x + y) / 2 times the bound, so no smaller constant will do. A distribution estimated from N samples of either, given B, is within the sampling error bound plus the error of the separable approximation plus this error of the matrix of the law of the bosons that survive in the network A, except with probability at most delta.", "quantifier": "all matrices with singular values at most 1, all decompositions, all k, 0 <= eta <= 1, input states with one particle in each of the first modes (for the estimates), numbers of samples, 0 < delta <= 1", "why_tests_cant": "a statement about probabilities over all random draws and all pairs of matrices", "anchors": ["theboss/simulation_strategies/fixed_loss_simulation_strategy.py", "theboss/simulation_strategies/uniform_loss_simulation_strategy.py", "theboss/distribution_calculators/bs_sample_based_distribution_calculator.py", "theboss/quantum_computations_utilities.py:count_distance_between_matrices"]}
