{"id": "C01", "title": "Domain size and generator order", "statement": "Domain::new_for_size(n) returns Ok exactly when the least power of two 2^k >= n has k <= F::S; then size = 2^k, power_of_two = k and the generator has multiplicative order exactly 2^k (so its powers are 2^k distinct points).", "quantifier": "every requested size and every field with a 2^S-th primitive root of unity", "why_tests_cant": "tests use one field and two or three sizes; the order claim is about every size and every 2-adicity", "anchors": ["src/domains/mod.rs::Domain::new_for_size"]}
{"id": "C02", "title": "Coset pairing and next-domain index", "statement": "For every index i < size (size a power of two > 1) the coset returned for i is the sorted pair of indices whose domain points are exactly x and -x for x = generator^i, and the next-domain index j satisfies j < size/2 and (generator^2)^j = (generator^i)^2; the two members of a coset map to the same next index.", "quantifier": "every domain size and every index", "why_tests_cant": "infinite family of sizes; tests check a few indices", "anchors": ["src/domains/mod.rs::Domain::coset_for_natural_index_and_size", "src/domains/mod.rs::Domain::index_and_size_for_next_domain", "src/iop/trivial_coset_combiner.rs::TrivialCombiner::get_coset_for_natural_index"]}
{"id": "C03", "title": "Worker chunks tile the data and any schedule gives the same result", "statement": "For every element count and every number of CPUs the chunk size is positive, the number of chunks equals get_num_spawned_threads, the chunks in order concatenate to the data, and executing the spawned per-chunk tasks under any interleaving of their steps produces the same final data as running them one after another.", "quantifier": "every length, CPU count and thread schedule", "why_tests_cant": "schedules are chosen by the OS; a test run sees one schedule on one machine", "anchors": ["src/fft/multicore.rs::Worker::get_chunk_size", "src/fft/multicore.rs::Worker::get_num_spawned_threads", "src/fft/multicore.rs::Worker::scope"]}
{"id": "C04", "title": "serial_fft computes the DFT", "statement": "For every vector a of length 2^k (k < 32) and every omega with omega^(2^(k-1)) = -1, serial_fft terminates without an out-of-bounds access and leaves a'[j] = sum_i a[i]*omega^(i*j).", "quantifier": "every field, size and input vector", "why_tests_cant": "tests compare implementations on one random vector of one size", "anchors": ["src/fft/fft.rs::serial_fft", "src/fft/prefetch_fft.rs::serial_fft"]}
{"id": "C05", "title": "FFT result does not depend on CPU count or hint", "statement": "best_fft / parallel_fft return the same vector as the DFT for every Worker size, every admissible CPU hint, and every order in which the spawned sub-transforms run.", "quantifier": "every CPU count, hint, size and input", "why_tests_cant": "a machine has one CPU count; the hint and non-power-of-two CPU counts select different code paths", "anchors": ["src/fft/fft.rs::best_fft", "src/fft/fft.rs::parallel_fft", "src/fft/mod.rs::best_fft"]}
{"id": "C06", "title": "FFT and inverse FFT are mutually inverse, also on cosets", "statement": "ifft(fft(p)) = p and fft(ifft(v)) = v, icoset_fft(coset_fft(p)) = p and coset_fft(icoset_fft(v)) = v, for a non-zero coset generator in the _for_generator variants too; fft(p)[i] = p(omega^i) and coset_fft(p)[i] = p(g*omega^i).", "quantifier": "every polynomial of every supported size, every CPU count, every non-zero coset generator", "why_tests_cant": "a round trip on one random polynomial says nothing about other sizes and worker counts", "anchors": ["src/polynomials/mod.rs::Polynomial::fft", "src/polynomials/mod.rs::Polynomial::ifft", "src/polynomials/mod.rs::Polynomial::coset_fft", "src/polynomials/mod.rs::Polynomial::icoset_fft"]}
{"id": "C07", "title": "Alternative FFT kernels agree with the DFT", "statement": "The radix-4 kernel (even log n) and the decimation-in-frequency kernel with a bound on the number of non-zero entries produce the same output as the DFT, serial and parallel, whenever the entries past the bound are zero.", "quantifier": "every size, input vector, non-zero bound and CPU count", "why_tests_cant": "digit-reversal and pruning errors appear only at particular sizes/bounds", "anchors": ["src/fft/radix4_fft/mod.rs", "src/fft/dit_fft/mod.rs"]}
{"id": "C08", "title": "Pruned LDE equals the transform of the zero-padded input", "statement": "best_lde / serial_lde / parallel_lde (and the prefetch variants) on a vector whose entries past len/lde_factor are zero give exactly the DFT of that vector.", "quantifier": "every size, power-of-two lde_factor, CPU count and input", "why_tests_cant": "sparsity pattern differs for every (round, factor, CPU count) triple", "anchors": ["src/fft/lde.rs", "src/fft/prefetch_lde.rs", "src/polynomials/mod.rs::filtering_lde", "src/polynomials/mod.rs::coset_filtering_lde"]}
{"id": "C09", "title": "lde() returns evaluations on the extended domain", "statement": "Polynomial::lde(factor) returns, for every CPU count, the evaluations of the polynomial at all points Omega^j of the domain of size len*factor, in natural order.", "quantifier": "every polynomial, factor and number of CPUs", "why_tests_cant": "correctness depends on the relation between factor and CPU count of the machine", "anchors": ["src/polynomials/mod.rs::Polynomial::lde", "src/polynomials/mod.rs::lde_using_multiple_cosets", "src/polynomials/mod.rs::lde_using_multiple_cosets_naive"]}
{"id": "C10", "title": "coset_lde() returns evaluations on the shifted extended domain", "statement": "Polynomial::coset_lde(factor) returns, for every CPU count, the evaluations at all points g*Omega^j (g the multiplicative generator), in natural order.", "quantifier": "every polynomial, factor and number of CPUs", "why_tests_cant": "correctness depends on the relation between factor and CPU count of the machine", "anchors": ["src/polynomials/mod.rs::Polynomial::coset_lde", "src/polynomials/mod.rs::coset_lde_using_multiple_cosets", "src/polynomials/mod.rs::coset_lde_using_multiple_cosets_naive"]}
{"id": "C11", "title": "Element-wise polynomial operations are correct for every worker split", "statement": "scale, negate, add_assign, sub_assign, add_assign_scaled, add_constant, mul_assign, square, pow, distribute_powers compute the stated element-wise result independent of the number of CPUs, and the coefficient-form operations correspond to polynomial addition, scaling and substitution X -> g*X.", "quantifier": "every input, scalar and CPU count", "why_tests_cant": "chunk boundaries depend on len and CPU count", "anchors": ["src/polynomials/mod.rs", "src/fft/mod.rs::distribute_powers", "src/utils/poly.rs::mul_add_polynomials"]}
{"id": "C12", "title": "evaluate_at equals polynomial evaluation", "statement": "evaluate_at(g) returns sum_i c_i g^i, and evaluate_at_consequitive_powers(c, f, b) returns f*sum_i c_i b^i, for every CPU count and every order in which worker partial sums arrive.", "quantifier": "every coefficient vector, point, CPU count and arrival order", "why_tests_cant": "arrival order of the channel messages is scheduler-dependent", "anchors": ["src/polynomials/mod.rs::evaluate_at", "src/utils/poly.rs::evaluate_at_consequitive_powers"]}
{"id": "C13", "title": "Batch inversion inverts every element or fails cleanly", "statement": "batch_inversion returns Ok with every entry replaced by its inverse when no entry is zero, and returns Err leaving the vector unchanged when some entry is zero.", "quantifier": "every vector and CPU count", "why_tests_cant": "prefix-product bookkeeping crosses chunk boundaries that depend on CPU count", "anchors": ["src/polynomials/mod.rs::batch_inversion"]}
{"id": "C14", "title": "from_roots builds the vanishing polynomial", "statement": "from_roots(roots) returns the coefficients of prod (X - r) padded to a power of two, for every CPU count.", "quantifier": "every non-empty root list and CPU count", "why_tests_cant": "sub-products and LDE factors depend on the CPU count", "anchors": ["src/polynomials/mod.rs::from_roots"]}
{"id": "C15", "title": "Lagrange interpolation", "statement": "interpolate(points) with at least two points and pairwise distinct abscissae returns coefficients of the unique polynomial of degree < n through all points; with a repeated abscissa it does not return.", "quantifier": "every point set", "why_tests_cant": "a handful of sample points cannot establish uniqueness and correctness for all n", "anchors": ["src/utils/poly.rs::interpolate"]}
{"id": "C16", "title": "Padding and trimming keep the polynomial", "statement": "pad_by_factor, pad_to_size keep the represented polynomial (evaluation unchanged) and set domain parameters for the new size; trim_to_degree zeroes exactly the coefficients above the degree; a failed pad leaves the polynomial unchanged.", "quantifier": "every polynomial, factor and size", "why_tests_cant": "error atomicity at the 2-adicity limit is never reached in tests", "anchors": ["src/polynomials/mod.rs::pad_by_factor", "src/polynomials/mod.rs::pad_to_size", "src/polynomials/mod.rs::trim_to_degree"]}
{"id": "C17", "title": "Precomputed domain tables", "statement": "new_for_domain fills omegas[i] = w^i (all i), coset[i] = g*w^i, omegas_inv[i] = w^-i for i < n/2, for every CPU count.", "quantifier": "every domain and CPU count", "why_tests_cant": "depends on chunk split", "anchors": ["src/precomputations/mod.rs::PrecomputedOmegas::new_for_domain"]}
{"id": "C18", "title": "Merkle openings of honest trees verify", "statement": "For every power-of-two (>= 2) vector of leaves and every index, the query answered by the tree verifies against the tree's root and carries the leaf value and the queried index.", "quantifier": "every leaf vector and index, any hash functions", "why_tests_cant": "tests check one tree size", "anchors": ["src/iop/blake2s_trivial_iop.rs::create", "src/iop/blake2s_trivial_iop.rs::get_path", "src/iop/blake2s_trivial_iop.rs::query", "src/iop/blake2s_trivial_iop.rs::verify"]}
{"id": "C19", "title": "Merkle root binds every position", "statement": "If a query (value, path, index) verifies against the root of a tree built from a leaf vector, then the value is the leaf at that index modulo the number of leaves and the path length is the tree depth, or an explicit pair of distinct hash preimages with equal digests is exhibited.", "quantifier": "every leaf vector, and every adversarial value, path of any length and index", "why_tests_cant": "an adversarial path is not among test inputs", "anchors": ["src/iop/blake2s_trivial_iop.rs::Blake2sTree::verify", "src/iop/blake2s_trivial_iop.rs::hash_leaf", "src/iop/blake2s_trivial_iop.rs::hash_node"]}
{"id": "C20", "title": "Leaf encoding is injective", "statement": "Distinct field elements have distinct 32-byte leaf encodings, and decoding inverts it.", "quantifier": "every pair of field elements", "why_tests_cant": "all pairs of a 250-bit field", "anchors": ["src/iop/blake2s_trivial_iop.rs::encode_leaf"]}
{"id": "C21", "title": "Challenges are always valid field elements", "statement": "get_challenge and encode_root_into_challenge return a canonical field element for every digest (never panic).", "quantifier": "every 32-byte digest and every field modulus", "why_tests_cant": "the failing digests have probability depending on the modulus shape", "anchors": ["src/transcript/mod.rs::get_challenge", "src/iop/blake2s_trivial_iop.rs::interpret_hash"]}
{"id": "C22", "title": "Transcript binds the history", "statement": "Challenges are a deterministic function of the whole sequence of committed messages and earlier challenges: equal histories give equal challenges, and histories that differ as sequences of commitments feed different byte strings to the hash.", "quantifier": "every two interaction histories", "why_tests_cant": "quantifies over pairs of unbounded histories", "anchors": ["src/transcript/mod.rs::Blake2sTranscript"]}
{"id": "C23", "title": "Query index derived from the transcript is admissible", "statement": "For every digest, even domain size and LDE factor the derived query index is in range and odd. If the LDE factor is even (every power of two but 1) the index is not a multiple of it, so it is never a trace-domain point; with LDE factor 1 every position is one.", "quantifier": "every digest, even LDE size and LDE factor", "why_tests_cant": "all 2^256 digests", "anchors": ["src/verifier/mod.rs::bytes_to_challenge_index"]}
{"id": "C24", "title": "FRI by values folds the committed polynomial", "statement": "Each layer produced by the by-values FRI prover is the evaluation of E + beta*O (even/odd parts of the previous layer's polynomial, beta the challenge of that layer's root) on the squared domain; the final coefficients are those of the last folded polynomial.", "quantifier": "every initial low-degree codeword, field, output size, CPU count and hash", "why_tests_cant": "layers and challenges are data dependent", "anchors": ["src/fri/fri_on_values.rs::proof_from_lde_by_values"]}
{"id": "C25", "title": "The two FRI provers agree", "statement": "proof_from_lde_through_coefficients and proof_from_lde_by_values produce the same commitments, layers, challenges and final coefficients on every codeword of the declared degree.", "quantifier": "every low-degree codeword, parameters and CPU count", "why_tests_cant": "one test vector cannot show equality for all", "anchors": ["src/fri/mod.rs::proof_from_lde_through_coefficients", "src/fri/fri_on_values.rs::proof_from_lde_by_values"]}
{"id": "C26", "title": "Honest FRI prototype is accepted", "statement": "verify_prototype accepts the prototype produced from any low-degree codeword at every odd index, for every output degree.", "quantifier": "every low-degree codeword, odd index and parameter set", "why_tests_cant": "all indices, degrees and hash outcomes", "anchors": ["src/fri/verifier.rs::verify_prototype", "src/fri/fri_on_values.rs"]}
{"id": "C27", "title": "Honest FRI proofs are accepted", "statement": "verify_proof accepts the proof produced from any low-degree codeword at any odd index with the true value, for every output_coeffs_at_degree_plus_one.", "quantifier": "every low-degree codeword, odd index and output size", "why_tests_cant": "tests only use output size 1", "anchors": ["src/fri/verifier.rs::verify_proof_queries", "src/fri/query_producer.rs::produce_proof"]}
{"id": "C28", "title": "Accepted FRI proofs are fold-consistent with their commitments", "statement": "If verify_proof returns Ok(true) against roots that commit to codewords, then at every round the opened values are the committed ones at the coset of the query, each round's opened value is the fold of the previous round's with the challenge of that root, the first value is the expected one and the final coefficients evaluate to the last fold - or a hash collision is exhibited.", "quantifier": "every (adversarial) proof, index and expected value", "why_tests_cant": "adversarial proofs are not enumerable", "anchors": ["src/fri/verifier.rs::verify_proof_queries"]}
{"id": "C29", "title": "FRI verifier enforces the degree bound", "statement": "An accepted FRI proof has the number of rounds and the number of final coefficients dictated by the degree bound, so that a codeword far from low degree cannot be accepted at every index.", "quantifier": "every proof", "why_tests_cant": "adversarial", "anchors": ["src/fri/verifier.rs::verify_proof_queries"]}
{"id": "C30", "title": "Verification never aborts on malformed proofs", "statement": "FRI verify_proof and Verifier::verify return Ok(_) or Err(_) for every proof object, never panic.", "quantifier": "every proof object", "why_tests_cant": "malformed objects are unbounded", "anchors": ["src/fri/verifier.rs::verify_proof_queries", "src/verifier/mod.rs::verify"]}
{"id": "C31", "title": "Constraint builder denotes polynomial arithmetic", "statement": "The operators on Register/UnivariateTerm/PolyvariateTerm/Constraint (mul, add, sub, negate, scaling, pow) evaluate, on every witness and row, to the corresponding arithmetic of the operands' values.", "quantifier": "every term, constraint and assignment", "why_tests_cant": "all expression trees", "anchors": ["src/air/constraint.rs"]}
{"id": "C32", "title": "Constraint degree is an upper bound", "statement": "The degree field of a constraint built with the operators bounds the total degree of every term, so composing with trace polynomials of degree < T gives degree <= degree*(T-1).", "quantifier": "every constraint built through the operators", "why_tests_cant": "all expression trees", "anchors": ["src/air/constraint.rs"]}
{"id": "C33", "title": "Witness checking is sound and complete", "statement": "is_satisfied returns Ok exactly when every boundary constraint's register has the stated value at its row and every dense constraint evaluates to zero at every row in [start_at, num_rows - span), and returns Err otherwise.", "quantifier": "every instance and witness", "why_tests_cant": "all witnesses", "anchors": ["src/arp/per_register/mod.rs::is_satisfied", "src/arp/density_query.rs"]}
{"id": "C34", "title": "Witness polynomials interpolate the trace", "statement": "calculate_witness_polys returns polynomials with f_r(omega^i) = witness[r][i] for every register and row, for every CPU count; mismatched shapes give Err.", "quantifier": "every witness table and CPU count", "why_tests_cant": "all tables", "anchors": ["src/arp/per_register/mod.rs::calculate_witness_polys"]}
{"id": "C35", "title": "Step differences become domain masks", "statement": "After ARP conversion a term reading register r with step difference k evaluates f_r at omega^k*x, so at x = omega^i it reads row i+k.", "quantifier": "every instance, row and step difference", "why_tests_cant": "all instances", "anchors": ["src/arp/mappings.rs", "src/arp/per_register/mod.rs::route"]}
{"id": "C36", "title": "into_arp preserves the trace system", "statement": "Converting a trace system to an ARP instance renames registers injectively and consistently in witness, constraints and boundary constraints, keeps the constraints in the order in which they were added, and the reported number of registers matches the witness.", "quantifier": "every trace system", "why_tests_cant": "all register mixes", "anchors": ["src/arp/mod.rs::into_arp"]}
{"id": "C37", "title": "Fibonacci example", "statement": "The Fibonacci trace generator yields rows (F(i+1),F(i+2)) and the resulting instance is satisfied by it, for every number of steps, with the boundary value equal to the Fibonacci number in the field.", "quantifier": "every number of steps", "why_tests_cant": "all step counts", "anchors": ["src/air/test_trace_system.rs::Fibonacci"]}
{"id": "C38", "title": "Squaring VDF instance", "statement": "The VDF's witness satisfies its instance for every number of operations and starting point, and conversely a trace satisfying the instance has last row equal to the start squared repeatedly in the quadratic extension.", "quantifier": "every field, start and length", "why_tests_cant": "all lengths", "anchors": ["src/experiments/vdf.rs"]}
{"id": "C39", "title": "Cubic VDF instance", "statement": "The cubic VDF's witness satisfies its instance for every number of operations and starting point, and any satisfying trace ends in the iterated cube.", "quantifier": "every field, start and length", "why_tests_cant": "all lengths", "anchors": ["src/experiments/cubic_vdf.rs"]}
{"id": "C40", "title": "Dense divisor vanishes exactly on the enforced rows", "statement": "The inverse divisor used by prover (coset table) and verifier (at z) is 1/prod over enforced rows (x - omega^row), i.e. prod over excluded rows divided by x^T - 1.", "quantifier": "every density, number of rows (also not a power of two) and point outside the trace domain", "why_tests_cant": "all row counts and spans", "anchors": ["src/ali/per_register/mod.rs::from_arp", "src/verifier/mod.rs::inverse_divisor_for_dense_constraint"]}
{"id": "C41", "title": "Constraint composition is a low-degree polynomial for satisfied traces", "statement": "For a satisfied instance calculate_g returns the polynomial whose value at every z outside the trace domain equals the sum over constraints of (alpha*z^adj+beta)*C(z)/Z(z) plus boundary quotients, i.e. the verifier's calculate_g_at_z.", "quantifier": "every instance, satisfying witness, challenges and CPU count", "why_tests_cant": "all instances", "anchors": ["src/ali/per_register/mod.rs::calculate_g", "src/verifier/mod.rs::calculate_g_at_z_from_f_at_z"]}
{"id": "C42", "title": "Quotient is a polynomial only for satisfied constraints", "statement": "A constraint polynomial divided by its dense divisor is a polynomial exactly when the constraint holds on all enforced rows.", "quantifier": "every constraint and trace", "why_tests_cant": "all traces", "anchors": ["src/ali/per_register/mod.rs"]}
{"id": "C43", "title": "DEEP quotients match the verifier's simulation", "statement": "h1 and h2 produced by calculate_deep equal at every queried domain point what the verifier recomputes from opened f, g values and out-of-domain values, and are polynomials of degree < T and < constraints domain size.", "quantifier": "every witness, masks, challenges and query index", "why_tests_cant": "all", "anchors": ["src/ali/per_register/deep.rs::calculate_deep", "src/verifier/mod.rs::simulate_h1_from_f_at_z", "src/verifier/mod.rs::simulate_h2_from_g_at_z"]}
{"id": "C44", "title": "Prover and verifier derive the same challenges", "statement": "On an honest proof the verifier's transcript yields the same constraint challenges, z, mask coefficients and query indices as the prover's.", "quantifier": "every instance and witness", "why_tests_cant": "all instances", "anchors": ["src/prover/mod.rs::prove", "src/verifier/mod.rs::verify"]}
{"id": "C45", "title": "End-to-end completeness", "statement": "Whenever prove returns Ok for a satisfied instance, verify returns Ok(true) on that proof.", "quantifier": "every instance, satisfying witness, parameters, CPU count and hash outcome", "why_tests_cant": "tests prove two or three instances at one size", "anchors": ["src/prover/mod.rs::Prover::prove", "src/verifier/mod.rs::Verifier::verify"]}
{"id": "C46", "title": "End-to-end soundness of deterministic checks", "statement": "verify does not accept proofs for instances that have no satisfying witness (other than through unlucky challenges).", "quantifier": "every instance and adversarial proof", "why_tests_cant": "adversarial", "anchors": ["src/verifier/mod.rs::Verifier::verify"]}
{"id": "C47", "title": "Quadratic extension arithmetic", "statement": "Fq2 add, sub, neg, double, mul, square, mul_by_0, mul_by_1, inverse implement arithmetic of F[u]/(u^2 - beta); inverse is None exactly for zero.", "quantifier": "every element", "why_tests_cant": "all elements", "anchors": ["src/experiments/square_root_calculator/fp2.rs"]}
{"id": "C48", "title": "Quadratic extension norm", "statement": "norm is multiplicative: norm(ab) = norm(a)norm(b) and a*inverse(a) formula uses the same norm, so legendre is a homomorphism.", "quantifier": "every pair of elements", "why_tests_cant": "all elements", "anchors": ["src/experiments/square_root_calculator/fp2.rs::norm", "src/experiments/square_root_calculator/fp2.rs::legendre"]}
{"id": "C49", "title": "Square roots in the quadratic extension", "statement": "Fq2::sqrt returns for every element without failing an assertion; the answer is None exactly if the element is not a square, and otherwise the returned element squares to the input. xi is 1 exactly on the non-zero squares. An element has a root exactly if its negation has, so retrying with the negation never helps; and the root returned for the square of an element without a root has no root itself. The precomputed constants are those that the search in the same file finds, and that search ends.", "quantifier": "every element of the extension, for any correct square root of the base field", "why_tests_cant": "2^504 elements; the two branches and the None case depend on characters of the input; precomputed constants must satisfy exact identities", "anchors": ["src/experiments/square_root_calculator/fp2.rs::sqrt", "src/experiments/square_root_calculator/fp2.rs::xi"]}
{"id": "C50", "title": "The declared fields are fields the protocol can use", "statement": "For both moduli declared in the repository: the modulus is prime, the declared generator generates the multiplicative group, the root of unity has order exactly 2^S, deriving a challenge never fails, and a domain shifted by the generator never meets the domain itself.", "quantifier": "every digest, every domain size and element", "why_tests_cant": "primality and the order of an element are statements about the whole 252/255-bit group; every digest must give a valid challenge", "anchors": ["src/experiments/mod.rs::Fr", "src/bn256.rs::Fr"]}
{"id": "C51", "title": "The VDF experiments verify end to end over their own field", "statement": "For the squaring and the cubic VDF over the experiment's field, with 2^k - 1 operations and any power-of-two LDE factor: into_arp produces an instance and witness for which prove returns a proof that verify accepts, or an error exactly when the out-of-domain challenge hits the evaluation domain.", "quantifier": "every start value, k, LDE factor, hash function and CPU count", "why_tests_cant": "all starts, sizes and transcripts", "anchors": ["src/experiments/vdf.rs", "src/experiments/cubic_vdf.rs", "src/prover/mod.rs::prove", "src/verifier/mod.rs::verify"]}
{"id": "C52", "title": "verify_prototype accepts exactly the fold-consistent words", "statement": "For any FRI prototype and word, verify_prototype returns Ok(true) for an index if and only if the index is an odd position of the claimed domain, the number of rounds is between 1 and the number of times the domain can be halved, and the supplied words are fold-consistent along the query path under the supplied challenges and end in the final coefficients.", "quantifier": "every prototype (honest or adversarial), word and index", "why_tests_cant": "adversarial prototypes are not enumerable", "anchors": ["src/fri/verifier.rs::verify_prototype"]}
{"id": "C53", "title": "Recursive transforms agree with the DFT from length 2 on", "statement": "recursive_fft and recursive_lde (serial, and best_fft/best_lde with any worker) return the DFT of every power-of-two vector of length at least 2, with no assumption on zero entries; on a vector of length 1 recursive_fft panics and recursive_lde panics unless the entry is zero, although the in-place kernel returns it unchanged.", "quantifier": "every length, input vector and CPU count", "why_tests_cant": "all sizes and inputs; the repository's tests use length 32 and 2^24 only", "anchors": ["src/fft/recursive_fft.rs", "src/fft/recursive_lde.rs"]}
{"id": "C54", "title": "Exactly what an accepted proof was checked for", "statement": "Verifier::verify returns Ok(true) exactly when: there is one opening and one root per register; every register opening authenticates against its root at the derived position, and so does the opening of g; a value is claimed for every pair of register and mask (no pair twice, exactly the pairs that constraints and boundary constraints read); no denominator vanishes; and FRI accepts the DEEP combination of the openings with the claimed values, and the DEEP quotient of the opening of g with the composition (over all constraints, each divided by the zerofier of its own density, and all boundary constraints) computed from the claimed values.", "quantifier": "every instance a verifier can be built for (any number of densities, any number of rows), every proof object, every hash function", "why_tests_cant": "both directions over all proof objects", "anchors": ["src/verifier/mod.rs::verify", "src/verifier/mod.rs::calculate_g_at_z_from_f_at_z", "src/verifier/mod.rs::simulate_h1_from_f_at_z", "src/verifier/mod.rs::new"]}
{"id": "C55", "title": "Challenge schedule and common setup", "statement": "The verifier's constraint and boundary challenges are a function of the register roots only, the point z and the mask challenges of the register roots and the root of g only, the query positions of these and the last FRI roots and final coefficients only; consequently extra claimed values and all but the last of the listed FRI roots can be changed in an accepted proof without changing the verdict. Prover and verifier built for the same instance agree on constraints, masks, batches, degrees and domains (and so draw the same challenges for the same thing).", "quantifier": "every instance, every pair of proof objects", "why_tests_cant": "functional dependence over all proofs", "anchors": ["src/verifier/mod.rs::verify", "src/verifier/mod.rs::new", "src/prover/mod.rs::new", "src/ali/per_register/mod.rs::from_arp"]}
{"id": "C56", "title": "Queries into implicit Kronecker products", "statement": "Querying the implicit product of a row-major matrix with an identity block structure, with a diagonal vector, or of two vectors returns exactly the corresponding entry of the Kronecker product at every in-range position; a query in a diagonal block past the vector, or past the end of a vector product, panics. In particular a vector of low powers and one of high powers of x together answer x^i for every i below the product of their lengths.", "quantifier": "every matrix shape and content, every index", "why_tests_cant": "all shapes and indices", "anchors": ["src/experiments/tensor_lde.rs::query_tensor_decomposition_element_matrix_over_identyty_matrix", "src/experiments/tensor_lde.rs::query_tensor_decomposition_element_matrix_over_diagonal_matrix", "src/experiments/tensor_lde.rs::query_tensor_decomposition_element_vector_over_vector"]}
{"id": "C57", "title": "Decomposition of an LDE into two smaller ones", "statement": "Splitting an LDE of a domain of size s1*s2 yields two LDE descriptions (coset generator to the LDE factor is the domain generator) for domains of sizes s1 and s2 which together enumerate every point of the large domain exactly once; sizes that do not multiply to the domain size panic.", "quantifier": "every pair of sizes, LDE factor and generator", "why_tests_cant": "ranges over all sizes and fields", "anchors": ["src/experiments/tensor_lde.rs::decompose_lde_generator_for_vector_over_vector"]}
{"id": "C58", "title": "Personalised hashers", "statement": "A hasher created with a personalisation returns, every time it is finalised, the hash of the personalisation followed by exactly the data fed since creation or the previous finalisation, however the data was cut into pieces.", "quantifier": "every personalisation, every sequence of update and finalise calls, every hash function", "why_tests_cant": "ranges over call histories", "anchors": ["src/utils/mod.rs::Keccak256Hasher", "src/utils/mod.rs::Sha256Hasher"]}
{"id": "C59", "title": "Ordering of extension field elements", "statement": "Comparison of Fq2 elements is a strict total order consistent with equality (lexicographic, coefficient of u first, coefficients as integers), so of a non-zero element and its negation exactly one is larger.", "quantifier": "every triple of elements", "why_tests_cant": "the field has about 2^504 elements", "anchors": ["src/experiments/square_root_calculator/fp2.rs::cmp"]}
{"id": "C60", "title": "Openings are binding for arbitrary roots", "statement": "For any root whatsoever (also one not built by the library), two openings of the same position that both verify against it open to the same value and path, unless a hash collision is exhibited.", "quantifier": "every root, position, pair of openings and hash function", "why_tests_cant": "ranges over adversarial roots and paths", "anchors": ["src/iop/blake2s_trivial_iop.rs::verify_query", "src/iop/blake2s_trivial_iop.rs::verify"]}
{"id": "C61", "title": "What an accepted proof fixes", "statement": "In an accepted proof the values claimed at z can be exchanged, keeping acceptance, exactly when two field elements (the DEEP combination at the queried point and the composition at z) are preserved; two accepted proofs with the same roots, final coefficients and path lengths have the same register and g openings unless a collision is exhibited.", "quantifier": "every instance, pair of proof objects, list of claimed values, hash function", "why_tests_cant": "ranges over all pairs of proofs", "anchors": ["src/verifier/mod.rs::verify", "src/fri/verifier.rs::verify_proof_queries"]}
{"id": "C62", "title": "The verifier always returns", "statement": "For every proof a verifier may receive, in a debug and in a release build, the call to verify returns (it does not loop forever), and it does not panic because of the sizes the proof claims. This is false of the code: the product initial_degree_plus_one * lde_factor taken from the proof is multiplied without a check and passed to Domain::new_for_size, whose loop does not terminate when next_power_of_two wraps to zero. What holds: if the claimed sizes are at most 2^63 both builds return the verdict of the unbounded model; above 2^63 a debug build panics; a release build sees the size modulo 2^64 and never returns if the residue is above 2^63.", "quantifier": "every verifier, every proof, every claimed initial degree and LDE factor (64-bit words), both build profiles, any number of loop iterations", "why_tests_cant": "non-termination is a statement about all numbers of iterations, and the triggering headers are among 2^128 pairs of words; tests only use the headers the prover writes", "anchors": ["src/domains/mod.rs: Domain::new_for_size", "src/fri/verifier.rs: verify_proof_queries, verify_prototype", "src/verifier/mod.rs: verify"]}
{"id": "C63", "title": "Comparing commitments compares the committed vectors", "statement": "Comparing two commitments with == never panics; commitments to equal vectors are equal whatever number of CPUs they were built with; and if two commitments are equal then the committed vectors have the same length and the same elements, or two different strings hashed while building them collide.", "quantifier": "all pairs of vectors of any power-of-two lengths, all workers, every hash function", "why_tests_cant": "ranges over all vectors, lengths and hash functions", "anchors": ["src/iop/blake2s_trivial_iop.rs: PartialEq for TrivialBlake2sIOP, create, get_root"]}
{"id": "C64", "title": "The verdict on the prover's own proof", "statement": "For every instance the prover can be run on and every witness table of the right size, whether or not it satisfies the constraints, prove returns a proof (or an error if the out-of-domain point is in the evaluation domain), and verify answers that proof with true exactly if the committed composition polynomial agrees at the out-of-domain point with the composition of the constraints (and, with several final FRI coefficients, these agree with their fold). The composition polynomial agrees either everywhere off the trace domain or at most at as many points as the sizes of the two domains together; so a proof for a table which violates the constraints is accepted only by luck in the challenges.", "quantifier": "every runnable instance (any densities and declared degrees), every witness table, LDE factor, output size, CPU count and hash function", "why_tests_cant": "tests run satisfying tables; the claim ranges over all tables, satisfying or not, and over all challenges", "anchors": ["src/prover/mod.rs: Prover::new, prove", "src/verifier/mod.rs: Verifier::verify", "src/ali/per_register/mod.rs: calculate_g"]}
{"id": "C65", "title": "Proving does not panic", "statement": "For an instance the prover's setup accepts and a witness of the declared shape, prove returns a proof or an error; it does not panic. (False of the code: it panics for every witness when the row count is not a power of two, or when the largest declared constraint degree is not a power of two and some constraint has a term; it never returns a proof when there are at least as many final FRI coefficients as rows. It holds on every machine when both are powers of two. A proof is returned exactly when, besides, the LDE factor and the number of final coefficients are powers of two and not both one, the field has the extended domain and the transcript's point lies outside it.)", "quantifier": "every instance, every witness table of the declared shape, satisfying or not, every LDE factor and output size, every CPU count and hash function", "why_tests_cant": "tests run a few instances, all with power-of-two rows and degree 1 or 2; the claim ranges over all instances, parameters and CPU counts", "anchors": ["src/prover/mod.rs: Prover::new, prove", "src/arp/per_register/mod.rs: make_witness_polymonials, calculate_witness_polys", "src/ali/per_register/mod.rs: calculate_g, evaluate_constraint_term_into_values", "src/ali/per_register/deep.rs: calculate_deep", "src/fft/fft.rs: serial_fft"]}
{"id": "C66", "title": "The single-polynomial form of an instance reads the same trace", "statement": "Converting a trace table of n registers and T rows into one witness polynomial pads both dimensions to powers of two and returns the polynomial that takes the table's entries, and zero in the padding, on the padded domain; after routing, each constraint with every factor read from that polynomial has at row i of the row domain the value of the original constraint at row i of the padded table, rows cyclic. (The conversion panics when some parallel chunk of rows starts beyond the last row but inside the padding; the exact condition is part of the claim. It never does so for power-of-two row counts or on one CPU.)", "quantifier": "every rectangular table, every instance with plain registers and step differences, every CPU count", "why_tests_cant": "the one unit test converts a 2x4 table on the test machine and prints the result; the claim ranges over all shapes, contents, constraints and chunkings", "anchors": ["src/arp/single_witness/mod.rs: make_single_witness_polymonial, from_instance, route"]}
{"id": "C67", "title": "DEEP quotients of a single witness polynomial", "statement": "Given the extended values of a witness polynomial f and a composition polynomial g, at least two different masks m and a point z, make_deep returns the points z*m, the values f(z*m), the values of (f - U)/prod(X - z*m) on the first domain, where U of degree below the number of masks interpolates f at the points, and those of (g - g(z))/(X - z) on the second domain, both divisions being exact. It returns an error if some z*m is in the first domain or z in the second, and panics if there are fewer than two masks, a mask is repeated or z is zero.", "quantifier": "every f, g, mask list, point, pair of domain sizes, and every CPU count for which the extensions involved are right (C09, C14)", "why_tests_cant": "the one unit test runs a Fibonacci instance with one z and prints the result; the claim ranges over all polynomials, masks, points, sizes and CPU counts", "anchors": ["src/ali/deep_ali.rs: DeepALI::make_deep"]}
{"id": "C68", "title": "FRI rejects words far from low degree at a counted share of the positions", "statement": "If a prover has committed to a FRI run whose numbers of rounds and of final coefficients stand for the degree bound D, and to the values the first round is checked against, then either all values with an accepted answer lie on one polynomial of degree below D, or the answered odd positions are fewer than all but E of them (for any E with 2E + D at most their number N, half the distance), or in some round r one of at most e(N/2^(r+1) - e + 2) + 1 bad challenges was drawn, e = E/2^(r+1) (at most e + 1 of them if 3E + D is at most N), or the hash function collides. So q independent positions are all answered for at most (1 - (E+1)/N)^q of the choices if the values differ from every such polynomial at more than E of the N odd positions.", "quantifier": "every run of commitments, every set of accepted positions, every domain size, bound and E, every hash function", "why_tests_cant": "tests query proofs of honest provers; the claim bounds what any prover can get accepted, over all committed words, challenges and positions", "anchors": ["src/fri/verifier.rs: verify_proof_queries", "src/fri/fri_on_values.rs", "src/iop/blake2s_trivial_iop.rs: verify_query"]}
{"id": "C69", "title": "Positive answers only for instances the code can interpret", "statement": "If a verifier has been built for an instance and accepts some proof, or a prover returns a proof for it, then all constraints of the instance are dense with a density that fits into the rows, read registers that exist by step differences, and all boundary constraints are on existing registers and carry a value (and, for a returned proof, the witness has the declared shape and, as soon as a constraint has a term, the row count and the largest declared degree are powers of two). is_satisfied answers Ok exactly if all constraints are dense, fit, read existing registers and rows wherever they are enforced and vanish there, and the boundary values are met. In particular repeated and sparse constraints, which the API lets one declare, are never silently skipped or treated as dense ones.", "quantifier": "every instance (any densities, registers, masks, missing values), every proof object, witness, LDE factor, output size, CPU count and hash function", "why_tests_cant": "tests only use dense, well-formed instances; the claim ranges over all instances the types allow and all proofs", "anchors": ["src/verifier/mod.rs: Verifier::new, verify, calculate_g_at_z_from_f_at_z", "src/prover/mod.rs: Prover::new, prove", "src/ali/per_register/mod.rs: from_arp, calculate_g", "src/arp/per_register/mod.rs: is_satisfied, verify_witness", "src/air/mod.rs: ConstraintDensity, RepeatedConstraint::new, SparseConstraint::new"]}
{"id": "C70", "title": "Arguments of the wrong size are refused", "statement": "A call whose arguments do not fit together never returns a result computed from a part of the data: polynomial operations with an operand of another length (or, in coefficient form, a longer one), mul_add_polynomials on vectors of different lengths, an FFT of any kernel on a vector that has not exactly 2^log_n elements or with a CPU hint of 0 or above the number of CPUs, an LDE by a factor that is not a power of two, the degree-one evaluation of a polynomial with other than two coefficients, a Merkle query or FRI query outside the vector, an FRI proof with a factor, word length or number of final coefficients that is not a power of two or without a folding step, a composition with the wrong number of witness polynomials, a domain that cannot be halved, a challenge index from fewer than 8 bytes or for an empty domain, a trace step of zero and a register without a value all panic or return an error.", "quantifier": "every vector, polynomial, tree, index, factor, CPU count, hint and build", "why_tests_cant": "tests call these functions with matching sizes; the claim ranges over all mismatches, for every number of CPUs (the parallel paths contain no length check and refuse only through out-of-range reads)", "anchors": ["src/polynomials/mod.rs: add_assign, sub_assign, add_assign_scaled, mul_assign, evaluate_at_domain_for_degree_one, lde, coset_lde, filtering_lde", "src/utils/poly.rs: mul_add_polynomials", "src/fft/fft.rs, src/fft/prefetch_fft.rs: best_fft", "src/fft/lde.rs: best_lde", "src/fft/dit_fft/mod.rs, src/fft/radix4_fft/mod.rs", "src/iop/blake2s_trivial_iop.rs: query", "src/fri/fri_on_values.rs, src/fri/mod.rs, src/fri/query_producer.rs", "src/domains/mod.rs", "src/verifier/mod.rs: bytes_to_challenge_index", "src/air/test_trace_system.rs: step, get_register", "src/experiments/tensor_lde.rs"]}
{"id": "C71", "title": "A printed constraint is the constraint, and a failed witness check names the first violation", "statement": "Printing a constraint made with the builder either panics, exactly when it reads something other than numbered registers by step differences (so always once it is part of an ARP instance), or gives a text that determines it: two constraints with the same text have the same declared degree and constant and the same value for every assignment of values to registers. When is_satisfied refuses a witness of the right size for a well-formed instance, its error is about the first constraint, in the order of the instance, violated at an enforced row, and the first such row: either it names a row outside the trace the constraint reads there, or it contains the text of that constraint and the row; the general error is returned only if every constraint holds and a boundary value is wrong. Building the error text never panics.", "quantifier": "every constraint, instance, witness table, field element and number of registers, steps, rows and powers", "why_tests_cant": "tests print one constraint and never look at the error texts; that no two different polynomials share a text and that the reported row is the first violated one ranges over all constraints and tables", "anchors": ["src/air/constraint.rs: Display for Constraint, ConstraintTerm, UnivariateTerm", "src/arp/per_register/mod.rs: is_satisfied, verify_witness", "src/lib.rs: SynthesisError"]}
{"id": "C72", "title": "Build profiles agree where a debug build does not panic", "statement": "Building constraints, checking a witness, and computing the points a constraint's divisor excludes and its value at a point: whatever a build with overflow checks returns (value or error), a build without them returns too. Where the first panics, the second is determined: declared degrees are sums modulo 2^64; the witness check accepts exactly the tables that satisfy the constraints with rows computed modulo 2^64, so a step difference of 2^64 - j reads the row j above; a span larger than the trace makes the check refuse every table, while the divisor leaves out no row at the end.", "quantifier": "every term, constraint, instance, witness table, density, domain and point, with all numbers 64-bit words, in both build profiles", "why_tests_cant": "tests run in one profile with small numbers; agreement must hold for all powers, steps, rows and spans, and the release behaviour on overflow is silent", "anchors": ["src/air/constraint.rs: MulAssign", "src/arp/per_register/mod.rs: is_satisfied", "src/arp/density_query.rs: DenseConstraintQuery::new", "src/ali/per_register/mod.rs: inverse_divisor_for_dense_constraint", "src/verifier/mod.rs: inverse_divisor_for_dense_constraint"]}
{"id": "C73", "title": "Shape and size of a proof", "statement": "Whenever prove returns a proof for a runnable instance with n registers, 2^k rows and constraints of degree up to 2^f, LDE factor 2^e and 2^o final coefficients, on any machine and for any table: it contains exactly one claimed value for each different pair of register and row offset that is read, n register openings at one odd position with paths of k+e digests, one opening of g with k+f+e, and two FRI proofs with k-o+1 and k+f-o+1 rounds, two openings of shrinking depth per round and 2^o coefficients; so the number of digests and of field elements is given by closed formulas, quadratic in the logarithm of the number of rows.", "quantifier": "every runnable instance, witness table, number of CPUs, LDE factor, output size, hash function", "why_tests_cant": "tests prove one or two instances and never count; succinctness is a statement about all sizes", "anchors": ["src/prover/mod.rs: Prover::prove", "src/verifier/mod.rs: InstanceProof", "src/fri/query_producer.rs: produce_proof", "src/iop/blake2s_trivial_iop.rs: get_path"]}
{"id": "C74", "title": "When a proof depends on the machine", "statement": "For a runnable instance and any table, all machines with one CPU, or with more CPUs than half the LDE factor and half the largest degree, get the same result from prove: the same proof, or the same error. A machine with several CPUs but at most half the LDE factor commits to the same registers as these exactly if all columns of the table are constant (or the hash function collides on the strings hashed).", "quantifier": "every runnable instance, witness table, pair of machines, LDE factor, output size, hash function", "why_tests_cant": "tests run on one machine, so a dependence on the number of CPUs is invisible", "anchors": ["src/prover/mod.rs: Prover::prove", "src/polynomials/mod.rs: lde, coset_lde", "src/fft/multicore.rs: Worker"]}
{"id": "C75", "title": "Challenges and query positions are uniform over the digests", "statement": "Of the 2^256 digests, each field element below 2^CAPACITY is the challenge of exactly 2^(256-CAPACITY), and the modulus - 2^CAPACITY other elements are never drawn. In a domain of 2^N points each odd position is the query position of exactly 2^(257-N) digests and no even position of any. So the shares of lucky challenges and answered positions in the soundness bounds are shares of digests: a FRI round's root is lucky for at most (e+1)/2^CAPACITY of the digests, e = E/2^(r+1), within a third of the distance, and for at most (e(2^(n-r-2)-e+2)+1)/2^CAPACITY of them within half the distance, and a prover for an instance without a witness is accepted, without luck and collisions, for at most max(1-(E1+1)/2^(N-1), 1-(E2+1)/2^(M-1)) of the pairs of digests.", "quantifier": "every field whose challenges cannot panic, every element, set of elements, domain and LDE factor (powers of two), position, set of positions; every committed word, instance and prover strategy of C68 and C46", "why_tests_cant": "there are 2^256 digests; a test sees a handful of them", "anchors": ["src/iop/blake2s_trivial_iop.rs: encode_root_into_challenge", "src/transcript/mod.rs: get_challenge, get_challenge_bytes", "src/verifier/mod.rs: bytes_to_challenge_index, Verifier::verify"]}
{"id": "C76", "title": "Panicking tasks and schedules", "statement": "A scope returns the results of its tasks if all of them end normally and panics if one of them panics, whatever the order in which the tasks take their steps: the same as running them one after the other. It returns as soon as every task has been given enough steps; no task waits for another. In particular the parallel FFT and every loop with one task per chunk give the result of the sequential model.", "quantifier": "every number of tasks, every implementation of the tasks as steps (with any state and result type, panicking or not), every schedule", "why_tests_cant": "the number of interleavings is exponential in the number of steps, and a test run sees one of them", "anchors": ["src/fft/multicore.rs: Worker::scope", "src/fft/fft.rs: parallel_fft", "src/polynomials/mod.rs: all uses of worker.scope"]}
{"id": "C77", "title": "What a verification costs", "statement": "Checking any proof, also a malformed one, takes at most one hash call per challenge of the transcript and per digest and leaf of its openings, and a number of field operations which is linear in the roots and final coefficients of the proof and otherwise fixed by the instance; an accepted proof takes exactly these hash calls. For a proof that prove returned for a table of 2^k rows the hash calls are quadratic in k, and the field operations linear in k. The field operations are not logarithmic when the table was padded: an accepted proof takes at least three for every row that is not constrained, with 2^j + 1 rows at least 3 (2^j - 1).", "quantifier": "every field, instance, hash function and proof (also malformed), every outcome; for the exact count every instance which the prover supports, every witness, CPU count and parameters", "why_tests_cant": "a test measures one proof; the bound is for every proof an attacker may send and for every table size", "anchors": ["src/verifier/mod.rs: Verifier::verify", "src/fri/verifier.rs: verify_proof", "src/iop/blake2s_trivial_iop.rs: verify_query", "src/air/mod.rs: DenseConstraint", "src/transcript/mod.rs: Blake2sTranscript"]}
{"id": "C78", "title": "One verdict in every build", "statement": "If a build with overflow checks ends the setup of a verifier or a verification without a panic, its verdict or error is the one defined by the unbounded arithmetic, and a build without overflow checks gives the same one. With at most 2^63 rows, and sizes of domains (rounded degree times rounded rows, times the LDE factor) and claimed sizes of at most 2^63, the setup and the verification return in both builds, in a release build provided the spans fit in the trace. Beyond that the builds part: a setup whose sizes do not fit panics in a debug build, while a release build returns a verifier whose constraint domain has a single point; a span greater than the number of rows panics in a debug build and is verified as span zero by a release build.", "quantifier": "every field, instance, LDE factor, verifier, hash function and proof, both build profiles, any number of loop iterations", "why_tests_cant": "tests run in one profile with small sizes; agreement of the profiles is a statement about every word-sized row count, degree, span, factor and proof", "anchors": ["src/verifier/mod.rs: Verifier::new, Verifier::verify, calculate_g_at_z_from_f_at_z, inverse_divisor_for_dense_constraint", "src/domains/mod.rs: Domain::new_for_size", "src/fri/verifier.rs: verify_proof_queries"]}
{"id": "C79", "title": "Which statements a proof is accepted for", "statement": "A proof accepted for one instance is accepted for another one with as many constraints and boundary constraints, the same rows and registers, the same cells read and the same rounded degree exactly if the compositions of the two agree at the out-of-domain point, because the challenges do not depend on the statement. In particular an accepted proof is accepted with other boundary values (inputs and outputs) exactly if one linear equation holds: changing a single value is refused (unless its factor vanishes), but for every value in another constraint there is exactly one which makes the same proof accepted, so that one proof is accepted for |F|^(m-1) choices of the m boundary values. Hence an honest proof of a true statement is also accepted for false ones.", "quantifier": "every field, hash function, pair of verifiable instances, accepted proof and vector of boundary values", "why_tests_cant": "tests verify a proof against the statement it was made for; which of the |F|^m other statements it is accepted for is a statement about all of them", "anchors": ["src/verifier/mod.rs: Verifier::verify, calculate_g_at_z_from_f_at_z", "src/transcript/mod.rs: Blake2sTranscript", "src/air/mod.rs: BoundaryConstraint"]}
{"id": "C80", "title": "What proving costs in hash calls", "statement": "The number of hash calls of a successful `prove` is determined by the proof it returns: two for each constraint and boundary constraint, one for each claimed value and three more for the transcript, 2^(depth+1) - 1 for each Merkle tree (one for each register, one for the composition and one for each FRI layer) and one for each opening. For an instance with n registers, 2^k rows and degree up to 2^f, with LDE factor 2^e and 2^o final coefficients, this is exactly (n+2) 2^(k+e+1) + 3 2^(k+f+e+1) - 2^(e+o+2) plus one for each FRI layer and the transcript: linear in the size of the extended trace, the same for every witness, every number of CPUs and every hash function.", "quantifier": "every field, instance, witness, LDE factor, number of final coefficients, number of CPUs and hash function for which the prover returns a proof", "why_tests_cant": "tests prove a few instances and count nothing; the number of calls for every size, degree, factor and chunking is a statement about all of them", "anchors": ["src/prover/mod.rs: Prover::prove", "src/iop/blake2s_trivial_iop.rs: Blake2sIopTree::create, get_path, query", "src/fri/fri_on_values.rs: proof_from_lde_by_values", "src/fri/query_producer.rs: produce_proof", "src/ali/per_register/mod.rs: calculate_g", "src/ali/per_register/deep.rs: calculate_deep"]}
{"id": "C81", "title": "What a transform costs in field operations", "statement": "A transform of n = 2^k values takes exactly 2 n k + k (k + 1) / 2 field operations when it runs serially. On 2^c tasks every task takes more than 3 n operations however many CPUs there are, since each task reads the whole input; the exact count of each task and of all tasks together is the listed one, so the total grows with the number of CPUs and, for n >= 16, the longest task is less than (2 k + 1) / 3 times shorter than the serial transform. `best_fft` takes the serial count exactly when the CPU hint, or the number of CPUs, has logarithm 0 or at least k. The counts do not depend on the values.", "quantifier": "every field, vector, size, root of unity, number of CPUs and CPU hint for which the transform returns", "why_tests_cant": "benchmarks time a few sizes on one machine; the exact operation count for every size and number of tasks, and the bound on what parallelism can gain, are statements about all of them", "anchors": ["src/fft/fft.rs: best_fft, serial_fft, parallel_fft"]}
{"id": "C82", "title": "What a proof reveals about the witness", "statement": "With an LDE factor of at least 2, the claimed values and register openings of a proof are values of the register polynomials at points outside the trace domain, one for each register and offset that is read and one more for each register; no cell of the witness is among them. Given any set of unknown cells of a column and the rest of the column, the number of columns that fit these values is the field size to the power of the number of unknown cells less the number of values shown for that register. But leaves are hashed without salt and the prover is deterministic: the neighbour of the opened leaf, whose digest is in the path, is a cell of the witness whenever the position has remainder 1 modulo the LDE factor (always for factor 2), so a guess of that cell can be checked, and with factor 1 the openings are cells of the witness, and the roots in a proof tell whether a guess of the whole table is right.", "quantifier": "every field, instance, witness, number of CPUs, LDE factor, hash function and proof returned, and every set of unknown cells", "why_tests_cant": "counting the witnesses consistent with a proof, or the binding of the roots, is a statement about all tables over a large field", "anchors": ["README.md: ZK by no quering from the original domains", "src/prover/mod.rs: Prover::prove", "src/ali/per_register/deep.rs: calculate_deep", "src/iop/blake2s_trivial_iop.rs: query, get_path", "src/verifier/mod.rs: Verifier::verify"]}
{"id": "C83", "title": "What setting up the prover costs", "statement": "Setting up a prover takes an exact number of field operations that is determined by the instance, the number of CPUs and the two-adicity of the field: the domains, the tables of powers, one power per shift, and for each different density and for each different row with a boundary value a table of divisors. The divisors of a density take, for each evaluation point, two operations for each row the density leaves out, the padding to the next power of two included: with one row more than a power of two the setup takes at least 4 (rows - 1)(rows - 2) operations. When every density leaves out at most E rows, the cost is at most (2E + k + 7) operations per point for each table, 2^k being the padded number of rows, plus terms that only depend on logarithms and the number of CPUs.", "quantifier": "every field, instance, number of CPUs and options for which the setup succeeds", "why_tests_cant": "a count of operations, and its growth, for all instance sizes; a timing on a few sizes neither shows the formula nor separates the padded from the unpadded case", "anchors": ["src/prover/mod.rs: Prover::new", "src/arp/per_register/mod.rs: from_instance", "src/arp/mappings.rs: remap_constraint", "src/ali/per_register/mod.rs: from_arp, inverse_divisor_for_dense_constraint_in_coset", "src/precomputations/mod.rs: new_for_domain", "src/polynomials/mod.rs: from_values, batch_inversion, coset_evaluate_at_domain_for_degree_one"]}
{"id": "C84", "title": "What proving costs in field operations", "statement": "Whenever prove returns a proof it has used an exact number of field operations, determined by the instance, the options, the number of CPUs and the two-adicity of the field alone: interpolation and extension of every register, one coset extension and one power for each different (register, number of steps modulo the number of rows, exponent) that the constraints read, the terms on every point, one division per density, the boundary constraints, the interpolation of the combined polynomial and its extension, the quotients with one batch inversion for each different number of steps, six operations per value of every folded FRI layer. The number is the same for every witness and hash function. The transforms in extensions and witness interpolations are always serial, because the computed number of threads per transform is always one. It is quasi-linear in the size of the extended composition polynomial: a number of passes that depends on the instance but not on the number of rows, each linear in the size times the sum of its logarithm, the number of CPUs and the number of digits of the exponents.", "quantifier": "every field, runnable instance, supported options, number of CPUs, witness table and hash function for which prove returns a proof", "why_tests_cant": "an exact count for all sizes and instances and its independence of the witness; timings on examples show neither", "anchors": ["src/prover/mod.rs: prove", "src/arp/per_register/mod.rs: make_witness_polymonials, calculate_witness_polys", "src/ali/per_register/mod.rs: calculate_g", "src/ali/per_register/deep.rs: calculate_deep", "src/polynomials/mod.rs: lde_using_multiple_cosets, coset_lde_using_multiple_cosets, evaluate_at, pow, icoset_fft", "src/fri/fri_on_values.rs: proof_from_lde_by_values"]}
{"id": "C85", "title": "Which parts of a proof the verdict depends on", "statement": "verify returns the same outcome (verdict, error or panic) for any two proofs that agree in the register roots, the root of g, the openings of the registers and of g, as many claimed values as there are pairs of register and mask, the last root of each list of FRI roots, and, for each FRI proof, the domain size rounded up to a power of two, the parity of the number of openings, the roots and openings of the rounds for which both are present, and the final coefficients. Everything else (further claimed values, all other FRI roots in the lists, the two factors of the size, the announced number of final coefficients, roots without openings, openings without roots) is ignored. The lists of FRI roots are not compared with the roots inside the FRI proofs: they influence the verdict only through the two query positions. Hence no accepted proof is unique: there are infinitely many others.", "quantifier": "every field, hash function, verifier and pair of proofs, well-formed or not", "why_tests_cant": "two arbitrary proofs are compared, including malformed ones; a test can only try some changes to some proofs", "anchors": ["src/verifier/mod.rs: verify", "src/fri/verifier.rs: verify_proof_queries", "src/fri/mod.rs: FRIProof"]}
{"id": "C86", "title": "Soundness error and extraction against independent challenges", "statement": "A prover plays any strategy against the checks of verify (C54): it commits to words for the registers, then sees the challenges of the constraints and commits to a word for g, then sees the point and claims values, then sees the challenges of the masks and commits to two FRI runs of the right shape, then sees two odd positions and answers. The challenges are drawn independently and uniformly from a set S of field elements, the positions uniformly. Either the committed words of the registers decode, within E1 errors, to polynomials whose values on the trace domain satisfy the instance, or the share of draws with which it passes, without luck with a FRI challenge (C68, C75) and without a hash collision, is at most (2(constraints + boundary constraints) + (LDE domain of g + slack * constraints domain + trace domain) + masks * (E1(N1 - E1 + 2) + 1)) / |S| + max(1 - (E1+1)/N1, 1 - (E2+1)/N2), for all E1, E2 up to half the distance, where N1, N2 are the numbers of odd positions. With a satisfying witness some strategy passes for all draws whose point is out of the LDE domain of g.", "quantifier": "every verifiable instance, LDE factor of at least 2, hash function, set of challenges, prover strategy and number of errors up to half the distance", "why_tests_cant": "all strategies of all provers against all draws", "anchors": ["src/verifier/mod.rs: verify", "src/fri/verifier.rs: verify_proof_queries", "src/iop/blake2s_trivial_iop.rs: verify_query"]}
{"id": "C87", "title": "How much delay the VDF experiments provide", "statement": "In every field in which the prover can work on a domain of four or more elements, -1 is a square, so u^2 = -1 does not define a field, and the exponent of a power in the extension can be reduced modulo the (public) modulus minus one. Hence the output of the squaring and of the cubic VDF after N operations, that is the only output for which the instance returned by into_arp can be satisfied, is obtained with at most 4 log(modulus) + 8 multiplications and divisions in the field, whatever N is, and 2 log N multiplications of integers modulo modulus - 1: the VDFs can be evaluated, and by C38/C39 proved about, without performing N sequential operations.", "quantifier": "every field with two-adicity at least 2, start value and number of operations", "why_tests_cant": "all start values and numbers of operations, in particular numbers no test can iterate through", "anchors": ["src/experiments/vdf.rs: VDF::into_arp", "src/experiments/cubic_vdf.rs: CubicVDF::into_arp"]}
{"id": "C88", "title": "A floor for the soundness error", "statement": "In the game of C86 (challenges and positions drawn independently after the prover's messages, FRI runs of exactly the shape of the code's own proofs) there is, for every instance a verifier can be built for, satisfiable or not, a strategy that passes for at least the share min(1, 4 / LDE factor) of the draws, less the share of points in the LDE domain of g, and not by luck with a FRI challenge: the prover commits to zero words and interpolates the second FRI word at twice as many positions as the degree bound. So with its single query per FRI proof the protocol of the code cannot have a smaller soundness error, however the transcript and the shape checks are repaired; many independent queries are needed.", "quantifier": "every verifiable instance, LDE factor of at least 2, hash function and set of challenges", "why_tests_cant": "a statement about shares of all draws, for all instances including unsatisfiable ones", "anchors": ["src/verifier/mod.rs: verify", "src/fri/verifier.rs: verify_proof_queries", "src/fri/query_producer.rs: produce_proof"]}
{"id": "C89", "title": "From a program to an accepted proof", "statement": "A program written against the trace-system interface, whose recorded columns have 2^k rows and meet the constraints the program stated, converts to an instance with exactly those constraints and to exactly those columns, and the proof made from them is accepted by a verifier of that instance. For the Fibonacci program with the target 'B is v at row r' the witnesses of the converted instance are the Fibonacci table alone if v is F(r+2) in the field, and none otherwise; without a target it states no start values, and any table following the recurrence is a witness. A proof made from any other table, or for a false target, is accepted only by luck with the drawn challenges. (These are the two tests of the prover, for every size, table and target.)", "quantifier": "every sequence of interface calls, every number of rows 2^k, target, table, hash function, CPU count and LDE factor in range", "why_tests_cant": "the two tests run four rows with one target, and alter one cell", "anchors": ["src/arp/mod.rs: into_arp", "src/air/test_trace_system.rs: Fibonacci", "src/prover/mod.rs: test_fib_prover, test_soundness_of_fib_prover"]}
{"id": "C90", "title": "The soundness error in terms of digests", "statement": "If the digests from which the code derives challenges and query positions are independent and uniform, the challenges are independent and uniform over the 2^CAPACITY smallest field elements and the positions over the odd ones, jointly: any property of all the challenges of a run holds for the same share of the draws of digests as of the draws of challenges. So in the game of C86, played with digests, a prover either commits to words that decode to a satisfying witness or wins with at most the share of C86 for 2^CAPACITY challenges; some strategy passes with at least the share of C88, with 2^CAPACITY challenges, whether the instance can be satisfied or not; and at most the share (size of the LDE domain of g) / 2^CAPACITY of the digests makes an honest prover return an error because the point lies in that domain.", "quantifier": "every field whose challenges cannot panic, every verifiable instance, LDE factor of at least 2, hash function, prover strategy, number of errors up to half the distance, and every property of the challenges", "why_tests_cant": "a statement about all draws of digests and all provers", "anchors": ["src/transcript/mod.rs: get_challenge, get_challenge_bytes", "src/verifier/mod.rs: bytes_to_challenge_index, verify", "src/prover/mod.rs: prove"]}
{"id": "C91", "title": "The prover and the verifier with a random hash function", "statement": "Let the hash function be drawn uniformly. For every instance the prover can be run on and every table, prove fails to return a proof with probability at most (size of the LDE domain of the combined polynomial) / 2^CAPACITY. For a suitable instance and a satisfying table it returns a proof that verify accepts with all the remaining probability. For a table that violates the instance it returns a proof that verify accepts with probability at most (2 (number of constraints and boundary constraints) + 2^(k+f) + 2^k) / 2^CAPACITY, plus, with one or two registers, (number of registers * 2^(k+e+1))^2 / 2^256. More generally the challenges of the run have any given property with at most the probability of independent uniform challenges, plus the same term. (2^k rows, 2^f the largest constraint degree, 2^e the LDE factor.) For the squaring and the cubic VDF over the experiments' field with 2^k - 1 operations: a wrong output is accepted, whatever table the prover is run on, with probability at most (12 + 3 * 2^k) / 2^251 + (2^(k+e+2))^2 / 2^256 (squaring) or (16 + 3 * 2^k) / 2^251 (cubic); the output that into_arp states is accepted with all but 2^(k+1+e) / 2^251.", "quantifier": "every field whose challenges cannot panic, runnable instance, table, CPU count, LDE factor and number of final coefficients in range, and all hash functions on strings up to the length of the transcript", "why_tests_cant": "a count over all hash functions; tests have one", "anchors": ["src/prover/mod.rs: prove", "src/verifier/mod.rs: verify", "src/transcript/mod.rs: commit_bytes, get_challenge", "src/iop/blake2s_trivial_iop.rs: create", "src/experiments/vdf.rs: into_arp", "src/experiments/cubic_vdf.rs: into_arp"]}
{"id": "C92", "title": "One proof in every build", "statement": "If a build with overflow checks ends Prover::new or prove without a panic, its outcome is the one defined by unbounded arithmetic, and a build without overflow checks has the same outcome. A build with overflow checks always ends, with that outcome or with a panic. Where the domains, extended domains and claimed sizes are at most 2^63, a build with overflow checks has the outcome of unbounded arithmetic, including its panics, and a build without them has the same prover, proof, verdict or error unless that outcome is a panic; so for a suitable instance and a satisfying table either build returns the same proof, or the same error, and the proof is accepted by a verifier of either build. Beyond that the builds part: if column domain times degree exceeds 2^63, setting up the prover panics with overflow checks, and without them it either never returns or returns a prover whose constraint domain has the wrapped size; where the row count is a power of two and all constraints have the same density, a span greater than the number of rows never yields a prover or an accepted proof with overflow checks, and without them every run of prover and verifier is the one for span zero.", "quantifier": "every field, hash function, instance, LDE factor, number of final coefficients, CPU count, table, verifier and proof, in both build profiles", "why_tests_cant": "tests run in one profile on small sizes; overflow needs sizes near 2^64", "anchors": ["src/prover/mod.rs: new, prove", "src/ali/per_register/mod.rs: from_arp, calculate_g", "src/arp/per_register/mod.rs: from_instance", "src/polynomials/mod.rs: lde, coset_lde", "src/domains/mod.rs: new_for_size"]}
