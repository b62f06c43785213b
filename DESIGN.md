# Formal model of matter-labs/hodor in Lean 4

## Approach

Every modelled Rust function is a total Lean function. Panics and `Result`
errors are data: `Res α = ok a | err e | panic`. Loops are structural folds in
that monad (`forN`, `forEach`, `collectN`, `mapRes`), so a theorem that says a function returns
`ok v` also says that no assertion, index or `expect` failed on the way.

* `Vec<F>` / slices: `List F`. Out-of-range indexing is `panic`.
* field: any `F` with `[Field F] [DecidableEq F]` and a `StarkField F`
  structure (2-adicity `S`, a primitive `2^S`-th root of unity, the
  multiplicative generator). `ZMod 257` (the crate's own `Fr`) is
  an instance and is used for non-vacuity examples and counter-examples.
* `usize`/`u64`/`u32`: `Nat`. Width is modelled where it matters: `1 << log_n`
  as `u32` in the FFT kernels, the checked degree arithmetic of constraints, and
  (`Model/Machine.lean`, both build profiles) the sizes a received proof claims.
  Subtractions are checked, as in a build with overflow checks.
* hash functions: parameters (`hashLeaf`, `hashNode`, transcript hash). No
  property of them is assumed; binding theorems return an explicit collision.
* threads: `Worker::scope` splits data into chunks; a task only writes its own
  chunk. The schedule-independence theorem covers every interleaving of
  per-task steps; the rest of the model uses the sequential semantics.

Layout: `Verif/Spec` (small independent specification), `Verif/Model`
(function-by-function model with citations), `Verif/Lemmas` (helper lemmas),
`Verif/Props` (property theorems and the non-vacuity examples beside them).

## Trusted base

* Lean 4.33.0 kernel; axioms `propext`, `Classical.choice`, `Quot.sound` only.
* Fidelity of the hand-written model to the Rust source (citations in the
  model), and of the theorem statements to the English properties.
* Behaviour of external crates assumed by the model: `ff` (field arithmetic is
  a field; `root_of_unity` has order `2^S`; representation is little-endian
  limbs with `limbs = ceil((NUM_BITS+1)/64)`), `crossbeam` scoped threads join
  before returning and deliver every channel message, `blake2s_simd` is a
  deterministic function of the bytes fed to it, `indexmap` iterates in the order of insertion and finds a key
  exactly if an equal one was inserted (the crate's `Hash` implementations are functions of the fields compared by `Eq`).
* Not modelled: performance other than the counted hash calls and field operations, memory exhaustion, `usize`/`u64` overflow (except
  where stated, in particular `Model/Machine.lean`, `Model/MachineAir.lean`, `Model/MachineVerifier.lean` and `Model/MachineProver.lean`), `Debug`/`Hash` of error and constraint types, `Display` of types other than constraints, their terms and `SynthesisError`, random
  sampling (`Rand`), prefetch intrinsics (no-ops), the `Future` plumbing of
  `Worker::compute`, trait declarations without a body.

### Which code is modelled

| source | model |
|--------|-------|
| `domains/mod.rs` | `Model/Domain.lean` |
| `fft/multicore.rs` (chunking, scope) | `Model/Worker.lean` |
| `fft/fft.rs`, `fft/mod.rs` | `Model/Fft.lean` |
| `fft/lde.rs`, `fft/prefetch_*.rs`, `fft/dit_fft`, `fft/radix4_fft`, `fft/recursive_*.rs` | `Model/FftKernels.lean` |
| `polynomials/mod.rs`, `precomputations/mod.rs` | `Model/Poly.lean`, `Model/FilteringLde.lean` |
| `utils/mod.rs`, `utils/poly.rs` | `Model/Utils.lean` |
| `iop/*` | `Model/Iop.lean`, `Model/Bytes.lean` |
| `transcript/mod.rs` | `Model/Transcript.lean` |
| `fri/*` | `Model/Fri.lean` |
| `air/*` | `Model/Air.lean`, `Model/Density.lean`, `Model/Report.lean` (printing), `Model/MachineAir.lean` (words) |
| `arp/mod.rs`, `arp/mappings.rs`, `arp/density_query.rs`, `arp/per_register` | `Model/Arp.lean`; error texts in `Model/Report.lean` |
| `ali/mod.rs`, `ali/per_register/*` | `Model/Ali.lean` |
| `prover/mod.rs`, `verifier/mod.rs` | `Model/Stark.lean` |
| `experiments/vdf.rs`, `experiments/cubic_vdf.rs` | `Model/Vdf.lean` |
| `experiments/square_root_calculator/fp2.rs` | `Model/Fp2.lean` |
| `experiments/tensor_lde.rs` | `Model/Tensor.lean` |
| `arp/single_witness/mod.rs` | `Model/SingleWitness.lean` |
| `ali/deep_ali.rs` (`make_deep`) | `Model/DeepAli.lean` |
| `utils/mod.rs` (hashers) | `Model/Hasher.lean` |
| `domains/mod.rs`, `fri/verifier.rs`, `verifier/mod.rs` with 64-bit sizes | `Model/Machine.lean`, `Model/MachineVerifier.lean` |
| `prover/mod.rs`, `arp/per_register/mod.rs`, `ali/per_register/mod.rs`, `polynomials/mod.rs` (`lde`, `coset_lde`) with 64-bit sizes | `Model/MachineProver.lean` |
| `verifier/mod.rs`, `prover/mod.rs` and what they call, `fft/fft.rs`, with costs counted | `Model/Cost.lean`, `Model/ProverCost.lean`, `Model/FftCost.lean`, `Model/SetupCost.lean`, `Model/ProverOps.lean` |
| `experiments/mod.rs`, `bn256.rs`, `lib.rs` (declared fields) | `Model/Fields.lean`, `Model/F257.lean` |

`fft/recursive_*.rs` are commented out of the crate's module list but are
modelled. `ali/deep_ali.rs` and `arp/single_witness` are also commented out and no
longer type-check against the rest of the crate (they use the removed types
`ALI` and `IntoARPInstance`); the code in them that does not depend on the
removed types is modelled, with the current instance type in place of the old one.

### Defects of the code that the proofs establish

Each is a theorem whose statement contradicts the natural property; the
positive part is proved beside it with the suffix `_partial`.

1. `lde`/`coset_lde` are wrong with at least two CPUs and a factor of at least
   `2·cpus` (C09, C10, C14; honest proofs rejected in C45).
2. The FRI verifier folds once more than the prover, so honest proofs with more
   than one final coefficient are rejected (C27, C45).
3. `calculate_g` accumulates wrongly with two or more density classes (C41, C45).
4. `get_challenge` panics for moduli with `NUM_BITS mod 64` in `{0,1}` (C21).
5. The verifier does not check the number of FRI rounds, the final
   coefficients' origin, degree or LDE factor: any statement can be "proved"
   (C29, C46). FRI roots and the value at `z·ω` are never absorbed (C55).
6. The verifier panics on proofs without FRI roots or openings and on indices
   outside the claimed domain (C30).
7. Row counts that are not powers of two make the prover panic (C34).
8. `pad_*` change the polynomial before returning an error (C16).
9. FRI and Merkle provers panic on inputs that need no step (C24, C18).
10. The transcript does not frame messages (C22).
11. `into_arp` under-counts registers and panics on auxiliary and constant
    registers (C36).
12. `Fq2::norm` has the wrong sign, `legendre` rejects squares (C48).
13. `UnivariateTerm::pow` does not raise the coefficient (C31).
14. `recursive_fft`/`recursive_lde` panic on length 1, radix-4 on odd `log n`
    (C53, C07).
15. Merkle verification ignores the path length: for every position other
    than 0 there is a root that opens to any two values; position 0 binds (C60). Index bits above the path length
    are ignored as well (C19).
16. Finalised hashers lose their personalisation when reused (C58).
17. The first part of the tensor decomposition of an LDE is not an LDE
    description unless the second sub-domain is trivial (C57).
18. Two header words of a proof make a release build of the verifier loop
    forever and a debug build panic: the claimed size is multiplied unchecked
    and `Domain::new_for_size` does not terminate above `2^63` (C62).
19. In release builds the constraint builder, the witness check and the divisors
    wrap around on negative steps and large spans and accept or reject other
    instances than a debug build (C72).
20. Proofs, and whether they are accepted, depend on the prover's number of CPUs (C74, from 1).
21. With the field of `bn256.rs` more than 44 of 100 field elements are never drawn as a
    challenge (C75).
22. The transcript does not absorb the statement, so a proof of one statement is accepted for many
    others, also false ones (C79).
23. A release verifier whose sizes overflow has a constraint domain of one point; a span greater
    than the trace is checked as span zero (C78).
24. Leaves are hashed without salt and the neighbour of the opened leaf can be a trace cell (always with LDE
    factor 2), so guesses of the witness can be tested against a proof, contrary to the README's ZK claim (C82).
25. Setting up a prover multiplies, at every evaluation point, one factor for each excluded row, padding included: with
    2^j + 1 rows this is quadratic in the number of rows (C83).
26. The number of threads for one transform in an extension or a witness interpolation is computed as transforms / CPUs
    instead of CPUs / transforms and is therefore always one: with fewer transforms than CPUs the other CPUs idle (C84).
27. The last root of each list of FRI roots is absorbed but never compared with the roots of the FRI proof that is checked, so it can be chosen
    freely to move the query positions; most of the header of a FRI proof is not read at all (C85).
28. The VDFs take -1 as the non-residue of the extension, though it is a square in every field with two-adicity at least 2; and the order of the
    group is public in any case. The outputs can be computed without the delay (C87).
29. Each FRI proof is queried at one position only. Even with a sound transcript and shape checks a prover without a witness passes with probability 4 / LDE factor (C88).
30. `Fibonacci` without a final value adds no boundary constraints at all, not even those for the start values: the zero table is a witness (C89).
31. An LDE factor of 1 is accepted by both sides: with one final coefficient `prove` panics (C65), with more every opening is a cell of the witness (C82).
32. The benchmark of the extension field asserts that each root has a root again after negating it once. Negating never helps, as -1 is a square, and the root `sqrt`
    gives for the square of a non-square has none (C49).

## How to read seeded/LOG.jsonl

One line for each attempt, in the order of the runs; an edit that was tried again has a line for each try, numbered by `attempt`. Up to commit d9c05b4
a repeated edit replaced its earlier line, so that eight edits which nothing, or not the expected theorem, had caught at first appeared only as caught; the lines are back.

- `directly_failed`: the declarations whose proof no longer checks. A lemma that fails gets `sorry` in the scratch copy so that the build goes on past it.
- `theorems_failed`: the manifest theorems that are, or depend on, one of these. It is computed from the dependency graph at the time of the run, it is not a list of theorems seen to fail one by one.
- `evidence`: `theorem` if the proof of a manifest theorem itself broke; `lemma` if only lemmas or examples broke on which the theorems depend;
  `none` if nothing broke (the note says why, or which theorem was added); `did not compile` if the edited model does not type-check, which tests nothing.

A proof that breaks is not a proof that the statement is now false. For `lemma` lines, the majority, the theorem was not shown to fail: its proof is gone, but another
one might exist. The log therefore shows which edits go unnoticed; it does not show that each noticed edit makes each listed theorem false.

## Plan per property

| id | model | proof |
|----|-------|-------|
| C01 | `Domain.newForSize` | squaring a primitive root; `Nat.clog` characterisation |
| C02 | coset / next index functions | `ω^(n/2) = -1` |
| C03 | `Worker`, `chunks`, small-step schedules | list induction; confluence of disjoint writes |
| C04 | `serialFft` with explicit swaps and butterflies | loop invariant over rounds, bit reversal as involution |
| C05 | `parallelFft`, `bestFft` | splitting of the DFT sum into residue classes |
| C06 | `Poly.fft/ifft/coset…` | orthogonality of roots of unity |
| C07 | radix-4, DIT, prefetching kernels (serial, parallel, best) | loop invariants as in C04; radix-4 panics for odd `log n` |
| C08 | `serialLde`, `parallelLde`, prefetching variants, `filtering_lde` | sparsity invariant, reduction to C04/C05; on other vectors the sparse rounds only copy known entries, so two vectors with the same known entries get the same result |
| C09, C10 | `lde`, `cosetLde` (chunked over cosets) | **the code is wrong** when `cpus ≥ 2 ∧ factor ≥ 2·cpus`: negation with a witness, `_partial` positive theorem; `Props/LdeExact.lean`: every returned value for every worker, and the exact condition under which it is right (also for C14) |
| C11–C17 | `Poly` operations, utils, precomputations | chunk lemma + pointwise reasoning; C14 inherits C09 (negation + partial); C16 atomicity is false (negation + partial) |
| C18–C20 | Merkle tree | induction on depth; collision extraction |
| C21 | limb masking | bit-length arithmetic; false for moduli with `NUM_BITS mod 64 ∈ {0,1}` (negation + partial) |
| C22 | transcript as byte history | function of history; unframed concatenation counter-example (negation + partial) |
| C23 | `bytesToChallengeIndex` | parity |
| C24–C27 | FRI provers and verifier | even/odd decomposition; **C27 false** for output size ≥ 2 (negation + partial) |
| C25 | exact output of the coefficients prover, exact agreement condition (`Props/FriAgree.lean`) | layers by recursion on (polynomial, root); agreement by induction on layers, disagreement at layer 1 of the word of `X²` |
| C28 | FRI verifier | inversion of the verifier's loop + C19 |
| C29 | FRI verifier | **false**: any word accepted for any claimed bound; bound in terms of the proof's own rounds (partial) |
| C30 | FRI verifier and whole verifier | **false**: panicking proofs; the aborting proof objects are determined exactly (`Spec/Outcome.lean`, iff), every other object gets an answer or an error |
| C31, C32 | constraint operators | structural; `UnivariateTerm::pow` drops the coefficient power (negation + partial) |
| C33–C36 | ARP | loop inversion; C36 false when pc/aux/constant registers exist; the order of the constraints by induction on the calls |
| C37–C39 | examples | induction on steps |
| C40–C43 | ALI/DEEP | polynomial divisibility, rational-function identity; C41 false for two densities (negation + partial) |
| C44 | prover / verifier | for all runs: which challenges a computation draws and uses (`Uses`), sizes of all vectors of a successful run, FRI roots; `Spec.ProverUsed` |
| C45 | prover / verifier | composition of the above; partial with the side conditions found in C09, C27, C41; exact verdict for any LDE factor and output size by running the prover with an arbitrary word in place of the extension (`Lemmas/RunAny.lean`, `RunAnyV.lean`, `Props/AnyWorker.lean`, `Spec/LastLayer.lean`); two densities by comparing the error term with polynomials on the coset (`Spec/Densities.lean`, `Props/Densities.lean`), any number of densities by induction over the groups (`Props/ManyDensities.lean`); several final coefficients by counting roots of the difference with the fold (`Props/LastLayer.lean`) |
| C46 | verifier | false: accepted proof for an unsatisfiable instance; algebraic soundness with an ideal low-degree test for every verifiable instance; soundness of the interactive protocol with the code's Merkle and FRI checks (all odd positions queried, shape of the FRI runs assumed) from C19, C29 and the ideal test; the same when only a share of the pairs of positions is answered, from C68, correlated agreement of the DEEP quotients and unique decoding; no soundness at all for LDE factors 2 and 4; false even with the shape checked, as the claimed values are chosen after the positions (`C46_claims_unbound`) |
| C47, C48 | Fq2 | ring identities; C48 false (negation) |
| C49 | `Fq2.sqrt`, `Fq2.xi`, `Fq2.findConstants` | norm argument in `F[u]/(u^2-3)`; relative to a correct base-field square root; the constants by evaluating the search in the kernel |
| C50 | declared moduli, generators, roots of unity | Lucas primality certificates checked by the kernel |
| C51 | VDF experiments over their own field | C38/C39 composed with C45; inherits the LDE bound (partial); verdict on every machine (`Props/VdfVerdict.lean`) |
| C52 | `verifyPrototype` | inversion of the loop, both directions |
| C53 | `recursiveFft`, `recursiveLde` | induction on `log n`; panic on length 1 |
| C54 | `Verifier.new`, `verify` | inversion of every loop of the verifier, for arbitrary proofs and any number of density classes; exact outcome also for refused proofs |
| C55 | `deriveChallenges`, set-up of both sides | explicit schedule (`Spec/ChallengeSchedule.lean`); challenges as a function of the absorbed roots; malleability of what is not absorbed |
| C56, C57 | tensor queries | Mathlib's Kronecker product; orders of powers of primitive roots; C57 false for the first part (negation + partial) |
| C58 | hashers as absorbed bytes | list induction; false on reuse (negation + partial) |
| C59 | `Fq2.cmp` | case analysis on representations |
| C60 | `verifyQuery` for arbitrary roots | induction on the path with collision extraction; false for different path lengths; exactly the positions other than 0 equivocate (negation + partials) |
| C61 | whole verifier | C54, C55 and uniqueness of the value FRI accepts |
| C62 | `Model/Machine.lean`: words, build profiles, runs indexed by loop iterations | exact outcome per claimed size, and exact conditions under which the whole verifier never returns (release) or panics (debug); false in general (negation + partial) |
| C63 | `IopTree.eq` | C18 (root) and C19 (two trees) |
| C64 | `Prover.prove`, `Verifier.verify` on its result | one run for any witness (`prove_run`, `verify_run`), exact verdict, then counting roots of `G * (X^T - 1) - numerator` and the argument of C46 for the constraint challenges |
| C65 | `Prover.new`, `Prover.prove` for any worker | Hoare-style rules for 'does not panic, result has size 2^K' (`Safe`) through every stage, using the exact LDE of C09; the only failure is an opening point in the evaluation domain, and this gives the exact outcome (`C65_outcome`); conversely 'cannot return an error' (`NoErr`) up to the failing assertion. A returned proof is traced back through the stages to what the parameters must have been (`C65_proof_needs`), which makes the outcome an equivalence (`C65_exact`). False in general (negation + partial) |
| C66 | `makeSingleWitnessPolynomial`, `SingleWitnessArp.fromInstance`, `route` | each chunk's copy loop by invariant on the cells written, chunks glued by `flatten_chunks_tab`, inverse FFT as interpolation; masks `g^k * G^r` move the evaluation point by k rows and r registers. Panic condition exact |
| C67 | `makeDeep` | interpolation (C15), exact product of roots and LDE (C14, C09), divisibility of `f - U` by the vanishing product from its roots; error and panic cases from batch inversion and interpolation |
| C68 | `FriProof.verify` (`verify_proof_queries`), committed runs as in C46 | the fold-consistent chains of C28 at the answered positions; backwards over the rounds, a fold which is a polynomial on all but e positions comes, for all but e+1 challenges, from a word that is one there (two good challenges share enough positions; unique decoding); up to half the distance, for all but about e·N challenges (`Lemmas/HalfDistance`: a Berlekamp–Welch decoder with the challenge as a second variable, existence by counting dimensions, then exact division of bivariate polynomials) |
| C69 | `Verifier.new`/`verify`, `Prover.new`/`prove`, `isSatisfied`, constructors of densities (`Model/Density.lean`) | inversion of every loop of a successful run for arbitrary instances: each constraint is met in the batch of its density, each factor among the masks, each boundary constraint in its loop |
| C70 | the assertions and index operations of polynomials, FFT and LDE kernels, trees, FRI provers, query producer, domains, transcript, tracing | inversion of successful calls: each assertion met; for the parallel kernels the last read of the shuffle bounds the length from below and the gathering step from above. Partial: the parallel path of `best_lde` accepts a vector that is too short (`C70_lde_short_accepted`, exact result in `C70_lde_short_exact`), and lengths are compared modulo `2^32` in `serial_fft` (`C70_length_truncated`) |
| C71 | `Display` of constraints, the witness check with its error texts (`Model/Report.lean`; texts are lists of characters, field elements as the derive macro of `ff` prints them) | unique readability from left to right: numbers end at the first non-digit, field elements have a fixed width, terms and factors start with characters that cannot follow; the check with texts refines the one of C33 (same outcome when the texts are forgotten); inversion of its loops gives the first violation |
| C72 | `Model/MachineAir.lean`: the constraint builder, the witness check and the divisors on 64-bit words, with a build profile | the debug version equals the model used elsewhere; a refinement relation (equal unless debug panics) is a congruence for the monad and holds of each word operation; in release, evaluating at a row is evaluating a constraint with shifted steps at row 0, so the exact criterion of C33 carries over |
| C73 | the whole prover (`Model/Stark.lean`); `Spec/ProofShape.lean` counts | the description of any returned proof (`prove_word`, any machine) gives all lengths; claimed values are counted by a bijection between masks and pairs (register, offset modulo rows) |
| C74 | the whole prover on two machines | the description of the result does not mention the worker; the quotient polynomials are unique by interpolation; different machines: the words committed to are equal only for constant columns (C09), roots bind words (C19) |
| C75 | `interpret_hash`, `bytes_to_challenge_index` as functions on digests | digests are the numbers below 2^256 (big endian); a challenge is a block of bits of the number, a position is its low bits made odd; count numbers with given bits; combine with C68 and C46 |
| C76 | tasks as step functions with their own state, schedules as lists of task numbers (`Spec/Tasks.lean`) | a task's status depends only on how many steps it was given; ended states are unique; compare with `collectN` and `parChunks`, which model all uses of `worker.scope` |
| C77 | the verifier with counters: every hash call and every field operation (addition, subtraction, product, square, inversion, conversion to and from bytes; a power is the square-and-multiply loop of `ff_ce`) adds one tick (`Model/Cost.lean`); copies, comparisons, integer arithmetic, map lookups, allocation and the setup in `Verifier::new` are not counted | erasing the counters gives the verifier of `Model/Stark.lean`; a predicate with upper bounds, exact hash count and lower bound, closed under bind and loops; shapes from C73 |
| C78 | `Verifier::new` and `verify` with every number a 64-bit word, in both build profiles, the shift loop of `new_for_size` with fuel (`Model/MachineVerifier.lean`) | a relation between the debug run, the release run and the unbounded model, closed under bind and loops; outside its range the results of the setup computed, and the divisor of a wrapped span identified with that of span zero |
| C79 | the verifier of `Model/Stark.lean`, run on one proof for two instances | the challenges depend on the shape of the instance only; C54 on both sides and uniqueness of the value a FRI proof is accepted with; the linear equation counted with an explicit bijection; a concrete false statement by evaluation |
| C80 | the prover with a counter of hash calls (`Model/ProverCost.lean`): hashing of leaves, nodes, sibling leaves of openings and the draws of the transcript; the steps that do not hash are taken from the plain model uncounted | erasing the counter gives the prover of `Model/Stark.lean`; exact counts by inversion of successful runs, loop invariants over tree levels and FRI layers; the depths read off the paths in the proof, closed form from C73 |
| C81 | the three transforms of `src/fft/fft.rs` with a counter of field operations (`Model/FftCost.lean`): one for each `add_assign`, `sub_assign`, `mul_assign`, the square-and-multiply loop for `pow`; copies, swaps and index arithmetic are not counted | erasing the counter gives the transforms of `Model/Fft.lean`; exact counts by a loop rule with an invariant (the half block size doubles in each round), the exponents in round i being powers of two |
| C82 | the prover as modelled for C45, on any worker; `Spec/Hiding.lean`: the value of a column's polynomial at a point. The values mixed from several registers (`g`, the FRI layers) are not part of the count | the run as a function of the committed words (`prove_word_lde`); columns with given values at points off the domain counted by rank and nullity, the linear map being onto (multiply by the vanishing polynomial of the known rows) or one-to-one (too many roots); the neighbour digest from the honest path; Merkle binding for the roots |
| C83 | `Model/SetupCost.lean`: `Prover::new` and everything it calls once more in the counting monad (field operations; `pow` and `from_str` by the loops of `ff_ce`); `Spec/SetupCost.lean`: the formula, from the instance alone. Copies, comparisons and index arithmetic are not counted | erasure to the plain model for every outcome, exact count for every successful setup by composition, chunk lengths adding up; lower bound from the density summand, upper bound by estimating powers and decimal digits |
| C84 | `Model/ProverOps.lean`: `prove` and everything it calls once more in the counting monad (field operations); `Spec/ProverOps.lean`: the formula, from the instance and the options alone. Copies, comparisons, index arithmetic and hashing are not counted (hashing: C80) | erasure to the plain model for every outcome; exact count of every stage by composition; the caches of powers and of inverses by a potential: a miss is paid when its key enters the set of keys, and the final sets are those of the instance; upper bound (`Spec/ProverBound.lean`) from the formula |
| C85 | the verifier of `Model/Stark.lean` and `Model/Fri.lean`; `Spec/ReadParts.lean`: when two proofs have the same read parts | congruence of every stage; the visited FRI rounds depend on the rounds with root and openings only; the challenges other than the positions do not depend on the FRI roots (C55) |
| C86 | the checks of C54 on the commitments of C46, the Fiat–Shamir challenges and positions replaced by draws (`Spec/Game.lean`); FRI challenges as in the code | union bound over the kinds of luck of C46, each counted by resampling one part of the draw with all others fixed (a get/put pair); the positions by C46 with the set of pairs the prover passes with; the witness by unique decoding; completeness from C46 |
| C87 | `VDF::into_arp`, `CubicVDF::into_arp` (as for C38, C39); the shortcut is a program of the specification with a count of its multiplications (`Spec/Delay.lean`) | with `i² = -1`, `c0 ± i c1` are multiplicative on `F[u]/(u²+1)`; Fermat reduces the exponent; square-and-multiply counted by induction; equal to the only satisfiable output by C38/C39 |
| C88 | the game of C86 | strategy of zero words; the second FRI run is an honest run on the Lagrange interpolation of the expected word at the first odd positions (`interactive_on`, the commitments and answers of C46's completeness for part of the positions); its words have the required degrees, so no luck; shares by the complement |
| C89 | trace systems, conversion, prover and verifier together | through the interface all converted registers are ordinary ones, so the renaming of C36 is the identity; completeness by C45; the Fibonacci witnesses by induction on the row; wrong tables by C64. Missing, as in C45: constraints of several densities, an out-of-domain point in the domain, LDE factors that run into C09 |
| C90 | `interpretHash`, `bytesToChallengeIndex` over draws of digests (`Spec/DigestGame`), the game of C86 | by C75 every challenge and position has equally many digests; maps with this property are closed under products and powers and keep shares; then C86, C88 and C75. |
| C91 | `prove` and `verify` with a hash function drawn uniformly (`Spec/Oracle`: a table of digests for all strings of at most `B` bytes, any function on longer ones; `B` at least the length of the transcript up to the out-of-domain point) | the strings which a run hashes up to the point (tree nodes, challenges, nodes of the tree over the combined polynomial, the point) are listed with the strings each depends on; the answers to strings asked for the first time are independent and uniform, whatever the order of asking (`share_ranked`); the strings of challenges are new by their length, or else (one or two registers) two nodes of the trees collide or a root encodes a leaf, which is counted; then C64, C65 and the counts of C86. With C38 and C39 the wrong and the true outputs of the VDF experiments follow (`Props/VdfOracle`). Not claimed: a bound for arbitrary forgers, who with the code's one query per FRI proof have the success of C88. |
| C92 | `Prover::new` and `prove` on 64-bit words in both build profiles (`Model/MachineProver`: `next_power_of_two`, the product of domain and degree, degree of a divisor, excluded rows, extension sizes, the length in the cache key, the boundary adjustment and `new_for_size` on all of them; memory stays unbounded) | `Run.Below`: a debug build that does not panic agrees with model and release build, compositional over the loops; `Run.Sure`: unless the model panics, the word program has its outcome when the sizes fit; completeness C45 then gives the round trip in any combination of builds; overflowing setups and spans in closed form, spans also for whole runs (`Props/ReleaseSpan`: related runs of two instances that differ in the density label) |
