# Design

A Lean 4 model of the Python reference implementation in `/repo/poc/vdaf_poc` and proofs
about it.  `/repo` is only read, never run.

## Layout

* `lean/Verif/Py.lean` – Python semantics used by the model: exceptions as values
  (`Res α = Except Err α`), slicing, indexing that raises, `front`.
* `lean/Verif/Model/*.lean` – the model, one Lean definition per Python function, each
  with a comment citing file and lines.
* `lean/Verif/Spec/*.lean` – small specifications that do not mention the model (what a
  polynomial is, what a histogram is, ...).  Where Mathlib already has the notion
  (polynomial evaluation, `orderOf`, `Nat.Prime`, `List.Perm`) it is used directly.
* `lean/Verif/Proofs/*.lean` – helper lemmas.
* `lean/Verif/Props/*.lean` – the property theorems `C01_...`, each with a non-vacuity
  `example` next to it.

## How Python is modelled

* `bytes` is `List UInt8`; `int` is `Nat` or `Int` (`Int` wherever negative values can
  reach the code).
* Each function that can raise returns `Except Err α`; the exception class is kept
  (`ValueError`, `AssertionError`, `IndexError`, ...).  Loops are folds in `Except`.
  Indexing is raising indexing, never `getD`/`head!`.
* Objects mutated in place become state passed explicitly.
* Field elements: a structure of a natural number below the modulus; `+ - * ** inv` are the
  Python formulas (`% MODULUS`, `pow(val, MODULUS - 2, MODULUS)`).  That this is a field is
  a theorem (primality by Pratt/Lucas certificates checked by the kernel), not an
  assumption.  Generic algorithms (NTT, FLP, Prio3) are modelled over an arbitrary field
  with the class attributes `MODULUS`, `ENCODED_SIZE`, `gen`, `GEN_ORDER`, and
  instantiated at the four concrete fields.
* `secrets.token_bytes`/`gen_rand` become explicit inputs, universally quantified.
* XOFs: the two primitives (TurboSHAKE128 and AES-128 from pycryptodome) are opaque
  functions, universally quantified: every theorem holds for every primitive.  The code in
  `xof.py` around them is modelled.
* The rejection-sampling `while` loop of `next_vec` is not structurally terminating; it is
  modelled with a fuel argument and a distinguished error `Err.fuel`, never identified with
  a Python exception.
* `Valid.eval` is polymorphic in the gadget implementation (plain / `ProveGadget` /
  `QueryGadget`); it is modelled as a program over gadget calls that is interpreted in
  those three ways, as in the code, where `eval` calls `self.GADGETS[i].eval`.

## Per-property plan

| id | modelled | proof method |
|----|----------|--------------|
| C01 | `Field.encode_vec/decode_vec`, `to/from_le_bytes` | induction on the vector |
| C02 | same | induction on number of chunks; uniqueness of base-256 digits |
| C03 | `Field` class and the four field classes | Pratt certificates; transfer to `ZMod p` |
| C04 | `gen`, `nth_root`, `nth_root_powers` | `orderOf` from two modular powers evaluated by the kernel |
| C05 | `ntt` incl. in-place butterfly loops and `bitrev` | loop invariant by induction on the layer |
| C06 | `inv_ntt` | C05 + orthogonality of roots of unity |
| C07 | `Lagrange.double_evaluations`, `poly_mul` | C05/C06 + uniqueness of interpolation |
| C08 | `extend_values_to_power_of_2` | loop invariant, Lagrange interpolation |
| C09 | `poly_eval_batched` | loop invariant; barycentric formula with case `x` a node |
| C10 | `poly_*` monomial functions, `poly_interp` | refinement to `Polynomial`; invariant of divided differences. `poly_eval` on a non-empty all-zero list raises `IndexError` in the code: negation witness plus restricted theorem |
| C11 | `common.py` integers | induction on length / bits |
| C12 | `encode/decode_range_checked_int` | arithmetic on binary digits |
| C13 | the five `Valid` subclasses | per circuit, C12 |
| C14 | `eval` of the five circuits | per circuit |
| C15 | same | polynomial in the joint randomness is nonzero, Schwartz–Zippel counting |
| C16 | gadgets `eval`/`eval_poly` | C07, C09, uniqueness |
| C17 | `prove`, `query`, `decide`, gadget wrappers | C16, C18, invariant of wrappers |
| C18 | same | lockstep induction over the circuit program |
| C19 | same | root counting |
| C20 | same | explicit bijection |
| C21 | length formulas | along C17/C18 |
| C22 | `query` | along C18 |
| C23 | `Prio3`, `run_vdaf` | C13, C14, C17, refinement of the driver |
| C24 | `Prio3.verify_*` | case analysis |
| C25 | `Prio3.verify_*` | C18, C19 |
| C26, C27 | Prio3 codecs | C01, C02. C27 is false in parts (see findings); negations proved |
| C28 | `agg_*`, `merge` of Prio3 and Poplar1 | commutative monoid, permutations |
| C29 | `Prio3.is_valid` | induction on histories |
| C30 | `Prio3.shard` | case analysis |
| C31, C32 | `IdpfBBCGGI21` | invariant on (seed, ctrl) pairs by induction on level |
| C33 | `Poplar1`, `run_vdaf` | C31, algebra of the sketch |
| C34 | same | quadratic polynomial in the verification randomness |
| C35 | `is_valid` | induction on histories |
| C36, C37, C38 | codecs | induction |
| C39, C40, C41 | `PingPong` generic over a VDAF | simulation/invariant by induction on rounds/messages |
| C42, C43, C44 | `xof.py` around the primitives | induction on reads; counting |
| C45 | DST formatting and XOF prefixes | injectivity of fixed-length fields |
| C46 | `additive_secret_share` | explicit bijection |
| C47 | encoders | case analysis. False for `Sum`/`Histogram` on negative integers: negations proved |
| C48 | `example_flp_shamir.py` | C10. `shamir_unshard` raises on a zero coordinate: negation proved |
| C51, C52 | same | interpolation through 0 and `t-1` points is unique; a query that is additive up to constants is affine because the field is prime |
| C49 | `run_daf`, `run_vdaf` | induction on the batch |
| C53 | the constructors, for arbitrary integers (`Model/Constructors.lean`) | case analysis; each agrees with the constructor for natural numbers used by all other theorems |
| C54 | a Python computation is the family of the model's results for all bounds (fuel) on the sampling loop; `Spec.Outcome` is its limit | every definition that does not sample never yields the error `fuel`; families are closed under bind, loops and `catchAll`; the sampling loop is monotone in the bound and ends if a chunk is accepted eventually |
| C55 | `Spec.Circuit` (`Verif/Spec/Circuit.lean`) states the requirements on an arbitrary `Valid`; `HigherDegree`, `MultiGadget` and `TestAverage` of the tests are modelled | the requirements are equivalent to the internal `Valid.Lawful`, for which all the FLP lemmas are proved; the library and the test circuits are shown to meet them; a circuit violating share consistency is a counterexample |
| C56 | `Spec/Derive.lean` describes XOF outputs as infinite byte streams, sampling as a relation on byte positions, the IDPF tree as an inductive relation `Node`, and the layout of Poplar1's randomness | inversion of `extend`, `convert`, `gen`, `eval`, `shard` and `verify_init` (the loops by invariants); injectivity of the XOF inputs |
| C57 | as C56 | `verify_init`'s share is the triple plus the sketch of `eval`'s output, which does not involve the correlation seed; the message of the second round is accepted only if the shares cancel |
| C58 | `Model/TestVectors`: `gen_test_vec_for_vdaf` and `check_test_vector` (hexadecimal strings, reports, operations) for any VDAF | each operation of the checker succeeds iff the listed message is the one the generator computes from the states so far (induction over rounds, then over reports); the generator's states are those of `run_vdaf`; for arbitrary vectors, the checker's states are those determined by the listed data, so that acceptance is equivalent to the claims of all the operations (invariant over the loop); every message of Prio3 and Poplar1 has the shape for which decoding inverts encoding |
| C59 | the whole of Prio3, with TurboSHAKE128 replaced by an oracle that is random at the inputs containing a seed known only to the Client and to one honest Aggregator | an injective map of oracles under which the coalition sees the same for both batches: it shifts the honest Aggregator's shares by the difference of the measurements, applies the bijections of C20 to the prover randomness, and permutes the outputs for the joint randomness parts; bijections of the streams that are sampled to given vectors come from the counting in C35 |
| C60 | `Idpf.gen` | Hoare-style loop invariant: after level n all values up to n had the right length |
| C61 | `Poplar1.verifyInit`, `verifyNext`, `sharesToMessage`, composed by `Spec.poplar1Verify` | the description of `verify_init` (C56) and linear algebra |
| C62 | `Idpf.gen`; the ideal process `Spec.IdealShare`, in which the other Aggregator's expansions along the path are free variables | `gen` is the ideal process for the real expansions (from C56); level by level, a correction word determines all of the expansion but the half on the path, so the number of expansions is `2^127` per level |
| C63 | `Poplar1.shard`, `verifyInit`, `verifyNext`; the ideal process `Spec.IdealReport`/`IdealBatch`, in which the values derived from seeds unknown to the corrupted Aggregator (expansions on the path, authenticators, the honest triples, the second Aggregator's correlated randomness) are free variables | the code is the ideal process for the real values (from C56 and C62); a bijection of the random values that maps the views for one measurement to those for another: the triples and the authenticator absorb the change of the sketch, keeping the sums `A` and `B`; the aggregate share depends on the counts only |
| C64 | `plot_prio3_multiproof_robustness.py` (`base_soundness`, `robustness`, the soundness of `sum_vec`) with exact rationals for floats, in `Model/Robustness.lean` | *False as stated*: the formula is for wire polynomials of `calls + 1` coefficients, the code pads them to a power of two. `C64_base_soundness_false` has a dishonest proof for `SumVec` over Field64 that is accepted with probability `6/p > 4/(p-2)`. Proved: the corrected formula (`C64_padded`), twice the script's number (`C64_double`), the script's number where no padding is needed (`_partial`), the same with joint randomness for `SumVec`, with several proofs, and with several attempts |
| C65 | the same model as C59; in `Spec/PrivacyActive.lean` the coalition is a strategy: a function from all it has seen to its next move, which is an arbitrary verifier message for a report or a request for the aggregate share of some of the accepted reports | Count the oracles that give a fixed view. The view determines the moves, hence the batches; the bijection of C59 keeps the replies if the aggregates of these batches agree, by induction over the moves. Malicious Clients in the batch, and reports processed under several keys, are not covered. |
| C66 | the same model as C59; in `Spec/RobustGame.lean` a malicious Client is a strategy: a function from the replies up to now to its next move, which computes the joint randomness of a report or submits a report. TurboSHAKE128 is random at the inputs for the joint randomness and for the query randomness | Deferred decisions: the first move that is committed to an invalid measurement fixes the two inputs of the oracle that matter; the run up to there does not depend on their values, and whether the report is accepted depends on the value for the query randomness only through the sets of C55. Union bound over the moves. Collisions of joint randomness seeds are excluded by an explicit event. |
| C67 | `Model/TestVdafs.lean`: `TestDaf` of test_daf.py and `PingPongTester(ROUNDS)` of test_vdaf_ping_pong.py as instances of the models of `Daf` and `Vdaf` | `TestDaf`: invariant of the loop of `run_daf` (the sum of the two aggregate shares). `PingPongTester`: induction over the rounds of the broadcast execution; the exchange follows from C39, whose conditions on the VDAF are proved for every number of rounds. |
| C68 | the same model as C59; in `Spec/RandomOracle.lean` a malicious Client is a strategy whose moves evaluate TurboSHAKE128 at any input or send a report, as bytes, which the Aggregators decode. TurboSHAKE128 is random at a finite set of inputs that contains those for the query randomness, the joint randomness, its seeds and its parts, and the verification key is random. The Client wins if a report is accepted whose measurement is not valid | `Proofs/Rom*.lean`. The inputs that a move depends on are listed (`touched`), and the run up to a move is shown to depend on nothing else. Lucky events (two parts or seeds collide, a part or a seed is used before it is computed) are bounded pair by pair by exchanging the value at one input. Otherwise the first move that touches the joint randomness of an accepted report fixes the nonce and the measurement shares, and the joint randomness and the query randomness of that report can be chosen after the run up to that move, as in C66. That the Client does not guess the key: exchange the query randomness for an independent one, then the moves do not depend on the key |
| C69 | the same model as C33 and C34; in `Spec/Poplar1Game.lean` a malicious Client and a malicious Collector are one strategy whose moves evaluate TurboSHAKE128 at any input or have a report, as bytes, verified for any aggregation parameter. The Aggregators follow `is_valid` per nonce. TurboSHAKE128 is random at a finite set of inputs that contains those for the verification randomness, AES is an arbitrary function, and the verification key is random. The Client wins if a report is accepted whose output shares do not sum to zero or to a unit vector | `Proofs/Poplar1Oracle.lean`, `Proofs/Poplar1Game*.lean`. The prefix trees and the correlated randomness do not depend on the values for the verification randomness, so the set of bad randomness of C34 is fixed when the report is sent. `is_valid` makes the levels for a nonce increase, so the run up to a move does not depend on the value for the nonce and the level of that move, which can be chosen afterwards. That the Client does not guess the key: as in C68 |
| C70 | the same model as C59 and C65; in `Spec/PrivacyOracle.lean` the coalition may, between the moves of C65, evaluate TurboSHAKE128 at any input. The Clients' random bytes are random, and TurboSHAKE128 is random at a finite set of inputs that contains those with a seed of the Clients that the coalition does not know. | `Proofs/PrivacyQuery.lean`: a run is one of C65 with the answers of the oracle filled in. `Proofs/PrivacyModified.lean`: if evaluations at the secret inputs are answered by zeros, the views have the same probabilities, by C65 for each choice of the other values. `Proofs/PrivacyTransport.lean`, `PrivacyGuess.lean`, `PrivacyCount.lean`: up to the first evaluation at a secret input, the run does not depend on the secret seeds, so each seed is as likely as any other and is hit with probability 2^-256. `Proofs/PrivacyBound.lean`: the union bound over moves, reports and secret seeds. The limits of C65 apply. |
| C71 | `Model/GenTestVec`: the generators of the negative test vectors of Prio3 and Poplar1, and of the vectors of the IDPF and the XOFs (`gen_test_vec.py`) | inversion of the generator, step by step; the messages have the shape for which decoding inverts encoding (as for C58), so the checker repeats the computation of the generator; for Prio3Count, the honest proof fixes the output of the gadget, and the circuit output is then the difference of the measurements; C31 and C42/C43 for the IDPF and the XOFs |
| C72 | the same model as C33, C57 and C63; in `Spec/Poplar1Oracle.lean` one Aggregator and the Collector attack together: they choose the aggregation parameters for which the honest Aggregator verifies each report (in any order, once for each level of each report), the verifier messages it gets and the batches it aggregates, and evaluate TurboSHAKE128 and AES-128 at inputs of their choice, each move depending on all they have seen. The Clients' random bytes are random, TurboSHAKE128 is random at a finite set of inputs that contains those with a seed of a report, and AES-128 is a random function of keys and blocks (the attackers do not invert it). | `Proofs/PoplarTree.lean`, `PoplarShard.lean`: a report as a function of the seeds on the path of the measurement. `Proofs/PoplarCells.lean`, `PoplarIdeal.lean`, `PoplarCouple.lean`: the ideal attack, in which the values of the oracles on the hidden path are fresh random cells. `Proofs/PoplarTau.lean`, `PoplarPlay.lean`: for two measurements a bijection of the cells under which every reply is the same. `Proofs/PoplarGood.lean`, `PoplarHits.lean`, `PoplarMix.lean`, `PoplarAct.lean`: the ideal and the real attack agree unless two seeds coincide or the attackers evaluate an oracle at a hidden seed, and the probability of that. `Proofs/PoplarRom.lean`: the union bound. Limits: the Clients are honest; the reports are verified with one key; the derivation of the fixed AES keys (TurboSHAKE128 with domain byte 2) is not randomised; as the samplers of the model have a bound on their attempts, both probabilities leave out the runs in which the sampling for one of the two measurements exceeds it |
| C73 | the model of `vdaf_ping_pong.py` (C36–C40) with that of Prio3; in `Spec/PingPongAttack.lean` one Aggregator, the Leader or the Helper, is honest and runs `ping_pong_leader_init`, `ping_pong_helper_init` and the `continued` functions on bytes; the other one and the Collector decide, from all they have seen, when it begins with which report, with which encoded aggregation parameter and first message, what bytes it gets next, which batches it aggregates, and evaluate TurboSHAKE128. They see each outbound message, whether it rejects, and the aggregate shares. | `Proofs/PingPongPrio3.lean`: what each function does with arbitrary bytes on an honest report, as a function of the verifier share and of one value of TurboSHAKE128. `Proofs/PingPongSim.lean`: a simulator that plays each move with at most three moves of the attack of C70 and computes the replies; an invariant relates the two executions (`Proofs/Simulate.lean` has the general argument). `Proofs/PingPongReduce.lean`: the probabilities are equal, so C70 applies with three times the number of moves. The limits of C70 apply. |
| C74 | as C73 with the model of Poplar1 (two rounds); the honest Aggregator begins with a report only if `is_valid` allows the decoded aggregation parameter after those used before, and its functions parse arbitrary bytes. TurboSHAKE128 and AES-128 are the oracles of C72. | `Proofs/PingPongPoplar1.lean`: what each ping-pong function does with arbitrary bytes, as a function of the sketch shares of the honest Aggregator. `Proofs/PingPongPoplarSim.lean`: a simulator that plays each move with at most three moves of the attack of C72, with an invariant on both executions. `Proofs/PingPongPoplarReduce.lean`: the probabilities are equal, so C72 applies with three times the number of moves. The limits of C72 apply. |
| C75 | the models of the ping-pong functions, Prio3 and Poplar1 with TurboSHAKE128 as a random oracle. `Spec/PingPongRobust.lean`: the moves of malicious Clients and a malicious Collector (evaluations of TurboSHAKE128, reports and aggregation parameters as bytes), the replies of the honest Leader and Helper, the aggregate result of any accepted sub-batch, and what a good result is. | `Proofs/PingPongRobust.lean`: what the exchange does with arbitrary bytes; a simulator turns the strategy into one for the games of C68 and C69. `Proofs/PingPongRobustPrio3.lean`, `Proofs/PingPongRobustPoplar.lean`: if no report cheats in those games, the aggregate results are good. The bounds are those of C68 and C69. |
| C76 | the models of Prio3 and Poplar1 with TurboSHAKE128 as a random oracle. `Spec/Binding.lean`: a report made for one application context and nonce and verified for others, and the probability that it is accepted. | `Proofs/Binding.lean`: the value at one oracle input, of the first Helper's proof share under the other context, must hit a set in which one coordinate is determined. `Proofs/BindingJoint.lean`: a part of the joint randomness, or the seed, is a fresh value that would have to match. `Proofs/BindingPoplar.lean`: the first Aggregator's correlated randomness is fresh, and verification fixes its last component. The nonce is not bound for circuits without joint randomness, which is proved too (`C76_nonce_unbound`). |
| C77 | the models of Prio3 and of `vdaf_ping_pong.py`, with TurboSHAKE128 as a random oracle. `Spec/PingPongOpen.lean`: the attack of C73, in which the attackers also submit reports of their own, which the honest Aggregator verifies and aggregates with those of the honest Clients. | reduction to C73. `Proofs/OracleTree.lean`: computations that evaluate the oracles a bounded number of times. `Proofs/OpenCost.lean`, `Proofs/OpenPrio3.lean`: what the honest Aggregator does with a report is such a computation, with at most 7 evaluations. `Proofs/OpenSim.lean`: the attackers do it themselves, and add the output shares of their reports to the aggregate shares. |
| C78 | the same for Poplar1, with AES-128 as a random function. | reduction to C74, with `Proofs/OpenPoplar.lean` for the number of evaluations, which depends on the number of prefixes, their length and the bound on rejection sampling. |
| C79 | `Model/AnyFlp.lean`: the abstract class `Flp` as a record of lengths and methods, `run_flp` and Prio3 over such a record, and `FlpTest`, `Prio3FlpTest` of the tests. `Spec/AnyFlp.lean`: what an FLP has to satisfy. | `FlpBBCGGI19` and `FlpTest` satisfy the requirements; the proofs of C23, C24, C25, C26, C27 for Prio3 redone from the requirements alone. |
| C80 | `Model/TestHarness.lean`: `run_gadget_test`, `run_flp_test`, `run_encode_truncate_decode_test` and `run_vdaf_test` of `test_utils.py`, with the random choices as arguments. | from C09 (exactness of evaluation in the Lagrange basis), C55, C15 and C33, and by counting the random choices for which a test gives the wrong answer. |
| C81 | the models of Prio3 and Poplar1; the requirements are in "Security Considerations" of `draft-irtf-cfrg-vdaf.md`. | forgery: gadget answers that make the reduced output 0, and a gadget polynomial interpolated through these answers and the right value at the known test point; reuse: wire polynomials of degree < n are determined by n values; Poplar1: the correlated randomness cancels in the difference of two messages. |
| C82 | the models of Poplar1 and of the IDPF; the claim is in "Safe Usage of IDPF Outputs" of `draft-irtf-cfrg-vdaf.md`. | **False of the code** (see findings): `C82_many_prefixes`, by induction on the path, for a report with equal keys; `C82_once_per_level_partial` from C34 and C35. |
| C83 | the protocol of `draft-irtf-cfrg-vdaf.md:4741-4757` as calls of the methods of Poplar1 (`Spec/HeavyHitters.lean`; there is no code for it in the repository). | induction on the levels, with counts between two bounds; the counts from C33 (honest) and from C34 for each report (malicious). |
| C84 | `Spec.aggregateReports`: the broadcast execution for each accepted report, aggregation by each Aggregator, `unshard` (`Spec/RobustAggregate.lean`). | the output shares of an accepted report sum to the truncated sum of its measurement shares; then linearity; the probability from C68. |
| C85 | the heavy hitters protocol of C83 for a batch of encoded reports that is chosen after adaptive evaluations of the random oracle (`Spec/HeavyOracle.lean`). | reduction to the game of C69: a strategy that submits each report at each level; it can compute the aggregation parameters from the verdicts, because the output shares of an accepted report do not depend on the verification randomness. |
| C86 | the encoders of all messages, for all executions: honest Clients with any valid measurement; Aggregators with any report and any messages received (`Spec/Sizes.lean`). | from the shapes of the messages (C26, C37, C39) and the lengths of C21; the formulas give the sizes in the test vectors of the repository. |
| C87 | `expand_into_vec` with `XofTurboShake128`, the stream being that of a random oracle (`Spec/Completeness.lean`). | the number of accepted chunks is counted exactly (binomial distribution), by induction on the chunks; a bound on the tail and its limit follow. |
| C88 | `run_vdaf` for Prio3 over any circuit that computes a task, with a random oracle. | union bound over the reports: an execution in which every expansion finds enough elements and no test point is a root of unity returns the aggregate (refining C23); each of these events is bounded by C87 or by counting roots. |
| C89 | the ping-pong functions, with any inbound messages (`Spec/WireSizes.lean`). | an invariant of the states of a party: the size of the outbound message; from C86 and C41, and because a verifier share of another length than one's own is rejected. |
| C90 | two honest parties of the ping-pong topology with an arbitrary report (`Spec/Agreement.lean`, `exchange`). | **False of the code** for circuits with joint randomness (see findings): `C90_counterexample`; otherwise an invariant relating the states of both parties, and the fact that the last message decides both verdicts. |
| C91 | the verification with all verifier shares known to all Aggregators, with an arbitrary report (`Spec/AgreementAll.lean`). | an Aggregator accepts if its seed is that of the verifier message; the two seeds are derived from lists of parts of the same lengths, which are equal in the absence of a collision (an explicit hypothesis on these inputs). |
| C92 | `shard` of Prio3 and of Poplar1 with byte strings of any sizes and any measurement. | by cases on the checks at the beginning of `shard`; for the measurement, the exception of `encode` or of the IDPF key generation is passed on. The measurements that `encode` itself accepts are the subject of C47. |
| C93 | two arbitrary runs of `shard`, and of the IDPF's `gen`, with independent measurements and random bytes. | Prio3: the expanded measurement shares add up to the encoding (C30), and encodings determine the measurement (C13). IDPF: induction on the level; if the points first differ at a level, the two parties would have equal control bits there. |
| C94 | a test vector as a dictionary, `test_vec_set_type_param` of every class, and the constructor calls of `test_test_vectors.py` (`Model/TypeParams.lean`). | by computing the entries of the dictionary. False for `Prio3SumVecWithMultiproof`: neither the field nor the number of proofs is stored, and the test has them as constants (`C94_multiproof_counterexample`); what remains is `C94_multiproof_partial`. |
| C95 | the circuits of `SumVec`, `Histogram` and `MultihotCountVec` with two chunk lengths; two instances of Prio3 for the same function. | a vector that passes the range check with many choices of the joint randomness consists of bits, and bits pass it with every chunk length; the result by C23. The vectors compared have the length `MEAS_LEN`; the second half of `SameLanguage` needs a chunk length below `MODULUS`. |
| C96 | two collections of one batch of honest reports by `run_vdaf` with Poplar1, with two aggregation parameters. | from C33, by counting prefixes. For dishonest Clients the levels need not fit together, see C82. |
| C97 | an accepted batch in which some reports are from honest Clients and each of the others stands for some valid measurement (that this fails only with a small probability is C84). | from `C84_mixed_batch`, by bounding the sums over the unknown measurements. |
| C98 | `vec_add`, `vec_sub`, `vec_neg`, and `agg_update`, `merge`, `unshard` and `verifier_shares_to_message` that are made of them. | by induction over the loop of `merge`. Found by mutation: without the length check of `vec_add` no other theorem failed in its statement. |
| C99 | `prove`, `query` and `decide` over an arbitrary circuit, and `check_valid_eval` as the circuits of the library call it. | by following the checks. |
| C100 | `run_vdaf` for the instances of Prio3, on a batch and on its parts. | from C23; sums and counts over a permutation. |
| C50 | the derivation methods of Prio3, `domain_separation_tag`, `format_dst` | each derivation is characterised by a byte-level specification (`Spec/Prio3.lean`); injectivity of the concatenations |

## Findings in the code (properties that fail as stated)

* `poly_eval` on a non-empty list of zeros raises `IndexError` (`poly_strip` empties it and
  then `p[-1]` is read).
* `shamir_unshard` raises `IndexError` when a reconstructed coordinate polynomial is zero,
  because `poly_interp` strips to `[]` and then `coeffs[0]` is read.
* `Sum.encode(-1)`, `Histogram.encode(-1)` do not raise.
* `Sum` accepts `max_measurement = 0` (and negative ones), although its measurements are documented to be in
  `[0, max_measurement]`; the number of proofs is not checked to be in `[1, 256)`.
* `Prio3.decode_public_share` ignores its input when no joint randomness is used, so any
  byte string is accepted; `decode_verifier_message` accepts any length.
* `Poplar1.encode_agg_param` only asserts the total length of its output, so it encodes some malformed
  parameters (prefixes of different lengths) without raising (`C36_malformed`).
* `base_soundness` in `plot_prio3_multiproof_robustness.py` understates the soundness error of the FLP when `calls + 1` is
  not a power of two, because the code pads the wire polynomials (C64); by less than a factor of two.
* A Client of Poplar1 that gives both Aggregators the same IDPF key and correction words that invert both control bits is
  counted for about half of all prefixes, at the last level too, although the draft says that the IDPF is extractable there
  (C82).  Each aggregation parameter still counts the report at most once.
* A malicious Client can make the Helper accept a report that the Leader rejects, if the circuit uses joint randomness:
  the part of the joint randomness in the public share that belongs to the Helper is only checked by the Leader, after the
  Helper has finished.  It suffices that all elements of the encoded measurement are one, with a proof whose seeds for the
  wires that carry `x - 1` are zero (C90; the attack is also run with TurboSHAKE128 in `Verif/Vectors.lean`).  The
  aggregate shares of the batch then do not match, unless the Leader tells the Helper about the rejection; the ping-pong
  topology has no message for that.
* The test vectors of `Prio3SumVecWithMultiproof` contain neither the field nor the number of proofs, although
  `test_vec_set_type_param` is documented to add all parameters that are needed to construct the VDAF (C94).
* `test_vdaf_ping_pong.py` passes the aggregation parameter and the context in swapped order to
  `ping_pong_*_continued` in `test_multi_round`; its VDAF ignores both.  (Read in the test, not modelled.)

## Preconditions that appear in the theorems

* *Context length.*  `xof.py` writes the length of the domain separation tag in two bytes, and the tag is 8
  bytes plus the application context, so a context of `2^16 - 8` bytes or more makes every derivation raise.
  Completeness theorems (C23, C31, C33) assume a shorter one; soundness theorems do not need it.
* *Fuel.*  `next_vec` samples by rejection and has no bound on the number of rounds.  Completeness theorems
  say "the result is right, or the sampler ran out of fuel": no Python exception is possible.  Soundness
  theorems speak about runs that returned.  C54 relates the family of all bounds to the unbounded Python loop and
  restates the completeness theorems without this alternative.
* *`RootHit`, query randomness.*  The statements about robustness (C25, C34) say that an invalid report can only be
  accepted if the query randomness lies in an explicitly bounded set.  That this is unlikely if TurboSHAKE128 is
  a random oracle is C66, C68, C69 and C85; that TurboSHAKE128 behaves like one is a heuristic, outside the model.
* *AES XOF.*  `XofFixedKeyAes128` raises once its block index exceeds `2^128`; the fuel bound `2^120` in
  completeness theorems about the IDPF keeps reads below that.

* *Ping-pong.*  The two-party topology needs from the VDAF what `Spec.PingPongReady` lists: verifier shares and messages
  survive encoding and fit in 4-byte lengths, and `verify_next` returns a pair exactly before the last round.  Poplar1
  always meets it; Prio3 when its verifier share is shorter than `2^32` bytes.  `except Exception` is modelled
  by `catchAll`, which turns every Python exception into `Rejected` but lets `Err.fuel` (divergence) through.

## Evidence that the model is faithful

`Model/Primitives.lean` has executable TurboSHAKE128 and AES-128, and `Vectors.lean` replays the test vectors in
`/repo/test_vec` on the model: every operation of every file (all 32 VDAF files, including the negative ones, the
two XOF files and the IDPF file) gives byte for byte the message recorded in the file.  Ten of the smaller files are replayed by
`#guard` at each build; the rest by `lake env lean --run Verif/Vectors.lean` (about forty minutes in the interpreter; last
complete run: all pass).  The number of proofs of the multiproof vectors is not recorded in the files and comes from
`gen_test_vec.py`.  These are tests of the model, not proofs, and no theorem depends on them.

## What the privacy theorem (C59) says and does not say

`Spec/Privacy.lean` has the vocabulary.  The probability space is the finite set of functions `O` that agree with an
arbitrary fixed function except at the first `N` bytes of the outputs for the inputs in `Spec.batchSecrets`, those
containing a seed known only to the Client and to the honest Aggregator; `N` is any number large enough for what is read.
"Same distribution" is stated as equality of the numbers of oracles that give each view.  Assumptions that are not part
of the model: TurboSHAKE128 behaves like such an oracle; the coalition does not itself evaluate it at a secret input (it
would have to guess a seed of 32 random bytes); the coalition follows the protocol; the random bytes of different
reports do not repeat a seed (`Spec.FreshCoins`, a hypothesis).  C65 does away with the assumption that the coalition
follows the protocol, and C70 with the other two as well, at the price of a difference of `(6 n q + 3 n²) / 2^256`.  C72 is the
counterpart of C70 for Poplar1.  C73 and C74 carry both over to the ping-pong topology, where the honest Aggregator runs
the wrapper functions on arbitrary bytes; the honest Aggregator there keeps the rule that a report is verified at most once
per aggregation parameter that `is_valid` allows.  C75 does the same for the robustness games C68 and C69, up to the aggregate
result that the Collector gets.  C76 is about honest reports that are presented for another application context or with another
nonce; it shows a limit of the code: with `Count` and `Sum`, whose circuits use no joint randomness, the report does not depend
on the nonce at all, so verification does not notice that the nonce was changed.  C77 and C78 add dishonest Clients to C73
and C74: the attackers submit reports of their own, which the honest Aggregator verifies and aggregates with the honest ones.

## Trusted base

Lean's kernel; the standard axioms `propext`, `Classical.choice`, `Quot.sound` (no others,
checked with `#print axioms`); Mathlib's definitions used in statements; and the fidelity
of the hand-written model to the Python text.

Not modelled: pycryptodome's TurboSHAKE128 and AES, the `secrets` module,
the reading, writing and printing of test vectors (their generation and checking are, in `Model/TestVectors.lean` and
`Model/GenTestVec.lean`), the list of calls at the end of `gen_test_vec.py`, the drawing of plots and the other tests, Python object identity/aliasing beyond what is noted
in the comments, `isinstance` type checks enforced only by mypy.

## Wrong programs (`seeded/LOG.jsonl`)

Each line is one edit of the model, made in a scratch copy.  `theorems_failed` lists the declarations in which the rebuild
stopped; everything that imports them is not built then, so these often are lemmas.  To see whether the *statement* of a
property theorem became false (and not only its proof), later lines also evaluate instances of the property theorems
on the edited model; `statement_refuted_by` names the theorems of which such an instance became false (or of which the
statement is false by inspection, if no instance can be evaluated).  Edits that leave all the claims true are marked as
equivalent.  A line "missed by the statements at first" led to the theorem in `theorems_tightened`; the same edit
with "(rerun)" is the second attempt.  A line with an empty `theorems_failed` and a non-empty `statement_refuted_by` was only
evaluated: the proofs were not rebuilt for it.  Where the falsity of the statement rests on inspection, `result` says so.
