{"id": "C01", "title": "Field vector encode/decode round trip", "statement": "For each of Field64, Field96, Field128 and Field255, decode_vec(encode_vec(v)) returns exactly v, and encode_vec(v) has exactly ENCODED_SIZE * len(v) bytes and never raises.", "quantifier": "every vector of field elements of every length, for each of the four fields", "why_tests_cant": "vectors are unbounded and elements range over up to 2^255 values; tests sample ten random elements", "anchors": ["poc/vdaf_poc/field.py:Field.encode_vec", "poc/vdaf_poc/field.py:Field.decode_vec", "poc/vdaf_poc/common.py:to_le_bytes", "poc/vdaf_poc/common.py:from_le_bytes"]}
{"id": "C02", "title": "Field vector decoding is strict and canonical", "statement": "decode_vec(b) succeeds iff len(b) is a multiple of ENCODED_SIZE and every ENCODED_SIZE-byte little-endian chunk is < MODULUS; when it succeeds, encode_vec(decode_vec(b)) == b, so no two byte strings decode to the same vector. All failures are ValueError.", "quantifier": "every byte string, for each of the four fields", "why_tests_cant": "the set of byte strings is infinite; a single non-canonical encoding breaks malleability assumptions", "anchors": ["poc/vdaf_poc/field.py:Field.decode_vec", "poc/vdaf_poc/field.py:Field.encode_vec"]}
{"id": "C03", "title": "Field classes implement prime-field arithmetic", "statement": "MODULUS of each of the four field classes is prime; +, -, unary -, *, inv, ** on elements return canonical representatives in [0, MODULUS) and satisfy the field axioms, in particular x * x.inv() == 1 for every x != 0; the constructor accepts exactly integers in (-MODULUS, MODULUS), mapping negatives to additive inverses.", "quantifier": "all elements (and all triples of elements) of each of the four fields; all integers for the constructor", "why_tests_cant": "fields have 2^64 to 2^255 elements; primality of a 255-bit number cannot be tested by enumeration", "anchors": ["poc/vdaf_poc/field.py:Field", "poc/vdaf_poc/field.py:Field64", "poc/vdaf_poc/field.py:Field96", "poc/vdaf_poc/field.py:Field128", "poc/vdaf_poc/field.py:Field255"]}
{"id": "C04", "title": "NTT fields expose primitive roots of unity", "statement": "For each NTT field, gen() has multiplicative order exactly GEN_ORDER, GEN_ORDER is a power of two dividing MODULUS-1, and nth_root(k) has order exactly 2^k for every k with 2^k dividing GEN_ORDER; nth_root_powers(n) is n pairwise distinct elements starting at 1.", "quantifier": "every k with 2^k | GEN_ORDER, each of Field64, Field96, Field128", "why_tests_cant": "orders up to 2^66 cannot be enumerated; tests stop at 2^7", "anchors": ["poc/vdaf_poc/field.py:NttField.nth_root", "poc/vdaf_poc/field.py:NttField.nth_root_powers", "poc/vdaf_poc/field.py:NttField.gen"]}
{"id": "C05", "title": "ntt() evaluates the polynomial at the roots of unity", "statement": "ntt(p, n) returns [P(w^i) for i in range(n)] and ntt(p, n, True) returns [P(s*w^i) for i in range(n)] with w = nth_root(log n), s = nth_root(log n + 1), for P the polynomial with coefficients p.", "quantifier": "every power of two n up to the field's 2-adicity, every coefficient list of length <= n, every NTT field", "why_tests_cant": "sizes are unbounded and inputs range over vectors of field elements; tests stop at n = 128", "anchors": ["poc/vdaf_poc/field.py:NttField.ntt", "poc/vdaf_poc/common.py:bitrev"]}
{"id": "C06", "title": "inv_ntt() and ntt() are mutually inverse", "statement": "inv_ntt(ntt(p, n), n) == p and ntt(inv_ntt(p, n), n) == p for every p of length n.", "quantifier": "every power of two n up to the 2-adicity and every vector of length n", "why_tests_cant": "unbounded sizes and huge fields", "anchors": ["poc/vdaf_poc/field.py:NttField.inv_ntt", "poc/vdaf_poc/field.py:NttField.ntt"]}
{"id": "C07", "title": "Lagrange-basis product and doubling are exact", "statement": "Lagrange.double_evaluations(p) returns the 2n evaluations, at the 2n-th roots of unity, of the polynomial of degree < n that p evaluates; Lagrange.poly_mul(p, q) returns the 2n evaluations of the product polynomial.", "quantifier": "every power of two n and all vectors of length n", "why_tests_cant": "unbounded sizes and huge fields", "anchors": ["poc/vdaf_poc/field.py:Lagrange.double_evaluations", "poc/vdaf_poc/field.py:Lagrange.poly_mul"]}
{"id": "C08", "title": "extend_values_to_power_of_2 extends along the unique low-degree polynomial", "statement": "Given k <= n values, extend_values_to_power_of_2 appends n-k values such that the result is the list of evaluations at the n-th roots of unity of the unique polynomial of degree < k through the given values; the first k entries are unchanged; for k = 0 the result is all zero.", "quantifier": "every power of two n, every k <= n, all value vectors", "why_tests_cant": "unbounded sizes and huge fields; includes division by accumulated products that must never be zero", "anchors": ["poc/vdaf_poc/field.py:Lagrange.extend_values_to_power_of_2"]}
{"id": "C09", "title": "Lagrange-basis evaluation is exact at every point", "statement": "Lagrange.poly_eval_batched(polys, x)[j] equals P_j(x), where P_j is the polynomial of degree < n whose evaluations at the n-th roots of unity are polys[j]; this includes x equal to a root of unity.", "quantifier": "every power of two n, every batch of vectors of length n, every x in the field", "why_tests_cant": "unbounded; barycentric formulas typically break exactly at the nodes", "anchors": ["poc/vdaf_poc/field.py:Lagrange.poly_eval_batched", "poc/vdaf_poc/field.py:Lagrange.poly_eval"]}
{"id": "C10", "title": "Monomial-basis polynomial arithmetic and interpolation are exact", "statement": "poly_mul, poly_add and poly_strip compute product, sum and the trimmed representation; poly_eval(p, x) returns P(x); poly_interp(xs, ys) returns a polynomial of degree < len(xs) through all the points when xs are pairwise distinct.", "quantifier": "all coefficient lists, all evaluation points, all lists of distinct nodes", "why_tests_cant": "unbounded lengths and huge fields", "anchors": ["poc/vdaf_poc/field.py:poly_mul", "poc/vdaf_poc/field.py:poly_add", "poc/vdaf_poc/field.py:poly_eval", "poc/vdaf_poc/field.py:poly_interp", "poc/vdaf_poc/field.py:poly_strip"]}
{"id": "C11", "title": "Integer and bit utilities meet their contracts", "statement": "to_le_bytes/to_be_bytes succeed iff 0 <= val < 2^(8*length), produce exactly length bytes, and from_le_bytes/from_be_bytes are their two-sided inverses; bitrev(k, .) is an involution on [0, 2^k) that maps bit i to bit k-1-i; next_power_of_2(n) is the least power of two >= n.", "quantifier": "all integers, all lengths, all k", "why_tests_cant": "unbounded domains", "anchors": ["poc/vdaf_poc/common.py:to_le_bytes", "poc/vdaf_poc/common.py:from_le_bytes", "poc/vdaf_poc/common.py:to_be_bytes", "poc/vdaf_poc/common.py:from_be_bytes", "poc/vdaf_poc/common.py:bitrev", "poc/vdaf_poc/common.py:next_power_of_2"]}
{"id": "C12", "title": "Range-checked integer encoding represents exactly [0, max]", "statement": "For max_measurement >= 1 with 2^bits < MODULUS, encode_range_checked_int(v) yields max.bit_length() zeros/ones and decodes back to v for every 0 <= v <= max; conversely every 0/1 vector of that length decodes to an integer in [0, max]; and v > max raises.", "quantifier": "every max_measurement, every value, every 0/1 vector", "why_tests_cant": "tests cover max in 14..16 only", "anchors": ["poc/vdaf_poc/flp_bbcggi19.py:encode_range_checked_int", "poc/vdaf_poc/flp_bbcggi19.py:decode_range_checked_int"]}
{"id": "C13", "title": "encode / truncate / decode recover the measurement", "statement": "For Count, Sum, SumVec, Histogram and MultihotCountVec and every valid measurement m: encode(m) has length MEAS_LEN, truncate(encode(m)) has length OUTPUT_LEN, and decode of the field-wise sum of truncated encodings of a batch is the exact integer aggregate of the batch, provided the integer totals are below MODULUS.", "quantifier": "all circuit parameters, all measurements, all batches", "why_tests_cant": "unbounded parameter and batch space", "anchors": ["poc/vdaf_poc/flp_bbcggi19.py:Count", "poc/vdaf_poc/flp_bbcggi19.py:Sum", "poc/vdaf_poc/flp_bbcggi19.py:SumVec", "poc/vdaf_poc/flp_bbcggi19.py:Histogram", "poc/vdaf_poc/flp_bbcggi19.py:MultihotCountVec"]}
{"id": "C14", "title": "Validity circuits accept every honestly encoded measurement", "statement": "For each circuit, eval(encode(m), joint_rand, 1) is the all-zero vector of length EVAL_OUTPUT_LEN for every valid measurement m and every joint randomness.", "quantifier": "all circuit parameters (length, chunk_length, bounds), measurements and joint randomness", "why_tests_cant": "unbounded parameters; off-by-one errors in the last chunk only show for particular (length, chunk_length) pairs", "anchors": ["poc/vdaf_poc/flp_bbcggi19.py:Count.eval", "poc/vdaf_poc/flp_bbcggi19.py:Sum.eval", "poc/vdaf_poc/flp_bbcggi19.py:SumVec.eval", "poc/vdaf_poc/flp_bbcggi19.py:Histogram.eval", "poc/vdaf_poc/flp_bbcggi19.py:MultihotCountVec.eval"]}
{"id": "C15", "title": "Validity circuits reject every invalid encoding", "statement": "Count and Sum: eval is all zero only if the vector is a 0/1 vector (so it truncates to a value in range). SumVec, Histogram, MultihotCountVec: if the encoded vector is not valid (some entry not 0/1, buckets not summing to one, weight above max_weight or misreported) then the number of joint randomness vectors for which eval is all zero is at most chunk_length * |F|^(JOINT_RAND_LEN-1).", "quantifier": "all circuit parameters, every vector of MEAS_LEN field elements, counting over all joint randomness", "why_tests_cant": "soundness is a for-all statement over a space of size |F|^MEAS_LEN, and a probability bound over |F|^JOINT_RAND_LEN", "anchors": ["poc/vdaf_poc/flp_bbcggi19.py:Count.eval", "poc/vdaf_poc/flp_bbcggi19.py:Sum.eval", "poc/vdaf_poc/flp_bbcggi19.py:SumVec.eval", "poc/vdaf_poc/flp_bbcggi19.py:Histogram.eval", "poc/vdaf_poc/flp_bbcggi19.py:MultihotCountVec.eval"]}
{"id": "C16", "title": "Gadget polynomial evaluation agrees with gadget evaluation", "statement": "For Mul, PolyEval and ParallelSum: the polynomial returned by eval_poly on wire polynomials (Lagrange basis), evaluated at any x, equals eval on the wire polynomials evaluated at x; its degree is at most DEGREE*(p-1), so its first DEGREE*(p-1)+1 values determine it.", "quantifier": "all wire polynomials, all power-of-two wire lengths, every x, every gadget parameter", "why_tests_cant": "polynomial identity over an unbounded family of degrees", "anchors": ["poc/vdaf_poc/flp_bbcggi19.py:Mul", "poc/vdaf_poc/flp_bbcggi19.py:PolyEval", "poc/vdaf_poc/flp_bbcggi19.py:ParallelSum"]}
{"id": "C17", "title": "FLP completeness on secret shares", "statement": "For every circuit of the library, every vector meas on which the circuit evaluates to zero with the given joint randomness, every prove_rand and every additive sharing of meas and of prove(meas) into N >= 1 shares, adding up the query() outputs of the shares and calling decide() returns True, unless query() aborts because a test point is a root of unity.", "quantifier": "all measurements, randomness, share counts 1 <= N < MODULUS, sharings", "why_tests_cant": "field sizes and lengths unbounded; interaction between sharing, circuits with constants, and Lagrange arithmetic", "anchors": ["poc/vdaf_poc/flp_bbcggi19.py:FlpBBCGGI19.prove", "poc/vdaf_poc/flp_bbcggi19.py:FlpBBCGGI19.query", "poc/vdaf_poc/flp_bbcggi19.py:FlpBBCGGI19.decide", "poc/vdaf_poc/flp.py:run_flp"]}
{"id": "C18", "title": "FLP queries are fully linear", "statement": "The sum over N shares of query(meas_share, proof_share, query_rand, joint_rand, N) equals query(meas, proof, query_rand, joint_rand, 1) on the summed measurement and proof; one aborts iff all abort.", "quantifier": "all measurement and proof vectors (honest or not), all N, all sharings, all randomness", "why_tests_cant": "for-all over adversarially chosen vectors", "anchors": ["poc/vdaf_poc/flp_bbcggi19.py:FlpBBCGGI19.query", "poc/vdaf_poc/flp_bbcggi19.py:QueryGadget"]}
{"id": "C19", "title": "FLP soundness", "statement": "For every measurement on which the circuit output is not all zero (for the given joint randomness) and every proof string whatsoever, the number of query randomness vectors for which query() succeeds and decide() returns True is at most max(1, max_i DEGREE_i*(p_i-1)) * |F|^(QUERY_RAND_LEN-1).", "quantifier": "all invalid measurements, all proof strings, counting over all query randomness", "why_tests_cant": "a universally quantified probability bound; testing can only sample attackers", "anchors": ["poc/vdaf_poc/flp_bbcggi19.py:FlpBBCGGI19.query", "poc/vdaf_poc/flp_bbcggi19.py:FlpBBCGGI19.decide", "poc/vdaf_poc/flp_bbcggi19.py:QueryGadget"]}
{"id": "C20", "title": "FLP honest-verifier zero knowledge", "statement": "For a valid measurement and query randomness that does not abort, the verifier message as a function of prove_rand is distributed independently of the measurement: the map from prove_rand to the wire checks is a bijection, the reduced output is 0 and every gadget check is the gadget evaluated on its wire checks.", "quantifier": "all valid measurements, all joint and query randomness, over all prove_rand", "why_tests_cant": "distributional statement over |F|^PROVE_RAND_LEN", "anchors": ["poc/vdaf_poc/flp_bbcggi19.py:FlpBBCGGI19.prove", "poc/vdaf_poc/flp_bbcggi19.py:FlpBBCGGI19.query"]}
{"id": "C21", "title": "FLP outputs have the advertised lengths", "statement": "On inputs of the documented lengths prove() returns exactly PROOF_LEN elements, query() returns exactly VERIFIER_LEN elements or aborts, decide() never fails on VERIFIER_LEN elements, and prove() never fails, for every circuit of the library.", "quantifier": "all circuit parameters and all inputs of the documented lengths", "why_tests_cant": "length formulas must hold for every parameter combination", "anchors": ["poc/vdaf_poc/flp_bbcggi19.py:Valid.proof_len", "poc/vdaf_poc/flp_bbcggi19.py:Valid.verifier_len", "poc/vdaf_poc/flp_bbcggi19.py:Valid.prove_rand_len", "poc/vdaf_poc/flp_bbcggi19.py:Valid.query_rand_len"]}
{"id": "C22", "title": "query() aborts exactly at root-of-unity test points", "statement": "query() on inputs of documented lengths raises iff one of the gadget test points t satisfies t^p == 1, so a verifier message never contains a wire or gadget polynomial evaluated at an interpolation node.", "quantifier": "all inputs, all query randomness", "why_tests_cant": "for-all over field-sized randomness", "anchors": ["poc/vdaf_poc/flp_bbcggi19.py:FlpBBCGGI19.query"]}
{"id": "C23", "title": "Prio3 end-to-end correctness", "statement": "run_vdaf on Prio3Count, Prio3Sum, Prio3SumVec, Prio3Histogram, Prio3MultihotCountVec and Prio3SumVecWithMultiproof with valid measurements either returns exactly the aggregate of the measurements (count, sum, vector sum, histogram, as integers reduced mod MODULUS) or fails because some query test point was a root of unity (or the XOF rejection sampler did not terminate); no other failure and no wrong answer is possible.", "quantifier": "any XOF behaviour, any number of shares 2..255, any batch of valid measurements, any nonces, randomness, keys, contexts", "why_tests_cant": "unbounded batches and parameters, arbitrary randomness", "anchors": ["poc/vdaf_poc/vdaf_prio3.py:Prio3", "poc/vdaf_poc/vdaf.py:run_vdaf", "poc/vdaf_poc/flp_bbcggi19.py"]}
{"id": "C24", "title": "Prio3 joint randomness is bound to the actual shares", "statement": "If every aggregator's verify_next accepts the verifier message computed from all the verifier shares, then every aggregator derived its joint randomness from the same seed, namely the one computed from the joint randomness parts of the input shares they actually hold, whatever public share the client sent; in particular any verifier message different from the aggregator's own corrected seed is rejected.", "quantifier": "all input shares and public shares (malicious clients), all aggregator counts, all verifier messages", "why_tests_cant": "adversarial inputs are unbounded", "anchors": ["poc/vdaf_poc/vdaf_prio3.py:Prio3.verify_init", "poc/vdaf_poc/vdaf_prio3.py:Prio3.verifier_shares_to_message", "poc/vdaf_poc/vdaf_prio3.py:Prio3.verify_next"]}
{"id": "C25", "title": "Prio3 robustness", "statement": "For arbitrary (maliciously generated) input shares, if the sharded measurement is invalid for the joint randomness in use, then verification can only succeed if the query randomness derived from the verify key falls in a set that depends only on the report and the joint randomness and has at most (max(1, max_i DEGREE_i*(p_i-1)))^PROOFS * |F|^((QUERY_RAND_LEN-1)*PROOFS) elements.", "quantifier": "all reports, aggregator counts, number of proofs, keys, nonces", "why_tests_cant": "adversarial inputs and a probability bound", "anchors": ["poc/vdaf_poc/vdaf_prio3.py:Prio3.verify_init", "poc/vdaf_poc/vdaf_prio3.py:Prio3.verifier_shares_to_message"]}
{"id": "C26", "title": "Prio3 message encodings round trip", "statement": "For every public share, input share, verifier share, verifier message, output share and aggregate share that Prio3 can produce, decoding its encoding returns it unchanged.", "quantifier": "all Prio3 instances, all messages of the right shape", "why_tests_cant": "unbounded message space", "anchors": ["poc/vdaf_poc/vdaf_prio3.py:Prio3.encode_input_share", "poc/vdaf_poc/vdaf_prio3.py:Prio3.decode_input_share", "poc/vdaf_poc/vdaf_prio3.py:Prio3.encode_public_share", "poc/vdaf_poc/vdaf_prio3.py:Prio3.decode_public_share", "poc/vdaf_poc/vdaf_prio3.py:Prio3.encode_verifier_share", "poc/vdaf_poc/vdaf_prio3.py:Prio3.decode_verifier_share", "poc/vdaf_poc/vdaf_prio3.py:Prio3.encode_verifier_message", "poc/vdaf_poc/vdaf_prio3.py:Prio3.decode_verifier_message"]}
{"id": "C27", "title": "Prio3 message decoding is strict", "statement": "A byte string decodes as a Prio3 input share / public share / verifier share / aggregation parameter only if it is the encoding of the decoded value (no trailing bytes, no alternative encodings).", "quantifier": "all byte strings, all Prio3 instances", "why_tests_cant": "infinite input space", "anchors": ["poc/vdaf_poc/vdaf_prio3.py:Prio3.decode_input_share", "poc/vdaf_poc/vdaf_prio3.py:Prio3.decode_public_share", "poc/vdaf_poc/vdaf_prio3.py:Prio3.decode_verifier_share", "poc/vdaf_poc/vdaf_prio3.py:Prio3.decode_agg_param"]}
{"id": "C28", "title": "Aggregation is order-independent and mergeable", "statement": "For Prio3 and Poplar1, accumulating output shares with agg_update gives the same aggregate share for every order, splitting a batch into sub-batches and merging their aggregate shares (in any order) gives the aggregate share of the whole batch, and agg_init is neutral.", "quantifier": "all multisets of output shares, all partitions and orders", "why_tests_cant": "factorially many orders and partitions of unbounded batches", "anchors": ["poc/vdaf_poc/vdaf_prio3.py:Prio3.agg_update", "poc/vdaf_poc/vdaf_prio3.py:Prio3.merge", "poc/vdaf_poc/vdaf_poplar1.py:Poplar1.agg_update", "poc/vdaf_poc/vdaf_poplar1.py:Poplar1.merge", "poc/vdaf_poc/common.py:vec_add"]}
{"id": "C29", "title": "Prio3 reports can be aggregated at most once", "statement": "In every history in which each use of a report is guarded by is_valid with all the previous aggregation parameters, a Prio3 report is used at most once (and its first use is allowed).", "quantifier": "all histories of guarded uses", "why_tests_cant": "histories are unbounded", "anchors": ["poc/vdaf_poc/vdaf_prio3.py:Prio3.is_valid"]}
{"id": "C30", "title": "Prio3 sharding splits the measurement additively and helper shares are measurement-independent", "statement": "shard() returns exactly SHARES input shares; the expanded measurement shares sum to encode(measurement) and the expanded proof shares sum to the concatenated proofs; every helper's input share is the same for all measurements (with the same ctx, nonce, rand); wrong nonce or rand sizes raise ValueError.", "quantifier": "all measurements, contexts, nonces, randomness, XOF behaviours, share counts", "why_tests_cant": "unbounded", "anchors": ["poc/vdaf_poc/vdaf_prio3.py:Prio3.shard", "poc/vdaf_poc/vdaf_prio3.py:Prio3.shard_with_joint_rand", "poc/vdaf_poc/vdaf_prio3.py:Prio3.shard_without_joint_rand", "poc/vdaf_poc/vdaf_prio3.py:Prio3.expand_input_share"]}
{"id": "C31", "title": "IDPF correctness", "statement": "For every index alpha, programmed values beta, level and list of distinct prefixes of that level, the two aggregators' eval() outputs sum to beta at the prefix of alpha and to the zero vector at every other prefix.", "quantifier": "all BITS >= 1, all alpha, beta, ctx, nonce, rand, all levels and prefix lists, any XOF behaviour", "why_tests_cant": "2^BITS prefixes with unbounded BITS; tests are exhaustive only for BITS = 8", "anchors": ["poc/vdaf_poc/idpf_bbcggi21.py:IdpfBBCGGI21.gen", "poc/vdaf_poc/idpf_bbcggi21.py:IdpfBBCGGI21.eval", "poc/vdaf_poc/idpf_bbcggi21.py:IdpfBBCGGI21.eval_next"]}
{"id": "C32", "title": "IDPF evaluation validates its inputs and treats prefixes independently", "statement": "eval() raises if the aggregator id, level or a prefix length is out of range or prefixes repeat; otherwise its i-th output depends only on the i-th prefix (evaluating a batch equals evaluating each prefix alone), so reordering candidates reorders outputs.", "quantifier": "all inputs", "why_tests_cant": "unbounded prefix lists", "anchors": ["poc/vdaf_poc/idpf_bbcggi21.py:IdpfBBCGGI21.eval"]}
{"id": "C33", "title": "Poplar1 end-to-end correctness", "statement": "run_vdaf on Poplar1 with any valid level and list of distinct prefixes of that level returns, for each prefix, the number of measurements starting with it (mod the field modulus); honest reports always pass both sketch rounds. The only other outcome is a non-terminating XOF sampler.", "quantifier": "all BITS, all batches of measurements, all levels, prefix lists, contexts, keys, randomness, any XOF behaviour", "why_tests_cant": "unbounded", "anchors": ["poc/vdaf_poc/vdaf_poplar1.py:Poplar1.shard", "poc/vdaf_poc/vdaf_poplar1.py:Poplar1.verify_init", "poc/vdaf_poc/vdaf_poplar1.py:Poplar1.verify_next", "poc/vdaf_poc/vdaf_poplar1.py:Poplar1.verifier_shares_to_message", "poc/vdaf_poc/vdaf_poplar1.py:Poplar1.unshard", "poc/vdaf_poc/vdaf.py:run_vdaf"]}
{"id": "C34", "title": "Poplar1 sketch soundness", "statement": "For arbitrary (malicious) public share, keys and correlated randomness: if the combined output vector is neither zero nor a unit vector with entry one, then at most 2 * |F|^(n-1) of the |F|^n verification randomness vectors make both rounds of verification succeed.", "quantifier": "all malicious reports, all levels, n = number of prefixes, counting over verification randomness", "why_tests_cant": "adversarial inputs and a probability bound over |F|^n", "anchors": ["poc/vdaf_poc/vdaf_poplar1.py:Poplar1.verify_init", "poc/vdaf_poc/vdaf_poplar1.py:Poplar1.verify_next", "poc/vdaf_poc/vdaf_poplar1.py:Poplar1.verifier_shares_to_message"]}
{"id": "C35", "title": "Poplar1 aggregation parameter validity", "statement": "is_valid accepts iff prefixes are strictly increasing lexicographically and, if there is a previous parameter, the level is greater than the last level and each prefix extends one of the last prefixes. In every history guarded by is_valid, levels are strictly increasing (no level is evaluated twice) and every candidate prefix extends a candidate at each earlier step.", "quantifier": "all aggregation parameters, all histories", "why_tests_cant": "unbounded histories and prefix sets", "anchors": ["poc/vdaf_poc/vdaf_poplar1.py:Poplar1.is_valid", "poc/vdaf_poc/vdaf_poplar1.py:get_ancestor"]}
{"id": "C36", "title": "Poplar1 aggregation parameter encoding is a canonical round trip", "statement": "decode_agg_param(encode_agg_param(a)) == a for every level < 2^16 and fewer than 2^32 prefixes of length level+1; decode_agg_param(b) succeeds only if b is the encoding of its result (trailing bytes and trailing bits are rejected).", "quantifier": "all aggregation parameters, all byte strings", "why_tests_cant": "unbounded; bit-packing boundary at every multiple of 8", "anchors": ["poc/vdaf_poc/vdaf_poplar1.py:Poplar1.encode_agg_param", "poc/vdaf_poc/vdaf_poplar1.py:Poplar1.decode_agg_param"]}
{"id": "C37", "title": "Poplar1 message encodings round trip and are strict", "statement": "Public share, input share, verifier share, verifier message, output and aggregate share encodings of Poplar1 decode to the original; public-share and input-share decoding accepts only canonical encodings.", "quantifier": "all BITS, all messages, all byte strings", "why_tests_cant": "unbounded", "anchors": ["poc/vdaf_poc/vdaf_poplar1.py:Poplar1.encode_input_share", "poc/vdaf_poc/vdaf_poplar1.py:Poplar1.decode_input_share", "poc/vdaf_poc/idpf_bbcggi21.py:IdpfBBCGGI21.encode_public_share", "poc/vdaf_poc/idpf_bbcggi21.py:IdpfBBCGGI21.decode_public_share"]}
{"id": "C38", "title": "Control-bit packing is a canonical round trip", "statement": "unpack_bits(pack_bits(bits), len(bits)) == bits for every non-empty bit list, and unpack_bits(b, n) succeeds only for b = pack_bits of its result.", "quantifier": "all bit lists and byte strings", "why_tests_cant": "unbounded lengths; boundary at multiples of 8", "anchors": ["poc/vdaf_poc/idpf_bbcggi21.py:pack_bits", "poc/vdaf_poc/idpf_bbcggi21.py:unpack_bits"]}
{"id": "C39", "title": "Ping-pong honest execution computes the same output shares as the broadcast execution", "statement": "For any 2-party VDAF whose verifier shares and messages survive encoding, if the broadcast execution (as in run_vdaf) succeeds, then the ping-pong exchange with both parties honest ends with both parties finished with the same output shares, after exactly ROUNDS+1 messages, the last speaker being the helper iff ROUNDS is odd; if the broadcast execution fails in some round, the ping-pong exchange ends in Rejected.", "quantifier": "all VDAFs, all ROUNDS >= 1, all reports", "why_tests_cant": "unbounded number of rounds, arbitrary VDAF", "anchors": ["poc/vdaf_poc/vdaf_ping_pong.py:PingPong", "poc/vdaf_poc/vdaf.py:run_vdaf"]}
{"id": "C40", "title": "Ping-pong safety against arbitrary peer messages", "statement": "Whatever bytes the peer sends, in whatever order, a ping-pong party never raises; it only outputs an out share when it is at round ROUNDS-1 of verification, having completed exactly ROUNDS successful verification steps on its own state; initialize messages after the start, finish messages before the last round, continue messages in the last round, unknown types and malformed framing all lead to Rejected.", "quantifier": "all sequences of inbound byte strings, all VDAFs, all ROUNDS", "why_tests_cant": "adversarial message histories are unbounded", "anchors": ["poc/vdaf_poc/vdaf_ping_pong.py:PingPong.ping_pong_continued", "poc/vdaf_poc/vdaf_ping_pong.py:PingPong.ping_pong_helper_init", "poc/vdaf_poc/vdaf_ping_pong.py:PingPong.ping_pong_transition"]}
{"id": "C41", "title": "Ping-pong framing is a canonical round trip", "statement": "decode(encode(t, items)) == (t, items) for the three message types with items shorter than 2^32 bytes; decode(b) succeeds only if b is the encoding of its result.", "quantifier": "all messages, all byte strings", "why_tests_cant": "infinite input space", "anchors": ["poc/vdaf_poc/vdaf_ping_pong.py:encode", "poc/vdaf_poc/vdaf_ping_pong.py:decode"]}
{"id": "C42", "title": "XOF output is a stream independent of read chunking", "statement": "For both XOFs, reading a bytes and then b bytes returns the same bytes as reading a+b at once; consecutive next() calls walk one fixed stream determined by (seed, dst, binder).", "quantifier": "all seeds, tags, binders and all sequences of read lengths", "why_tests_cant": "all ways to chop an unbounded stream; block boundary handling at every offset mod 16", "anchors": ["poc/vdaf_poc/xof.py:XofFixedKeyAes128.next", "poc/vdaf_poc/xof.py:XofTurboShake128.next"]}
{"id": "C43", "title": "next_vec is rejection sampling of the stream", "statement": "next_vec(field, n) returns exactly n elements, each in [0, MODULUS), equal to the first n masked chunks of the stream below MODULUS in order; next_vec(a) followed by next_vec(b) equals next_vec(a+b); expand_into_vec is the same from a fresh XOF.", "quantifier": "all streams, fields, lengths", "why_tests_cant": "unbounded streams", "anchors": ["poc/vdaf_poc/xof.py:Xof.next_vec", "poc/vdaf_poc/xof.py:Xof.expand_into_vec"]}
{"id": "C44", "title": "next_vec sampling is unbiased", "statement": "Among all ENCODED_SIZE-byte chunks, every field element is produced by exactly the same number of chunks, so uniformly random stream bytes give uniformly random field elements.", "quantifier": "all four fields, all field elements", "why_tests_cant": "counting over 2^64..2^256 chunks", "anchors": ["poc/vdaf_poc/xof.py:Xof.next_vec"]}
{"id": "C45", "title": "Domain separation: distinct XOF contexts give distinct hash inputs", "statement": "Whenever construction succeeds, the byte string absorbed by the XOF determines (seed, dst, binder); format_dst(class, algo, usage) + ctx determines (class, algo, usage, ctx); hence two XOF uses in Prio3 or Poplar1 with different usage, algorithm, context, seed or binder never hash the same input; tags of 2^16 bytes or more are rejected.", "quantifier": "all seeds, tags, contexts, binders, usages, algorithm ids", "why_tests_cant": "collision-freeness is a for-all over pairs of unbounded inputs", "anchors": ["poc/vdaf_poc/xof.py:XofTurboShake128.__init__", "poc/vdaf_poc/xof.py:XofFixedKeyAes128.__init__", "poc/vdaf_poc/common.py:format_dst", "poc/vdaf_poc/vdaf.py:Vdaf.domain_separation_tag"]}
{"id": "C46", "title": "Additive secret sharing reconstructs and hides", "statement": "additive_secret_share returns num_shares vectors that sum to the input, and for any set of all but one of the shares the joint distribution over the randomness is the same for every input vector.", "quantifier": "all vectors, share counts, and all choices of the left-out share", "why_tests_cant": "distributional statement", "anchors": ["poc/vdaf_poc/flp.py:additive_secret_share"]}
{"id": "C47", "title": "Out-of-range measurements are rejected by the client encoder", "statement": "Count, Sum, SumVec, Histogram and MultihotCountVec encode() raise on every measurement outside the documented domain.", "quantifier": "all integers / vectors of integers", "why_tests_cant": "infinite domain, including negative integers", "anchors": ["poc/vdaf_poc/flp_bbcggi19.py:Count.encode", "poc/vdaf_poc/flp_bbcggi19.py:Sum.encode", "poc/vdaf_poc/flp_bbcggi19.py:SumVec.encode", "poc/vdaf_poc/flp_bbcggi19.py:Histogram.encode", "poc/vdaf_poc/flp_bbcggi19.py:MultihotCountVec.encode"]}
{"id": "C48", "title": "Shamir composition example reconstructs", "statement": "For shares produced by shamir_shard with threshold t, shamir_unshard on any t (or more) distinct share indices returns the original vector, and it commutes with share-wise addition.", "quantifier": "all vectors, thresholds, numbers of shares below MODULUS, subsets", "why_tests_cant": "exponentially many subsets; huge fields", "anchors": ["poc/example_flp_shamir.py:shamir_shard", "poc/example_flp_shamir.py:shamir_unshard", "poc/vdaf_poc/field.py:poly_interp"]}
{"id": "C49", "title": "Generic DAF/VDAF drivers run each aggregator independently of the others' state", "statement": "run_daf / run_vdaf with no measurements return unshard of SHARES empty aggregate shares; processing measurements one after the other equals processing each report separately and accumulating its out shares per aggregator in order.", "quantifier": "all DAFs/VDAFs, all batches", "why_tests_cant": "unbounded batches, arbitrary algorithms", "anchors": ["poc/vdaf_poc/daf.py:run_daf", "poc/vdaf_poc/vdaf.py:run_vdaf"]}
{"id": "C50", "title": "Prio3 derives every pseudorandom value from its own, fully bound XOF input", "statement": "Each of the seven derivations of Prio3 (helper measurement shares, helper proof shares, joint randomness, prover randomness, query randomness, joint randomness seed, joint randomness part) is the XOF output for exactly the documented seed, domain separation tag and binder. The tag determines the algorithm identifier, the usage and the application context; the binder of a joint randomness part determines the aggregator, the nonce and the measurement share; the binder of the joint randomness seed determines every part.", "quantifier": "all instances, contexts, seeds, nonces, shares", "why_tests_cant": "a test vector pins one input; separation is a statement about all pairs of inputs", "anchors": ["poc/vdaf_poc/vdaf_prio3.py:Prio3.helper_meas_share", "poc/vdaf_poc/vdaf_prio3.py:Prio3.joint_rand_part", "poc/vdaf_poc/vdaf_prio3.py:Prio3.joint_rand_seed", "poc/vdaf_poc/vdaf_prio3.py:Prio3.query_rands", "poc/vdaf_poc/vdaf.py:Vdaf.domain_separation_tag", "poc/vdaf_poc/common.py:format_dst"]}
{"id": "C51", "title": "Shamir shares below the threshold reveal nothing", "statement": "For any vector and any t-1 distinct share indices, every possible list of t-1 share vectors results from exactly one choice of the randomness of shamir_shard with threshold t; so the distribution of t-1 shares does not depend on the vector.", "quantifier": "all fields, vectors, thresholds, numbers of shares below MODULUS, all sets of t-1 indices, all targets", "why_tests_cant": "a statement about distributions over huge fields", "anchors": ["poc/example_flp_shamir.py:shamir_shard"]}
{"id": "C52", "title": "The FLP and aggregation compose with Shamir sharing", "statement": "If measurement and proof are shared with shamir_shard and at least t parties call query on their shares with num_shares=1, shamir_unshard of the results is the query on the whole measurement and proof (so an honest report is accepted); truncating and adding up shares, unsharding and decoding gives the aggregate of the batch. The only exceptions are the test-point abort and the IndexError of shamir_unshard on an all-zero coordinate.", "quantifier": "all circuits of the library, measurements, proofs (honest or not), randomness, thresholds, subsets of at least t shares, batches", "why_tests_cant": "exponentially many subsets and huge fields; the tests use random coins and 2 of 3 shares only", "anchors": ["poc/example_flp_shamir.py:TestShamir", "poc/vdaf_poc/flp_bbcggi19.py:FlpBBCGGI19.query"]}
{"id": "C53", "title": "Constructors accept exactly the documented parameters", "statement": "Prio3Count, Prio3Sum, Prio3SumVec, Prio3Histogram, Prio3MultihotCountVec and Prio3SumVecWithMultiproof raise ValueError unless the number of shares is in 2..255 and the circuit parameters are in range (positive length and chunk length, 0 < max_weight <= length < MODULUS, 0 < max_measurement with its power of two below the modulus), and otherwise return an object with the registered algorithm identifier, the documented sizes of key, nonce and randomness, and the documented measurement length. IdpfBBCGGI21 and Poplar1 fail an assertion unless their parameters are positive.", "quantifier": "all integers as parameters (natural numbers for max_measurement of Sum and the number of proofs), all NTT-friendly fields", "why_tests_cant": "the parameters range over all integers; tests try a few", "anchors": ["poc/vdaf_poc/vdaf_prio3.py:Prio3.__init__", "poc/vdaf_poc/flp_bbcggi19.py:Histogram.__init__", "poc/vdaf_poc/flp_bbcggi19.py:SumVec.__init__", "poc/vdaf_poc/flp_bbcggi19.py:MultihotCountVec.__init__", "poc/vdaf_poc/flp_bbcggi19.py:Sum.__init__", "poc/vdaf_poc/idpf_bbcggi21.py:IdpfBBCGGI21.__init__", "poc/vdaf_poc/vdaf_poplar1.py:Poplar1.__init__"]}
{"id": "C54", "title": "Every operation terminates", "statement": "Provided that rejection sampling from XofTurboShake128 ends (no infinite run of rejected chunks), every method of every Prio3 instance and of Poplar1, gen and eval of the IDPF, run_vdaf, and every step of the ping-pong topology returns or raises, whatever the arguments and the messages received. XofFixedKeyAes128.next_vec always terminates, and XofTurboShake128.next_vec terminates for all states exactly if sampling ends. For honest executions the outcome of run_vdaf is the aggregate of C23 and C33; for Prio3 the only other outcome is the test-point abort.", "quantifier": "all arguments of all methods, including malformed ones, all primitives, circuits, batches; no bound on the number of iterations", "why_tests_cant": "termination for every input and every received message cannot be observed by running finitely many of them", "anchors": ["poc/vdaf_poc/xof.py:Xof.next_vec", "poc/vdaf_poc/vdaf.py:run_vdaf", "poc/vdaf_poc/vdaf_prio3.py:Prio3", "poc/vdaf_poc/vdaf_poplar1.py:Poplar1", "poc/vdaf_poc/vdaf_ping_pong.py:PingPong"]}
{"id": "C55", "title": "The guarantees hold for user-supplied validity circuits", "statement": "Whoever implements their own Valid circuit with their own gadgets gets completeness, linearity of query, soundness, zero knowledge, totality and, inside Prio3, exact aggregation and robustness, provided the circuit (1) calls gadget i exactly GADGET_CALLS[i] times with ARITY inputs, never raises and returns EVAL_OUTPUT_LEN elements, (2) evaluates on additive shares consistently (affine in measurement and gadget outputs, constants divided by num_shares), (3) uses gadgets that are polynomials of total degree DEGREE with eval_poly agreeing with eval, and (4) encodes, truncates linearly and decodes sums. The library circuits and the circuits of the tests (degree-3 gadget, several gadgets, decode depending on the number of measurements) meet these requirements; requirement (2) cannot be dropped.", "quantifier": "all circuits over all NTT-friendly fields meeting the stated requirements, with any number of gadgets, arities, degrees and calls; all measurements, proofs, shares, randomness and batches", "why_tests_cant": "the tests exercise three ad-hoc circuits; the guarantee is about every circuit a user may write", "anchors": ["poc/vdaf_poc/flp_bbcggi19.py:Valid", "poc/vdaf_poc/flp_bbcggi19.py:Gadget", "poc/vdaf_poc/flp_bbcggi19.py:FlpBBCGGI19", "poc/vdaf_poc/vdaf_prio3.py:Prio3", "poc/tests/test_flp_bbcggi19.py:MultiGadget", "poc/tests/test_flp_bbcggi19.py:HigherDegree", "poc/tests/test_flp_bbcggi19.py:TestAverage", "poc/tests/test_vdaf_prio3.py"]}
{"id": "C56", "title": "The IDPF tree and Poplar1's randomness are derived from the seeds exactly as specified, with domain separation", "statement": "Every pseudorandom value is read at a fixed position of a XOF stream determined by a seed, the usage, the context and a binder: the two children of an IDPF node from the first 32 bytes of the node's stream (usage 0), the child's next seed and its value from another stream (usage 1), with fixed-key AES at inner levels and TurboSHAKE at the last level; the correction words are computed from the two nodes on the path; eval returns the value at the node of the Aggregator's tree. In Poplar1 the 128 bytes of rand split into two IDPF keys, two correlation seeds and the Client's seed; authenticators and the second Aggregator's correlated randomness are sampled from the Client's stream in a fixed order; at each level A = -2a + k and B = a^2 + b - ak + c; the first-round verifier share is the expanded triple plus the sketch under the randomness expanded from the verify key, nonce and level. The inputs to the XOF for different purposes, Aggregators, levels, seeds, contexts or nonces never coincide.", "quantifier": "all primitives, seeds, contexts, nonces, numbers of bits, levels, prefixes, public shares and keys, measurements and randomness", "why_tests_cant": "test vectors fix a handful of seeds, contexts and levels; the derivation and the separation must hold for every one", "anchors": ["poc/vdaf_poc/idpf_bbcggi21.py:extend", "poc/vdaf_poc/idpf_bbcggi21.py:convert", "poc/vdaf_poc/idpf_bbcggi21.py:gen", "poc/vdaf_poc/idpf_bbcggi21.py:eval", "poc/vdaf_poc/vdaf_poplar1.py:shard", "poc/vdaf_poc/vdaf_poplar1.py:verify_init", "poc/vdaf_poc/xof.py:XofTurboShake128", "poc/vdaf_poc/xof.py:XofFixedKeyAes128"]}
{"id": "C57", "title": "Poplar1 verification messages reveal nothing beyond the correlated mask", "statement": "The first-round verifier share of an Aggregator is a vector that does not depend on the correlated randomness, masked by the triple (a, b, c) expanded from the correlation seed, so if the triple is uniform so is the share; in the second round of every accepted report each Aggregator's share is the negation of the other's, so it carries no information that the other Aggregator could not compute.", "quantifier": "all verify keys, contexts, nonces, aggregation parameters, public shares, keys and correlation seeds", "why_tests_cant": "a privacy statement about all possible seeds; a test sees single transcripts", "anchors": ["poc/vdaf_poc/vdaf_poplar1.py:verify_init", "poc/vdaf_poc/vdaf_poplar1.py:verify_next", "poc/vdaf_poc/vdaf_poplar1.py:verifier_shares_to_message"]}
{"id": "C58", "title": "The test vector generator and checker agree with run_vdaf and with each other", "statement": "The checker accepts every vector the generator produces; it accepts a complete vector exactly if regenerating the vector from the inputs it lists gives the same messages, aggregate shares and result (up to entries that are listed in excess); the result in such a vector is that of run_vdaf on the same inputs, and for Prio3 and Poplar1 it is the true aggregate; the generator succeeds whenever run_vdaf does; an arbitrary vector, complete or not, positive or negative, is accepted exactly if its operations are in an executable order and each of them, on the data the vector lists, returns what is listed or, if marked as a failure, raises an exception.", "quantifier": "all VDAFs whose messages survive encoding and decoding (all Prio3 and Poplar1 instances are shown to be such), all keys, contexts, aggregation parameters, lists of reports and test vectors", "why_tests_cant": "the checker is itself the test: only a proof about all vectors shows that passing it means conforming", "anchors": ["poc/vdaf_poc/test_utils.py:gen_test_vec_for_vdaf", "poc/tests/test_test_vectors.py:check_test_vector"]}
{"id": "C59", "title": "Prio3 reveals nothing but the aggregate", "statement": "If at least one Aggregator is honest, the others together learn nothing about the measurements of honest Clients but the aggregate result: what they see while a batch is verified and aggregated (the public shares, their own input shares and states, the verifier shares of all the Aggregators, the verifier messages, and the honest Aggregator's aggregate share) is distributed identically for any two batches of valid measurements with the same aggregate; without the aggregate share it is distributed identically for any two batches of valid measurements. The random choices are the outputs of the XOF on seeds that only the Client and the honest Aggregator know.", "quantifier": "all circuits of the library (and all user-supplied circuits that meet the requirements of C55), all numbers of Aggregators and proofs, every honest Aggregator, all batch sizes, keys, contexts, nonces and random bytes without repeated seeds, all functions in the role of the XOF outside the secret inputs, and every possible view", "why_tests_cant": "a statement about distributions over all XOF outputs", "anchors": ["poc/vdaf_poc/vdaf_prio3.py:Prio3", "poc/vdaf_poc/flp_bbcggi19.py:FlpBBCGGI19", "poc/vdaf_poc/xof.py:XofTurboShake128"]}
{"id": "C60", "title": "IDPF key generation accepts exactly the documented arguments", "statement": "gen returns only if the measurement has the number of bits of the IDPF, there is one value for each inner level, every value has the length given to the constructor, the nonce has 16 bytes and the random bytes are 32; wrong sizes raise ValueError at once, a value of the wrong length raises ValueError (unless sampling an earlier value does not end).", "quantifier": "all IDPFs, measurements, lists of values, contexts shorter than 2^16-8 bytes, nonces and random bytes of any length", "why_tests_cant": "all combinations of sizes; tests try a few", "anchors": ["poc/vdaf_poc/idpf_bbcggi21.py:IdpfBBCGGI21.gen"]}
{"id": "C61", "title": "Poplar1 accepts a report exactly if the sketch equation holds", "statement": "Whoever made the report, once both Aggregators have completed verify_init the report is accepted if and only if (a+z)^2 - (b+z2) - (c+z3) + A(a+z) + B = 0 for the sums of the Aggregators' correlated randomness, of the shares sent by the Client and of the sketches of the IDPF values; the output shares are then the IDPF data values, and otherwise both Aggregators get a ValueError. Changing the shares (A, B) of an accepted report by (dA, dB) makes it rejected exactly if dA*z + dB is not zero, where z is the first element of the first-round message. verify_next accepts exactly vectors of three elements in the first round and None in the second, and the output share does not depend on the messages.", "quantifier": "all public shares and input shares (honest or not), verification keys, contexts, nonces, levels, lists of prefixes and messages", "why_tests_cant": "all malicious reports and messages", "anchors": ["poc/vdaf_poc/vdaf_poplar1.py:Poplar1.verify_init", "poc/vdaf_poc/vdaf_poplar1.py:Poplar1.verify_next", "poc/vdaf_poc/vdaf_poplar1.py:Poplar1.verifier_shares_to_message"]}
{"id": "C62", "title": "One IDPF key and the public share reveal nothing about the point and the values", "statement": "An Aggregator that knows one of the two IDPF keys and the public share learns nothing about alpha and beta: the public share depends on the other key only through the expansions of the other Aggregator's seeds along the path, and if these are uniformly random then every public share of the right format is equally likely, whatever alpha, beta, the context, the nonce and the known key are.", "quantifier": "all IDPFs, points, programmed values, contexts, nonces, keys and public shares, both Aggregators", "why_tests_cant": "a statement about the distribution over all random values, for every pair of inputs", "anchors": ["poc/vdaf_poc/idpf_bbcggi21.py:IdpfBBCGGI21.gen"]}
{"id": "C63", "title": "One Poplar1 Aggregator learns nothing but the aggregate results", "statement": "Fix two batches of measurements such that at every queried level each queried prefix has the same number of accepted reports in both. Everything one Aggregator sees (the public shares, its own input shares, the other Aggregator's verifier shares in both rounds in reply to arbitrary verifier messages, and the other Aggregator's aggregate shares) has the same distribution for the two batches, if the values derived from seeds it does not know are uniformly random and every level is queried at most once per report.", "quantifier": "all lengths of measurements, batches, queries, sets of accepted reports, verification keys, contexts, nonces, verifier messages (a malicious Aggregator), both Aggregators and all views", "why_tests_cant": "a statement about the distribution over all random values, for every pair of batches and every behaviour of the corrupted Aggregator", "anchors": ["poc/vdaf_poc/vdaf_poplar1.py:Poplar1.shard", "poc/vdaf_poc/vdaf_poplar1.py:Poplar1.verify_init", "poc/vdaf_poc/vdaf_poplar1.py:Poplar1.verify_next"]}
{"id": "C64", "title": "The soundness number used for choosing parameters bounds the probability of accepting an invalid measurement", "statement": "For every circuit, invalid measurement, joint randomness and proof, the probability over the query randomness that the FLP accepts is at most base_soundness(flp), the sum of calls * DEGREE / (MODULUS - calls); with k proofs it is at most the k-th power, and robustness() bounds the probability for several attempts. (False as stated for circuits with padded wire polynomials; true up to a factor of two.)", "quantifier": "all circuits, fields, measurements, joint randomness vectors, proof strings, numbers of proofs and attempts", "why_tests_cant": "a probability over all query randomness, for every dishonest prover", "anchors": ["poc/plot_prio3_multiproof_robustness.py:base_soundness", "poc/plot_prio3_multiproof_robustness.py:robustness", "poc/plot_prio3_multiproof_robustness.py:sum_vec", "poc/vdaf_poc/flp_bbcggi19.py:FlpBBCGGI19.query", "poc/vdaf_poc/flp_bbcggi19.py:wire_poly_len"]}
{"id": "C65", "title": "Prio3 stays private when all Aggregators but one misbehave", "statement": "All the Aggregators but one may do what they like: send the honest Aggregator arbitrary verifier messages, watch whether it accepts, and have it aggregate any accepted reports in any batches, each decision depending on all they have seen. They learn nothing about the measurements of honest Clients but the aggregate results of these batches: every view has the same probability for any two choices of valid measurements which agree on the aggregates of the batches in this view. The honest Aggregator answers every move.", "quantifier": "all strategies of the coalition, all numbers of moves, all circuits of the library (and all user-supplied circuits that meet the requirements of C55), all numbers of Aggregators and proofs, every honest Aggregator, all numbers of reports, keys, contexts, nonces and random bytes without repeated seeds, and every possible view", "why_tests_cant": "a statement about all adversaries and about distributions over all XOF outputs", "anchors": ["poc/vdaf_poc/vdaf_prio3.py:Prio3.verify_next", "poc/vdaf_poc/vdaf_prio3.py:Prio3.agg_update", "poc/vdaf_poc/vdaf_prio3.py:Prio3"]}
{"id": "C66", "title": "A Client that adapts cannot get an invalid measurement accepted", "statement": "A malicious Client interacts with honest Aggregators. In each of its moves it computes the joint randomness of a report of its choice, or submits a report and learns whether it is accepted; each move may depend on all it has learned before. Unless it finds a collision of joint randomness seeds, it gets a report accepted whose measurement is invalid with probability at most q * (e + s) ^ PROOFS, where q is the number of moves, e the probability that the circuit accepts an invalid measurement over the joint randomness (0 for Count and Sum, chunk_length / MODULUS for the other circuits), and s the soundness error of the FLP. For SumVec this is the bound of the robustness script, up to a factor of two in the soundness if padding is needed.", "quantifier": "all strategies of the Client, all numbers of moves, all circuits of the library (and all user-supplied circuits that meet the requirements of C55), all numbers of Aggregators and proofs, all verification keys and contexts", "why_tests_cant": "a statement about all adversaries and about probabilities over all XOF outputs", "anchors": ["poc/vdaf_poc/vdaf_prio3.py:Prio3.verify_init", "poc/vdaf_poc/vdaf_prio3.py:Prio3.verifier_shares_to_message", "poc/vdaf_poc/vdaf_prio3.py:Prio3.verify_next", "poc/plot_prio3_multiproof_robustness.py:robustness"]}
{"id": "C67", "title": "The DAF and the VDAF of the tests are correct for all inputs", "statement": "run_daf with TestDaf returns the sum of the measurements modulo the modulus of Field128 (unless sampling of a share does not end within the given number of attempts). run_vdaf with PingPongTester(ROUNDS) returns the aggregation parameter times the sum of the measurements, and the ping-pong exchange with PingPongTester(ROUNDS) ends after ROUNDS + 1 messages with both parties finished and holding the measurement, the last message being sent by the Helper iff ROUNDS is odd.", "quantifier": "all batches of measurements, all nonces and random bytes of the right length, all aggregation parameters, all numbers of rounds", "why_tests_cant": "the tests run one batch of four measurements and exchanges of one and two rounds", "anchors": ["poc/tests/test_daf.py:TestDaf", "poc/vdaf_poc/daf.py:run_daf", "poc/tests/test_vdaf_ping_pong.py:PingPongTester", "poc/vdaf_poc/vdaf_ping_pong.py:PingPong"]}
{"id": "C68", "title": "Robustness of Prio3 in the random oracle model", "statement": "A Client that evaluates TurboSHAKE128 at inputs of its choice and sends encoded reports to honest Aggregators, in any order and depending on what it has learned, makes them accept a report whose measurement is not valid with probability at most q*(eps+paddedSoundness)^PROOFS + 3*(q*(SHARES+1))^2/2^256 + q/2^256, where q is the number of its moves and eps bounds the probability that the circuit accepts an invalid measurement (0 for Count and Sum, for which the second term is not needed; chunk_length/modulus for SumVec, Histogram and MultihotCountVec). The probability is over the verification key and the values of TurboSHAKE128. The Aggregators reject nonces that they have seen before.", "quantifier": "every instance of Prio3 with XofTurboShake128 (the five circuits, and circuits supplied by users that satisfy the documented conditions), every application context, every strategy of the Client, every number of moves, every set of inputs at which the oracle is random that contains those of the protocol", "why_tests_cant": "the statement is about the probability over all keys and all values of a random oracle and about all strategies; a test runs a few strategies with one fixed hash function", "anchors": ["poc/vdaf_poc/vdaf_prio3.py:Prio3.verify_init", "poc/vdaf_poc/vdaf_prio3.py:Prio3.verifier_shares_to_message", "poc/vdaf_poc/vdaf_prio3.py:Prio3.verify_next", "poc/vdaf_poc/vdaf_prio3.py:Prio3.decode_input_share", "poc/vdaf_poc/xof.py:XofTurboShake128", "poc/vdaf_poc/flp_bbcggi19.py"]}
{"id": "C69", "title": "Robustness of Poplar1 in the random oracle model", "statement": "A Client and a Collector that evaluate TurboSHAKE128 at inputs of their choice and have encoded reports verified by honest Aggregators for aggregation parameters of their choice, in any order and depending on what they have learned, make them accept a report whose output shares do not sum to zero or to a unit vector with probability at most q*2/modulus + q/2^256, where q is the number of their moves and the modulus is that of the field of the first level. The probability is over the verification key and the values of TurboSHAKE128. The Aggregators refuse aggregation parameters that is_valid does not accept after those used before with the same nonce.", "quantifier": "every number of bits, every application context, every strategy of the Client and the Collector (any bytes as reports, any aggregation parameters), every number of moves, every set of inputs at which the oracle is random that contains those for the verification randomness, every block cipher", "why_tests_cant": "the statement is about the probability over all keys and all values of a random oracle and about all strategies; a test runs a few strategies with one fixed hash function", "anchors": ["poc/vdaf_poc/vdaf_poplar1.py:Poplar1.verify_init", "poc/vdaf_poc/vdaf_poplar1.py:Poplar1.verify_next", "poc/vdaf_poc/vdaf_poplar1.py:Poplar1.verifier_shares_to_message", "poc/vdaf_poc/vdaf_poplar1.py:Poplar1.is_valid", "poc/vdaf_poc/vdaf_poplar1.py:Poplar1.decode_input_share", "poc/vdaf_poc/idpf_bbcggi21.py:IdpfBBCGGI21.eval", "poc/vdaf_poc/xof.py:XofTurboShake128"]}
{"id": "C70", "title": "Privacy of Prio3 in the random oracle model", "statement": "All the Aggregators but one pool what they know, send the honest one arbitrary verifier messages, have it aggregate batches of their choice and evaluate TurboSHAKE128 at inputs of their choice, each decision depending on all they have seen. For two choices of valid measurements, the probabilities of any set of views of theirs differ by at most (6*n*q + 3*n^2)/2^256, where n is the number of reports and q that of their moves, provided that in these views the aggregate results of the batches that were aggregated agree. The probability is over the Clients' random bytes and the values of TurboSHAKE128.", "quantifier": "every circuit of the library and every circuit supplied by users that meets the conditions of C55, every number of shares and proofs, either kind of honest Aggregator, every verification key and application context, any nonces, any number of reports, all valid measurements, every strategy of the coalition and number of moves, every set of views, every finite set of inputs at which the oracle is random that contains those with a secret seed", "why_tests_cant": "it is a statement about probabilities over all random bytes and all values of a random oracle, and about all strategies of the coalition; tests run the code with one hash function on a few inputs", "anchors": ["poc/vdaf_poc/vdaf_prio3.py:Prio3.shard", "poc/vdaf_poc/vdaf_prio3.py:Prio3.verify_init", "poc/vdaf_poc/vdaf_prio3.py:Prio3.verify_next", "poc/vdaf_poc/vdaf_prio3.py:Prio3.verifier_shares_to_message", "poc/vdaf_poc/vdaf_prio3.py:Prio3.agg_update", "poc/vdaf_poc/flp_bbcggi19.py:FlpBBCGGI19.prove", "poc/vdaf_poc/flp_bbcggi19.py:FlpBBCGGI19.query", "poc/vdaf_poc/xof.py:XofTurboShake128"]}
{"id": "C71", "title": "The negative test vectors and the vectors of the IDPF and the XOFs", "statement": "The generators of the negative test vectors of Prio3 and Poplar1 only write a vector for a report, tampered with at the stated place, that is indeed rejected with ValueError at the last step the vector lists and at no earlier step; they write it whenever that is the case; and the checker of test vectors accepts it. A report of Prio3Count whose leader's measurement share was changed is always rejected. The vector of the IDPF lists shares that add up to the listed values on the listed path and to zero elsewhere, and the vectors of the XOFs list values read from the stream defined by the listed seed, tag and binder.", "quantifier": "every Prio3 with two Aggregators and every valid measurement, every number of bits, measurement and aggregation parameter of Poplar1, every key, nonce, randomness and application context; for Prio3Count every number of Aggregators and every other measurement share; every IDPF and input of it; every value of the cryptographic primitives", "why_tests_cant": "the generator is run once, on fixed inputs; whether the vectors it writes are what they claim to be is assumed by every implementation tested against them", "anchors": ["poc/gen_test_vec.py:gen_prio3_negative_test_vec", "poc/gen_test_vec.py:_prio3_verifier_shares_to_message_failure", "poc/gen_test_vec.py:gen_poplar1_negative_test_vec", "poc/gen_test_vec.py:gen_test_vec_for_idpf", "poc/gen_test_vec.py:gen_test_vec_for_xof"]}
{"id": "C72", "title": "Privacy of Poplar1 in the random oracle model", "statement": "One Aggregator and the Collector pool what they know, choose the aggregation parameters for which the honest Aggregator verifies each report (at most once for each level), send it arbitrary verifier messages, have it aggregate batches of their choice and evaluate TurboSHAKE128 and AES-128 at inputs of their choice, each decision depending on all they have seen. For two choices of measurements, the probabilities of any set of views of theirs differ by at most t(t + 4*n*bits*B + q(1 + 2*m*bits*B))/2^126 with t = n(2*bits + 3)B, where n is the number of reports, q that of their moves, m that of the prefixes asked for at once and B the number of blocks of 16 bytes that may be read from one stream, provided that in these views the number of measurements with each prefix agrees for each aggregated batch. The probability is over the Clients' random bytes, the values of TurboSHAKE128 and those of AES-128 as a random function.", "quantifier": "every number of bits, either Aggregator, every verification key and application context, any nonces, any number of reports, all measurements, every strategy of the attackers and number of moves, every set of views, every finite set of inputs at which the oracle is random that contains those with a seed of a report", "why_tests_cant": "it is a statement about probabilities over all random bytes and all values of two random functions, and about all strategies of the attackers; tests run the code with fixed primitives on a few inputs", "anchors": ["poc/vdaf_poc/vdaf_poplar1.py:Poplar1.shard", "poc/vdaf_poc/vdaf_poplar1.py:Poplar1.verify_init", "poc/vdaf_poc/vdaf_poplar1.py:Poplar1.verify_next", "poc/vdaf_poc/vdaf_poplar1.py:Poplar1.agg_update", "poc/vdaf_poc/idpf_bbcggi21.py:IdpfBBCGGI21.gen", "poc/vdaf_poc/idpf_bbcggi21.py:IdpfBBCGGI21.eval", "poc/vdaf_poc/xof.py:XofTurboShake128", "poc/vdaf_poc/xof.py:XofFixedKeyAes128"]}
{"id": "C73", "title": "Privacy of Prio3 in the ping-pong topology", "statement": "One of the two Aggregators of Prio3 runs the ping-pong functions honestly. The other one and the Collector choose, depending on all they have seen, when it begins with which report, the encoded aggregation parameter, the bytes of every message it gets and the batches it aggregates, and evaluate TurboSHAKE128 at inputs of their choice. For two choices of valid measurements, the probabilities of any set of views of theirs (public shares, own input shares, all messages and verdicts of the honest Aggregator, its aggregate shares) differ by at most (18*n*q + 3*n^2)/2^256 for n reports and q moves, provided that in these views the aggregate results agree for each aggregated batch. In particular no malformed, repeated or reordered message makes the honest Aggregator give away more.", "quantifier": "every instance of Prio3 with two Aggregators (every circuit, number of proofs, field), either role of the honest Aggregator, every verification key and application context, any nonces, any number of reports, all valid measurements, every strategy of the attackers, arbitrary message bytes, every set of views", "why_tests_cant": "the messages are arbitrary bytes chosen adaptively and the claim is about probabilities over all random bytes and all values of a random oracle; tests run the honest protocol and a few malformed messages", "anchors": ["poc/vdaf_poc/vdaf_ping_pong.py:PingPong.ping_pong_leader_init", "poc/vdaf_poc/vdaf_ping_pong.py:PingPong.ping_pong_helper_init", "poc/vdaf_poc/vdaf_ping_pong.py:PingPong.ping_pong_leader_continued", "poc/vdaf_poc/vdaf_ping_pong.py:PingPong.ping_pong_helper_continued", "poc/vdaf_poc/vdaf_prio3.py:Prio3.verify_init", "poc/vdaf_poc/vdaf_prio3.py:Prio3.verifier_shares_to_message", "poc/vdaf_poc/vdaf_prio3.py:Prio3.verify_next", "poc/vdaf_poc/vdaf_prio3.py:Prio3.is_valid"]}
{"id": "C74", "title": "Privacy of Poplar1 in the ping-pong topology", "statement": "One of the two Aggregators of Poplar1 runs the ping-pong functions honestly and refuses aggregation parameters that is_valid rejects. The other one and the Collector choose, depending on all they have seen, when it begins with which report, the encoded aggregation parameter, the bytes of every message it gets and the batches it aggregates, and evaluate TurboSHAKE128 and AES-128 at inputs of their choice. For two choices of measurements, the probabilities of any set of views of theirs (public shares, own input shares, all messages and verdicts of the honest Aggregator, its aggregate shares) differ by at most a small bound (quadratic in the number of reports, blocks and moves, over 2^126), provided that in these views the prefix counts agree for each aggregated batch.", "quantifier": "every bit length, either role of the honest Aggregator, every verification key and application context, any nonces, any number of reports, all measurements, every strategy of the attackers, arbitrary message and aggregation parameter bytes, every set of views", "why_tests_cant": "the messages are arbitrary bytes chosen adaptively over several levels and the claim is about probabilities over all random bytes and all values of two random oracles; tests run the honest protocol and a few malformed messages", "anchors": ["poc/vdaf_poc/vdaf_ping_pong.py:PingPong.ping_pong_leader_init", "poc/vdaf_poc/vdaf_ping_pong.py:PingPong.ping_pong_helper_init", "poc/vdaf_poc/vdaf_ping_pong.py:PingPong.ping_pong_leader_continued", "poc/vdaf_poc/vdaf_ping_pong.py:PingPong.ping_pong_helper_continued", "poc/vdaf_poc/vdaf_poplar1.py:Poplar1.verify_init", "poc/vdaf_poc/vdaf_poplar1.py:Poplar1.verifier_shares_to_message", "poc/vdaf_poc/vdaf_poplar1.py:Poplar1.verify_next", "poc/vdaf_poc/vdaf_poplar1.py:Poplar1.is_valid"]}
{"id": "C75", "title": "Robustness in the ping-pong topology", "statement": "An honest Leader and an honest Helper run the ping-pong functions on reports and aggregation parameters that malicious Clients and a malicious Collector submit as bytes, adaptively, between evaluations of TurboSHAKE128. Except with a small probability, for every aggregation parameter and every selection of the reports accepted for it, aggregating and unsharding succeeds, and the result is the aggregate of as many valid measurements (Prio3), or a count in which each report counts for at most one prefix, and once (Poplar1). The probability is bounded by that of the robustness games for Prio3 and Poplar1.", "quantifier": "every circuit of the library and user circuits with the stated error, every bit length of Poplar1, every context, every strategy, any number of moves for which the field is large enough for the batch, arbitrary report and aggregation parameter bytes, every sub-batch of accepted reports", "why_tests_cant": "the reports are arbitrary bytes chosen adaptively, and the claim is a probability over all verification keys and all values of the random oracle; tests submit honest and a few malformed reports", "anchors": ["poc/vdaf_poc/vdaf_ping_pong.py:PingPong.ping_pong_leader_init", "poc/vdaf_poc/vdaf_ping_pong.py:PingPong.ping_pong_helper_init", "poc/vdaf_poc/vdaf_ping_pong.py:PingPong.ping_pong_leader_continued", "poc/vdaf_poc/vdaf_ping_pong.py:PingPong.ping_pong_helper_continued", "poc/vdaf_poc/vdaf_prio3.py:Prio3.verify_init", "poc/vdaf_poc/vdaf_prio3.py:Prio3.unshard", "poc/vdaf_poc/vdaf_poplar1.py:Poplar1.verify_init", "poc/vdaf_poc/vdaf_poplar1.py:Poplar1.unshard"]}
{"id": "C76", "title": "Reports are bound to the application context and to the nonce", "statement": "If a report is made by shard for one application context and nonce and presented to honest Aggregators for another application context, they accept it with probability at most 2/2^256 (Prio3 circuits with joint randomness), (1/modulus)^proofs (every Prio3 circuit with a gadget) or 1/modulus of the field of the level (Poplar1, every aggregation parameter), over TurboSHAKE128 as a random oracle. The same holds for another nonce with the Prio3 circuits that use joint randomness and with Poplar1. With the Prio3 circuits that use no joint randomness, the report does not depend on the nonce: shard returns the same report for every nonce, so the Aggregators accept it for every other nonce whenever they accept it for its own.", "quantifier": "every circuit, number of Aggregators and proofs, bit length and aggregation parameter, every valid measurement, every pair of contexts and nonces that differ, every verification key and all random bytes of the Client", "why_tests_cant": "the claim is a probability over all values of the hash function; a test can only observe that one report is rejected for one wrong context", "anchors": ["poc/vdaf_poc/vdaf_prio3.py:Prio3.shard", "poc/vdaf_poc/vdaf_prio3.py:Prio3.verify_init", "poc/vdaf_poc/vdaf_prio3.py:Prio3.joint_rand_part", "poc/vdaf_poc/vdaf_prio3.py:Prio3.verify_next", "poc/vdaf_poc/vdaf_poplar1.py:Poplar1.shard", "poc/vdaf_poc/vdaf_poplar1.py:Poplar1.verify_init", "poc/vdaf_poc/vdaf.py:Vdaf.domain_separation_tag"]}
{"id": "C77", "title": "Privacy of Prio3 in the ping-pong topology with dishonest Clients", "statement": "One of the two Aggregators is honest and runs the functions of vdaf_ping_pong.py; the other one, the Collector and any number of Clients work together and do not follow the protocol. They submit arbitrary byte strings as reports at any time, choose the messages and the batches, and evaluate TurboSHAKE128. For two choices of valid measurements of the n honest Clients, the probabilities that what the attackers see in q moves lies in a set E differ by at most (144 n q + 3 n^2)/2^256, if in each view in E the aggregate results of the honest reports in each batch whose aggregate share they got are the same for both choices.", "quantifier": "every Prio3 instance with two Aggregators (also with circuits supplied by users), every strategy of the attackers and number of moves, either role of the honest Aggregator, every pair of families of valid measurements, every set E of views", "why_tests_cant": "the claim is about all strategies of the attackers, who choose their reports adaptively, and about probabilities over the values of the hash function", "anchors": ["poc/vdaf_poc/vdaf_ping_pong.py:PingPong", "poc/vdaf_poc/vdaf_prio3.py:Prio3.verify_init", "poc/vdaf_poc/vdaf_prio3.py:Prio3.verifier_shares_to_message", "poc/vdaf_poc/vdaf_prio3.py:Prio3.agg_update"]}
{"id": "C78", "title": "Privacy of Poplar1 in the ping-pong topology with dishonest Clients", "statement": "As C77, for Poplar1: for two choices of measurements of the n honest Clients, the probabilities that what the attackers see in q moves lies in E differ by at most an explicit bound of order n^2 q/2^126 (times polynomial factors in the bit length, the number of prefixes and the length of the hash outputs), if in each view in E, for each aggregate share that the attackers got and each of its prefixes, as many honest reports of the batch begin with the prefix for one choice as for the other.", "quantifier": "every bit length, every strategy of the attackers that asks for at most m prefixes at once, every number of moves, either role of the honest Aggregator, every pair of families of measurements, every set E of views", "why_tests_cant": "the claim is about all strategies of the attackers, who choose their reports and aggregation parameters adaptively, and about probabilities over the values of the hash function and the block cipher", "anchors": ["poc/vdaf_poc/vdaf_ping_pong.py:PingPong", "poc/vdaf_poc/vdaf_poplar1.py:Poplar1.verify_init", "poc/vdaf_poc/vdaf_poplar1.py:Poplar1.is_valid", "poc/vdaf_poc/idpf_bbcggi21.py:IdpfBBCGGI21.eval"]}
{"id": "C79", "title": "Prio3 works over every FLP that meets the contract of the abstract class", "statement": "Prio3 and run_flp use only the interface of Flp. If the methods of an FLP meet the contract (proofs and verifiers have the advertised lengths; query works on additive shares, and whether it raises depends only on the query randomness; encodings of valid measurements pass; truncation is linear; sums of truncated encodings decode to the aggregate), then an honest execution of Prio3 over it returns the aggregate of the batch or one of the exceptions of the sampler or the FLP, run_flp gives the same result for any number of shares, messages decode exactly to the well-formed messages that encode to them, all Aggregators of an accepted report used the same joint randomness, and a report whose measurement the FLP rejects except for k choices of the query randomness is accepted for few choices of the query randomness only. FlpBBCGGI19 with any circuit and FlpTest of the tests meet the contract; FlpTest is insecure, as its documentation says.", "quantifier": "every FLP, number of Aggregators and of proofs, verification key, context, batch, and every malicious report", "why_tests_cant": "the tests use two FLPs and a few measurements; the claim is about all FLPs, all measurements and all malicious reports", "anchors": ["poc/vdaf_poc/flp.py:Flp", "poc/vdaf_poc/flp.py:run_flp", "poc/vdaf_poc/vdaf_prio3.py:Prio3", "poc/tests/test_flp.py:FlpTest", "poc/tests/test_vdaf_prio3.py:Prio3FlpTest"]}
{"id": "C80", "title": "The test harnesses of the library tell the truth", "statement": "run_gadget_test passes for every gadget whose eval and eval_poly agree, and if eval_poly is wrong it passes for at most as many evaluation points as the degree. run_flp_test passes on every correct circuit whose test cases expect the right decisions, except with probability at most (2 eps + B/MODULUS) per invalid test case (eps: the circuit accepts it by accident) and the sum of the wire polynomial lengths over MODULUS for an unlucky test point; a wrong expectation about a valid measurement always fails, and about an invalid measurement passes with probability at most eps (eps + B/MODULUS). run_encode_truncate_decode_test passes for all measurements of SumVec. run_vdaf_test on Prio3 and Poplar1 passes if and only if the expected result is the aggregate of the batch, unless one of the exceptions of an honest execution is raised.", "quantifier": "every gadget, circuit, list of test cases, instance of Prio3 and Poplar1, batch, and every outcome of the random choices", "why_tests_cant": "the tests themselves cannot show that they fail for wrong programs, nor how likely they fail for right ones", "anchors": ["poc/vdaf_poc/test_utils.py:TestFlpBBCGGI19.run_gadget_test", "poc/vdaf_poc/test_utils.py:TestFlpBBCGGI19.run_flp_test", "poc/vdaf_poc/test_utils.py:TestFlpBBCGGI19.run_encode_truncate_decode_test", "poc/vdaf_poc/test_utils.py:TestVdaf.run_vdaf_test"]}
{"id": "C81", "title": "The requirements for secure usage are necessary", "statement": "If a Client knows the verification key, then for every vector of field elements it can make a report for Prio3 that all the Aggregators accept and for which they obtain shares of that vector (unless the query randomness is degenerate). If a report for Prio3 is verified under as many verification keys as the length of the wire polynomials (2 for Count), with distinct test points, then the sums of the verifier shares determine the measurement. If a report for Poplar1 is verified twice at the same level, the difference of the messages of the first round is the difference of the verification randomness that belongs to the prefix of the measurement, so it shows which prefix that is. Aggregators accept reports for SumVec that were made for another length and max_measurement with the same encoded length, and decode them with their own parameters.", "quantifier": "every instance of Prio3 and Poplar1, measurement vector, key, nonce, application context and all randomness", "why_tests_cant": "that an attack works for every instance and every target vector, or that messages determine the measurement, is a statement about all reports", "anchors": ["poc/vdaf_poc/vdaf_prio3.py:Prio3.verify_init", "poc/vdaf_poc/vdaf_prio3.py:Prio3.is_valid", "poc/vdaf_poc/vdaf_poplar1.py:Poplar1.verify_init", "poc/vdaf_poc/vdaf_poplar1.py:Poplar1.is_valid", "poc/vdaf_poc/flp_bbcggi19.py:SumVec"]}
{"id": "C82", "title": "A Poplar1 report stands for one measurement", "statement": "Whatever a Client sends, there is a measurement such that the report counts (verification for an aggregation parameter succeeds and the output shares sum to 1 at a prefix) only for prefixes of this measurement, at least at the last level. FALSE of the code: if both input shares have the same IDPF key, and the correction words have seed correction 0 and both control bits set, the report counts for at least half of all the prefixes at every level. True: an aggregation parameter counts a report at most once, and each level is used at most once.", "quantifier": "every public share and input shares, aggregation parameter and history allowed by is_valid, verification key, nonce, application context", "why_tests_cant": "the malicious reports and the aggregation parameters are unbounded; no test tries a report that honest sharding does not produce", "anchors": ["poc/vdaf_poc/vdaf_poplar1.py:Poplar1.verify_init", "poc/vdaf_poc/vdaf_poplar1.py:Poplar1.verify_next", "poc/vdaf_poc/idpf_bbcggi21.py:IdpfBBCGGI21.eval_next"]}
{"id": "C83", "title": "Poplar1 computes the heavy hitters", "statement": "If Poplar1 is run as the documentation describes (begin with the prefixes 0 and 1; count; replace each prefix with at least T hits by its two children; until the prefixes have full length), then all aggregation parameters are accepted by is_valid, and for honest Clients the result is exactly the set of strings held by at least T Clients, in lexicographic order. With malicious Clients, except for a small set of verification randomness, each string of T honest Clients is in the result, each string in the result is held by at least T minus the number of malicious reports honest Clients, and the result has at most (number of reports)/T strings.", "quantifier": "every BITS <= 2^16, batch of fewer than 2^64-2^32+1 reports of which any number is malicious, threshold, verification key, context, nonces and randomness", "why_tests_cant": "the tests run single aggregation parameters on a few measurements; the candidate prefixes of a run depend on the results of the earlier levels", "anchors": ["poc/vdaf_poc/vdaf_poplar1.py:Poplar1.is_valid", "poc/vdaf_poc/vdaf_poplar1.py:Poplar1.verify_init", "poc/vdaf_poc/vdaf_poplar1.py:Poplar1.unshard", "draft-irtf-cfrg-vdaf.md:Poplar1"]}
{"id": "C84", "title": "Dishonest Clients cannot corrupt the aggregate result of Prio3", "statement": "Whoever made the reports of a batch, the aggregate result of the accepted ones is the aggregate of valid measurements, one for each report; the reports of honest Clients contribute exactly their measurements. In the random oracle model, a Client that adapts to the verdicts and to the values of the oracle can prevent this only with the probability bound of C68.", "quantifier": "every instance over a circuit of the library or supplied by the user, any number of Aggregators, batch mixed of honest and dishonest reports, adaptive Client, number of moves, context", "why_tests_cant": "tests aggregate honest reports only, and check that single reports with specific faults are rejected; this is about all dishonest reports and their effect on the result of the batch", "anchors": ["poc/vdaf_poc/vdaf_prio3.py:Prio3.verify_init", "poc/vdaf_poc/vdaf_prio3.py:Prio3.verify_next", "poc/vdaf_poc/vdaf_prio3.py:Prio3.agg_update", "poc/vdaf_poc/vdaf_prio3.py:Prio3.unshard"]}
{"id": "C85", "title": "The heavy hitters protocol withstands malicious Clients, except with a small probability", "statement": "Someone evaluates TurboSHAKE128 q times and then chooses a batch of at most M encoded reports with different nonces, without knowledge of the verification key. Except with probability (q + BITS*M) * (2/p + 2^-256), p the modulus of the field of the first level, the heavy hitters protocol does not fail, finds each string of T honest Clients, finds only strings that at least T minus the number of malicious reports honest Clients hold, and finds at most (number of reports)/T strings.", "quantifier": "every BITS <= 2^16, adaptive choice of the batch, number of evaluations, threshold, context; over a random verification key and TurboSHAKE128 as a random oracle at the inputs for the verification randomness", "why_tests_cant": "a probability over all verification keys and all functions, for all ways of choosing the reports; the aggregation parameters depend on the verdicts of the previous levels", "anchors": ["poc/vdaf_poc/vdaf_poplar1.py:Poplar1.verify_init", "poc/vdaf_poc/vdaf_poplar1.py:Poplar1.verify_next", "poc/vdaf_poc/vdaf_poplar1.py:Poplar1.is_valid", "poc/vdaf_poc/vdaf_poplar1.py:Poplar1.unshard", "draft-irtf-cfrg-vdaf.md:Poplar1"]}
{"id": "C86", "title": "The sizes of all messages are determined by public parameters", "statement": "The number of bytes of the encoded public share, of each input share, of each verifier share and verifier message, of the output shares and of the aggregate shares is a fixed function of the parameters of the VDAF (and, for Poplar1, of the level and the number of prefixes); it depends neither on the measurement, nor on the randomness, the nonce or the key, and no malicious report or message can make an Aggregator send a message of another size.", "quantifier": "every measurement, nonce, randomness, key, context; every report and received message (also malicious); every number of Aggregators, every instance of the five circuits, every number of proofs from 1 to 255; every number of bits, level and list of prefixes; batches of any size", "why_tests_cant": "all measurements and all malicious inputs; the test vectors fix the sizes of a few messages", "anchors": ["poc/vdaf_poc/vdaf_prio3.py:Prio3.encode_input_share", "poc/vdaf_poc/vdaf_prio3.py:Prio3.encode_public_share", "poc/vdaf_poc/vdaf_prio3.py:Prio3.encode_verifier_share", "poc/vdaf_poc/vdaf_poplar1.py:Poplar1.encode_input_share", "poc/vdaf_poc/vdaf_poplar1.py:Poplar1.encode_verifier_share", "poc/vdaf_poc/idpf_bbcggi21.py:IdpfBBCGGI21.encode_public_share"]}
{"id": "C87", "title": "How long rejection sampling takes", "statement": "With a random stream, the probability that sampling n field elements takes more than k chunks is exactly the probability that fewer than n of k independent trials with the field's acceptance rate succeed; it is bounded explicitly and tends to zero.", "quantifier": "every seed, domain separation tag, binder, length n and number of chunks k; every field", "why_tests_cant": "a statement about the distribution over all streams; a rejected chunk has probability below 2^-22 in the fields of the library and is never met in a test", "anchors": ["poc/vdaf_poc/xof.py:Xof.next_vec", "poc/vdaf_poc/xof.py:Xof.expand_into_vec", "poc/vdaf_poc/xof.py:XofTurboShake128"]}
{"id": "C88", "title": "Completeness error of Prio3 in the random oracle model", "statement": "If all parties are honest, the probability that an execution of Prio3 does not return the aggregate of the measurements is at most the number of reports times an explicit bound: the probability that a test point is a root of unity (the only reason for which an honest report can fail), plus the probability that an expansion needs more than the given number of chunks.", "quantifier": "every batch of valid measurements, all nonces, keys, contexts and Client randomness; every number of Aggregators and proofs; every circuit that computes a task, in particular the five of the library", "why_tests_cant": "the failures have probability around 2^-60 or 2^-120 and are never met in a test; the bound ranges over all batches and all oracles", "anchors": ["poc/vdaf_poc/vdaf_prio3.py:Prio3", "poc/vdaf_poc/flp_bbcggi19.py:FlpBBCGGI19.query", "poc/vdaf_poc/xof.py:Xof.next_vec", "poc/vdaf_poc/vdaf.py:run_vdaf"]}
{"id": "C89", "title": "The sizes of the messages in the ping-pong topology are determined by public parameters", "statement": "The number of bytes of every message that an honest Leader or Helper sends in the ping-pong topology is a fixed function of the parameters of the VDAF, the round and the type of the message (for Poplar1 also of the level); neither the report nor anything the peer sends can change it.", "quantifier": "every key, context, nonce, encoded public share and input share, every sequence of inbound byte strings; every instance of Prio3 with two Aggregators over a circuit of the library, every number of bits, level and list of prefixes for Poplar1", "why_tests_cant": "all malicious messages and reports", "anchors": ["poc/vdaf_poc/vdaf_ping_pong.py:PingPong.ping_pong_leader_init", "poc/vdaf_poc/vdaf_ping_pong.py:PingPong.ping_pong_helper_init", "poc/vdaf_poc/vdaf_ping_pong.py:PingPong.ping_pong_transition", "poc/vdaf_poc/vdaf_ping_pong.py:PingPong.ping_pong_continued", "poc/vdaf_poc/vdaf_ping_pong.py:encode"]}
{"id": "C90", "title": "The Leader and the Helper agree on which reports they accept", "statement": "When two honest Aggregators run the ping-pong topology on a report and all messages are delivered, the Leader accepts the report if and only if the Helper does. (False of the code for Prio3 with joint randomness, where only one direction holds; a counterexample is proved.)", "quantifier": "every report (public share, input shares, nonce, as arbitrary bytes), verification key, context and aggregation parameter; every circuit", "why_tests_cant": "the report is chosen by a malicious Client, who may craft any bytes; tests only run honest reports and a few corrupted ones", "anchors": ["poc/vdaf_poc/vdaf_ping_pong.py:PingPong", "poc/vdaf_poc/vdaf_prio3.py:Prio3.verify_next", "poc/vdaf_poc/vdaf_poplar1.py:Poplar1.verify_next"]}
{"id": "C91", "title": "All Aggregators accept a report, or at most one of them does", "statement": "If all Aggregators receive all verifier shares of a report and these combine to a verifier message, then without joint randomness, and for Poplar1, all Aggregators accept. With joint randomness, Aggregator j accepts if and only if the parts of the joint randomness that the Client published for the others are those that they computed; so all accept, or at most one does (unless two of the inputs from which the seeds are derived collide).", "quantifier": "every report (public share, input shares, nonce), verification key and context; every number of Aggregators and every circuit", "why_tests_cant": "the report is chosen by a malicious Client; tests only run honest reports and a few corrupted ones, on which all Aggregators agree", "anchors": ["poc/vdaf_poc/vdaf_prio3.py:Prio3.verify_init", "poc/vdaf_poc/vdaf_prio3.py:Prio3.verify_next", "poc/vdaf_poc/vdaf_prio3.py:Prio3.verifier_shares_to_message", "poc/vdaf_poc/vdaf_poplar1.py:Poplar1.verify_next"]}
{"id": "C92", "title": "Sharding accepts only arguments of the documented sizes", "statement": "shard of Prio3 raises ValueError if the nonce does not have 16 bytes or the random bytes do not have 32 bytes (64 with joint randomness) for each Aggregator; with arguments of these sizes, a measurement that the circuit cannot encode raises the exception of the encoder. shard of Poplar1 raises ValueError if the nonce does not have 16 bytes or if there are not 128 random bytes, and returns a report only for a measurement of exactly BITS bits.", "quantifier": "every instance of Prio3 and Poplar1 with XofTurboShake128, every context, measurement, and all byte strings as nonce and random bytes", "why_tests_cant": "the sizes depend on the number of Aggregators and on the circuit, and there are infinitely many wrong sizes; tests try a single one", "anchors": ["poc/vdaf_poc/vdaf_prio3.py:Prio3.shard", "poc/vdaf_poc/vdaf_poplar1.py:Poplar1.shard", "poc/vdaf_poc/idpf_bbcggi21.py:IdpfBBCGGI21.gen"]}
{"id": "C93", "title": "The report of an honest Client determines the measurement", "statement": "If two runs of shard of Prio3 with the same context (and any nonces and random bytes) return the same input shares, the two measurements are the same; in particular, distinct measurements have distinct encodings. If two runs of gen of the IDPF with the same context and nonce (and any random bytes) return the same public share and keys, the points and all the values are the same. If two runs of shard of Poplar1 with the same context and nonce return the same report, the measurements are the same.", "quantifier": "every Prio3 instance of the library and every measurement that it supports; every IDPF and Poplar1, all points and values; all nonces, contexts and random bytes", "why_tests_cant": "the claim is about all pairs of runs; a test cannot exclude that some two measurements are ever sharded in the same way", "anchors": ["poc/vdaf_poc/vdaf_prio3.py:Prio3.shard", "poc/vdaf_poc/vdaf_poplar1.py:Poplar1.shard", "poc/vdaf_poc/idpf_bbcggi21.py:IdpfBBCGGI21.gen", "poc/vdaf_poc/flp_bbcggi19.py:encode_range_checked_int"]}
{"id": "C94", "title": "A test vector contains the parameters that are needed to construct the VDAF", "statement": "test_vec_set_type_param adds to a test vector the parameters that are required to construct the VDAF, returns the keys that it set, and changes no other entry. So the VDAF which a test constructs from the entries of a generated test vector is the one for which it was generated, for every class of Prio3 and for Poplar1. (False for Prio3SumVecWithMultiproof, whose field and number of proofs are not stored.)", "quantifier": "every instance of every class of Prio3 and Poplar1, and every test vector", "why_tests_cant": "the tests load a fixed list of files with a few parameters each", "anchors": ["poc/vdaf_poc/vdaf.py:Vdaf.test_vec_set_type_param", "poc/vdaf_poc/vdaf_prio3.py:Prio3.test_vec_set_type_param", "poc/vdaf_poc/vdaf_poplar1.py:Poplar1.test_vec_set_type_param", "poc/vdaf_poc/flp_bbcggi19.py:Valid.test_vec_set_type_param", "poc/tests/test_test_vectors.py:run_test"]}
{"id": "C95", "title": "The tuning parameters do not change the meaning", "statement": "The chunk length of SumVec, Histogram and MultihotCountVec only affects the cost: a constructor that accepts one positive chunk length accepts all of them, the encoding, truncation and decoding are the same, and the same encoded vectors are valid. A vector accepted with a larger fraction of the joint randomness than chunk_length / MODULUS for one chunk length is accepted with every joint randomness for every other. Two instances of Prio3 for the same function, of whatever field, chunk length, number of Aggregators and proofs, return the same aggregate result for the same measurements if both succeed, whatever keys, contexts, nonces and randomness are used, unless a total exceeds one of the fields.", "quantifier": "all lengths, bounds, pairs of chunk lengths, encoded vectors and fields; all pairs of instances and all batches", "why_tests_cant": "the tests use a few chunk lengths and compare no two of them; validity is a statement about all the choices of the joint randomness", "anchors": ["poc/vdaf_poc/flp_bbcggi19.py:SumVec", "poc/vdaf_poc/flp_bbcggi19.py:Histogram", "poc/vdaf_poc/flp_bbcggi19.py:MultihotCountVec", "poc/vdaf_poc/vdaf_prio3.py:Prio3"]}
{"id": "C96", "title": "The results of Poplar1 at different levels fit together", "statement": "For a batch of honest reports, the count that Poplar1 returns for a prefix is the sum of the counts that it returns for its two children when the batch is collected at the next level; the count of an extension at any later level is not larger than the count of the prefix; the count of a prefix depends neither on the other prefixes of the aggregation parameter and its position among them, nor on the verification key and the application context; the counts add up to the number of reports that have one of the prefixes, and to the size of the batch if all strings of the level are prefixes.", "quantifier": "all lengths of strings, levels, lists of distinct prefixes, batches of honest reports smaller than the field, keys, contexts, nonces and randomness", "why_tests_cant": "the tests compare the counts of a few batches with literals and do not relate different levels", "anchors": ["poc/vdaf_poc/vdaf_poplar1.py:Poplar1", "poc/vdaf_poc/vdaf.py:run_vdaf"]}
{"id": "C97", "title": "The influence of dishonest Clients on the result of Prio3 is bounded", "statement": "If k of the accepted reports of a batch are not from honest Clients, then the result is at least the aggregate of the measurements of the honest Clients and exceeds it by at most k (Count), k * max_measurement (Sum, and each coordinate for SumVec) or k in each entry (Histogram, MultihotCountVec). The entries for Histogram add up to the number of reports, and those for MultihotCountVec exceed the total weight of the honest measurements by at most k * max_weight. Each report of a dishonest Client is required to stand for some valid measurement, which fails for an accepted report only with the probability of C84.", "quantifier": "all instances of Prio3 with the circuits of the library, keys, contexts, and batches with any number of honest and other reports, smaller than the field", "why_tests_cant": "the tests aggregate honest reports only; the other reports range over all byte strings that decode", "anchors": ["poc/vdaf_poc/vdaf_prio3.py:Prio3", "poc/vdaf_poc/flp_bbcggi19.py:Valid"]}
{"id": "C98", "title": "Vectors of the wrong length are refused, never truncated", "statement": "vec_add and vec_sub operate coordinate by coordinate on vectors of the same length and raise ValueError for vectors of different lengths; vec_neg negates each coordinate. So agg_update, merge and unshard of Prio3 and Poplar1 succeed for output shares and aggregate shares of the right length (OUTPUT_LEN, or the number of prefixes) and raise ValueError if one of them has another length, and verifier_shares_to_message of Prio3 succeeds only if every verifier share has the advertised number of field elements.", "quantifier": "all vectors, all lists of shares and all instances of Prio3 and Poplar1", "why_tests_cant": "the tests aggregate shares of the right length; an implementation that stops at the end of the shorter vector, as zip does, passes them", "anchors": ["poc/vdaf_poc/common.py:vec_add", "poc/vdaf_poc/common.py:vec_sub", "poc/vdaf_poc/common.py:vec_neg", "poc/vdaf_poc/vdaf_prio3.py:Prio3.merge", "poc/vdaf_poc/vdaf_prio3.py:Prio3.verifier_shares_to_message", "poc/vdaf_poc/vdaf_poplar1.py:Poplar1.merge"]}
{"id": "C99", "title": "The FLP accepts only arguments of the advertised lengths", "statement": "prove, query and decide raise AssertionError if the measurement, proof, verifier, prover randomness, query randomness or joint randomness does not have the length that the FLP advertises, for every validity circuit, and a proof that prove returns has the advertised length. The circuits of the library raise ValueError if they are evaluated on a measurement or joint randomness of another length than MEAS_LEN and JOINT_RAND_LEN.", "quantifier": "all validity circuits (also user-supplied ones, for the first part), all arguments, all numbers of shares", "why_tests_cant": "the tests call these functions with arguments of the right lengths", "anchors": ["poc/vdaf_poc/flp_bbcggi19.py:FlpBBCGGI19.prove", "poc/vdaf_poc/flp_bbcggi19.py:FlpBBCGGI19.query", "poc/vdaf_poc/flp_bbcggi19.py:FlpBBCGGI19.decide", "poc/vdaf_poc/flp_bbcggi19.py:Valid.check_valid_eval"]}
{"id": "C100", "title": "The results of Prio3 for the parts of a batch add up", "statement": "If the measurements of a batch are those of two other batches, in any order, then each number in the result of the batch is the sum, modulo the modulus of the field, of the corresponding numbers in the results of the two; it is the sum itself if no number in the aggregate of the measurements reaches the modulus. The three batches may be processed with different verification keys, application contexts, nonces and randomness.", "quantifier": "all instances of Prio3 with the circuits of the library, numbers of Aggregators and proofs, keys, contexts, batches of valid measurements of any size and ways to split them, whenever the three runs succeed", "why_tests_cant": "the tests run single batches of a few measurements", "anchors": ["poc/vdaf_poc/vdaf.py:run_vdaf", "poc/vdaf_poc/vdaf_prio3.py:Prio3.agg_update", "poc/vdaf_poc/vdaf_prio3.py:Prio3.merge", "poc/vdaf_poc/vdaf_prio3.py:Prio3.unshard"]}
