# Formal model of google/shell-encryption in Lean 4

## Layout

* `lean/Verif/Model/*`  executable model of the C++ code; each definition cites file and lines.
* `lean/Verif/Spec/*`   small independent specifications (what a property means).
* `lean/Verif/Lemmas/*` helper lemmas.
* `lean/Verif/Props/*`  property theorems (`cNN_...`), each with an `example` showing its hypotheses are met.
* `MANIFEST.json` maps each property of `properties.jsonl` to exact theorem names.
* `seeded/LOG.jsonl` records seeded-bug experiments on scratch copies of the model.

## Conventions

* A C++ call is a function into `Outcome a`: `ok v`, `err status` (absl::Status without its message) or `ub kind`
  (undefined behaviour: signed overflow, out-of-bounds access, division by zero, over-wide shift).
* Unsigned words are naturals with explicit truncation `% 2^w`. The width `w` is a parameter; 16, 32, 64 and 128 are instances.
* Polynomials above the NTT layer are vectors over `ZMod q`: the raw-word layer is proved to refine it.
* Randomness is an explicit argument (a stream or the sampled polynomials), so every theorem holds for every outcome.
* Floating point: error estimates (C65, C66) and Gaussian parameters (C64) are idealised as real numbers; the CDT table is a parameter in C41 and C63 and built from real numbers in C70 and C71; the RNS rounding
  estimate is a parameter with a stated error bound, which C80 proves for IEEE double arithmetic. Rounding of the error estimates is the subject of C96; elsewhere rounding of doubles is not modelled.

## Properties: what is modelled and how it is proved

* **C01** Import/export round trip of modular integers. Model the parameter record and ImportInt/ExportInt on w-bit naturals with explicit truncation; prove via the Montgomery representation x -> x*2^-w in ZMod N.
* **C02** Parameter creation accepts exactly the supported moduli and precomputes correct constants. Model Create and the Inverses loop step by step; loop invariant 2^(w-i)... by induction on the iteration count.
* **C03** Add, Sub, Mul, MulConstant and FusedMulAdd are exact modular arithmetic. Model every member on raw words (truncating at w and 2w bits); prove value and reducedness for all w, N.
* **C04** Modular integer arithmetic has no undefined behaviour. C++ integer promotion of 16-bit words is modelled; signed overflow is the outcome `ub`. Violated for Uint16 FusedMulAddInPlace: prove a witness, plus a _partial theorem for all other widths.
* **C05** Negation and equality agree with residues. Model Negate literally (modulus - n). Equality on raw words. Violated at 0: witness plus _partial for non-zero.
* **C06** Barrett reductions return the canonical residue. Model both reductions literally; floor-quotient error bounds.
* **C07** Modular exponentiation and inverses. ModExp loop as recursion on the exponent's bits; extended Euclid loop with invariants; Fermat for the prime case.
* **C08** Batch operations agree with scalar operations element-wise and reject mismatched sizes. Batch loops as list recursion returning Outcome; element-wise theorem and exact error condition.
* **C09** TranscribeBits is a loss-free re-chunking of the bit stream. Model the two nested loops of TranscribeBits on machine words; specification is a bit-string (List Bool) re-chunking; refinement proof. Zero widths are division by zero: witness.
* **C10** Serialisation of modular integer vectors round-trips. Serialisation is TranscribeBits at width log_modulus; round trip corollary. Non-canonical deserialisation: witness.
* **C11** uint256 arithmetic is arithmetic modulo 2^256. uint256 as a pair of 128-bit halves; each operator literally; value map to naturals mod 2^256.
* **C12** Bit utilities count correctly. SWAR popcount and binary-search CLZ modelled literally on naturals; spec = sum of bits / Nat.log2.
* **C13** Primitive root search and NTT tables. Root search loop modelled; existence from cyclicity of units; bitrev as loop over bits.
* **C14** ForwardNTT evaluates at the odd powers of psi. Both transforms modelled as the iterative in-place loops with lazy butterflies on raw words; refinement to loops over ZMod q, then induction over layers to evaluation at odd powers of psi.
* **C15** InverseNTT and ForwardNTT are mutually inverse. From C14 and the inverse butterflies undoing the forward ones layer by layer.
* **C16** Polynomial multiplication is multiplication modulo X^n+1. Evaluation at the n roots of X^n+1 is a ring homomorphism and injective on length-n vectors.
* **C17** Polynomial operations reject mismatched lengths without side effects. Outcome-valued model of each operation; exact characterisation of the error branch.
* **C18** Substitute(k) maps f(X) to f(X^k). Index permutation of Substitute modelled literally; evaluation argument.
* **C19** Decryption inverts encryption. Encrypt/Decrypt/RemoveError modelled on coefficient lists over ZMod q; error removal lemma on integers.
* **C20** Homomorphic addition, subtraction and negation-free linear operations. Ciphertext = list of polynomials + power; decryption = sum c_i s^i; list induction.
* **C21** Homomorphic absorption and multiplication. Tensor loop modelled; convolution of lists equals product of evaluations at s.
* **C22** Lazy fused absorb-add accumulations equal eager ones and stay in bounds. State machine with lazy components; simulation of eager run; out-of-bounds access is `ub`; witness for growing component counts.
* **C23** Lazy polynomial accumulation never overflows and exports the exact sum. State = (coefficient, level); invariant coefficient <= level*2^(2 log q) < 2^(2w-1) by induction on the history.
* **C24** Modulus switching preserves the plaintext. Coefficient-wise model; integer argument. Violated when p > q: witness.
* **C25** Key substitution and key addition. Uses C18 and C20.
* **C26** Base decomposition recomposes. Digit loop modelled; induction on number of digits.
* **C27** Relinearization preserves the plaintext. Key generation and ApplyTo as matrix products over the ring; exact algebraic identity. Shorter ciphertexts are rejected although documented as accepted: witness.
* **C28** Galois keys move a substituted ciphertext back to the base key. Instance of C27 with the substitution power check. Bases of 2^31 and more: witness of undefined behaviour.
* **C29** Serialised keys and ciphertexts deserialise to the same object. Component-wise round trips. AuxMod key: loop bound drops components: witness plus _partial.
* **C30** Auxiliary-modulus key switching preserves the plaintext. Exact identity over the integers/ring for ApplyTo and ConvertToMainModulus.
* **C31** Oblivious expansion expands a one-hot selection. Expansion recursion modelled on plaintext semantics and on ciphertexts via an abstract Galois step; induction on levels. Early return: witness.
* **C32** The single-generator expander reaches every needed substitution power. Loop modelled; order of 5 in (Z/2^k)^*.
* **C33** Balanced modulus conversion preserves the centred integer. Integer arithmetic on residues.
* **C34** Public-key encryption decrypts correctly. Algebraic identity plus C19's error removal.
* **C35** Compressed ciphertext expansion replays the pad. PRNG as a deterministic state; both sides consume the same stream; induction on the list.
* **C36** PRNG output depends only on the seed and the position. Buffer/position/salt counter state machine refines an infinite byte stream; ChaCha/HKDF block function is a parameter.
* **C37** Thread-safe PRNGs hand out each stream byte once under every schedule. Interleaving semantics of mutex-protected calls; every schedule linearises; induction on schedules. The mutex itself is trusted.
* **C38** Sampled errors are bounded centred binomials. Per-coefficient loop over 64/8/<8-bit chunks modelled on unsigned words.
* **C39** Uniform ternary sampling. Rejection loop over a stream of word pairs; counting theorem.
* **C40** Random residues are reduced and unbiased. Rejection loop over a stream; result characterised as the first accepted draw; masks.
* **C41** Iterative Gaussian sampler equals the recursive definition. Both the recursive and the iterative (bit-trick) version modelled over a stream; refinement.
* **C42** CRT interpolation inverts residue decomposition. Fold modelled with explicit big-integer width; Chinese remainder theorem.
* **C43** RNS polynomial operations act modulo every prime and report every mismatch. Outcome-valued residue-wise model. Negate ignores an error status and Add does not compare representations: witnesses.
* **C44** RNS substitution agrees across all moduli. Index that is not reset between moduli returns to its start after n steps; then C18 per modulus.
* **C45** BGV modulus reduction preserves the plaintext residue. Residue-level model and integer-level theorem through CRT.
* **C46** BFV modulus reduction is rounding division. As C45.
* **C47** RNS basis conversion. Residue-level model; floating-point estimate is a parameter constrained by an error bound (proved for doubles in C80).
* **C48** RNS BGV encoding and decoding round-trip. Composition of encode, encrypt identity, ModReduceLsb chain and RemoveErrorOnMsb.
* **C49** BFV encoding scales by Q/t and decoding rounds back. Exact integer characterisation of the scaled encoding; rounding argument.
* **C50** Finite field encoder slots. Powers of 5 and -5 mod 2n enumerate the odd residues; int overflow at log_n = 15 is `ub`: witness.
* **C51** RNS gadget decomposition recomposes. Digits per modulus; CRT idempotents.
* **C52** RNS Galois and relinearization keys preserve the plaintext. Ring identities; relinearization index uses the ciphertext degree in place of the gadget dimension: witness for degree 3 plus _partial.
* **C53** RNS ciphertext algebra. A ciphertext stands for the integer polynomial c_0 + c_1 s + ..; every operation is a ring operation on it (c53_add, c53_mul, ..); any computation by induction over its syntax (c53_circuit), then decoding (c53_bgv_slots).
* **C54** RNS context constants are the mathematical constants. Defining equations from the model of the generation loops; duplicate moduli accepted: witness.
* **C55** RNS encryption and decryption round trip. Sampling, encryption and decryption composed on integer polynomials with explicit noise; the draws of the generators are arguments.
* **C56** RNS substitution and modulus reduction of ciphertexts. Phase after substitution and after dropping a modulus; `power * k` in an int overflows at log_n = 15: witness plus _partial.
* **C57** BFV products hold the product of the messages. Phases of the operands in both bases, the exact tensor product, and the three roundings; noise bound by the 1-norm of the secret; induction over computations.
* **C58** Lazily reduced RNS polynomials give exact sums of products. Invariant over accumulations: every coefficient is congruent to the sum and at most level times the square of the modulus; the maximal level keeps that below 2^(2w-1).
* **C59** SIMD kernels equal the scalar code. Vector registers as functions on lanes, Highway operations as documented, lane count as a parameter; lane by lane equality with the scalar code, carries by word arithmetic; two 64-bit lanes: the property fails for any result of the unspecified shuffle.
* **C60** RNS serialization round trip. Round trip of each vector (C10), lists by induction; witnesses for log_n above 30 (over-wide shift), constants, and pending lazy operations.
* **C61** Context parameters. RlweContext::Create on size_t arguments with the conversions to int; characterisation of the accepted parameters; witnesses for log_n above 2^32 (truncated, GetN undefined) and for t = q accepted.
* **C62** Signed messages survive wrapping. Integer conversions and C++ promotion rules with widths as parameters; round trip by modular arithmetic; exact condition on the widths, with witnesses for the other combinations.
* **C63** Gaussian RNS polynomials. SampleDiscreteGaussian as a loop over draws; word arithmetic modulo 2^w refines an integer specification of the sampling tree; the number of iterations comes from C64.
* **C64** Gaussian samples have the requested deviation. Doubles idealised as real numbers. Samples as explicit linear combinations of base draws by induction on the level; sum of squared coefficients equals the computed deviation; termination by growth of the levels. Violations: between the base and level 1 the deviation is the base's, and just above a level it is more than twice the request.
* **C65** Error estimates bound the noise. error_params.h over the real numbers; ciphertexts paired with their estimate. Specification: the largest absolute value of the noisy plaintext polynomial at the roots of X^n + 1 (Spec/Canonical). Induction over computations; fresh encryptions, key switching and modulus switching under hypotheses on the sampled sizes, with witnesses that they are needed.
* **C66** RNS error estimates bound the noise. rns_error_params.h over the real numbers, RNS ciphertexts paired with their estimate, lazy components included. Same specification as C65. Induction over computations; the four ways in which the code breaks the bound are separate witness theorems.
* **C67** Rejected in-place operations have no effect. Model/InPlace.lean gives every in-place RNS operation with the contents of the object after the call; its results are proved equal to the value-level model. Each operation decides on its error before it changes anything, or cannot fail afterwards; induction over histories of calls. Violations are separate theorems.
* **C68** The shipped parameters are usable. Model/Constants.lean lists the constants. Primality by Lucas certificates evaluated by the kernel (chains for the 59- and 80-bit moduli); the exact acceptance conditions of the constructors (C02, C13, C61, C54) then give success for every type, dimension, plaintext modulus and variance.
* **C69** Printing 256-bit numbers. Model/Print.lean follows operator<< with the local ostringstream as a state (text, showbase, width, fill); printing one absl::uint128 is modelled by the usual digit loop. Specification by Mathlib's Nat.digits. Invariant over the five chunks: the text so far is the numeral of the leading part. std::internal with a 0x prefix violates the property.
* **C70** The base sampler samples from the discrete Gaussian distribution. Model/GaussianTable.lean follows the three loops of Create with doubles idealised as reals. Specification: exp(-x^2/(2s^2)) normalised by its sum over the integers, probabilities by counting the 2^64 random words. The approximate normalisation sqrt(2 pi) s is compared with the exact sum by Poisson summation (Mathlib), the tail beyond 8 deviations by a geometric series, each table entry by counting. For cut-offs that an int does not hold the behaviour is undefined.
* **C71** Gaussian samples of every deviation have the right distribution. On top of C70, C64 and C63: a sample as a function of the list of random words (a generator that returns given words), probabilities by counting lists of words. Closeness is stated for all bounded tests; a two-dimensional Poisson summation (Lemmas/GaussianConv.lean) shows that a*x+b*y for coprime a, b and independent discrete Gaussian x, y is within 2^-70 of a discrete Gaussian when the deviation exceeds 3*sqrt(a^2+b^2), which the choice of the weights guarantees; a hybrid argument over the levels and over successive samples gives the bound.
* **C72** Ciphertext operations on stored words are the ring operations. Word-level model of the ciphertext class (Model/WordCt.lean: components are lists of stored words of any lengths, lazy components are double-word accumulators, error_ in any field). Spec/WordCt.lean says when words carry a ciphertext of residues and states agreement of outcomes; simulation lemmas for every operation against Model/ErrorTrack.lean (the residue model of C19-C25, C65); histories by induction; programs by induction over the syntax with the noisy plaintext as invariant, then the word-level Decrypt of C19.
* **C73** Rejected operations on a symmetric ciphertext have no effect. The same model, which returns the object after a failed call as well. With components of one length every per-component operation fails at the first component or nowhere, so nothing has been changed. Violations in the code, proved as general statements: a rejected sum with a longer ciphertext of another length has already been padded (c73_longer_witness), a rejected lazy absorption has already changed error_ (c73_lazy_witness).
* **C74** Key switching on stored words, and circuits with it. Word-level model of ApplyTo, MatrixMultiply and GaloisKey::ApplyTo (Model/WordSwitch.lean; Create is in Model/Word.lean). Refinement to the model over residues of C27/C28, for creation and for application, with every error branch. Then induction over circuits with the invariant that the words hold a ciphertext whose noisy plaintext is bounded and congruent to the value of the circuit modulo t.
* **C75** Levelled BGV computations from key generation to decryption. Spec/RnsLevelled.lean defines computations as sequences of library calls, their meaning on vectors of slots, and the analysis of the noise; Spec/RnsSession.lean lists the calls that deliver contexts, keys and ciphertexts. Induction over computations with the invariant that a ciphertext is at its level, of its shape, and stands for a noisy plaintext with the right slots and bounded coefficients; the invariants of the inputs and keys follow from the theorems of C50 to C56 about the calls that made them.
* **C76** Levelled BFV computations from key generation to decryption. As C75 (Spec/RnsBfvLevelled.lean): the invariant is that t times the phase is within the analysed noise of the product of the moduli times a polynomial with the right slots (BfvEncrypts of C57). Products use C57, unscaled plaintexts C53 and a new theorem on the unscaled encoding, key switching C52 with unscaled errors, modulus reduction C56.
* **C77** In-place operations whose operands are the same object. Model/Alias.lean: vectors live in a memory, objects are locations, and each iteration of a loop reads its operands from the memory left by the earlier ones. The theorems compare the memory after the call with the value-level models of C08, C16, C67 and C73, for operands that are the object itself or share no memory with it (Spec/Alias.lean), and state that nothing else changed. Proof: an invariant over the loop (the first j elements replaced), then a generic lemma for loops over objects. Violated by the multiplication by a scalar: the lambda in montgomery.cc:378-387 keeps a reference, and Coeffs() is public, so p.MulInPlace(p.Coeffs()[k]) multiplies the elements after k by the square (c77_scalar_self, c77_scalar_violated).
* **C78** Levelled BGV computations on encrypted polynomials. As C75 (Spec/RnsPolySession.lean), with the coefficient encoder: the invariant is that the noisy plaintext is, coefficient by coefficient, the value of the computation in Z_t[X]/(X^n+1), so t need not be prime. The inputs, keys and the result follow from C48, C52, C53, C55 and C56.
* **C79** Levelled BFV computations on encrypted polynomials. As C78 for BFV (Spec/RnsBfvPolySession.lean): the invariant of C76 with the message equal, coefficient by coefficient modulo t, to the value of the computation in Z_t[X]/(X^n+1); plaintexts by C49.
* **C80** Basis conversion with double-precision arithmetic. Model/Double.lean: doubles as rationals, every operation rounds to 53 significant bits, ties to even; Spec/Double.lean: numbers with 53 bits, relative error of conversions. Rounding is nearest (c80_rounding), the error of the sum by induction over the moduli, then C47, C49, C76 and C79 with this estimate.
* **C81** Public-key encryption on stored words, and computations over the wire. Word-level model of PublicRlweKey::Encrypt (Model/WordPublic.lean; Create, Serialize and Deserialize are in Model/Word.lean). Refinement to the model over residues of C34; the sampled key and all samples are small (C38); then the invariant of C74 with encryptions under either key as inputs, and the round trips of C29 for every object that is sent.
* **C82** Key switching with an auxiliary modulus on stored words. Word-level model of AuxModRelinearizationKey::ApplyTo, ConvertToMainModulus and AuxModGaloisKey (Model/WordAux.lean; Create is in Model/Word.lean). Refinement to the model over residues of C30; the division of the noise bound of C30 by the auxiliary modulus, with the sampled key bounded by C38; then the circuit invariant of C74, which is stated for any key-switching procedure, with keys of either kind.
* **C83** Error() and correct decryption hold except with negligible probability. Bytes as a uniformly distributed tape (Spec/Tape.lean). Computations that read a tape are decision trees, and probabilities expectations over trees. Each coefficient of SampleFromErrorDistribution is a sum of independent fair bits (C38), so its moment generating function is at most exp(v s^2 / 2) and a linear form in the coefficients has a subgaussian tail; the modulus at a root of X^n + 1 is bounded by eight linear forms (an octagon), and a union bound over the n roots gives 8 n exp(-30). Encryptions are then followed on stored words (C72, C81) and computations by the invariant of C65.
* **C84** What the parameter sets of the library support. Degree and number of terms of an expression (Spec/Capacity.lean) bound the noise bound of C72 by induction, and a finite table compares it with each modulus; for RNS parameters the analysis of C78 is evaluated for sums of products. Primality of the moduli by Lucas certificates.
* **C85** Calls with parameters in range succeed. Spec/Available.lean: generators that answer, and ranges of parameters. Totality of the samplers by induction over their loops, of the key and gadget creation from the correctness theorems of C48, C51, C52, C54, C55 and C56; the exception (rejection sampling) is kept as a separate outcome.
* **C86** RNS computations over the wire. Spec/RnsWire.lean: sending is serialize followed by deserialize. The round trips of C60 show that what is received equals what was sent, so that C78 and C79 apply to the server; the result of a computation is well-formed at its level and makes the same round trip.
* **C87** Samples, keys and fresh encryptions have the intended distributions. Spec/Law.lean: the two distributions, and what a fresh ciphertext consists of. Samplers are written as decision trees over the bytes they read (Lemmas/Tape.lean); the number of bytes is bounded, so the probability over tapes is the expectation over the tree, and independence is a product of expectations. Candidates of b bits are exactly uniform, popcounts of masked words are exactly binomial, and Vandermonde gives the law of the difference. The eight coefficients of a ternary batch share their rounds: the probability of a vector given the rounds so far is a product over the positions, by induction on the rounds left and independence of the bits of a byte. Injectivity of (a, e) -> (m + t e + a s, -a) transfers the law to ciphertexts.
* **C88** How often the error estimates of RNS ciphertexts are exceeded. The estimates of C66 with the tape semantics of C83 and C87. A fresh ciphertext is an explicit function of the message and of the error polynomial that the tape determines; Hoeffding-type bounds on the values of a random polynomial at the roots of X^n+1 (C83) bound the probability that the error is large. Union bounds give lists of encryptions; the deterministic theorems of C66 then apply to every computation at once. BFV noise is t Phi - Q M, an integer polynomial; induction over computations.
* **C89** No history of calls on RNS polynomials and ciphertexts has undefined behaviour. A program over a store of RNS polynomials: every call of the class as a constructor with its arguments, executed on the store, failed calls leaving the objects in the state the in-place model gives. Invariant: all vectors of an object have 2^log_n elements; induction over the program, one lemma per call that it keeps the invariant and returns a value or an error. The requirements on arguments are a separate predicate; witnesses show that each is needed. Ciphertext histories use the calls of C67.
* **C90** Programs on RNS polynomials compute in the ring. Simulation. The specification is a machine whose objects are integer polynomials with a level and a form, with a partial step function for every call; the store of C89 runs the calls of the library. Relation: the RNS polynomial represents the integer polynomial modulo the first moduli of the chain. One lemma per call (from C43 to C46 and the in-place model of C67), then induction over the program.
* **C91** Oblivious expansion of stored ciphertexts is right end to end. Verif/Model/WordExpand.lean is oblivious_expand.h on vectors of stored words of any length with error estimates. Refinement: a relation between computations that preserves status and undefined behaviour is closed under the loops of the expansion, so the words follow the residue model of C31 and C32 call by call (C72 and C74 for the operations). The end-to-end theorems combine this with a core lemma on noisy plaintexts shared with C31. Estimates by a loop invariant on words alone.
* **C92** Programs on polynomials and symmetric-key ciphertexts compute on the plaintexts. Simulation in two steps. The model is a store of polynomials and ciphertexts with one constructor per call, built from the in-place members of C72 (Model/Store). The specification is a machine on integer polynomials: a ciphertext is its noisy plaintext with the number of components, power, error and pending sum (Spec/Store). Relation: words carry residues, and the phase of the residues under s(X^k) is the noisy plaintext. One lemma per call from C16 to C25 and C72, then induction over the program; a second induction shows that noise that is a multiple of t does not change the run modulo t.
* **C93** Selecting entries of a database with an expanded query returns the entries. Composition of C91 and C92. The expansion is shown to give ciphertexts whose noisy values are congruent to the one-hot vector and bounded, and to leave no pending products; so the store of C92 started with them is related to the machine started with the noisy one-hot vector, and by congruence to the machine started with the one-hot vector itself (ComputesOn in Spec/Select). The selection is one such program: induction over its calls computes the value of the machine, the sum of products with the one-hot vector, and bounds the noisy sum by the noise times the sum of the absolute values of all coefficients.
* **C94** Programs that also relinearize and apply automorphisms compute on the plaintexts. Model/StoreKeys adds ApplyTo of relinearization and Galois keys to the programs of C92. The machine (Spec/StoreKeys) gets, for every call, a noise polynomial e and adds t*e to the value. Simulation: for every key that Create returned (C74 relates its words to a key over residues), C27 gives for each application an e with |e| bounded, so there is a sequence of noises for which the machine ends with the noisy values of the program; the machine without noise is congruent to it modulo t, which gives statuses, shapes and decryptions. Partial because the code rejects ciphertexts with fewer components than parts (c27_shorter_rejected), shifts an int by the base (undefined from 2^31 on, c27_wide_base) and does not compare the powers of s when it relinearizes (c94_power_witness).
* **C95** No program on polynomials, symmetric-key ciphertexts and keys has undefined behaviour. Undefined behaviour is an outcome of its own in the models of C92 and C94 (Model/Store, Model/StoreKeys). Spec/StoreSafe says what a caller has to see to for each call; nothing is required of the contents of the objects. Every function of the model is shown not to end in undefined behaviour (combinators of Lemmas/RnsStore), and the theorem is an induction over the program. A key fits if it was returned by Create (c95_created_key) or by Deserialize for any input (c95_parsed_key). Partial: c95_unchecked_violated has a program with undefined behaviour for each of the conditions.
* **C96** Error estimates computed with doubles stay close to the exact estimates. The models of ciphertexts, keys and expansion are polymorphic in the type of Error(). Model/DoubleError has the type of doubles (real numbers with every operation rounded to 53 significant bits, ties to even, as in C80; unbounded exponent) and the formulas of both headers over any such type; Spec/DoubleError says what k roundings may change, and has the type of counts, where each operation counts its roundings. c96_program runs a program with the three types; it follows from naturality of every operation in homomorphisms of the type (Lemmas/DoubleError). Model/RnsEstimate adds a list of estimates to the programs of C97 and C98; in exact arithmetic these are the estimates of C66 (c96_rns_bgv_rules, c96_rns_bfv_rules), they do not influence statuses and ciphertexts (c96_rns_bgv_objects, c96_rns_bfv_objects), and doubles change them by the counted roundings (c96_rns_bgv_session, c96_rns_bfv_session). Partial: c96_public_key_violated and c96_rns_create_violated overflow an int.
* **C97** Programs on RNS BGV ciphertexts compute on polynomials, with failing calls in between. Model/RnsCtStore is a store of plaintexts and RnsBgvCiphertext objects; every call is the in-place or value version of the member functions of C77 and C56 on objects of the store. Spec/RnsCtStore is the machine: level, components, power, noise bound and polynomial modulo t of every object, with the error of each call decided from those. Each accepted call preserves the relation between an object and the machine's (Lemmas/RnsCtStore, from C43-C56), each rejected one is shown to return the error before it writes; induction over the program. The session (context, keys, encryptions) is that of C78.
* **C98** Programs on RNS BFV ciphertexts compute on polynomials, with failing calls in between. As C97 for RnsBfvCiphertext: Model/RnsBfvStore has the members of that class, with the scaled and the unscaled encodings as plaintexts; the machine of Spec/RnsBfvStore knows for each plaintext whether it is scaled, and takes an unscaled one for noise where a scaled one is expected. Accepted calls: C49, C52, C53, C56, C57; rejections as in C97, with products below the top level from c57_level. The session is that of C79.
* **C99** Programs on packed RNS BGV ciphertexts compute slot by slot, with failing calls in between. The machine on slots is the image of the machine of C97 under evaluation at the odd powers of a root of X^n+1 (Lemmas/RnsSlotStore.map_call), so that the invariant of C97 carries over; the encoder is C50. Where a substitution moves a slot is specified by searching for the place with the right power of 5 (slotSource), and c99_source_rotate/c99_source_swap say what that is for the rotation and the exchange.
* **C100** Programs on packed RNS BFV ciphertexts compute slot by slot, with failing calls in between. As C99, on top of C98: the machine on slots is the image of the machine of C98 (Lemmas/RnsBfvSlotStore.map_call), and the encoder scales the coefficients that C50 finds for the slots.
* **C101** Saving, loading and crashes do not change what programs on RNS BGV ciphertexts compute. Model/RnsDisk adds to the programs of C97 and C99 a list of kept messages, Serialize and Deserialize of C60, and a crash that empties the objects. Spec/RnsDisk is generic in the machine: messages are snapshots. Lemmas/RnsDisk proves the simulation once for relations between objects and the machine's that serialization respects (round trip, and rejection of other numbers of moduli), and it is used with the relations of C97-C100. Protocol buffer bytes are not modelled, as in C60; the keys and the given ciphertexts are not lost in a crash.
* **C102** Saving, loading and crashes do not change what programs on RNS BFV ciphertexts compute. As C101, with the machines of C98 and C100.
* **C103** Saving, loading and crashes do not change what programs on symmetric-key ciphertexts compute. Model/StoreDisk adds to the programs of C94 kept messages of polynomials, ciphertexts and keys, Serialize and Deserialize of C29, and a crash that empties objects and keys. Spec/StoreDisk is the machine of C94 whose messages are snapshots; loading drops what was collected lazily and not merged, and rejects ciphertexts without components or with more than 32768, as the code does. Proved by induction on the program from C94's simulation of single calls, the congruence of the machine with and without noise, and C29's round trips.
* **C104** Error() is a finite number, up to the range of doubles. Model/Ieee is the arithmetic of IEEE 754 doubles with infinities, NaN and gradual underflow (without signs of zeros and infinities: no estimate is negative); the programs of C96 take their estimates from any type with the arithmetic of the code, so they run on it unchanged. Spec/Ieee says when an estimate is ordinary, and gives sizes, an interval arithmetic on exponents. Proved: the constants of the headers never overflow (by a type that carries size, unbounded and bounded value together with their relation), then by induction on the program that each call with an ordinary result computes it without overflow, also in its intermediate products; and the same for symmetric-key programs by the projections of the carrying type. Violated: six squarings of a fresh ciphertext give an infinite Error(), and scaling that by 0 a NaN, which compares false with every bound (c104_overflow_violated).
* **C105** Key switching adds no more noise than the error estimates say. Spec/KeyNoise says what a quiet key is (for all ciphertexts), and what programs with keys compute on slots. A key's noise is the sum of the products of the digits of a component with the errors of the key; the digits are below the base, so the coefficients are at most the base times the sum of the absolute values of all coefficients of all errors. Proved: Create draws these coefficients with the tree of C65 (Lemmas/KeyTail), the expectation of exp(2 |e| / sqrt(v)) bounds the tail of the sum (Chernoff), and the core of C52 and C53 gives the phase of the result for every ciphertext; induction over the program, and a union bound over independent tapes.
* **C106** Key switching of symmetric-key ciphertexts adds no more noise than the error estimates say. Spec/WordKeyNoise says what quiet keys are on stored words, and which circuits switch keys last. As for C105, with the key creation of the Uint modules: Proved that Create draws the coefficients of its errors with the tree of C65 (Lemmas/WordKeyTail, refinement to the ring model of C27 and C28), the same Chernoff bound, digits below the base, induction over the circuit, and a union bound over independent tapes.
* **C107** Switching symmetric-key ciphertexts to a smaller modulus stays within the error estimates. Model/WordKeyMod adds SwitchModulus of a secret key on stored words; Spec/ModulusNoise says what a short key is. Proved from c24_switch_modulus_partial and the refinement of C72 that each rounding adds at most (t+1)/2+1 per coefficient, times the 1-norm of the key, and that B_scale is larger if the key is short; that Sample returns short keys by a Chernoff bound on the sum of the absolute values of the coefficients (the tree of C65); for circuits by the theorem behind C106. Three components: the negation, by running the model (Props/ModulusNoiseWitness).
* **C108** Modulus reduction of RNS ciphertexts stays within the error estimates. Spec/LevelNoise repeats ModReduce of ciphertext and key. Proved by induction from c56_modReduce_bgv: one reduction adds at most t/2 times 1 + |s| + .., and the rest is at most halved as the moduli are at least 2 t, so an Error() above t (1 + |s| + ..) stays a bound. That key switching raises Error() that far from the formula of the bound on key switching; that keys are short by the Chernoff bound behind C105; programs by the theorem behind C105; programs on several levels (Spec/LevelProgram) by induction, with the number of moduli as an index. BFV (Props/BfvLevelNoise): the same from c56_modReduce_bfv, for the distance of t times the polynomial from Q times the message. Fresh ciphertexts need not meet the condition: B_secret_key grows with sqrt n, |s| with n.

## Trusted base

* Lean 4.33.0 kernel; axioms at most `propext`, `Classical.choice`, `Quot.sound`.
* The reading of the C++ source embodied in `lean/Verif/Model`.
* Standard-library and third-party behaviour as documented: absl::Status, containers, Highway SIMD operations (C59 takes the documented
  meaning of each lane operation).
* The axioms of every theorem named in MANIFEST.json are among the three above; no theorem uses `sorry`, compiled evaluation or a new axiom.

### Modelled

Every function of the following files that computes something is a definition in `lean/Verif/Model`, with the lines it models in its comment:
`bits_util.h`, `int256.{h,cc}`, `montgomery.{h,cc}`, `ntt_parameters.{h,cc}`, `dft_transformations.h`, `polynomial.h`, `opt/*`,
`transcription.h`, `sample_error.h`, `symmetric_encryption.h`, `symmetric_encryption_with_prng.h`, `modulus_conversion.h`, `gadget.h`,
`relinearization_key.{h,cc}`, `galois_key.h`, `aux_relinearization_key.{h,cc}`, `aux_galois_key.h`, `public_key_encryption.{h,cc}`, `oblivious_expand.h`,
`context.h`, `error_params.h`, `prng/*` (up to the block functions), `sampler/*`, and the `rns` directory
(polynomials, contexts, encoders, ciphertexts, keys, gadgets, lazy polynomials, SIMD kernels, serialization, error estimates, error distribution).

Simplifications, repeated in the comments of the definitions concerned:

* The non-RNS layers above the NTT are modelled twice: on residue vectors over `ZMod q`, where the algebra is proved, and on stored words
  (`Model/Word*`, `Model/Store*`), which are proved to refine the residue vectors. The RNS layer is word level throughout.
* Operations that update an object in place return a new object; the contents of an object after a failed in-place operation are modelled for RNS polynomials and ciphertexts (`Model/InPlace`, C67; `Model/RnsStore`, C89) and for the other ciphertexts (`Model/WordCt`, C72 and C73; `Model/Store`, C92). That operands which are the changed object itself are read as before the call is C77.
* Pointers are values; null checks are modelled where the code makes them, dangling pointers are not.
* The SIMD kernels are modelled for an arbitrary lane count; reads past the end of a mask table by `LoadMaskBits` are noted in `Model/Simd`.

### Not modelled

Protobuf wire encoding (messages are records), logging, the ChaCha20 and HKDF block functions (parameters), the operating
system's random source, mutex implementation (C37 models lock regions as atomic steps), rounding of doubles outside C80, C96 and C104,
test helpers and benchmarks.

## Disagreements between the code and its documentation

Each is a theorem about the model of the code as it is; the property it breaks is marked `partial` in MANIFEST.json.

* **C04** False as stated: FusedMulAddInPlace on Uint16 multiplies two full words as signed int. Proved: every other member, all other widths, the exact condition for 16 bits, absence for moduli 1 mod 256, and a concrete violation.
* **C05** Negation of residues proved. Equality is false as stated: 0 and Negate(0) differ under operator==; proved on canonical words together with the violation.
* **C09** Proved for positive chunk widths and sizes whose bit counts fit an int; zero or negative widths and overflowing sizes are shown to be undefined behaviour in the code.
* **C10** Round trip and rejection proved. Deserialize does not check the range: words up to 2^log_modulus-1 are accepted (counterexample proved).
* **C100** Missing, because the code violates it: a product in place of a reduced ciphertext with a plaintext for its moduli fails but leaves a component in coefficient form (c67_bfv_level_violated); such calls are excluded by BfvInPlaceProper, as in C98.
* **C102** Missing, because the code violates it, as in C98 and C100: a product in place of a reduced ciphertext with a plaintext for its moduli fails but leaves a component in coefficient form (c67_bfv_level_violated).
* **C103** Missing, because the code violates it: products that FusedAbsorbAddInPlaceLazily collected before a save are lost by it, while Error() still counts them (c103_pending_witness; the theorem has this behaviour in its machine, as it has that ciphertexts without components are saved and not loaded, c29_empty_ciphertext_violated); and keys applied to a ciphertext under another power of the secret, as in C94 (c94_power_witness).
* **C104** Missing, because the code violates it: estimates that leave the range. Six squarings of a fresh ciphertext with 40-bit plaintexts, all of which succeed, make Error() infinite, and AbsorbInPlace of the scalar 0, which succeeds as well, makes it a NaN (c104_overflow_violated).
* **C22** False in general: accumulating a ciphertext with fewer components than the accumulator reads out of bounds (proved for every such pair). Proved for non-decreasing component counts.
* **C24** Proved for a new modulus not larger than the old; for larger ones the switch is accepted but wrong (witness).
* **C25** Proved while the product of the powers fits an int; at the largest ring dimension it overflows (proved).
* **C27** Proved for ciphertexts with exactly as many components as the key has parts and decomposition bases below 2^31. The claim that shorter ones are accepted is false: c27_shorter_rejected shows that every shorter ciphertext is rejected. c27_wide_base: a key with a wider base is created, and applying it shifts an int out of range (undefined behaviour) in the error estimate.
* **C28** Proved for decomposition bases below 2^31. c28_wide_base: applying a key with a wider base is undefined behaviour (shift of an int in the error estimate).
* **C29** Proved for polynomials, relinearization, Galois and public keys without restriction. The code violates it for keys with an auxiliary modulus and other than one component (c29_aux_violated), keys with log_t >= log_modulus (c29_key_violated) and empty ciphertexts.
* **C31** Decomposition bases below 2^31 (see C28). Proved whenever the number of inputs differs from the requested number of outputs (or no level is requested). Otherwise the claim is false: c31_early_return and c31_single_entry_witness show that nothing is expanded. c31_missing_key_witness: an expander with too few keys has undefined behaviour. c31_levels_witness: 31 levels pass the argument checks for an even number of ciphertexts and the program ends with an exception.
* **C36** The block functions (HKDF, ChaCha20) are parameters. Partial: the statement holds up to 2^31 - 1 refills; c36_refill_overflow proves that the next one is a signed overflow in the code.
* **C38** Proved for 2*variance <= modulus; c38_small_modulus_violated is a counterexample for a smaller modulus (no check in the code).
* **C41** Proved for at most 30 iterations; c41_iterations_overflow: undefined from 31 on. The floating-point weights are parameters.
* **C43** The arithmetic is proved in full. The code violates the rejection part: Negate discards the status of NegateInPlace and returns the unchanged polynomial (c43_negate_ignores_mismatch); Add and Sub accept operands in different forms (c43_add_mixed_forms_witness).
* **C48** Proved for t at most the first modulus; the contexts accept larger t and then decoding is wrong (c48_large_t).
* **C49** The floating-point estimate is a parameter with error bound epsilon (proved for double arithmetic in C80). Scaled encoding at a lower level is rejected by the code although its documentation admits it (c49_encode_level).
* **C50** Everything is proved for log_n up to 14; at log_n = 15 Create overflows an int (c50_create_overflow).
* **C52** Galois keys in full. Relinearization for ciphertexts of degree at most 2 (or equal to the gadget dimension); for degree 3 and more the property is false: the code indexes the key by the ciphertext degree in place of the gadget dimension (c52_relin_out_of_bounds, c52_relin_wrong). A deserialized Galois key with too few components is read out of bounds (c52_short_key).
* **C54** The inverses need distinct primes that do not divide t; Create checks neither (c54_duplicates).
* **C56** Substitution needs power * k < 2^31, else the code overflows an int (c56_substitute_overflow); that covers every history for log_n up to 14.
* **C59** Proved for lane counts divisible by four. With two 64-bit lanes (128-bit vectors) the property is false (c59_two_lanes).
* **C60** Round trips for 2 to 2^15 coefficients. Violations proved: log_n of 31 or more is undefined behaviour (c60_wide_shift), constants do not survive (c60_constant), pending lazy products are dropped (c60_pending_lost). The double error estimate is modelled in C96.
* **C61** For log_n and log_t in the int range; above it the code truncates (c61_wide_parameters), and a plaintext modulus as large as the modulus is accepted (c61_no_noise). The double-valued error bounds are modelled in C96.
* **C62** For odd moduli that fit the signed type, or the unsigned type of its width when the arithmetic is unsigned; c62_exact proves that for all other combinations the property is false (c62_narrow is an instance).
* **C64** Doubles are idealised as real numbers. From one iteration on the deviation is at least the requested one and the final weight is the least possible; it is not equal to it (c64_overshoot), and with no iteration it is below it (c64_undershoot).
* **C65** Doubles are idealised as real numbers. The propagation through all operations is proved in full (c65_computation, c65_decrypt). That fresh ciphertexts, absorbed plaintexts, key switching and modulus switching stay within the estimated bounds is only true with high probability: the theorems assume the sampled polynomials have the assumed size, and c65_fresh_witness and c65_plaintext_witness show samples and plaintexts that do not. The probabilities are bounded in C83 (fresh ciphertexts), C106 (key switching) and C107 (modulus switching of two components; for three, c107_product_witness shows a fresh product that no longer decrypts).
* **C66** Doubles are idealised as real numbers; BFV estimates are those of c66_bfv_*. The code violates the property in several ways, each proved: the estimates use log_t squared in place of t (c66_export_t, c66_fresh_witness), absorbing an integer scalar z multiplies the estimate by z/2 (c66_scalar_witness), adding a plaintext leaves the estimate unchanged (c66_plain_witness), and the first lazily absorbed product is not counted (c66_lazy_witness). Proved: propagation through every other operation, and fresh encryptions, key switching and modulus reduction for samples of the assumed size and t at most log_t squared.
* **C67** Proved for ciphertexts whose components have one form and dimension and for well-formed polynomials of the dimension of the moduli. The code violates the property elsewhere, each proved: AbsorbInPlace after SetPadComponent with a pad in coefficient form multiplies the first component and fails (c67_mixed_violated); ScaleAndReduceRnsBasisInPlace multiplies by t before it checks the auxiliary polynomial (c67_scale_violated); BFV AbsorbInPlace below the top level fails and leaves the first component in coefficient form (c67_bfv_level_violated); conversions of polynomials longer than the ring and approximate modulus reduction with an auxiliary part of another dimension fail midway (c67_longer_violated, c67_approx_violated).
* **C69** Missing: std::internal with showbase in hexadecimal, where the code pads before the 0x instead of after it (c69_internal, c69_internal_violated). Printing of one absl::uint128 is modelled by its specification.
* **C70** Missing: deviations whose cut-off 8*ceil(s) does not fit an int, where Create has undefined behaviour (c70_create_overflow). Also observed: samples may exceed the cut-off by one (c70_beyond_cut_off). Doubles are idealised as reals.
* **C73** Missing: sums with a longer ciphertext whose polynomials have another length, which leave zero components behind (c73_longer_witness), and lazy absorption of polynomials that do not fit, which has already changed the error estimate (c73_lazy_witness).
* **C77** Violated when a polynomial is multiplied in place by a reference to one of its own coefficients: the later elements are multiplied by its square.
* **C88** The theorems are complete for the operations the statement lists. It is partial like C66: the BGV estimates use the square of the logarithm of t in place of t, so plaintext moduli above that are excluded (c66_export_t, c66_fresh_witness), BGV plaintext additions and scalars break the estimates (c66_plain_witness, c66_scalar_witness), and key switching, which the canonical-embedding norm does not bound for all ciphertexts, is the subject of C105.
* **C89** Partial because the library leaves to the caller that vectors, moduli and tables have the dimension of the polynomial: the witnesses show the undefined behaviour otherwise (out-of-bounds access, division by a zero plaintext modulus, signed overflow of 2n at n = 2^30, a ciphertext without components). The conversion of the floating-point estimate of a basis conversion to an integer is an arbitrary function here and its range is not checked (C80 covers it).
* **C91** The end-to-end theorems exclude queries of a single entry with compression, which the code does not expand (c31_single_entry_witness), and for the generator the last level, which it cannot do (c32_levels). Bases of 2^31 and more are excluded as in C74.
* **C93** Partial exactly where C91 is: queries of a single entry with compression are not expanded by the code (c31_single_entry_witness), and with the key for the generator the last level cannot be done (c32_levels).
* **C94** Missing, because the code violates it: keys of base 2^31 and more (c27_wide_base), ciphertexts with fewer components than the key has parts (c27_shorter_rejected; the machine of the theorem rejects them), and relinearization of ciphertexts under another power of s, which the code does not detect (c94_power_witness).
* **C95** Missing, because the code does not check it (c95_unchecked_violated): transforming an empty vector or one longer than the NTT tables, substituting in polynomials that are neither empty nor of the dimension of the tables, lazy sums whose summands get shorter, substituting in a ciphertext without components or with a product of powers that is not an int, and applying a key to a ciphertext with empty or too long polynomials.
* **C96** Missing, because the code violates it: 72 * dimension * variance overflows an int in the public B_publickey_encryption (c96_public_key_violated), and 72 * dimension in RnsErrorParams::Create with log_n of 25 and more (c96_rns_create_violated). Overflow and underflow of doubles are the subject of C104.
* **C98** Missing, because the code violates it: a product in place of a reduced ciphertext with a plaintext for its moduli fails but leaves a component in coefficient form (c67_bfv_level_violated); such calls are excluded by BfvInPlaceProper. As in C97, programs in which the product of two powers overflows an int are excluded, and for n <= 2^14 there are none (c98_substitute_proper).
