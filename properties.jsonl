{"id": "C01", "title": "Import/export round trip of modular integers", "statement": "For every word width and every modulus accepted by MontgomeryIntParams::Create, MontgomeryInt::ImportInt(n).ExportInt() equals n mod modulus, and the stored representation is smaller than the modulus; ImportZero and ImportOne export 0 and 1 mod modulus.", "quantifier": "all word widths w, all accepted moduli N, all w-bit integers n", "why_tests_cant": "the input space is 2^w values for each of ~2^(w-3) moduli, w up to 128", "anchors": ["shell_encryption/montgomery.h:MontgomeryIntParams::ExportInt", "shell_encryption/montgomery.cc:MontgomeryInt::ImportInt", "shell_encryption/montgomery.cc:ImportZero", "shell_encryption/montgomery.cc:ImportOne"]}
{"id": "C02", "title": "Parameter creation accepts exactly the supported moduli and precomputes correct constants", "statement": "MontgomeryIntParams::Create succeeds exactly for odd moduli below 2^(w-2), and then inv_modulus and inv_r satisfy 2^w*inv_r = modulus*inv_modulus + 1 with inv_r < modulus, and all Barrett constants are the exact floor quotients.", "quantifier": "all word widths and all w-bit candidate moduli", "why_tests_cant": "the extended-gcd loop must maintain its invariant for every modulus", "anchors": ["shell_encryption/montgomery.cc:MontgomeryIntParams::Create", "shell_encryption/montgomery.cc:MontgomeryIntParams::Inverses", "shell_encryption/montgomery.h:MontgomeryIntParams"]}
{"id": "C03", "title": "Add, Sub, Mul, MulConstant and FusedMulAdd are exact modular arithmetic", "statement": "On fully reduced operands, AddInPlace, SubInPlace, MulInPlace, MulConstantInPlace, FusedMulAddInPlace and FusedMulConstantAddInPlace return a fully reduced value whose export is the corresponding operation of the exported operands mod the modulus. No intermediate result wraps around in the double-width type.", "quantifier": "all widths, all accepted moduli, all pairs/triples of residues", "why_tests_cant": "quadratically or cubically many operand combinations of 16 to 128 bit values", "anchors": ["shell_encryption/montgomery.h:AddInPlace", "shell_encryption/montgomery.h:SubInPlace", "shell_encryption/montgomery.h:MulInPlace", "shell_encryption/montgomery.h:MulConstantInPlace", "shell_encryption/montgomery.h:FusedMulAddInPlace", "shell_encryption/montgomery.h:FusedMulConstantAddInPlace"]}
{"id": "C04", "title": "Modular integer arithmetic has no undefined behaviour", "statement": "Evaluating the arithmetic members of MontgomeryInt on representable operands never executes a C++ expression with undefined behaviour, for every instantiated word type including 16-bit words that are promoted to signed int.", "quantifier": "all instantiated widths, all accepted moduli, all reduced operands", "why_tests_cant": "undefined behaviour depends on rare operand values and is invisible to tests compiled without sanitizers", "anchors": ["shell_encryption/montgomery.h:FusedMulAddInPlace", "shell_encryption/montgomery.h:MulInPlace", "shell_encryption/montgomery.h:FusedMulConstantAddInPlace"]}
{"id": "C05", "title": "Negation and equality agree with residues", "statement": "Negate() exports (modulus - x) mod modulus, and two modular integers compare equal with operator== exactly when they represent the same residue, for all values reachable from the public operations.", "quantifier": "all accepted moduli and all residues including zero", "why_tests_cant": "needs the boundary residue and all compositions of operations", "anchors": ["shell_encryption/montgomery.h:Negate", "shell_encryption/montgomery.h:NegateInPlace", "shell_encryption/montgomery.h:operator=="]}
{"id": "C06", "title": "Barrett reductions return the canonical residue", "statement": "BarrettReduce(x) = x mod modulus for every Int x; BarrettReduceBigInt(x) = x mod modulus for every double-width x below 2^(2w-1).", "quantifier": "all widths, all accepted moduli, all single and double-width inputs", "why_tests_cant": "off-by-one quotient errors only occur on sparse inputs of a 2^256 sized domain", "anchors": ["shell_encryption/montgomery.h:BarrettReduce", "shell_encryption/montgomery.h:BarrettReduceBigInt"]}
{"id": "C07", "title": "Modular exponentiation and inverses", "statement": "ModExp(e) is the e-th power for every exponent; MultiplicativeInverse is the inverse for every non-zero residue when the modulus is prime; MultiplicativeInverseFast returns the inverse exactly when the value is coprime to the modulus and an error otherwise.", "quantifier": "all accepted moduli, all residues, all exponents", "why_tests_cant": "loop invariants over unbounded exponents and Euclid sequences", "anchors": ["shell_encryption/montgomery.cc:ModExp", "shell_encryption/montgomery.cc:MultiplicativeInverse", "shell_encryption/montgomery.cc:MultiplicativeInverseFast"]}
{"id": "C08", "title": "Batch operations agree with scalar operations element-wise and reject mismatched sizes", "statement": "BatchAdd, BatchSub, BatchMul, BatchMulConstant, BatchFusedMulAdd and their in-place and constant variants return for every index the scalar result, and return INVALID_ARGUMENT exactly when the vector lengths differ, leaving the destination unchanged.", "quantifier": "all vector lengths and contents", "why_tests_cant": "lengths and contents are unbounded", "anchors": ["shell_encryption/montgomery.cc:BatchAddInPlace", "shell_encryption/montgomery.cc:BatchMulInPlace", "shell_encryption/montgomery.cc:BatchFusedMulAddInPlace"]}
{"id": "C09", "title": "TranscribeBits is a loss-free re-chunking of the bit stream", "statement": "On success TranscribeBits returns ceil(bit_length/output_bits_per_int) integers whose concatenated little-endian bit string is the first bit_length bits of the concatenated input bit string, zero padded; transcribing there and back is the identity; each documented bad argument yields an error and no argument causes undefined behaviour.", "quantifier": "all input vectors, lengths, input and output chunk widths", "why_tests_cant": "bit positions interact with every combination of two chunk widths and a length", "anchors": ["shell_encryption/transcription.h:TranscribeBits"]}
{"id": "C10", "title": "Serialisation of modular integer vectors round-trips", "statement": "DeserializeVector(n, SerializeVector(v)) returns v for every non-empty vector of at most 2^15 reduced modular integers and Deserialize(Serialize(x)) = x; too long or empty vectors are rejected; a deserialised value always represents a residue below the modulus.", "quantifier": "all moduli, all vector lengths and contents, all serialized byte strings", "why_tests_cant": "byte boundaries interact with modulus bit length and vector length", "anchors": ["shell_encryption/montgomery.cc:SerializeVector", "shell_encryption/montgomery.cc:DeserializeVector", "shell_encryption/montgomery.cc:Serialize", "shell_encryption/montgomery.cc:Deserialize"]}
{"id": "C11", "title": "uint256 arithmetic is arithmetic modulo 2^256", "statement": "Construction, comparison, unary minus, bitwise operators, shifts, addition, subtraction, multiplication, increment and decrement of uint256 agree with the mathematical operations modulo 2^256, and / and % satisfy a = (a/b)*b + a%b with a%b < b for every non-zero b.", "quantifier": "all 256-bit operands and all shift amounts", "why_tests_cant": "2^512 operand pairs; carry and alignment bugs are sparse", "anchors": ["shell_encryption/int256.h:uint256", "shell_encryption/int256.cc:DivModImpl", "shell_encryption/int256.cc:Fls256"]}
{"id": "C12", "title": "Bit utilities count correctly", "statement": "CountOnesInByte, CountOnes64, CountLeadingZeros64 and BitLength return the population count, leading zero count and bit length of every input.", "quantifier": "all 8/64/128-bit inputs", "why_tests_cant": "2^64 and 2^128 inputs", "anchors": ["shell_encryption/bits_util.h"]}
{"id": "C13", "title": "Primitive root search and NTT tables", "statement": "For a prime modulus with modulus = 1 mod 2n, n = 2^log_n, InitializeNttParameters returns tables built from an element psi with psi^n = -1; the bit reversal table is the bit reversal involution; a prime modulus not congruent to 1 mod 2n, log_n outside 1..15 or too narrow words are rejected.", "quantifier": "all accepted prime moduli and all log_n", "why_tests_cant": "existence of a root found by a search loop is a number-theoretic fact for infinitely many moduli", "anchors": ["shell_encryption/ntt_parameters.h:InitializeNttParameters", "shell_encryption/ntt_parameters.h:PrimitiveNthRootOfUnity", "shell_encryption/ntt_parameters.cc:Bitrev"]}
{"id": "C14", "title": "ForwardNTT evaluates at the odd powers of psi", "statement": "After ForwardNTT, position bitrev(i) holds the evaluation of the input polynomial at psi^(2i+1), fully reduced, although the butterflies use lazily reduced intermediate values.", "quantifier": "all n = 2^k, all accepted moduli with such a root, all coefficient vectors", "why_tests_cant": "transform correctness for every size needs induction on the layer structure; lazy overflow depends on values", "anchors": ["shell_encryption/dft_transformations.h:ForwardNumberTheoreticTransform", "shell_encryption/dft_transformations.h:IterativeCooleyTukey"]}
{"id": "C15", "title": "InverseNTT and ForwardNTT are mutually inverse", "statement": "InverseNumberTheoreticTransform(ForwardNumberTheoreticTransform(v)) = v and conversely, for all vectors of the table's length; ConvertToNtt followed by InverseNtt returns the original coefficients.", "quantifier": "all n = 2^k, all accepted moduli, all vectors", "why_tests_cant": "all vectors of length up to 2^15 over a 2^126-sized ring", "anchors": ["shell_encryption/dft_transformations.h:InverseNumberTheoreticTransform", "shell_encryption/polynomial.h:Polynomial::InverseNtt"]}
{"id": "C16", "title": "Polynomial multiplication is multiplication modulo X^n+1", "statement": "Polynomial Mul of two NTT-form polynomials, converted back, has the coefficients of the product in Z_q[X]/(X^n+1); Add, Sub, Negate, MulConstant and FusedMulAdd are the ring operations.", "quantifier": "all n, q and all pairs of polynomials", "why_tests_cant": "bilinear identity over all pairs", "anchors": ["shell_encryption/polynomial.h:Polynomial::MulInPlace", "shell_encryption/polynomial.h:Polynomial::FusedMulAddInPlace"]}
{"id": "C17", "title": "Polynomial operations reject mismatched lengths without side effects", "statement": "Every binary polynomial operation returns INVALID_ARGUMENT exactly when the operand lengths differ and otherwise succeeds; the in-place operand is not modified on failure.", "quantifier": "all pairs of lengths and contents", "why_tests_cant": "unbounded lengths", "anchors": ["shell_encryption/polynomial.h:Polynomial"]}
{"id": "C18", "title": "Substitute(k) maps f(X) to f(X^k)", "statement": "For every odd k in [0,2n), Polynomial::Substitute on the NTT form of f gives the NTT form of f(X^k) mod X^n+1; even, negative or too large k is rejected; substituting k then l equals substituting k*l mod 2n.", "quantifier": "all n, q, f and all integers k", "why_tests_cant": "all polynomials and all odd powers", "anchors": ["shell_encryption/polynomial.h:Polynomial::Substitute"]}
{"id": "C19", "title": "Decryption inverts encryption", "statement": "Decrypt(key, Encrypt(key, m)) returns the coefficients of m reduced into [0,t) whenever every coefficient of m + t*e, taken in (-q/2,q/2], does not wrap, for every key, pad and error polynomial.", "quantifier": "all keys, messages, random pads and errors within the noise bound", "why_tests_cant": "all randomness outcomes", "anchors": ["shell_encryption/symmetric_encryption.h:Encrypt", "shell_encryption/symmetric_encryption.h:Decrypt", "shell_encryption/symmetric_encryption.h:RemoveError"]}
{"id": "C20", "title": "Homomorphic addition, subtraction and negation-free linear operations", "statement": "Decrypting the sum or difference of two ciphertexts (of possibly different numbers of components) under the same key power gives the noisy sum or difference of plaintexts; different key powers are rejected.", "quantifier": "all ciphertexts with any number of components, all keys", "why_tests_cant": "unbounded component counts and values", "anchors": ["shell_encryption/symmetric_encryption.h:SymmetricRlweCiphertext::AddInPlace", "shell_encryption/symmetric_encryption.h:SubInPlace"]}
{"id": "C21", "title": "Homomorphic absorption and multiplication", "statement": "Decrypting ciphertext*plaintext multiplies the noisy plaintext by the polynomial; the product of ciphertexts with m and n components has m+n-1 components and decrypts to the product of the noisy plaintexts in Z_q[X]/(X^n+1).", "quantifier": "all ciphertexts with any number of components, all keys and plaintext polynomials", "why_tests_cant": "unbounded component counts", "anchors": ["shell_encryption/symmetric_encryption.h:SymmetricRlweCiphertext::operator*", "shell_encryption/symmetric_encryption.h:AbsorbInPlace", "shell_encryption/symmetric_encryption.h:FusedAbsorbAddInPlace"]}
{"id": "C22", "title": "Lazy fused absorb-add accumulations equal eager ones and stay in bounds", "statement": "Any sequence of FusedAbsorbAddInPlaceLazily calls followed by MergeLazyOperations gives the same ciphertext as the eager FusedAbsorbAddInPlace sequence and never reads outside a component vector.", "quantifier": "all sequences of ciphertext/plaintext pairs", "why_tests_cant": "the history of accumulations is unbounded", "anchors": ["shell_encryption/symmetric_encryption.h:FusedAbsorbAddInPlaceLazily", "shell_encryption/symmetric_encryption.h:MergeLazyOperations"]}
{"id": "C23", "title": "Lazy polynomial accumulation never overflows and exports the exact sum", "statement": "After any number of FusedMulAddInPlace calls, every coefficient of a LazyPolynomial fits the double-width type without wrap-around and Export returns the reduced sum of products.", "quantifier": "all accepted moduli and all histories of accumulations", "why_tests_cant": "overflow only appears after long histories", "anchors": ["shell_encryption/opt/lazy_polynomial.h", "shell_encryption/rns/lazy_rns_polynomial.h"]}
{"id": "C24", "title": "Modulus switching preserves the plaintext", "statement": "SwitchModulus from modulus q to p (with p = q mod t) maps a ciphertext whose noisy plaintext is small to one over p whose noisy plaintext is congruent to the old one mod t and stays within the stated bound; incompatible moduli are rejected.", "quantifier": "all ciphertexts, keys, t, q, p", "why_tests_cant": "all coefficient values and moduli pairs", "anchors": ["shell_encryption/symmetric_encryption.h:SwitchModulus"]}
{"id": "C25", "title": "Key substitution and key addition", "statement": "A ciphertext substituted with power k decrypts under the key substituted with k to the substituted plaintext; ciphertexts under keys s1 and s2 with the same pad add to a ciphertext under s1+s2; adding keys with different variance or plaintext modulus, and substituting with an even or out-of-range power, are rejected.", "quantifier": "all keys, ciphertexts and odd powers", "why_tests_cant": "unbounded inputs", "anchors": ["shell_encryption/symmetric_encryption.h:SymmetricRlweKey::Substitute", "shell_encryption/symmetric_encryption.h:SymmetricRlweCiphertext::Substitute", "shell_encryption/symmetric_encryption.h:SymmetricRlweKey::Add"]}
{"id": "C26", "title": "Base decomposition recomposes", "statement": "BaseDecompose produces ceil(log q / log b) digit vectors, each digit below the base, whose weighted sum with powers of the base is the input.", "quantifier": "all moduli, bases and coefficient vectors", "why_tests_cant": "all residues and bases", "anchors": ["shell_encryption/gadget.h:BaseDecompose", "shell_encryption/gadget.h:GadgetSize"]}
{"id": "C27", "title": "Relinearization preserves the plaintext", "statement": "RelinearizationKey::ApplyTo maps a ciphertext with k components to a 2-component ciphertext whose noisy plaintext under s is the original noisy plaintext plus t times a combination of key errors and base-b digits; ciphertexts with at most the key's number of parts are accepted.", "quantifier": "all keys, ciphertexts, component counts and decomposition bases", "why_tests_cant": "unbounded component counts and all randomness", "anchors": ["shell_encryption/relinearization_key.cc:ApplyTo", "shell_encryption/relinearization_key.cc:RelinearizationKey::Create"]}
{"id": "C28", "title": "Galois keys move a substituted ciphertext back to the base key", "statement": "GaloisKey::ApplyTo on a ciphertext with PowerOfS equal to the key's substitution power gives a ciphertext under s(X) with the same noisy plaintext up to t times small noise; other powers are rejected.", "quantifier": "all keys, powers and ciphertexts", "why_tests_cant": "all randomness", "anchors": ["shell_encryption/galois_key.h:GaloisKey::ApplyTo"]}
{"id": "C29", "title": "Serialised keys and ciphertexts deserialise to the same object", "statement": "Deserialize(Serialize(x)) = x for Polynomial, SymmetricRlweCiphertext, SymmetricRlweKey, RelinearizationKey, GaloisKey, AuxModRelinearizationKey and PublicRlweKey.", "quantifier": "all reachable objects", "why_tests_cant": "unbounded component counts and lengths", "anchors": ["shell_encryption/polynomial.h:Deserialize", "shell_encryption/symmetric_encryption.h:Deserialize", "shell_encryption/relinearization_key.cc:Deserialize", "shell_encryption/aux_relinearization_key.cc:Deserialize"]}
{"id": "C30", "title": "Auxiliary-modulus key switching preserves the plaintext", "statement": "AuxModRelinearizationKey::ApplyTo returns a 2-component ciphertext whose noisy plaintext is congruent mod t to the original (up to the factor fixed by the moduli) with noise added only by the rounding and the key errors.", "quantifier": "all keys, ciphertexts and moduli pairs", "why_tests_cant": "all coefficient values", "anchors": ["shell_encryption/aux_relinearization_key.cc:ApplyTo", "shell_encryption/aux_relinearization_key.cc:ConvertToMainModulus"]}
{"id": "C31", "title": "Oblivious expansion expands a one-hot selection", "statement": "MakeCompressedVector followed by encryption and ObliviousExpand yields total_size ciphertexts, the i-th decrypting to 1 exactly at selected indices and 0 elsewhere; a wrong number of input ciphertexts is rejected; every call with a valid level count expands each ciphertext into 2^levels ciphertexts.", "quantifier": "all levels, sizes, selected index sets", "why_tests_cant": "unbounded sizes and levels", "anchors": ["shell_encryption/oblivious_expand.h:ObliviousExpand", "shell_encryption/oblivious_expand.h:MakeCompressedVector"]}
{"id": "C32", "title": "The single-generator expander reaches every needed substitution power", "statement": "For every expansion level there is a number of applications of the generator-5 Galois key that maps the ciphertext to the needed substitution power, and the number computed is the smallest such number.", "quantifier": "all n = 2^k and all levels", "why_tests_cant": "group-theoretic fact for every size", "anchors": ["shell_encryption/oblivious_expand.h:GaloisGeneratorObliviousExpander"]}
{"id": "C33", "title": "Balanced modulus conversion preserves the centred integer", "statement": "ConvertModulusBalanced maps a residue mod q to the residue mod p of its representative in [-q/2, q/2]; ConvertModulus maps the representative in [0,q).", "quantifier": "all moduli pairs and residues", "why_tests_cant": "all residues", "anchors": ["shell_encryption/modulus_conversion.h"]}
{"id": "C34", "title": "Public-key encryption decrypts correctly", "statement": "Decrypting PublicRlweKey::Encrypt(m) with the matching secret key gives m whenever t*(e*v + e0 + e1*s) + m does not wrap modulo q.", "quantifier": "all keys, messages and randomness", "why_tests_cant": "all randomness", "anchors": ["shell_encryption/public_key_encryption.cc:Encrypt", "shell_encryption/public_key_encryption.cc:Create"]}
{"id": "C35", "title": "Compressed ciphertext expansion replays the pad", "statement": "ExpandFromPrng with the same seed applied to the output of EncryptWithPrng gives exactly the ciphertexts Encrypt would have produced with that pad stream, for every number of plaintexts.", "quantifier": "all seeds, keys, plaintext sequences", "why_tests_cant": "unbounded sequences, stateful generator", "anchors": ["shell_encryption/symmetric_encryption_with_prng.h"]}
{"id": "C36", "title": "PRNG output depends only on the seed and the position", "statement": "The bytes delivered by Rand8/Rand64 calls are the seed's key stream in order regardless of how calls are interleaved, across buffer refills; Rand64 is the little-endian combination of the next 8 bytes; wrong seed sizes are rejected.", "quantifier": "all seeds, all interleavings of Rand8 and Rand64, any number of calls", "why_tests_cant": "unbounded histories across buffer boundaries", "anchors": ["shell_encryption/prng/chacha_prng_util.cc", "shell_encryption/prng/hkdf_prng_util.cc", "shell_encryption/prng/prng.h"]}
{"id": "C37", "title": "Thread-safe PRNGs hand out each stream byte once under every schedule", "statement": "Under any interleaving of threads, each Rand8/Rand64 of the thread-safe generators returns consecutive bytes of the stream that no other call receives, equal to some sequential order of the calls.", "quantifier": "all thread counts, programs and schedules", "why_tests_cant": "schedules cannot be enumerated by tests", "anchors": ["shell_encryption/prng/chacha_prng.cc", "shell_encryption/prng/hkdf_prng.cc"]}
{"id": "C38", "title": "Sampled errors are bounded centred binomials", "statement": "SampleFromErrorDistribution returns for each coefficient the residue of a value in [-2*variance, 2*variance] that is the difference of two bit counts over 2*variance fresh random bits each; variances above the maximum are rejected.", "quantifier": "all variances, moduli, PRNG outputs", "why_tests_cant": "all PRNG outputs", "anchors": ["shell_encryption/sample_error.h:SampleFromErrorDistribution"]}
{"id": "C39", "title": "Uniform ternary sampling", "statement": "SampleFromUniformTernary returns only residues of -1, 0, 1, each produced by the same number of random bit patterns.", "quantifier": "all PRNG outputs and lengths", "why_tests_cant": "all PRNG outputs", "anchors": ["shell_encryption/sampler/uniform_ternary.h"]}
{"id": "C40", "title": "Random residues are reduced and unbiased", "statement": "ImportRandom returns a residue below the modulus and every residue below the modulus is the result of exactly one accepted draw.", "quantifier": "all moduli and PRNG streams", "why_tests_cant": "all PRNG outputs", "anchors": ["shell_encryption/montgomery.h:ImportRandom", "shell_encryption/montgomery.h:GenerateRandomInt"]}
{"id": "C41", "title": "Iterative Gaussian sampler equals the recursive definition", "statement": "The iterative sampler of DiscreteGaussianSampler consumes base samples in the order of, and returns the value of, the recursive combination x = z*x1 + max(1,z-1)*x2 for every number of iterations.", "quantifier": "all iteration counts and base sample sequences", "why_tests_cant": "unbounded recursion depth", "anchors": ["shell_encryption/sampler/discrete_gaussian.cc"]}
{"id": "C42", "title": "CRT interpolation inverts residue decomposition", "statement": "CrtInterpolation of the residues of x returns x for every x below the product of pairwise coprime moduli provided the big integer type is wide enough; mismatched sizes are rejected.", "quantifier": "all moduli lists and all integers below the product", "why_tests_cant": "all residues for any number of moduli", "anchors": ["shell_encryption/rns/crt_interpolation.h:CrtInterpolation"]}
{"id": "C43", "title": "RNS polynomial operations act modulo every prime and report every mismatch", "statement": "Add, Sub, Mul, Negate, scalar multiplication and FusedMulAdd on RNS polynomials act residue-wise as the ring operations modulo Q, and any operand with a different number of moduli or a different representation is rejected with an error.", "quantifier": "all moduli lists, polynomials, representations", "why_tests_cant": "unbounded moduli counts", "anchors": ["shell_encryption/rns/rns_polynomial.h"]}
{"id": "C44", "title": "RNS substitution agrees across all moduli", "statement": "RnsPolynomial::Substitute(k) maps f(X) to f(X^k) modulo every prime modulus.", "quantifier": "all moduli lists, polynomials and odd k", "why_tests_cant": "unbounded moduli counts", "anchors": ["shell_encryption/rns/rns_polynomial.cc:Substitute"]}
{"id": "C45", "title": "BGV modulus reduction preserves the plaintext residue", "statement": "ModReduceLsb replaces an integer a mod Q by an a' mod Q/q_l with a' = a mod t (for the centred representative, when t is invertible mod q_l) and |a'| at most (r|a| + t q_l/2)/q_l.", "quantifier": "all moduli lists, t, coefficient values", "why_tests_cant": "all values", "anchors": ["shell_encryption/rns/rns_polynomial.cc:ModReduceLsb"]}
{"id": "C46", "title": "BFV modulus reduction is rounding division", "statement": "ModReduceMsb replaces a mod Q by the nearest integer to a/q_l mod Q/q_l.", "quantifier": "all moduli lists and values", "why_tests_cant": "all values", "anchors": ["shell_encryption/rns/rns_polynomial.cc:ModReduceMsb"]}
{"id": "C47", "title": "RNS basis conversion", "statement": "ApproxSwitchRnsBasis returns the residues of a + u*Q with 0 <= u < number of moduli (|u| <= half of it when balanced); SwitchRnsBasis returns the residues of the centred representative whenever the floating-point estimate is within the rounding margin; ScaleAndSwitchRnsBasis returns round(P/Q*a).", "quantifier": "all moduli lists and values", "why_tests_cant": "all values; rounding estimate margins", "anchors": ["shell_encryption/rns/rns_polynomial.cc:SwitchRnsBasis", "shell_encryption/rns/rns_polynomial.cc:ApproxSwitchRnsBasis", "shell_encryption/rns/rns_polynomial.cc:ScaleAndSwitchRnsBasis"]}
{"id": "C48", "title": "RNS BGV encoding and decoding round-trip", "statement": "Encrypting with CoefficientEncoder under BGV and decrypting returns the messages mod t whenever the noise fits; message vectors longer than n are rejected.", "quantifier": "all messages, moduli, noise within bound", "why_tests_cant": "all randomness", "anchors": ["shell_encryption/rns/coefficient_encoder.cc", "shell_encryption/rns/rns_secret_key.h:EncryptBgv", "shell_encryption/rns/rns_secret_key.h:DecryptBgv", "shell_encryption/rns/error_correction.h"]}
{"id": "C49", "title": "BFV encoding scales by Q/t and decoding rounds back", "statement": "EncodeBfv maps m to the integer nearest above Q*m/t and DecodeBfv returns m for every encoded value plus noise below Q/(2t) minus one.", "quantifier": "all messages, moduli and noise within bound", "why_tests_cant": "all randomness", "anchors": ["shell_encryption/rns/coefficient_encoder.cc:EncodeBfv", "shell_encryption/rns/coefficient_encoder.cc:DecodeBfv"]}
{"id": "C50", "title": "Finite field encoder slots", "statement": "FiniteFieldEncoder assigns every slot to a distinct NTT position for every supported ring dimension, so encoding and decoding slot vectors is a bijection, and adding or multiplying plaintext polynomials adds or multiplies slots modulo t.", "quantifier": "all supported log_n and slot vectors", "why_tests_cant": "all sizes and slot values", "anchors": ["shell_encryption/rns/finite_field_encoder.cc", "shell_encryption/rns/finite_field_encoder.h"]}
{"id": "C51", "title": "RNS gadget decomposition recomposes", "statement": "For bases 2^b with 0 < b < 31, the inner product of RnsGadget::Decompose(a) with the gadget vector equals a modulo Q, with digits below their bases, at the level of the context and for every polynomial of the gadget's moduli. Mismatched arguments are rejected. A base of 31 bits or more is undefined behaviour, and so is decomposing with more moduli than the gadget was made for.", "quantifier": "all moduli lists, bases, polynomials", "why_tests_cant": "all values", "anchors": ["shell_encryption/rns/rns_gadget.cc"]}
{"id": "C52", "title": "RNS Galois and relinearization keys preserve the plaintext", "statement": "RnsGaloisKey::ApplyTo and RnsRelinKey::ApplyTo return degree-1 ciphertexts with the same noisy plaintext up to error_scalar times digit-weighted key errors, for every ciphertext degree up to the key's degree.", "quantifier": "all keys, ciphertext degrees, gadgets", "why_tests_cant": "unbounded degree and dimension", "anchors": ["shell_encryption/rns/rns_galois_key.cc:ApplyToRlweCiphertext", "shell_encryption/rns/rns_relinearization_key.cc:ApplyToRlweCiphertext"]}
{"id": "C53", "title": "RNS ciphertext algebra", "statement": "For RNS ciphertexts with at least one component, addition, subtraction, negation, absorption, scalar absorption, fused absorb-add and multiplication, in any combination, decrypt to the corresponding computation on the messages, slot by slot, while the noise bound holds; operands with different degree, level or key power are rejected. Ciphertexts without components (CreateZero) are outside: using them is undefined behaviour, which is stated as a theorem.", "quantifier": "all ciphertext degrees and keys", "why_tests_cant": "unbounded degree", "anchors": ["shell_encryption/rns/rns_ciphertext.h"]}
{"id": "C54", "title": "RNS context constants are the mathematical constants", "statement": "Every constant an RnsContext returns (complements, CRT factors, residues of Q and P, inverses) satisfies its defining equation for all accepted moduli lists, and lists for which they do not exist are rejected.", "quantifier": "all moduli lists and plaintext moduli", "why_tests_cant": "all lists", "anchors": ["shell_encryption/rns/rns_context.cc"]}
{"id": "C55", "title": "RNS encryption and decryption round trip", "statement": "For every RNS secret key made by Sample, every list of at most n messages and every outcome of the generators, BGV and BFV encryption with the secret key or a public key made from it succeeds and decryption returns the messages modulo t, if the moduli are large enough for the noise; ciphertexts of another dimension, level or power of the secret are rejected.", "quantifier": "all messages, keys and random choices", "why_tests_cant": "all random choices", "anchors": ["shell_encryption/rns/rns_secret_key.cc", "shell_encryption/rns/rns_public_key.cc", "shell_encryption/rns/rns_bgv_public_key.h", "shell_encryption/rns/rns_bfv_public_key.h"]}
{"id": "C56", "title": "RNS substitution and modulus reduction of ciphertexts", "statement": "Substituting a power into an RNS ciphertext substitutes it into the message and multiplies the recorded power of the secret; modulus reduction keeps the BGV message up to the documented factor and the BFV message, with the documented noise, and never overflows an int.", "quantifier": "all ciphertexts, powers, levels", "why_tests_cant": "all powers and histories of substitutions", "anchors": ["shell_encryption/rns/rns_bgv_ciphertext.h:Substitute", "shell_encryption/rns/rns_bgv_ciphertext.h:ModReduce", "shell_encryption/rns/rns_bfv_ciphertext.h:ModReduce"]}
{"id": "C57", "title": "BFV products hold the product of the messages", "statement": "At the top level, RnsBfvCiphertext Mul and AbsorbInPlace (and any computation built from them and the linear operations) return a ciphertext that decrypts to the product of the messages in every slot, with an explicit noise bound in terms of the operands' noise, the secret and the error of the floating-point estimate; below the top level they are rejected.", "quantifier": "all ciphertexts, degrees, keys, moduli, messages", "why_tests_cant": "all operands and computations", "anchors": ["shell_encryption/rns/rns_bfv_ciphertext.cc:Mul", "shell_encryption/rns/rns_bfv_ciphertext.cc:AbsorbInPlace"]}
{"id": "C58", "title": "Lazily reduced RNS polynomials give exact sums of products", "statement": "Exporting a LazyRnsPolynomial after any number of accumulations returns the sum of the products modulo every modulus, with no wrap-around on the way. Absorbing any list of ciphertexts and plaintexts lazily and merging gives the first component of the inner product, and a Galois key applied with a precomputed random pad gives a ciphertext of the same plaintext within the noise bound of the ordinary application. Mismatched operands, and moduli that leave no room, are rejected.", "quantifier": "all histories of accumulations, moduli lists, operands", "why_tests_cant": "unbounded histories; the reduction happens only every maximal_level steps", "anchors": ["shell_encryption/rns/lazy_rns_polynomial.h", "shell_encryption/rns/lazy_rns_polynomial.cc:FusedMulAddInPlace", "shell_encryption/rns/rns_ciphertext.h:FusedAbsorbAddInPlaceWithoutPadLazily", "shell_encryption/rns/rns_ciphertext.h:MergeLazyOperations", "shell_encryption/rns/rns_galois_key.cc:PrecomputeRandomPad", "shell_encryption/rns/rns_galois_key.h:ApplyToWithRandomPad"]}
{"id": "C59", "title": "SIMD kernels equal the scalar code", "statement": "The vectorised multiply-accumulate used by LazyRnsPolynomial for 32-bit and 64-bit integers changes its output exactly as the scalar loop does, for every vector length, all words and every number of SIMD lanes the target may have.", "quantifier": "all vectors, words, lane counts", "why_tests_cant": "depends on the CPU target; carries between words are rare", "anchors": ["shell_encryption/rns/rns_polynomial_hwy.cc:BatchFusedMulAddMontgomeryRep"]}
{"id": "C60", "title": "RNS serialization round trip", "statement": "Deserializing the serialization of an RNS polynomial, RNS ciphertext or RNS Galois key returns the same object, so that ciphertexts decrypt to the same message; messages that no serialization produces (wrong number of vectors, dimension out of range, too few bytes, no key polynomials, invalid generator type) are rejected and never lead to undefined behaviour.", "quantifier": "all polynomials, ciphertexts, keys, messages", "why_tests_cant": "all objects and all hostile messages", "anchors": ["shell_encryption/rns/rns_polynomial.h:Serialize", "shell_encryption/rns/rns_polynomial.h:Deserialize", "shell_encryption/rns/rns_ciphertext.h:Deserialize", "shell_encryption/rns/rns_galois_key.cc:Deserialize", "shell_encryption/rns/serialization.proto"]}
{"id": "C61", "title": "Context parameters", "statement": "RlweContext::Create succeeds exactly when the modulus, NTT and error parameters are valid for the given log_n, log_t and variance, and rejects everything else; the context then reports n = 2^log_n and t = 2^log_t + 1, allows switching to another modulus exactly when it is congruent to its own modulo t, and has parameters with which encryption is correct.", "quantifier": "all parameter values of the argument types", "why_tests_cant": "all parameter values, including those outside the int range", "anchors": ["shell_encryption/context.h:RlweContext::Create", "shell_encryption/context.h:RlweContext::CanModulusSwitchTo", "shell_encryption/error_params.h:ErrorParams::Create"]}
{"id": "C62", "title": "Signed messages survive wrapping", "statement": "WrapSigned maps every signed message to its residue modulo t and UnwrapToSigned maps every residue to the unique representative in (-t/2, t/2), so messages in that range survive a round trip, for every combination of message type and integer type.", "quantifier": "all messages, moduli and integer types", "why_tests_cant": "all type combinations and boundary values", "anchors": ["shell_encryption/rns/finite_field_encoder.h:WrapSigned", "shell_encryption/rns/finite_field_encoder.h:UnwrapToSigned"]}
{"id": "C63", "title": "Gaussian RNS polynomials", "statement": "SampleDiscreteGaussian returns, in coefficient form, the RNS polynomial whose coefficients are the drawn signed integers modulo every prime; every drawn word is the integer combination of base samples that the algorithm prescribes, modulo the word size, and equal to it if the stated bound fits the word. Invalid arguments are rejected.", "quantifier": "all tables, weights, deviations, moduli, random choices", "why_tests_cant": "all random choices; any number of moduli", "anchors": ["shell_encryption/rns/error_distribution.h:SampleDiscreteGaussian", "shell_encryption/sampler/discrete_gaussian.cc:SampleWithIterations"]}
{"id": "C64", "title": "Gaussian samples have the requested deviation", "statement": "For every base and requested deviation, DiscreteGaussianSampler computes a number of iterations (its loop ends, after at most 13 rounds for any double), and the integer combination of independent base samples that it returns has the requested standard deviation (not below it, and with the least final weight); deviations below the base are rejected.", "quantifier": "all real base and requested deviations", "why_tests_cant": "all deviations; depth of the recursion", "anchors": ["shell_encryption/sampler/discrete_gaussian.cc:NumIterations", "shell_encryption/sampler/discrete_gaussian.cc:SampleIIterative", "shell_encryption/sampler/discrete_gaussian.cc:SampleWithIterations"]}
{"id": "C65", "title": "Error estimates bound the noise", "statement": "The error that a symmetric ciphertext carries bounds its noise: after any computation (addition, subtraction, product, absorption of plaintexts, scalars and monomials, fused and lazy absorption, substitution, relinearization, modulus switching) the noise of the result in the canonical embedding, and so MeasureError, is at most Error(); in particular a ciphertext whose Error() is below q/2 decrypts correctly.", "quantifier": "all computations, ciphertexts, plaintexts, keys, parameters", "why_tests_cant": "unbounded computations; the noise of a sample is far below the estimate", "anchors": ["shell_encryption/error_params.h", "shell_encryption/symmetric_encryption.h:Error", "shell_encryption/relinearization_key.cc:ApplyTo", "shell_encryption/public_key_encryption.cc:Encrypt"]}
{"id": "C66", "title": "RNS error estimates bound the noise", "statement": "The error that an RNS ciphertext carries bounds its noise: after any computation (addition, subtraction, product, absorption of plaintexts, scalars and monomials, fused and lazy absorption, substitution, key switching, modulus reduction) the noisy plaintext polynomial in the canonical embedding is at most Error(), for ciphertexts from secret-key and public-key encryption; in particular a BGV ciphertext whose Error() is below q/2 decrypts correctly.", "quantifier": "all computations, ciphertexts, plaintexts, keys, parameters, moduli chains", "why_tests_cant": "unbounded computations; the noise of a sample is far below the estimate", "anchors": ["shell_encryption/rns/rns_error_params.h", "shell_encryption/rns/rns_ciphertext.h:Error", "shell_encryption/rns/rns_galois_key.h:ApplyTo", "shell_encryption/rns/rns_relinearization_key.h:ApplyTo", "shell_encryption/rns/rns_bgv_ciphertext.h:ModReduce"]}
{"id": "C67", "title": "Rejected in-place operations have no effect", "statement": "When an in-place operation on an RNS polynomial or ciphertext (addition, subtraction, negation, absorption of plaintexts and scalars, fused and lazy absorption, merging lazy operations, form conversions, modulus reduction, basis extension) returns an error status, the object is exactly as before the call; hence after any history of calls the object is the one produced by the successful calls alone.", "quantifier": "all objects, arguments, histories of calls", "why_tests_cant": "every failing path inside every operation; histories of any length", "anchors": ["shell_encryption/rns/rns_polynomial.h", "shell_encryption/rns/rns_polynomial.cc", "shell_encryption/rns/rns_ciphertext.h", "shell_encryption/rns/rns_bfv_ciphertext.cc:AbsorbInPlace"]}
{"id": "C68", "title": "The shipped parameters are usable", "statement": "Every modulus declared in the library's constants is prime and has the documented roots of unity and congruences, so for every integer type with room for it, every dimension up to the declared bound, every plaintext modulus that fits and every admitted variance the context constructors succeed and report these parameters; the declared Montgomery inverse is the one Create computes; the two moduli meant for modulus switching can be switched; the RNS parameter sets give contexts whose constants are right.", "quantifier": "all integer types, dimensions, plaintext moduli and variances up to the declared bounds", "why_tests_cant": "primality of 80-bit numbers; every type, dimension and variance", "anchors": ["shell_encryption/constants.h", "shell_encryption/rns/constants.h", "shell_encryption/context.h:RlweContext::Create", "shell_encryption/rns/rns_context.h:Create"]}
{"id": "C69", "title": "Printing 256-bit numbers", "statement": "Streaming a uint256 writes exactly what the C++ standard prescribes for an unsigned integer: its digits in the base of the stream, the base prefix if asked for, upper or lower case, padded with the fill character to the width on the side of the adjustment; different numbers are written differently.", "quantifier": "all 256-bit values, all stream states (base, showbase, uppercase, adjustment, width, fill)", "why_tests_cant": "2^256 values; digits are pieced together from five chunks whose boundaries matter", "anchors": ["shell_encryption/int256.cc:operator<<"]}
{"id": "C70", "title": "The base sampler samples from the discrete Gaussian distribution", "statement": "For every standard deviation the creation accepts, the probabilities of a base Gaussian sample differ in total from those of the discrete Gaussian distribution (probability of x proportional to exp(-x^2/(2 s^2))) by at most a tiny amount; smaller deviations are rejected and the lookup table is complete and sorted.", "quantifier": "all accepted standard deviations, all sets of results, all integer types that hold the samples", "why_tests_cant": "a distribution over 2^64 random words compared with an infinite sum; no statistical test reaches 2^-48", "anchors": ["shell_encryption/sampler/discrete_gaussian.cc:Create", "shell_encryption/sampler/discrete_gaussian.cc:SampleBase"]}
{"id": "C71", "title": "Gaussian samples of every deviation have the right distribution", "statement": "For every accepted base deviation and every requested deviation not below it, when the integer type holds the samples: the integers that Sample returns are distributed like the discrete Gaussian distribution up to a tiny total difference, which grows by a factor of two per iteration; samples drawn one after the other (the coefficients of a Gaussian polynomial) are independent up to the sum of these differences; from one iteration on the deviation of that distribution is at least the requested one and less than sqrt(5) times it.", "quantifier": "all base and requested deviations, all integer types that hold the samples, all sets of results, any number of samples", "why_tests_cant": "distributions over up to 2^(64*8192) random inputs compared with infinite sums; no statistical test reaches such distances", "anchors": ["shell_encryption/sampler/discrete_gaussian.h:Sample", "shell_encryption/sampler/discrete_gaussian.cc:SampleWithIterations", "shell_encryption/sampler/discrete_gaussian.cc:SampleIIterative", "shell_encryption/sampler/discrete_gaussian.cc:NumIterations"]}
{"id": "C72", "title": "Ciphertext operations on stored words are the ring operations", "statement": "For every supported word size and modulus, every operation of a symmetric ciphertext (addition, subtraction, absorption of plaintexts and scalars, fused, precomputed and lazy absorption, merging, product, substitution, modulus switching) computes on the stored Montgomery words exactly the operation on polynomials modulo q, with the same status and the same error estimate; after any history of calls the object holds what the successful calls compute. Hence any program of additions, subtractions, products and plaintext products run on fresh encryptions decrypts to the program evaluated on the messages modulo X^n+1 and t, as long as its noise bound is below q/2.", "quantifier": "all word sizes, prime moduli, ring degrees, generators, keys, messages, plaintexts, programs and histories of calls", "why_tests_cant": "unbounded programs; all words, including non-canonical representatives; lazy sums that refresh after a number of steps depending on the modulus", "anchors": ["shell_encryption/symmetric_encryption.h:SymmetricRlweCiphertext", "shell_encryption/symmetric_encryption.h:Decrypt", "shell_encryption/polynomial.h", "shell_encryption/opt/lazy_polynomial.h"]}
{"id": "C73", "title": "Rejected operations on a symmetric ciphertext have no effect", "statement": "When an in-place operation on a symmetric ciphertext (addition, subtraction, absorption of plaintexts and scalars, fused, precomputed and lazy absorption, merging lazy operations) returns an error status, the ciphertext, its lazy components and its error estimate are exactly as before the call.", "quantifier": "all ciphertexts and arguments of any lengths, all operations", "why_tests_cant": "every failing path inside every operation, for operands of all shapes", "anchors": ["shell_encryption/symmetric_encryption.h:AddInPlace", "shell_encryption/symmetric_encryption.h:FusedAbsorbAddInPlaceLazily", "shell_encryption/symmetric_encryption.h:MergeLazyOperations"]}
{"id": "C74", "title": "Key switching on stored words, and circuits with it", "statement": "Creating relinearization and Galois keys on stored Montgomery words yields a key over polynomials modulo q with errors of at most twice the variance, and applying one to the stored words of a ciphertext returns exactly what applying it to the polynomials returns: the same status, components, power and error estimate. Hence any circuit of additions, subtractions, products, plaintext products, relinearizations (of ciphertexts with exactly the number of components the key is made for) and automorphisms with Galois keys, run on fresh encryptions with keys whose decomposition base is below 2^31, succeeds and decrypts to the circuit evaluated on the messages modulo X^n+1 and t, as long as its noise bound is below q/2.", "quantifier": "all word sizes, prime moduli, ring degrees, generators, keys, seeds, decomposition bases, substitution powers, messages and circuits", "why_tests_cant": "unbounded circuits; all keys and all words; the noise of key switching depends on secret data", "anchors": ["shell_encryption/relinearization_key.cc:Create", "shell_encryption/relinearization_key.cc:ApplyTo", "shell_encryption/relinearization_key.cc:MatrixMultiply", "shell_encryption/galois_key.h:GaloisKey", "shell_encryption/symmetric_encryption.h:Decrypt"]}
{"id": "C75", "title": "Levelled BGV computations from key generation to decryption", "statement": "If the context, the finite field encoder, the secret key and its reductions to fewer moduli, the public key, relinearization and Galois keys for any number of moduli, and encryptions with the secret or the public key are all obtained from the library, then any computation of negations, sums, differences, products, plaintext vectors, scalars, relinearizations, rotations and exchanges of slots and modulus reductions that combines ciphertexts of equal level and shape runs without error, and decryption with the reduced key returns the same computation on the vectors of messages modulo t, as long as an analysis of the noise that depends only on the parameters is below half the first modulus.", "quantifier": "all parameters, prime moduli, generators, seeds, messages, computations, levels, decomposition bases and rotations", "why_tests_cant": "unbounded computations; the noise depends on secret keys and all samples; every order of relinearization, rotation and modulus reduction", "anchors": ["shell_encryption/rns/rns_context.cc:CreateForBgvFiniteFieldEncoding", "shell_encryption/rns/rns_secret_key.h:EncryptBgv", "shell_encryption/rns/rns_bgv_public_key.h:Encrypt", "shell_encryption/rns/rns_bgv_ciphertext.h:ModReduce", "shell_encryption/rns/rns_relinearization_key.cc:ApplyTo", "shell_encryption/rns/rns_galois_key.cc:ApplyTo", "shell_encryption/rns/rns_secret_key.h:DecryptBgv"]}
{"id": "C76", "title": "Levelled BFV computations from key generation to decryption", "statement": "If the context, the finite field encoder, the secret key and its reductions to fewer moduli, the public key, relinearization and Galois keys for any number of moduli, and encryptions with the secret or the public key are all obtained from the library, then any computation of negations, sums, differences, products with a rescaling, scaled and unscaled plaintext vectors, scalars, relinearizations, rotations and exchanges of slots and modulus reductions that combines ciphertexts of equal level and shape, with products and scaled plaintexts at the full level, runs without error, and decryption with the reduced key returns the same computation on the vectors of messages modulo t, as long as an analysis of the noise that depends only on the parameters is below half the product of the moduli that are left.", "quantifier": "all parameters, prime moduli, generators, seeds, messages, computations, levels, decomposition bases, rotations, and all floating point estimates with an error below one half", "why_tests_cant": "unbounded computations; the noise depends on secret keys and all samples; every order of multiplication, relinearization, rotation and modulus reduction", "anchors": ["shell_encryption/rns/rns_context.cc:CreateForBfvFiniteFieldEncoding", "shell_encryption/rns/rns_secret_key.h:EncryptBfv", "shell_encryption/rns/rns_bfv_public_key.h:Encrypt", "shell_encryption/rns/rns_bfv_ciphertext.cc:Mul", "shell_encryption/rns/rns_bfv_ciphertext.cc:AbsorbInPlace", "shell_encryption/rns/rns_bfv_ciphertext.h:AbsorbInPlaceSimple", "shell_encryption/rns/rns_bfv_ciphertext.h:ModReduce", "shell_encryption/rns/rns_relinearization_key.cc:ApplyTo", "shell_encryption/rns/rns_galois_key.cc:ApplyTo", "shell_encryption/rns/rns_secret_key.h:DecryptBfv"]}
{"id": "C77", "title": "In-place operations whose operands are the same object", "statement": "In-place operations accept operands that are the object they change. For polynomials, RNS polynomials, RNS and symmetric ciphertexts and 256-bit integers, addition, subtraction, multiplication and fused multiply-add leave in the object exactly what they compute from the values the operands had before the call, with the same status, also when one or more operands are the object itself (x += x, x -= x, x *= x, x += x * x), and change no other object. The same is expected of the multiplication of a polynomial by a scalar that refers to one of its own coefficients.", "quantifier": "all parameters, memories, objects of any length and any pattern of operands that are the same object", "why_tests_cant": "the loops read and write the same memory; the result has to be independent of the order of reads and writes for all lengths and values", "anchors": ["shell_encryption/montgomery.cc:BatchAddInPlace", "shell_encryption/montgomery.cc:BatchMulInPlace", "shell_encryption/montgomery.cc:BatchFusedMulAddInPlace", "shell_encryption/polynomial.h:MulInPlace", "shell_encryption/rns/rns_polynomial.h:FusedMulAddInPlace", "shell_encryption/rns/rns_ciphertext.h:AddInPlace", "shell_encryption/symmetric_encryption.h:AddInPlace", "shell_encryption/int256.h:operator*="]}
{"id": "C78", "title": "Levelled BGV computations on encrypted polynomials", "statement": "If a BGV context for any plaintext modulus t (prime or not), the secret key and its reductions to fewer moduli, the public key, relinearization and Galois keys, and encryptions of polynomials with the coefficient encoder under the secret or the public key are all obtained from the library, then any computation of negations, sums, differences, products, plaintext polynomials, scalars, relinearizations, substitutions X to X^p and modulus reductions runs without error and, while an explicit bound on the noise is below half the remaining modulus, decrypts to the coefficients of the same computation in Z_t[X]/(X^n+1).", "quantifier": "all parameters, plaintext moduli, generators, seeds, messages, computations, levels, decomposition bases and substitution powers", "why_tests_cant": "unbounded computations; the noise depends on secret keys and all samples; every order of relinearization, substitution and modulus reduction", "anchors": ["shell_encryption/rns/rns_context.h:Create", "shell_encryption/rns/coefficient_encoder.h:EncodeBgv", "shell_encryption/rns/coefficient_encoder.h:DecodeBgv", "shell_encryption/rns/rns_secret_key.h:EncryptBgv", "shell_encryption/rns/rns_bgv_public_key.h:Encrypt", "shell_encryption/rns/rns_bgv_ciphertext.h:ModReduce", "shell_encryption/rns/rns_relinearization_key.cc:ApplyTo", "shell_encryption/rns/rns_galois_key.cc:ApplyTo", "shell_encryption/rns/rns_secret_key.h:DecryptBgv"]}
{"id": "C79", "title": "Levelled BFV computations on encrypted polynomials", "statement": "If a BFV context for any plaintext modulus t > 1 (prime or not), the secret key and its reductions to fewer moduli, the public key, relinearization and Galois keys, and encryptions of polynomials with the coefficient encoder under the secret or the public key are all obtained from the library, then any computation of negations, sums, differences, products with a rescaling, scaled and unscaled plaintext polynomials, scalars, relinearizations, substitutions X to X^p and modulus reductions runs without error and, while an explicit bound on the noise is below half the product of the remaining moduli, decrypts to the coefficients of the same computation in Z_t[X]/(X^n+1).", "quantifier": "all parameters, plaintext moduli, generators, seeds, messages, computations, levels, decomposition bases, substitution powers, and all floating point estimates with an error below one half", "why_tests_cant": "unbounded computations; the noise depends on secret keys and all samples; every order of multiplication, relinearization, substitution and modulus reduction", "anchors": ["shell_encryption/rns/rns_context.cc:CreateForBfv", "shell_encryption/rns/coefficient_encoder.h:EncodeBfv", "shell_encryption/rns/coefficient_encoder.h:DecodeBfv", "shell_encryption/rns/rns_secret_key.h:EncryptBfv", "shell_encryption/rns/rns_bfv_public_key.h:Encrypt", "shell_encryption/rns/rns_bfv_ciphertext.cc:Mul", "shell_encryption/rns/rns_bfv_ciphertext.cc:AbsorbInPlace", "shell_encryption/rns/rns_bfv_ciphertext.h:AbsorbInPlaceSimple", "shell_encryption/rns/rns_relinearization_key.cc:ApplyTo", "shell_encryption/rns/rns_galois_key.cc:ApplyTo", "shell_encryption/rns/rns_secret_key.h:DecryptBfv"]}
{"id": "C80", "title": "Basis conversion with double-precision arithmetic", "statement": "Basis conversion, BFV decoding and BFV products estimate a sum of quotients in double-precision floating point and round it. For k moduli of any word size the number computed is within 1/2 + k(k+15)/2^53 of the exact sum, without overflow or underflow, for every rounding of the integers to doubles that C++ admits. Hence, with at most 2^25 moduli, SwitchRnsBasis and DecodeBfv are exact for every value with a margin of k(k+15)/2^53 to the rounding boundary, and levelled BFV computations decrypt correctly, without any assumption on the floating-point results.", "quantifier": "all word sizes, lists of moduli and residues, conversions of integers to doubles with a relative error of at most 2^-51, all parameters, messages and computations", "why_tests_cant": "rounding errors accumulate over the moduli; the boundary cases are a vanishing fraction of all inputs", "anchors": ["shell_encryption/rns/rns_polynomial.cc:SwitchRnsBasis", "shell_encryption/rns/rns_polynomial.cc:ScaleAndSwitchRnsBasis", "shell_encryption/rns/coefficient_encoder.h:DecodeBfv", "shell_encryption/rns/rns_bfv_ciphertext.cc:Mul"]}
{"id": "C81", "title": "Public-key encryption on stored words, and computations over the wire", "statement": "Creating a public key and encrypting under it compute on the stored Montgomery words exactly the operations on polynomials modulo q, with the error estimate of the class; Encrypt rejects variances outside 1 to 256 and a null generator and otherwise fails only if the generator does. If one party samples a secret key, creates public, relinearization and Galois keys and sends them, others encrypt messages under the received public key (or the secret key) and send the ciphertexts, a server runs any circuit on what it received and sends the result, then every step succeeds and decrypting the received result gives the circuit evaluated on the messages modulo X^n+1 and t, as long as the noise bound of the circuit is below q/2.", "quantifier": "all word sizes, prime moduli, ring degrees, generators, keys, seeds, variances, messages and circuits", "why_tests_cant": "unbounded circuits; all keys, samples and words; the noise depends on products of secret values", "anchors": ["shell_encryption/public_key_encryption.cc:Create", "shell_encryption/public_key_encryption.cc:Encrypt", "shell_encryption/public_key_encryption.cc:Deserialize", "shell_encryption/relinearization_key.cc:Deserialize", "shell_encryption/symmetric_encryption.h:Decrypt", "shell_encryption/symmetric_encryption.h:Serialize"]}
{"id": "C82", "title": "Key switching with an auxiliary modulus on stored words", "statement": "Creating a relinearization or Galois key with an auxiliary modulus and applying it compute on the stored Montgomery words of both moduli exactly the operations on polynomials modulo the two moduli, with the error estimate of the class; a ciphertext of another modulus or without error parameters is rejected. Any circuit on stored words of encryptions under the secret or the public key, in which relinearization and each automorphism use a key of either kind (gadget or auxiliary modulus) made for the sampled secret key, runs without error and decrypts to the circuit evaluated on the messages modulo X^n+1 and t, as long as an explicit noise bound is below q/2.", "quantifier": "all word sizes, prime moduli and auxiliary moduli, ring degrees, generators, keys, seeds, messages and circuits", "why_tests_cant": "unbounded circuits; every word of the key and the ciphertext under two moduli; the rounding when dividing by the auxiliary modulus depends on secret values", "anchors": ["shell_encryption/aux_relinearization_key.cc:Create", "shell_encryption/aux_relinearization_key.cc:ApplyTo", "shell_encryption/aux_relinearization_key.cc:ConvertToMainModulus", "shell_encryption/aux_galois_key.h:ApplyTo", "shell_encryption/symmetric_encryption.h:Decrypt"]}
{"id": "C83", "title": "Error() and correct decryption hold except with negligible probability", "statement": "If the generator delivers uniformly distributed bytes, then except with probability 8 n exp(-30) the noise of a fresh encryption is at most its Error(); for public-key encryptions, including the sampling of both keys, except with probability 40 n exp(-30). For r encryptions, except with probability r * 8 n exp(-30), every computation with additions, subtractions and multiplications by ciphertexts, plaintexts and constants whose result has twice its Error() below the modulus decrypts to the computation on the messages.", "quantifier": "all parameters that can be created, secret keys, plaintexts of the size that B_plaintext assumes, numbers of encryptions, and all computations at once; probabilities over tapes of uniformly distributed bytes of every length", "why_tests_cant": "a probability below 2^-30 cannot be measured by running tests, and the computations are unbounded", "anchors": ["shell_encryption/sample_error.h:SampleFromErrorDistribution", "shell_encryption/error_params.h:ErrorParams", "shell_encryption/symmetric_encryption.h:Encrypt", "shell_encryption/public_key_encryption.cc:Encrypt"]}
{"id": "C84", "title": "What the parameter sets of the library support", "statement": "With the moduli of constants.h in the configurations that the library's own tests use, a context can be created, and every arithmetic expression in fresh encryptions, plaintexts and constants decrypts to the value of the expression, as long as it has at most the stated degree and, multiplied out, at most the stated number of terms: 122 terms of degree 1 (Newhope modulus), 6 of degree 2 (25-bit modulus), 413560 of degree 1 (29 bits), 267277 of degree 2 (59 bits), 1822 of degree 3 (80 bits). With the RNS moduli, a relinearized sum of products of two encryptions decrypts correctly for up to 20308, about 1.3e19 and about 7.9e36 products (32-, 64- and 128-bit test parameters), 2316 products (60-bit parameters) and one product (59-bit parameters, with 5-bit digits).", "quantifier": "all keys, encryptions, messages, plaintexts and expressions within the stated degree and number of terms", "why_tests_cant": "the worst case over keys and errors is never drawn by a test; unbounded families of expressions", "anchors": ["shell_encryption/constants.h", "shell_encryption/testing/parameters.h", "shell_encryption/rns/constants.h", "shell_encryption/rns/testing/parameters.h", "shell_encryption/symmetric_encryption.h:Decrypt", "shell_encryption/rns/rns_secret_key.h:DecryptBgv"]}
{"id": "C85", "title": "Calls with parameters in range succeed", "statement": "If the moduli are distinct primes that are one modulo 2n and leave two bits of the word free, 2 <= n <= 2^15, the variance is at most 256 and the plaintext modulus and digit sizes are in range, then creating an RNS context for BGV or (for odd plaintext moduli) BFV, sampling a secret key and reducing it to fewer moduli, encrypting up to n numbers with the secret key or the public key in either scheme, and creating public keys, gadgets, relinearization keys and Galois keys never return an error and never have undefined behaviour, whatever the numbers and the random bytes are, as long as the generator answers; the only exception is that rejection sampling of uniform residues may take arbitrarily long. A dimension of one, an empty list of moduli and variances outside 1 to 256 are rejected. Hence every parameter choice in range has keys and ciphertexts to which the correctness properties apply.", "quantifier": "all parameters in the ranges, generators that answer, seeds, messages of up to n numbers, levels, and powers of Galois keys", "why_tests_cant": "unbounded parameters and all sequences of random bytes", "anchors": ["shell_encryption/rns/rns_context.cc:Create", "shell_encryption/rns/rns_secret_key.h:Sample", "shell_encryption/rns/rns_secret_key.h:ModReduce", "shell_encryption/rns/rns_secret_key.h:EncryptBgv", "shell_encryption/rns/rns_public_key.h:Create", "shell_encryption/rns/rns_bgv_public_key.h:Encrypt", "shell_encryption/rns/rns_secret_key.h:EncryptBfv", "shell_encryption/rns/rns_bfv_public_key.h:Encrypt", "shell_encryption/rns/error_distribution.h:SampleError", "shell_encryption/rns/rns_gadget.cc:Create", "shell_encryption/rns/rns_relinearization_key.cc:Create", "shell_encryption/rns/rns_galois_key.cc:Create"]}
{"id": "C86", "title": "RNS computations over the wire", "statement": "A client samples RNS keys, encrypts messages (with the secret or the public key), creates Galois keys from seeds, and serializes and sends the ciphertexts and Galois keys. Deserializing succeeds; on what was received, with the relinearization keys, any levelled BGV or BFV computation within the noise analysis succeeds; its result, at whatever level it is, serializes and deserializes with the moduli that are left, and decrypting it gives the computation on the messages modulo t and X^n+1.", "quantifier": "all parameters, word sizes of at least 8 bits, plaintext moduli, generators, seeds, messages, computations and levels", "why_tests_cant": "unbounded computations between two serializations; every word of every ciphertext and key", "anchors": ["shell_encryption/rns/rns_polynomial.h:Serialize", "shell_encryption/rns/rns_polynomial.h:Deserialize", "shell_encryption/rns/rns_ciphertext.h:Serialize", "shell_encryption/rns/rns_ciphertext.h:Deserialize", "shell_encryption/rns/rns_galois_key.h:Serialize", "shell_encryption/rns/rns_galois_key.cc:Deserialize", "shell_encryption/rns/rns_secret_key.h:DecryptBgv", "shell_encryption/rns/rns_secret_key.h:DecryptBfv"]}
{"id": "C87", "title": "Samples, keys and fresh encryptions have the intended distributions", "statement": "If the generator delivers uniformly distributed bytes, then uniform polynomials take each value with the same probability (within 2^-tries of exactly uniform, where tries bounds the rejection loop); uniform ternary polynomials take each vector of coefficients -1, 0 and 1 with the same probability, 3^-n up to a factor (1 - 4^-tries)^n; the coefficients of errors and secret keys are independent with exactly the centered binomial distribution of the given variance; and an encryption under any secret key of any message is (m + t e + a s, -a) where a is uniform and e is an error, independent of each other. The same holds in the RNS layer for uniform polynomials, ternary polynomials, errors, secret keys, public keys and BGV and BFV encryptions, also when the mask comes from a second generator; the residues of a modulo the different moduli are independent, and the error is one integer polynomial for all moduli.", "quantifier": "all moduli, word sizes, ring degrees, variances up to 256 with 4 variance below the (first) modulus, secret keys, messages, masks, errors, and tapes of every sufficient length", "why_tests_cant": "the distribution is over astronomically many tapes and values; each value has probability far below anything that can be sampled", "anchors": ["shell_encryption/montgomery.h:ImportRandom", "shell_encryption/sample_error.h:SampleFromErrorDistribution", "shell_encryption/polynomial.h:SamplePolynomialFromPrng", "shell_encryption/symmetric_encryption.h:Encrypt", "shell_encryption/symmetric_encryption.h:Sample", "shell_encryption/rns/rns_polynomial.h:SampleUniform", "shell_encryption/rns/error_distribution.h:SampleError", "shell_encryption/rns/rns_secret_key.h:Sample", "shell_encryption/rns/rns_secret_key.h:EncryptBgv", "shell_encryption/rns/rns_secret_key.h:EncryptBfv", "shell_encryption/rns/rns_public_key.h:Create"]}
{"id": "C88", "title": "How often the error estimates of RNS ciphertexts are exceeded", "statement": "If the generator delivers uniformly distributed bytes, then a fresh RNS encryption (BGV or BFV, with the secret key, with a separate generator for the mask, or with sampled keys and the public key) of a message of the size the estimates assume has noise above its reported Error() with probability at most 8 n exp(-30) (5 times that with the public key). For messages encrypted one after the other, the probability that any computation (BGV: negations, sums, differences, products, absorptions; BFV: negations, sums, differences, plaintext sums, unscaled absorptions) returns a ciphertext whose Error() is small enough for decryption but that does not decrypt to the computation on the messages is at most the number of encryptions times 8 n exp(-30).", "quantifier": "all moduli, ring degrees, variances up to 256, secret keys, messages, computations, mask generators, and tapes of every length; BGV for plaintext moduli up to the square of their logarithm", "why_tests_cant": "probabilities below 10^-9 over all byte tapes, and all computations at once", "anchors": ["shell_encryption/rns/rns_error_params.h:B_secretkey_encryption", "shell_encryption/rns/rns_error_params.h:B_publickey_encryption", "shell_encryption/rns/rns_secret_key.h:EncryptBgv", "shell_encryption/rns/rns_secret_key.h:EncryptBfv", "shell_encryption/rns/rns_bgv_public_key.h:Encrypt", "shell_encryption/rns/rns_bfv_public_key.h:Encrypt", "shell_encryption/rns/rns_ciphertext.h:Error", "shell_encryption/rns/rns_bfv_ciphertext.cc:AbsorbInPlaceSimple"]}
{"id": "C89", "title": "No history of calls on RNS polynomials and ciphertexts has undefined behaviour", "statement": "A program that creates RNS polynomials (from vectors, constants, coefficients or serialized data) and makes any sequence of calls on them - transforms, arithmetic, fused products, substitution, modulus reduction, all basis conversions, appending, detaching and replacing vectors, copies - never reads outside a vector, dereferences a null pointer, divides by zero, shifts by too much or overflows a signed integer, whether the calls succeed or return errors, as long as the arguments have the dimension of the object. The same holds for any history of in-place calls on one ciphertext object with arbitrary other ciphertexts and plaintexts. So the object after any history is the one that the successful calls alone compute.", "quantifier": "all sequences of calls of any length, all polynomials, ciphertexts and serialized data, all moduli", "why_tests_cant": "undefined behaviour after a failed call shows only in particular histories, and often not at all in a test", "anchors": ["shell_encryption/rns/rns_polynomial.h", "shell_encryption/rns/rns_polynomial.cc", "shell_encryption/rns/rns_polynomial_hwy.cc", "shell_encryption/rns/rns_ciphertext.h:AddInPlace", "shell_encryption/rns/rns_ciphertext.h:FusedAbsorbAddInPlace", "shell_encryption/rns/rns_bgv_ciphertext.h:ModReduce", "shell_encryption/rns/rns_bfv_ciphertext.h:ModReduce"]}
{"id": "C90", "title": "Programs on RNS polynomials compute in the ring", "statement": "Run a program of any length on RNS polynomials over a chain of prime moduli: constants, copies, form conversions, negations, sums, differences, products, fused products, scalars, substitutions X to X^p, both modulus reductions and dropping of moduli, on any number of objects, objects being used as operands of themselves or not. Then exactly those calls succeed whose operands have the number of moduli passed, the form needed and an admissible power; every other call returns InvalidArgument and changes nothing; and at the end every object represents the polynomial in Z[X]/(X^n+1) that the same program computes on integers, where ModReduceMsb is division by the dropped modulus rounded to the nearest integer and ModReduceLsb is the quotient congruent modulo t. The caller sees to it that operands of sums have the same form and that Negate gets the right moduli (the library does not check this, C43).", "quantifier": "all programs, all chains of NTT primes, all word sizes and dimensions, all initial objects", "why_tests_cant": "programs of unbounded length with failing calls in between", "anchors": ["shell_encryption/rns/rns_polynomial.h:AddInPlace", "shell_encryption/rns/rns_polynomial.h:MulInPlace", "shell_encryption/rns/rns_polynomial.h:FusedMulAddInPlace", "shell_encryption/rns/rns_polynomial.cc:Substitute", "shell_encryption/rns/rns_polynomial.cc:ModReduceLsb", "shell_encryption/rns/rns_polynomial.cc:ModReduceMsb", "shell_encryption/rns/rns_polynomial.cc:ConvertToNttForm", "shell_encryption/rns/rns_polynomial.h:DetachLastCoeffVector"]}
{"id": "C91", "title": "Oblivious expansion of stored ciphertexts is right end to end", "statement": "ObliviousExpand on the stored words returns what the computation on residues prescribes, with the same status for every input, with one Galois key per level or with one key for the generator 5. A query that is built with MakeCompressedVector, multiplied by the normalizer, encrypted with a sampled key and expanded with Galois keys created for it, decrypts to 1 at the selected indices and to 0 at all others, when a closed-form noise bound is below half the modulus. Every returned ciphertext reports 2^L times the error of its input, plus the estimate of the key switches: every level doubles what it has and adds one switch (or one per application of the generator).", "quantifier": "all word sizes, prime moduli, ring degrees, generators, keys, sizes, index sets, levels, lists of ciphertexts and keys", "why_tests_cant": "the outcome depends on the secret key and all randomness; index sets and sizes are unbounded", "anchors": ["shell_encryption/oblivious_expand.h:ObliviousExpand", "shell_encryption/oblivious_expand.h:GaloisKeysObliviousExpander", "shell_encryption/oblivious_expand.h:GaloisGeneratorObliviousExpander", "shell_encryption/oblivious_expand.h:MakeCompressedVector", "shell_encryption/oblivious_expand.h:ComputeNormalizer", "shell_encryption/galois_key.h:ApplyTo"]}
{"id": "C92", "title": "Programs on polynomials and symmetric-key ciphertexts compute on the plaintexts", "statement": "Run a program of any length on any number of polynomials and ciphertexts under one key: coefficient imports, copies, negations, sums, differences, products, scalars, constants, fused products and substitutions of polynomials; ciphertexts made of polynomials, copies, sums, differences, absorptions, scalings, fused and lazily fused absorptions, merges, products and substitutions of ciphertexts, in place or not, objects being used as operands of themselves or not. Every call returns the status that the machine on integer polynomials modulo X^n+1 returns: a call is rejected exactly if the powers of s differ, a factor has no component, there is nothing to merge or the power is not admissible, and a rejected call changes nothing. At the end every polynomial is the one of the machine and every ciphertext is one of the machine's noisy plaintext, with its number of components, power of s and Error(). A program that starts from encryptions of messages returns the statuses, and ciphertexts that decrypt to the values, which the machine computes from the messages modulo the plaintext modulus, as long as the noisy plaintext stays below half the modulus. The caller sees to it that operands exist, that a lazily absorbed ciphertext is not shorter than those absorbed before, that substituted ciphertexts have a component and that the product of powers is an int.", "quantifier": "all programs, all word sizes up to 128 bits, prime moduli and ring degrees, all keys, messages, generators and initial objects", "why_tests_cant": "programs of unbounded length with failing calls in between, under secret randomness", "anchors": ["shell_encryption/polynomial.h", "shell_encryption/symmetric_encryption.h:SymmetricRlweCiphertext", "shell_encryption/symmetric_encryption.h:Encrypt", "shell_encryption/symmetric_encryption.h:Decrypt"]}
{"id": "C93", "title": "Selecting entries of a database with an expanded query returns the entries", "statement": "A client encrypts a query for some of total entries, a server expands it with the Galois keys of the client, multiplies the expanded ciphertexts with the polynomials of a database and adds the products, each eagerly, with the constant representation of the polynomial or lazily. No call returns an error, and the result decrypts to the sum of the queried entries modulo the plaintext modulus, as long as the noise stays below half the modulus. More generally, any program that the server runs on the expanded ciphertexts and its own polynomials computes on the one-hot vector of the indices.", "quantifier": "all words of at most 128 bits, prime moduli and ring degrees, generators, secret keys, Galois keys or a single key for the generator, compression factors, sizes and contents of the database, sets of indices, encryption randomness, and orders of the ways products are added", "why_tests_cant": "private retrieval composes sampling, key generation, encryption, expansion with many key switches and a sum over the whole database; tests run a few sizes, indices and seeds, and the property is a statement about all of them together with a noise budget", "anchors": ["shell_encryption/oblivious_expand.h:ObliviousExpand", "shell_encryption/oblivious_expand.h:MakeCompressedVector", "shell_encryption/oblivious_expand.h:ComputeNormalizer", "shell_encryption/symmetric_encryption.h:FusedAbsorbAddInPlace", "shell_encryption/symmetric_encryption.h:FusedAbsorbAddInPlaceLazily", "shell_encryption/symmetric_encryption.h:MergeLazyOperations", "shell_encryption/symmetric_encryption.h:Encrypt", "shell_encryption/symmetric_encryption.h:Decrypt", "shell_encryption/galois_key.h"]}
{"id": "C94", "title": "Programs that also relinearize and apply automorphisms compute on the plaintexts", "statement": "Run a program of any length on encryptions of messages, on polynomials, and on any number of relinearization and Galois keys created for the same secret key, with all calls of the programs above and with ApplyTo of the keys in any order. Every call returns the status that the machine returns on the messages themselves; ApplyTo of a key accepts ciphertexts of up to its number of parts under the power of s that it is made for, rejects all others, and returns a ciphertext of two components under s with the same value, whose Error() grows by the documented estimate. Every ciphertext at the end has the machine's number of components, power of s and Error(), and decrypts to the machine's value modulo the plaintext modulus, as long as the value for the noisy messages, to which every key switching adds the plaintext modulus times a polynomial bounded by the number of parts, digits, the ring degree, the base and the sampled errors, stays below half the modulus.", "quantifier": "all programs, words of at most 128 bits, prime moduli, ring degrees, keys of every base, number of parts and power, messages and generators", "why_tests_cant": "programs of unbounded length with failing calls in between, under secret randomness, with noise that depends on every earlier call", "anchors": ["shell_encryption/relinearization_key.cc:ApplyTo", "shell_encryption/relinearization_key.cc:Create", "shell_encryption/galois_key.h:ApplyTo", "shell_encryption/symmetric_encryption.h:SymmetricRlweCiphertext", "shell_encryption/symmetric_encryption.h:Decrypt"]}
{"id": "C95", "title": "No program on polynomials, symmetric-key ciphertexts and keys has undefined behaviour", "statement": "Run a program of any length on any number of polynomials, ciphertexts, relinearization keys and Galois keys, whatever they contain: polynomials of any lengths, ciphertexts with polynomials of different lengths and with any number of components, words that are not reduced, keys and polynomials parsed from bytes of anybody. No call reads or writes outside of a vector, overflows an int, divides by zero or shifts by too much, whatever the calls before it returned; calls with operands that do not fit together return an error.", "quantifier": "all programs, words of at most 128 bits, prime moduli, ring degrees, contents of objects, scalars, powers, indices, bytes and keys", "why_tests_cant": "undefined behaviour may need an unusual shape of two operands, after failing calls; tests try a few mismatches of well-formed objects", "anchors": ["shell_encryption/polynomial.h", "shell_encryption/symmetric_encryption.h:SymmetricRlweCiphertext", "shell_encryption/relinearization_key.cc:ApplyTo", "shell_encryption/relinearization_key.cc:Deserialize", "shell_encryption/galois_key.h:ApplyTo", "shell_encryption/opt/lazy_polynomial.h"]}
{"id": "C96", "title": "Error estimates computed with doubles stay close to the exact estimates", "statement": "Error() of ciphertexts and the estimates of ErrorParams and RnsErrorParams are doubles; every conversion, sum, product, quotient and square root is rounded. Each constant differs from its exact formula by a few roundings. A program of any length on ciphertexts (also BGV and BFV ciphertexts in RNS form), polynomials, relinearization and Galois keys, modulus switching, auxiliary-modulus keys and expansion returns the same statuses and the same ciphertexts as with exact estimates, and Error() of every ciphertext differs from the exact estimate by a factor between (1-2^-53)^k and (1+2^-53)^k, where k counts the roundings: linear in the number of calls, or exponential with products of ciphertexts. No integer in these formulas overflows.", "quantifier": "all programs, parameters, moduli, keys, word types and both conversions of integers to double", "why_tests_cant": "rounding errors depend on the values and accumulate over programs of unbounded length; tests compare a few estimates with themselves", "anchors": ["shell_encryption/error_params.h", "shell_encryption/rns/rns_error_params.h", "shell_encryption/symmetric_encryption.h:SymmetricRlweCiphertext", "shell_encryption/relinearization_key.cc:ApplyTo", "shell_encryption/aux_relinearization_key.cc:ApplyTo", "shell_encryption/oblivious_expand.h"]}
{"id": "C97", "title": "Programs on RNS BGV ciphertexts compute on polynomials, with failing calls in between", "statement": "Take the context, keys and encryptions that the library delivers for any parameters, and run a program of any length that encodes plaintexts for any number of the moduli, copies ciphertexts, negates, adds, subtracts, multiplies, adds and multiplies plaintexts and integers, fuses products and sums, drops moduli, substitutes powers, and applies relinearization and Galois keys, into new ciphertexts or in place. Every call returns the status that a machine on polynomials modulo t returns (operands of different moduli, numbers of components or powers, even or too large powers, keys for other moduli or powers, too many components, the last modulus: an error), no call is undefined, and a call that fails changes no object. Every ciphertext at the end has the machine's number of moduli, components and power, is decrypted by the key for its moduli to the machine's polynomial while the noise bound of the machine stays below half the first modulus, and is rejected by the keys for other numbers of moduli and when its power is not 1.", "quantifier": "all programs (with substitutions whose product of powers fits an int, which for ring degrees up to 2^14 is always the case), parameters, plaintext moduli, keys, messages and generators", "why_tests_cant": "programs of unbounded length mix levels, components and powers of many objects, with failing calls in between; tests run single calls on fresh objects", "anchors": ["shell_encryption/rns/rns_ciphertext.h", "shell_encryption/rns/rns_bgv_ciphertext.h", "shell_encryption/rns/rns_relinearization_key.h:ApplyTo", "shell_encryption/rns/rns_galois_key.h:ApplyTo", "shell_encryption/rns/coefficient_encoder.cc:EncodeBgv", "shell_encryption/rns/rns_secret_key.h:DecryptBgvWithCrt"]}
{"id": "C98", "title": "Programs on RNS BFV ciphertexts compute on polynomials, with failing calls in between", "statement": "Take the context, keys and encryptions that the library delivers for any parameters, and run a program of any length that encodes plaintexts, scaled or not, for any number of the moduli, copies ciphertexts, negates, adds, subtracts, multiplies, adds and multiplies plaintexts and integers, fuses products and sums, drops moduli, substitutes powers, and applies relinearization and Galois keys, into new ciphertexts or in place. Every call returns the status that a machine on polynomials modulo t returns (products and scaled plaintexts with fewer than all moduli, operands of different moduli, numbers of components or powers, even or too large powers, keys for other moduli or powers, too many components, the last modulus: an error), no call is undefined, and a call that fails changes no object. Every ciphertext at the end has the machine's number of moduli, components and power, is decrypted by the key for its moduli to the machine's polynomial while the noise bound of the machine stays below half the product of its moduli (less the error of the floating-point estimate), and is rejected by the keys for other numbers of moduli and when its power is not 1.", "quantifier": "all programs (with substitutions whose product of powers fits an int, which for ring degrees up to 2^14 is always the case; unscaled products get unscaled plaintexts), parameters, plaintext moduli, keys, messages, generators and estimates", "why_tests_cant": "programs of unbounded length mix levels, components, powers and scalings of many objects, with failing calls in between; tests run single calls on fresh objects", "anchors": ["shell_encryption/rns/rns_ciphertext.h", "shell_encryption/rns/rns_bfv_ciphertext.h", "shell_encryption/rns/rns_bfv_ciphertext.cc", "shell_encryption/rns/rns_relinearization_key.h:ApplyTo", "shell_encryption/rns/rns_galois_key.h:ApplyTo", "shell_encryption/rns/coefficient_encoder.cc:EncodeBfv", "shell_encryption/rns/rns_secret_key.h:DecryptBfv"]}
{"id": "C99", "title": "Programs on packed RNS BGV ciphertexts compute slot by slot, with failing calls in between", "statement": "Take the context, the finite field encoder, the keys and the encryptions that the library delivers for any parameters with a prime plaintext modulus that allows packing, and run a program of any length that encodes vectors of slots or polynomials for any number of the moduli, copies ciphertexts, negates, adds, subtracts, multiplies, adds and multiplies plaintexts and integers, fuses products and sums, drops moduli, substitutes powers, and applies relinearization and Galois keys, into new ciphertexts or in place. Every call returns the status that a machine on vectors of n slots returns, in which sums, differences and products are slot by slot and substitution moves slots; no call is undefined, and a call that fails changes no object. Every ciphertext at the end has the machine's number of moduli, components and power; while the noise bound of the machine stays below half the first modulus, decryption with the finite field encoder gives the machine's slots, and decryption with the coefficient encoder gives the polynomial with these slots; keys for other numbers of moduli reject it. The substitution with the power 5 (mod 2n) moves the slots of each half cyclically by one place, and the one with 2n-1 exchanges the halves.", "quantifier": "all programs (with substitutions whose product of powers fits an int), parameters, prime plaintext moduli with packing, keys, messages and generators", "why_tests_cant": "programs of unbounded length on all vectors and parameters; tests compare single operations on random vectors", "anchors": ["shell_encryption/rns/finite_field_encoder.cc:EncodeBgv", "shell_encryption/rns/finite_field_encoder.cc:DecodeBgv", "shell_encryption/rns/rns_ciphertext.h", "shell_encryption/rns/rns_bgv_ciphertext.h", "shell_encryption/rns/rns_relinearization_key.h:ApplyTo", "shell_encryption/rns/rns_galois_key.h:ApplyTo", "shell_encryption/rns/rns_secret_key.h:DecryptBgvWithCrt"]}
{"id": "C100", "title": "Programs on packed RNS BFV ciphertexts compute slot by slot, with failing calls in between", "statement": "Take the context, the finite field encoder, the keys and the encryptions that the library delivers for any parameters with a prime plaintext modulus that allows packing, and run a program of any length that encodes vectors of slots or polynomials, scaled or not, for any number of the moduli, copies ciphertexts, negates, adds, subtracts, multiplies, adds and multiplies plaintexts and integers, fuses products and sums, drops moduli, substitutes powers, and applies relinearization and Galois keys, into new ciphertexts or in place. Every call returns the status that a machine on vectors of n slots returns, in which sums, differences and products are slot by slot and substitution moves slots; no call is undefined, and a call that fails changes no object. Every ciphertext at the end has the machine's number of moduli, components and power; while the noise bound of the machine stays below half the product of its moduli (less the error of the floating-point estimate), decryption with the finite field encoder gives the machine's slots, and decryption with the coefficient encoder gives the polynomial with these slots; keys for other numbers of moduli reject it.", "quantifier": "all programs (with substitutions whose product of powers fits an int; unscaled products get unscaled plaintexts), parameters, prime plaintext moduli with packing, keys, messages, generators and estimates", "why_tests_cant": "programs of unbounded length on all vectors and parameters; tests compare single operations on random vectors", "anchors": ["shell_encryption/rns/finite_field_encoder.cc:EncodeBfv", "shell_encryption/rns/finite_field_encoder.cc:DecodeBfv", "shell_encryption/rns/rns_ciphertext.h", "shell_encryption/rns/rns_bfv_ciphertext.h", "shell_encryption/rns/rns_bfv_ciphertext.cc", "shell_encryption/rns/rns_relinearization_key.h:ApplyTo", "shell_encryption/rns/rns_galois_key.h:ApplyTo", "shell_encryption/rns/rns_secret_key.h:DecryptBfv"]}
{"id": "C101", "title": "Saving, loading and crashes do not change what programs on RNS BGV ciphertexts compute", "statement": "Take a program on RNS BGV ciphertexts as in C97, or on packed ones as in C99, that at any points also serializes plaintexts and ciphertexts and keeps the messages, deserializes kept messages, any number of times and in any order, and crashes, losing every object but no message. Every call returns the status of the machine whose messages are snapshots of its objects: after any crashes, an object loaded from a message behaves in every later call, and decrypts, as the object did when it was saved. Serializing or deserializing a plaintext with another number of moduli than it has, or deserializing a ciphertext so, is rejected as an invalid argument and changes nothing; no call is undefined.", "quantifier": "all programs with saves, loads and crashes at any points, parameters, keys, messages and generators, words of at least 8 bits", "why_tests_cant": "histories of unbounded length with crashes at all points; tests serialize and deserialize one object", "anchors": ["shell_encryption/rns/rns_polynomial.h:Serialize", "shell_encryption/rns/rns_polynomial.h:Deserialize", "shell_encryption/rns/rns_ciphertext.h:Serialize", "shell_encryption/rns/rns_ciphertext.h:Deserialize", "shell_encryption/rns/serialization.proto", "shell_encryption/rns/rns_bgv_ciphertext.h"]}
{"id": "C102", "title": "Saving, loading and crashes do not change what programs on RNS BFV ciphertexts compute", "statement": "Take a program on RNS BFV ciphertexts as in C98, or on packed ones as in C100, that at any points also serializes plaintexts and ciphertexts and keeps the messages, deserializes kept messages, any number of times and in any order, and crashes, losing every object but no message. Every call returns the status of the machine whose messages are snapshots of its objects: after any crashes, an object loaded from a message behaves in every later call, and decrypts, as the object did when it was saved. Serializing or deserializing a plaintext with another number of moduli than it has, or deserializing a ciphertext so, is rejected as an invalid argument and changes nothing; no call is undefined.", "quantifier": "all programs with saves, loads and crashes at any points, parameters, keys, messages, generators and estimates, words of at least 8 bits", "why_tests_cant": "histories of unbounded length with crashes at all points; tests serialize and deserialize one object", "anchors": ["shell_encryption/rns/rns_polynomial.h:Serialize", "shell_encryption/rns/rns_polynomial.h:Deserialize", "shell_encryption/rns/rns_ciphertext.h:Serialize", "shell_encryption/rns/rns_ciphertext.h:Deserialize", "shell_encryption/rns/serialization.proto", "shell_encryption/rns/rns_bfv_ciphertext.h"]}
{"id": "C103", "title": "Saving, loading and crashes do not change what programs on symmetric-key ciphertexts compute", "statement": "Take a program on polynomials, symmetric-key ciphertexts, relinearization keys and Galois keys as in C94 that at any points also serializes polynomials, ciphertexts and keys and keeps the messages, deserializes kept messages, any number of times and in any order, and crashes, losing every object and key but no message. Every call returns the status of the machine whose messages are snapshots: after any crashes, an object or key loaded from a message behaves in every later call, and a ciphertext decrypts, as the object did when it was saved, also with a secret key that was itself saved and loaded; no call is undefined.", "quantifier": "all programs with saves, loads and crashes at any points, all word sizes of at least 8 bits, prime moduli, ring degrees, keys, messages, generators and error parameters", "why_tests_cant": "histories of unbounded length with crashes at all points; tests serialize and deserialize one object", "anchors": ["shell_encryption/polynomial.h:Serialize", "shell_encryption/polynomial.h:Deserialize", "shell_encryption/symmetric_encryption.h:Serialize", "shell_encryption/symmetric_encryption.h:Deserialize", "shell_encryption/relinearization_key.cc:Serialize", "shell_encryption/relinearization_key.cc:Deserialize", "shell_encryption/galois_key.h", "shell_encryption/serialization.proto"]}
{"id": "C104", "title": "Error() is a finite number, up to the range of doubles", "statement": "The estimates that Error() returns are IEEE 754 doubles: results beyond the largest finite double become infinite, results below the smallest normal one lose bits, and infinity times zero is not a number. Run a program on RNS BGV or BFV ciphertexts: as long as no estimate on the way leaves the range from 2^-900 to 2^1000, every Error() is finite and equals the one computed with unbounded exponents (C96); without products of ciphertexts it is within a relative error of (12 c + 24) (l + 1) / 2^53 of the exact estimate after l calls. The same holds for symmetric-key programs as long as the sizes of the estimates stay below 1022 bits. An overflow is never lost: what is computed from a ciphertext whose Error() is not finite has no finite Error().", "quantifier": "all programs of any length, parameters, keys and plaintexts whose exact estimates stay in the range", "why_tests_cant": "the range is left only by long products of calls; tests run a few operations and never look at infinite estimates", "anchors": ["shell_encryption/rns/rns_ciphertext.h:Error", "shell_encryption/rns/rns_error_params.h", "shell_encryption/error_params.h", "shell_encryption/symmetric_encryption.h:Error"]}
{"id": "C105", "title": "Key switching adds no more noise than the error estimates say", "statement": "ApplyTo of a relinearization key or a Galois key adds the bound on gadget based key switching to Error(). For every secret key, let Create draw the key from uniformly distributed random bytes: except with probability exp(-9 n d), where n is the number of coefficients and d the dimension of the gadget, the key is quiet: for every ciphertext that ApplyTo accepts, also one chosen after looking at the key, the result stands for the same polynomial plus a multiple of t whose coefficients are at most the increase of Error(). So for programs that add, subtract, multiply, absorb plaintexts, relinearize, rotate by Galois keys and add and subtract the results, on freshly encrypted messages with keys that are all drawn independently, the probability that some such program, also one chosen after looking at ciphertexts and keys, succeeds with twice Error() below the product of the moduli and yet decrypts to something else than the slots that it computes is at most the number of messages times 8 n exp(-30), plus exp(-9 n d) for each key. The same holds for BFV ciphertexts, for t times Error() below half the product and programs without products of ciphertexts, which moreover never fail.", "quantifier": "all secret keys, gadgets with bases below 2^31, moduli, generators of the masks, error distributions of variance up to 256, ciphertexts, programs and numbers of keys; for BGV, plaintext moduli up to the square of their logarithm (C66)", "why_tests_cant": "a probability over all keys, and a bound for all ciphertexts, which a test cannot enumerate; tests apply a key to a few ciphertexts and look at the message only", "anchors": ["shell_encryption/rns/rns_error_params.h:BoundOnGadgetBasedKeySwitching", "shell_encryption/rns/rns_galois_key.cc", "shell_encryption/rns/rns_galois_key.h:ApplyTo", "shell_encryption/rns/rns_relinearization_key.cc", "shell_encryption/rns/rns_relinearization_key.h:ApplyTo", "shell_encryption/rns/rns_gadget.cc:Create", "shell_encryption/rns/rns_ciphertext.h:Error"]}
{"id": "C106", "title": "Key switching of symmetric-key ciphertexts adds no more noise than the error estimates say", "statement": "Relinearize, and Substitute followed by a Galois key, add B_relinearize to Error(). For every secret key of the symmetric-key library, let Create draw the errors of a key from uniformly distributed random bytes: except with probability exp(-9 n d), where n is the number of coefficients and d the number of components of the key, the key is quiet: for every ciphertext with as many components as the key is for, also one chosen after looking at the key, the call succeeds and the result stands for the same polynomial, with the powers substituted, plus a multiple of t whose coefficients are at most the increase of Error(). So for circuits that add, subtract and multiply freshly encrypted messages, absorb plaintexts and constants, and then relinearize, rotate by Galois keys, add, subtract and scale the results, the probability that some such circuit, also one chosen after looking at ciphertexts and keys, fails, or ends with twice Error() below the modulus and yet decrypts to something else than the polynomial that it computes, is at most the number of messages times 8 n exp(-30), plus exp(-9 n d) for each key.", "quantifier": "all word sizes up to 128 bits, prime moduli, ring degrees, plaintext moduli below 2^64, secret keys, seeds of the masks, bases below 2^31, numbers of components, substitution powers, ciphertexts, circuits and numbers of keys", "why_tests_cant": "a probability over all keys, and a bound for all ciphertexts, which a test cannot enumerate; tests apply a key to a few ciphertexts and look at the message only", "anchors": ["shell_encryption/error_params.h:B_relinearize", "shell_encryption/relinearization_key.cc:Create", "shell_encryption/relinearization_key.cc:ApplyTo", "shell_encryption/galois_key.h:Create", "shell_encryption/galois_key.h:ApplyTo", "shell_encryption/symmetric_encryption.h:Substitute", "shell_encryption/symmetric_encryption.h:Error"]}
{"id": "C107", "title": "Switching symmetric-key ciphertexts to a smaller modulus stays within the error estimates", "statement": "SwitchModulus of a ciphertext multiplies Error() by the quotient of the moduli and adds B_scale. Call a secret key short if its coefficients are at most 16 t / ((t + 3) sqrt 3) on average, in absolute value. Let the moduli be congruent modulo t. A short key can be switched to the smaller modulus, and so can every ciphertext of two components under it; the result stands, under the switched key, for a polynomial congruent modulo t, with the coefficients of the old one times the quotient, up to B_scale. So if Error() bounded the coefficients it still does, and if twice the new Error() is below the new modulus, the switched ciphertext decrypts under the switched key to the message of the old one. Sample draws a key with coefficients larger than B on average with probability at most exp(-(B^2 / (2 variance) - 7/10) n), and never if B is at least twice the variance. So for the circuits of C106 with a result of two components, followed by SwitchModulus, the probability that some circuit fails, or ends with twice Error() below the new modulus and yet does not decrypt to what it computes, is the one of C106. For products of two ciphertexts that are not relinearized, three components, this is false.", "quantifier": "all word sizes up to 128 bits, pairs of prime moduli congruent modulo t, ring degrees, plaintext moduli below 2^64, short secret keys, ciphertexts, circuits and numbers of keys; all variances for the probability that a key is not short", "why_tests_cant": "a bound for all ciphertexts under all short keys and a probability over all keys; tests switch a few fresh ciphertexts and look at the message only", "anchors": ["shell_encryption/symmetric_encryption.h:SwitchModulus", "shell_encryption/error_params.h:B_scale", "shell_encryption/symmetric_encryption.h:Sample", "shell_encryption/symmetric_encryption.h:Error", "shell_encryption/symmetric_encryption.h:Decrypt"]}
{"id": "C108", "title": "Modulus reduction of RNS ciphertexts stays within the error estimates", "statement": "ModReduce of an RNS BGV ciphertext leaves Error() as it is. Let the moduli be at least 2 t, and let Error() bound the coefficients of the polynomial that the ciphertext stands for and be at least t (1 + |s| + |s|^2 + ..), with one term for each component, where |s| is the sum of the absolute values of the coefficients of the secret key. Then key and ciphertext can be reduced any number of times while moduli are left: Error() still bounds the coefficients, the polynomial is the same modulo t, and if twice Error() is below the product of the moduli that are left then the reduced key decrypts the result to the same message. ApplyTo of a Galois key, and ApplyTo of a relinearization key to a product, return ciphertexts with such a large Error() if the coefficients of the key are at most 8 / sqrt 3 deviations on average; Sample returns no other key, except with probability exp(-9 n). Programs with rotations and relinearizations (C105), followed by reductions, decrypt to what they compute except with the probability of C105; so do programs that rotate, negate, add and subtract the reduced ciphertexts, with Galois keys made from the reduced secret key, and reduce them further. For BFV the same holds without a condition on the moduli, if Error() is at least 1 + |s| + |s|^2 + .., and with t Error() below half of the product of the moduli that are left (up to the rounding of the decoder).", "quantifier": "all contexts, for BGV with moduli of at least 2 t, secret keys, ciphertexts with any number of components, numbers of reductions, and programs; variances up to 256 for the probabilities", "why_tests_cant": "a bound for all ciphertexts under all keys and a probability over all keys; tests reduce a few fresh ciphertexts once and look at the message only", "anchors": ["shell_encryption/rns/rns_bgv_ciphertext.h:ModReduce", "shell_encryption/rns/rns_bfv_ciphertext.h:ModReduce", "shell_encryption/rns/rns_secret_key.h:ModReduce", "shell_encryption/rns/rns_ciphertext.h:Error", "shell_encryption/rns/rns_error_params.h", "shell_encryption/rns/rns_secret_key.cc:Sample", "shell_encryption/rns/rns_secret_key.h:DecryptBgvWithCrt"]}
