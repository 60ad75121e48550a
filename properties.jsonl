{"id": "C01", "title": "Montgomery multiplication is exact", "statement": "For every odd modulus q in [3,2^63) and q' = MRedParams(q), MRed(x,y,q,q') returns the unique r in [0,q) with r*2^64 = x*y (mod q) whenever x*y < q*2^64.", "quantifier": "all odd q < 2^63, all uint64 x, y with x*y < q*2^64", "why_tests_cant": "The input space is 64-bit words (pairs or triples of them) crossed with every modulus, so a test samples a vanishing fraction; the risk is at rare carry/borrow boundaries.", "anchors": ["ring/modular_reduction.go:MRed", "ring/modular_reduction.go:MRedParams"]}
{"id": "C02", "title": "Lazy Montgomery multiplication stays below 2q", "statement": "For every odd q < 2^63, MRedConstant(x,y,q,q') never wraps around 64 bits and returns r < 2q (more precisely r*2^64 < q*2^64 + x*y) with r*2^64 = x*y (mod q) whenever x*y < q*2^64.", "quantifier": "all odd q < 2^63, all uint64 x, y with x*y < q*2^64", "why_tests_cant": "The input space is 64-bit words (pairs or triples of them) crossed with every modulus, so a test samples a vanishing fraction; the risk is at rare carry/borrow boundaries.", "anchors": ["ring/modular_reduction.go:MRedConstant"]}
{"id": "C03", "title": "MRedParams is the inverse of q modulo 2^64", "statement": "For every odd 64-bit q, q * MRedParams(q) = 1 modulo 2^64.", "quantifier": "all odd uint64 q", "why_tests_cant": "2^63 moduli; the loop is a fixed-exponent square-and-multiply whose correctness rests on the exponent of the unit group.", "anchors": ["ring/modular_reduction.go:MRedParams"]}
{"id": "C04", "title": "Barrett reduction is exact for every 64-bit input", "statement": "For every modulus q with 1 < q < 2^63, BRedAdd(x,q,BRedParams(q)) = x mod q for every uint64 x; BRedAddConstant returns a value congruent to x below 2q.", "quantifier": "all q in (1,2^63), all uint64 x", "why_tests_cant": "The input space is 64-bit words (pairs or triples of them) crossed with every modulus, so a test samples a vanishing fraction; the risk is at rare carry/borrow boundaries.", "anchors": ["ring/modular_reduction.go:BRedAdd", "ring/modular_reduction.go:BRedAddConstant", "ring/modular_reduction.go:BRedParams"]}
{"id": "C05", "title": "Barrett multiplication is exact for every pair of 64-bit inputs", "statement": "For every modulus q with 1 < q < 2^62 (and on the inputs the library feeds it for larger q), BRed(x,y,q,BRedParams(q)) = x*y mod q for all uint64 x and y with no assumption that they are reduced; BRedConstant returns a congruent value below 2q.", "quantifier": "all q, all uint64 x, y", "why_tests_cant": "The input space is 64-bit words (pairs or triples of them) crossed with every modulus, so a test samples a vanishing fraction; the risk is at rare carry/borrow boundaries.", "anchors": ["ring/modular_reduction.go:BRed", "ring/modular_reduction.go:BRedConstant"]}
{"id": "C06", "title": "Montgomery form conversion round-trips", "statement": "For every odd q < 2^62: MForm(x) = x*2^64 mod q for every uint64 x, InvMForm(MForm(x)) = x mod q, MForm(InvMForm(x)) = x mod q; the Constant variants return congruent values below 2q.", "quantifier": "all odd q, all uint64 x", "why_tests_cant": "The input space is 64-bit words (pairs or triples of them) crossed with every modulus, so a test samples a vanishing fraction; the risk is at rare carry/borrow boundaries.", "anchors": ["ring/modular_reduction.go:MForm", "ring/modular_reduction.go:MFormConstant", "ring/modular_reduction.go:InvMForm", "ring/modular_reduction.go:InvMFormConstant"]}
{"id": "C07", "title": "Modular exponentiation is exact", "statement": "ModExp(x,e,p) = x^e mod p for every base, every 64-bit exponent and every modulus the library uses (odd or even); ModexpMontgomery computes the Montgomery form of the power of a Montgomery-form input.", "quantifier": "all x, e uint64, all p < 2^62", "why_tests_cant": "Exponents are 64-bit (q-2, (q-1)/2N, Galois exponents); the loop invariant must hold for all bit patterns.", "anchors": ["ring/utils.go:ModExp", "ring/utils.go:ModexpMontgomery"]}
{"id": "C08", "title": "DivRound rounds to nearest", "statement": "DivRound(a,b,out) sets out to a/b rounded to the nearest integer, ties away from zero, for all big integers a and all b != 0, of either sign.", "quantifier": "all integers a, all non-zero integers b", "why_tests_cant": "Unbounded integers of either sign.", "anchors": ["ring/int.go:DivRound"]}
{"id": "C09", "title": "NTT prime generation returns usable primes", "statement": "Every value returned by GenerateNTTPrimesQ / GenerateNTTPrimesP / NextNTTPrime / PreviousNTTPrime is prime, congruent to 1 modulo the NTT root order, and a batch has no repetition; PreviousNTTPrime is strictly smaller than its argument.", "quantifier": "all bit sizes, all root orders, all requested counts", "why_tests_cant": "Search over primes near arbitrary 64-bit starting points; the wrap-around of the descending search happens only near zero.", "anchors": ["ring/primes.go:NextNTTPrime", "ring/primes.go:PreviousNTTPrime", "ring/primes.go:GenerateNTTPrimesQ", "ring/primes.go:GenerateNTTPrimesP"]}
{"id": "C10", "title": "Coefficient-wise ring operations compute the ring operation and keep the representation reduced", "statement": "Add, Sub, Neg, Reduce, MulCoeffs, MulCoeffsMontgomery, MForm, InvMForm, MulScalar and their AndAdd/AndSub variants act on each residue as the operation in Z/q_i and return residues in the documented range from inputs in the documented range; the NoMod/Constant variants stay congruent within their documented lazy range.", "quantifier": "all moduli, all polynomials, all levels", "why_tests_cant": "Needs every pair of residues for every modulus.", "anchors": ["ring/ring_operations.go:AddLvl", "ring/ring_operations.go:AddNoModLvl", "ring/ring_operations.go:SubLvl", "ring/ring_operations.go:SubNoModLvl", "ring/ring_operations.go:NegLvl", "ring/ring_operations.go:ReduceLvl", "ring/ring_operations.go:ReduceConstantLvl", "ring/ring_operations.go:ModLvl", "ring/ring_operations.go:MulCoeffsLvl", "ring/ring_operations.go:MulCoeffsMontgomeryLvl", "ring/ring_operations.go:MulScalarLvl", "ring/ring_operations.go:MulScalarBigintLvl", "ring/ring_operations.go:MFormLvl", "ring/ring_operations.go:InvMFormLvl", "ring/ring_operations.go:MulByPow2Lvl", "ring/ring_vector_ops.go:AddVec", "ring/ring_vector_ops.go:AddVecNoMod", "ring/ring_vector_ops.go:SubVec", "ring/ring_vector_ops.go:SubVecNomod", "ring/ring_vector_ops.go:NegVec", "ring/ring_vector_ops.go:ReduceVec", "ring/ring_vector_ops.go:ReduceConstantVec", "ring/ring_vector_ops.go:ModVec", "ring/ring_vector_ops.go:MulCoeffsVec", "ring/ring_vector_ops.go:MulCoeffsMontgomeryVec", "ring/ring_vector_ops.go:MulScalarMontgomeryVec", "ring/ring_vector_ops.go:MFormVec", "ring/ring_vector_ops.go:InvMFormVec", "ring/ring_vector_ops.go:MulByPow2Vec"]}
{"id": "C11", "title": "Scalar addition and subtraction write to the receiver", "statement": "AddScalar / SubScalar / AddScalarBigint / SubScalarBigint (p1, s, p2) put p1 +/- s in p2 and leave p1 unchanged when p1 and p2 are different polynomials.", "quantifier": "all polynomials p1 != p2, all scalars", "why_tests_cant": "Aliasing behaviour over all pairs of buffers; the in-place tests cannot see it.", "anchors": ["ring/ring_operations.go:AddScalarLvl", "ring/ring_operations.go:SubScalarLvl", "ring/ring_operations.go:AddScalarBigintLvl", "ring/ring_operations.go:SubScalarBigintLvl"]}
{"id": "C12", "title": "Multiplication by a power of two", "statement": "MulByPow2(p1,k,p2) puts p1*2^k modulo each q_i in p2, whether or not p1 and p2 are the same polynomial.", "quantifier": "all polynomials, all k, aliased or not", "why_tests_cant": "Depends on aliasing and on every residue.", "anchors": ["ring/ring_operations.go:MulByPow2Lvl", "ring/utils.go:PowerOf2"]}
{"id": "C13", "title": "NTT followed by inverse NTT is the identity", "statement": "For every NTT-friendly prime q < 2^61, every power-of-two N, every polynomial with reduced coefficients, InvNTT(NTT(p)) = p and NTT(InvNTT(p)) = p, coefficient for coefficient, including the lazy variants up to congruence.", "quantifier": "all N = 2^k >= 16, all primes q = 1 mod 2N below 2^61, all polynomials", "why_tests_cant": "q^N inputs.", "anchors": ["ring/ring_ntt.go:NTT", "ring/ring_ntt.go:InvNTT", "ring/ring_ntt.go:NTTLazy", "ring/ring_ntt.go:InvNTTLazy"]}
{"id": "C14", "title": "NTT lazy arithmetic never overflows", "statement": "For q < 2^61 and inputs below the documented bound, no intermediate value of NTT, NTTLazy, InvNTT, InvNTTLazy exceeds 64 bits, and the outputs lie below q (NTT, InvNTT), below 6q (NTTLazy) and below 2q (InvNTTLazy).", "quantifier": "all N, all q < 2^61, all inputs", "why_tests_cant": "Overflow of a lazy accumulator is a rare event that random tests do not hit.", "anchors": ["ring/ring_ntt.go:NTTLazy", "ring/ring_ntt.go:invNTTCore", "ring/ring_ntt.go:butterfly", "ring/ring_ntt.go:invbutterfly"]}
{"id": "C15", "title": "NTT computes evaluations, so coefficient-wise products are negacyclic convolutions", "statement": "NTT(p)[i] is the evaluation of p at psi^(2*bitrev(i)+1); hence InvNTT(MulCoeffs(NTT(a),NTT(b))) is the product of a and b in Z_q[X]/(X^N+1).", "quantifier": "all N, q, a, b", "why_tests_cant": "q^2N inputs.", "anchors": ["ring/ring_ntt.go:NTT", "ring/ring_ntt.go:NTTLazy", "ring/ring_ntt.go:InvNTT", "ring/ring_ntt.go:InvNTTLazy", "ring/ring_ntt.go:butterfly", "ring/ring_ntt.go:invbutterfly", "ring/ring_ntt.go:invNTTCore", "ring/ring.go:genNTTParams", "ring/ring_operations.go:MulCoeffsMontgomery"]}
{"id": "C16", "title": "Accepted moduli are safe for the arithmetic", "statement": "Every modulus accepted by parameter validation (CheckModuli) is small enough that the ring's NTT computes the right result.", "quantifier": "all moduli accepted by CheckModuli", "why_tests_cant": "Failure needs a modulus of 62 or 63 bits and a particular coefficient pattern.", "anchors": ["rlwe/params.go:CheckModuli", "ring/ring_ntt.go:butterfly"]}
{"id": "C17", "title": "Ring construction yields a primitive root", "statement": "If NewRing succeeds for prime moduli q_i = 1 mod 2N, the stored psi satisfies psi^N = -1 mod q_i, psi*psiInv = 1, and the twiddle tables hold psi^bitrev(j) and psi^-bitrev(j) in Montgomery form; invalid degrees, composite, repeated or non-NTT moduli are rejected.", "quantifier": "all N, all moduli lists", "why_tests_cant": "All primes of up to 61 bits.", "anchors": ["ring/ring.go:NewRing", "ring/ring.go:genNTTParams", "ring/utils.go:primitiveRoot"]}
{"id": "C18", "title": "CRT import/export round-trips", "statement": "PolyToBigint(SetCoefficientsBigint(x)) = x mod Q for every vector of integers, and the centred variant returns the representative in [-Q/2, Q/2) congruent to x.", "quantifier": "all moduli chains, all integer vectors", "why_tests_cant": "Unbounded integers and all moduli chains.", "anchors": ["ring/ring.go:SetCoefficientsBigintLvl", "ring/ring.go:PolyToBigintLvl", "ring/ring.go:PolyToBigintCenteredLvl"]}
{"id": "C19", "title": "RNS basis extension is exact up to one multiple of Q at the boundary", "statement": "ModUpQtoP maps the residues of an integer x in [0,Q) to residues of x + k*Q modulo every p_j with k in {-1,0,1}, k the same for all p_j, and k = 0 whenever x is not within a 2^-40 relative distance of 0 or Q (float64 rounding of the correction term cannot matter elsewhere); outputs do not wrap.", "quantifier": "all moduli chains of at most 32 primes below 2^61, all x in [0,Q)", "why_tests_cant": "Floating-point rounding failures concentrate on a 2^-40 fraction of inputs.", "anchors": ["ring/ring_basis_extension.go:ModUpQtoP", "ring/ring_basis_extension.go:reconstructRNS", "ring/ring_basis_extension.go:multSum", "ring/ring_basis_extension.go:basisextenderparameters"]}
{"id": "C20", "title": "ModDown divides by P", "statement": "ModDownQPtoQ(x) = (x - [x]_P)/P modulo every q_i where [x]_P is a representative of x mod P of size at most (1+eps)P; so P*result differs from x by less than (1+eps)P; ModDownQPtoQNTT computes the same polynomial in the NTT domain.", "quantifier": "all chains, all x modulo QP", "why_tests_cant": "All residues modulo QP.", "anchors": ["ring/ring_basis_extension.go:ModDownQPtoQ", "ring/ring_basis_extension.go:ModDownQPtoQNTT"]}
{"id": "C21", "title": "ModDownQPtoP divides by Q", "statement": "ModDownQPtoP(levelQ, levelP, x) returns (x - [x]_Q)/Q modulo every p_j for every pair of levels.", "quantifier": "all levels levelQ, levelP, all x", "why_tests_cant": "Needs levelQ != levelP combinations and all residues.", "anchors": ["ring/ring_basis_extension.go:ModDownQPtoP"]}
{"id": "C22", "title": "Rescaling by the last modulus is exact division", "statement": "DivFloorByLastModulus returns floor(x/q_L) and DivRoundByLastModulus returns floor((x + floor(q_L/2))/q_L) in RNS for every x in [0,Q); the Many variants iterate it and the NTT variants commute with the NTT.", "quantifier": "all chains, all x in [0,Q), all numbers of levels", "why_tests_cant": "All residues modulo Q; carries at the rounding boundary.", "anchors": ["ring/ring_scaling.go:DivFloorByLastModulusNTTLvl", "ring/ring_scaling.go:DivFloorByLastModulusLvl", "ring/ring_scaling.go:DivFloorByLastModulusManyNTTLvl", "ring/ring_scaling.go:DivFloorByLastModulusManyLvl", "ring/ring_scaling.go:DivRoundByLastModulusNTTLvl", "ring/ring_scaling.go:DivRoundByLastModulusLvl", "ring/ring_scaling.go:DivRoundByLastModulusManyNTTLvl", "ring/ring_scaling.go:DivRoundByLastModulusManyLvl"]}
{"id": "C23", "title": "RNS gadget decomposition reconstructs", "statement": "The digits DecomposeAndSplit produces for a polynomial a satisfy: digit_i = a modulo every prime of block i, with digit_i congruent modulo all primes of Q and P to a single integer of absolute value below (1+eps)*prod(block i); so sum_i digit_i*g_i = P*a mod QP for the gadget g_i stored in switching keys, at every level.", "quantifier": "all levels, all block sizes, all polynomials", "why_tests_cant": "All levels and residues, float correction.", "anchors": ["ring/ring_basis_extension.go:DecomposeAndSplit", "rlwe/keyswitch.go:DecomposeSingleNTT"]}
{"id": "C24", "title": "Automorphisms act as ring automorphisms", "statement": "Permute(p,g) maps X to X^g in Z_q[X]/(X^N+1) for every odd g, Permute by g then h is Permute by g*h, Permute by g inverse undoes it, and PermuteNTT on NTT representations agrees with Permute on coefficients.", "quantifier": "all N, all odd g, all polynomials", "why_tests_cant": "All Galois elements and polynomials.", "anchors": ["ring/ring_automorphism.go:Permute", "ring/ring_automorphism.go:PermuteNTTIndex", "ring/ring_automorphism.go:PermuteNTT"]}
{"id": "C25", "title": "Galois elements form the rotation group", "statement": "GaloisElementForColumnRotationBy(a)*GaloisElementForColumnRotationBy(b) = GaloisElementForColumnRotationBy(a+b) mod 2N for all (also negative) rotations, InverseGaloisElement(g)*g = 1 mod 2N for every odd g, rotation by N/2 is the identity, and the row-rotation element is an involution.", "quantifier": "all ints a, b, all odd g, all N", "why_tests_cant": "Unbounded integers.", "anchors": ["rlwe/params.go:GaloisElementForColumnRotationBy", "rlwe/params.go:InverseGaloisElement", "rlwe/params.go:GaloisElementForRowRotation"]}
{"id": "C26", "title": "The fast external product equals the gadget product", "statement": "For digits a_i and a key whose blocks give sums |S| with 2|S| <= T - 2^-41*T - 1 (implied by beta*N*max|a_i|*max|R_j| <= T/(2(1+2^-39)) - 1), the fast key-switcher's accumulation in the auxiliary ring T converted back with the T/2 offset equals sum_i a_i*b_i in Z_r[X]/(X^N+1) for every prime r of P and Q, exactly.", "quantifier": "all levels, all digit polynomials, all keys, all parameter sets meeting the bound", "why_tests_cant": "All ring elements; a wrap-around modulo T happens only near the bound.", "anchors": ["frlwe/keyswitch.go:externalProduct", "frlwe/keygen.go:polyQPToPolyTs"]}
{"id": "C27", "title": "The fast key-switch satisfies the key-switching relation", "statement": "For every input a and key generated for (s_in -> s_out), SwitchKey returns (c0,c1) with c0 + c1*s_out = a*s_in + e modulo Q_level where e is the explicit noise (sum_i d_i*e_i + rounding)/P with bounded rounding term, at every level.", "quantifier": "all levels, inputs, keys, parameter sets meeting the bound", "why_tests_cant": "All inputs, keys, levels.", "anchors": ["frlwe/keyswitch.go:SwitchKey", "frlwe/keygen.go:GenRelinKey", "frlwe/keygen.go:GenRotKey"]}
{"id": "C28", "title": "The classical key-switch satisfies the key-switching relation", "statement": "rlwe SwitchKeysInPlace returns (p0,p1) with p0 + p1*s_out = cx*s_in + (noise)/P modulo Q_level for every level, in the domain (NTT or not) of its input; its lazy accumulators never overflow.", "quantifier": "all levels, inputs, keys", "why_tests_cant": "All inputs, keys, levels; overflow depends on accumulated lazies.", "anchors": ["rlwe/keyswitch.go:SwitchKeysInPlace", "rlwe/keyswitch.go:SwitchKeysInPlaceNoModDown", "rlwe/keygen.go:genSwitchingKey"]}
{"id": "C29", "title": "Lazy accumulation in key-switching never overflows", "statement": "With reduction every margin/2 terms, the no-mod accumulation of Montgomery products in both key-switchers never exceeds 2^64 for any number of digits and moduli below 2^61, and the final reduction yields the exact residue of the sum.", "quantifier": "all beta, all moduli below 2^61, all digits", "why_tests_cant": "Overflow needs near-maximal lazily reduced residues at every step.", "anchors": ["rlwe/keyswitch.go:SwitchKeysInPlaceNoModDown", "frlwe/keyswitch.go:externalProduct", "rlwe/params.go:QiOverflowMargin", "frlwe/params.go:TiOverflowMargin"]}
{"id": "C30", "title": "fckks MulRelin decrypts to the product", "statement": "For degree-one ciphertexts ct0, ct1 at any levels, the output of fckks MulRelin has degree one, level min, scale product and decrypts under s to dec(ct0)*dec(ct1) plus the key-switching noise; inputs distinct from the output are unchanged, and aliasing of inputs and output does not change the result.", "quantifier": "all ciphertexts, levels, aliasing patterns", "why_tests_cant": "All ciphertexts and aliasing combinations.", "anchors": ["fckks/evaluator.go:MulRelin", "ckks/evaluator.go:mulRelin"]}
{"id": "C31", "title": "fckks Rotate decrypts to the rotated plaintext", "statement": "For every ciphertext, rotation index and key from GenRotKey, the output of fckks Rotate decrypts under s to the automorphism of dec(ct) plus key-switching noise, also in place.", "quantifier": "all ciphertexts, rotations, levels", "why_tests_cant": "All ciphertexts and rotations.", "anchors": ["fckks/evaluator.go:Rotate", "frlwe/keygen.go:GenRotKey", "rlwe/keygen.go:GenSwitchingKeyForRotationBy"]}
{"id": "C32", "title": "Encryption followed by decryption returns message plus bounded noise", "statement": "Decrypt(Encrypt(m)) = m + e with e the sampled error (secret-key: exactly e; public-key: the explicit combination of u, e0, e1 and the public-key error, divided by P with rounding), modulo Q at the minimum level, for every message, key and randomness.", "quantifier": "all messages, keys, random tapes, levels", "why_tests_cant": "All messages, keys and randomness.", "anchors": ["rlwe/encryptor.go:NewEncryptor", "rlwe/encryptor.go:newEncryptor", "rlwe/encryptor.go:newEncryptorBase", "rlwe/encryptor.go:newEncryptorSamplers", "rlwe/encryptor.go:newEncryptorBuffers", "rlwe/encryptor.go:Encrypt", "rlwe/encryptor.go:EncryptFromCRP", "rlwe/encryptor.go:ShallowCopy", "rlwe/encryptor.go:WithKey", "rlwe/encryptor.go:encrypt", "rlwe/encryptor.go:encryptNoP", "rlwe/encryptor.go:setKey", "rlwe/decryptor.go:NewDecryptor", "rlwe/decryptor.go:Decrypt", "rlwe/decryptor.go:ShallowCopy", "rlwe/decryptor.go:WithKey", "rlwe/keygen.go:GenPublicKey"]}
{"id": "C33", "title": "Generated switching keys encode the gadget", "statement": "For every pair of secrets and every error/mask tape, GenSwitchingKey outputs pairs (b_i,a_i) with b_i + a_i*s_out = e_i + P*s_in on the primes of block i and b_i + a_i*s_out = e_i on all other primes of Q and P; the relinearization key encodes s^2 and the rotation key for g encodes s -> g^-1(s).", "quantifier": "all secrets, random tapes, parameter sets", "why_tests_cant": "All secrets and randomness.", "anchors": ["rlwe/keygen.go:genSwitchingKey", "rlwe/keygen.go:GenRelinearizationKey", "rlwe/keygen.go:GenSwitchingKeyForGalois"]}
{"id": "C34", "title": "Ciphertext addition and subtraction", "statement": "ckks Add/Sub of operands of any degrees and levels yields, for equal scales, the component-wise sum/difference at level min and degree max with scale max, missing components treated as zero, for every aliasing of the output with an input.", "quantifier": "all operands, degrees, levels, aliasing patterns", "why_tests_cant": "All degrees, levels and aliasings.", "anchors": ["ckks/evaluator.go:Add", "ckks/evaluator.go:Sub", "ckks/evaluator.go:evaluateInPlace"]}
{"id": "C35", "title": "MulRelinAndAdd accumulates the product", "statement": "ckks MulAndAdd / MulRelinAndAdd (op0,op1,ctOut) adds op0*op1 to ctOut for every pair of degree-one ciphertexts; a receiver whose scale is below the product of the scales is first scaled up to it (ckks/evaluator.go:1226-1227), also if the receiver is an operand.", "quantifier": "all pairs of ciphertexts", "why_tests_cant": "Squaring hides the error; all pairs needed.", "anchors": ["ckks/evaluator.go:mulRelinAndAdd"]}
{"id": "C36", "title": "In-place rotation equals out-of-place rotation", "statement": "ckks Rotate / Conjugate with ctOut the same ciphertext as the input gives the same result as with a fresh output.", "quantifier": "all ciphertexts, keys, rotations", "why_tests_cant": "Aliasing; all ciphertexts.", "anchors": ["ckks/evaluator.go:permuteNTT"]}
{"id": "C37", "title": "Rescale stops at level zero", "statement": "ckks Rescale never consumes the last modulus and never panics for a level >= 1 ciphertext; it divides by the largest number of top primes for which the scale stays at least minScale/2.", "quantifier": "all scales, chains, minScale", "why_tests_cant": "All real scales and chains.", "anchors": ["ckks/evaluator.go:Rescale"]}
{"id": "C38", "title": "Polynomial serialization round-trips", "statement": "Decoding the encoding of any polynomial (any level, N, flags) into a fresh or an already used receiver returns the same coefficients and flags; encoded length equals GetDataLen; truncated input is reported as an error, not a panic.", "quantifier": "all polynomials, all receivers, all byte strings", "why_tests_cant": "All byte strings and receiver states.", "anchors": ["ring/ring_poly.go:MarshalBinary", "ring/ring_poly.go:UnmarshalBinary", "ring/ring_poly.go:DecodePolyNew", "ring/ring_poly.go:WriteTo"]}
{"id": "C39", "title": "Ciphertext and key serialization round-trips", "statement": "UnmarshalBinary(MarshalBinary(x)) = x for ciphertexts (with scale), secret, public, relinearization, switching and rotation keys of every shape.", "quantifier": "all shapes and contents", "why_tests_cant": "All shapes and contents.", "anchors": ["rlwe/marshaler.go:GetDataLen", "rlwe/marshaler.go:MarshalBinary", "rlwe/marshaler.go:UnmarshalBinary", "rlwe/marshaler.go:encode", "rlwe/marshaler.go:decode", "rlwe/ring_qp.go:WriteTo", "rlwe/ring_qp.go:DecodePolyNew", "ckks/ciphertext.go:MarshalBinary"]}
{"id": "C40", "title": "Parameter serialization round-trips", "statement": "UnmarshalBinary(MarshalBinary(p)) = p for every valid parameter set; JSON likewise (including the ring type); malformed input yields an error, not a panic.", "quantifier": "all parameter sets, all byte strings", "why_tests_cant": "All byte strings.", "anchors": ["rlwe/params.go:MarshalBinary", "rlwe/params.go:UnmarshalBinary", "rlwe/params.go:MarshalJSON", "ckks/params.go:MarshalBinary"]}
{"id": "C41", "title": "Parameter equality is an equivalence relation", "statement": "p.Equals(q) holds iff all components are equal; in particular it is symmetric and total.", "quantifier": "all pairs of parameter sets", "why_tests_cant": "All pairs of lists.", "anchors": ["rlwe/params.go:Equals", "utils/utils.go:EqualSliceUint64"]}
{"id": "C42", "title": "Uniform sampler output is in range", "statement": "Every coefficient returned by the uniform sampler is below its modulus, for every PRNG stream on which it returns, and each accepted value is used once in stream order.", "quantifier": "all PRNG streams, moduli, levels", "why_tests_cant": "All infinite byte streams.", "anchors": ["ring/ring_sampler_uniform.go:NewUniformSampler", "ring/ring_sampler_uniform.go:Read", "ring/ring_sampler_uniform.go:ReadLvl", "ring/ring_sampler_uniform.go:ReadNew", "ring/ring_sampler_uniform.go:ReadLvlNew", "ring/ring_sampler_uniform.go:RandUniform", "ring/ring_sampler_uniform.go:randInt32", "ring/ring_sampler_uniform.go:randInt64"]}
{"id": "C43", "title": "Ternary sampler yields the same ternary polynomial under every modulus", "statement": "Each coefficient produced is 0, 1 or -1 (or Montgomery form thereof), the same one modulo every q_i; the sparse sampler yields exactly min(h,N) non-zero coefficients, for every PRNG stream.", "quantifier": "all PRNG streams, moduli, densities", "why_tests_cant": "All byte streams.", "anchors": ["ring/ring_sampler_ternary.go:NewTernarySampler", "ring/ring_sampler_ternary.go:NewTernarySamplerWithHammingWeight", "ring/ring_sampler_ternary.go:Read", "ring/ring_sampler_ternary.go:ReadLvl", "ring/ring_sampler_ternary.go:ReadNew", "ring/ring_sampler_ternary.go:ReadLvlNew", "ring/ring_sampler_ternary.go:initializeMatrix", "ring/ring_sampler_ternary.go:computeMatrixTernary", "ring/ring_sampler_ternary.go:sampleProba", "ring/ring_sampler_ternary.go:sampleSparse", "ring/ring_sampler_ternary.go:kysampling"]}
{"id": "C44", "title": "Gaussian sampler is bounded and consistent", "statement": "Every coefficient produced represents one integer of absolute value at most the bound, the same modulo every q_i, for every PRNG stream; ReadAndAdd adds that integer.", "quantifier": "all PRNG streams, moduli, bounds", "why_tests_cant": "All byte streams.", "anchors": ["ring/ring_sampler_gaussian.go:NewGaussianSampler", "ring/ring_sampler_gaussian.go:Read", "ring/ring_sampler_gaussian.go:ReadLvl", "ring/ring_sampler_gaussian.go:ReadNew", "ring/ring_sampler_gaussian.go:ReadLvlNew", "ring/ring_sampler_gaussian.go:ReadFromDistLvl", "ring/ring_sampler_gaussian.go:ReadAndAddLvl", "ring/ring_sampler_gaussian.go:ReadAndAddFromDistLvl", "ring/ring_sampler_gaussian.go:readLvl", "ring/ring_sampler_gaussian.go:randFloat64", "ring/ring_sampler_gaussian.go:normFloat64"]}
{"id": "C45", "title": "Bit reversal is an involutive permutation", "statement": "BitReverse64(BitReverse64(i,n),n) = i for i < 2^n, it is a bijection of [0,2^n), and the ring's and encoder's in-place bit reversals permute accordingly and undo themselves.", "quantifier": "all n <= 63, all i, all slices", "why_tests_cant": "All indices and sizes.", "anchors": ["utils/utils.go:BitReverse64", "ring/ring_operations.go:BitReverse", "ckks/utils.go:SliceBitReverseInPlaceComplex128"]}
{"id": "C46", "title": "Byte buffer round-trips", "statement": "Any sequence of WriteUint8/WriteUint64 and slice writes is read back by the corresponding reads in order; a read past the end panics.", "quantifier": "all sequences and values", "why_tests_cant": "All values and sequences.", "anchors": ["utils/buffer.go:NewBuffer", "utils/buffer.go:WriteUint8", "utils/buffer.go:WriteUint64", "utils/buffer.go:WriteUint64Slice", "utils/buffer.go:WriteUint8Slice", "utils/buffer.go:ReadUint8", "utils/buffer.go:ReadUint64", "utils/buffer.go:ReadUint64Slice", "utils/buffer.go:ReadUint8Slice", "utils/buffer.go:Bytes"]}
{"id": "C47", "title": "Keyed PRNG is deterministic and seekable forward", "statement": "Two PRNGs with the same key and the same number of bytes clocked return the same next bytes; SetClock(n) reaches exactly the state after n calls of Clock and fails iff n is below the current clock.", "quantifier": "all keys, all histories of Clock/SetClock", "why_tests_cant": "All histories.", "anchors": ["utils/prng.go:NewKeyedPRNG", "utils/prng.go:NewPRNG", "utils/prng.go:GetClock", "utils/prng.go:Clock", "utils/prng.go:SetClock"]}
{"id": "C48", "title": "Slice rotation is a group action", "statement": "RotateXSlice(s,k)[i] = s[(i+k) mod len], rotations compose additively, and the input slice is not modified, for every integer k.", "quantifier": "all slices, all ints k", "why_tests_cant": "All lengths and offsets.", "anchors": ["utils/utils.go:RotateUint64Slice", "utils/utils.go:RotateInt64Slice"]}
{"id": "C49", "title": "HammingWeight64 counts ones", "statement": "HammingWeight64(x) is the number of set bits of x.", "quantifier": "all uint64 x", "why_tests_cant": "2^64 inputs.", "anchors": ["utils/utils.go:HammingWeight64"]}
{"id": "C50", "title": "Multiplication by a monomial", "statement": "MultByMonomial(p,k,out) computes X^k*p in Z_q[X]/(X^N+1) for every integer k.", "quantifier": "all polynomials, all ints k", "why_tests_cant": "All k and polynomials.", "anchors": ["ring/ring_operations.go:MultByMonomial"]}
{"id": "C51", "title": "Decryption handles every degree", "statement": "Decrypt evaluates sum c_i*s^i and returns fully reduced coefficients for every ciphertext degree and both domains.", "quantifier": "all degrees, both domains", "why_tests_cant": "Degrees congruent to 7 mod 8 only.", "anchors": ["rlwe/decryptor.go:Decrypt"]}
{"id": "C52", "title": "Sparse embedding of a smaller ring", "statement": "The NTT in degree N of p(X^gap) is the index-repeated NTT in degree N/gap of p, so MapSmallDimensionToLargerDimensionNTT and NttAndMontgomeryLvl agree with embedding then transforming.", "quantifier": "all N, gaps, polynomials", "why_tests_cant": "All polynomials and gaps.", "anchors": ["ring/ring_operations.go:MapSmallDimensionToLargerDimensionNTT", "ckks/utils.go:NttAndMontgomeryLvl"]}
{"id": "C53", "title": "Multiplication by a Gaussian constant", "statement": "ckks MultByConst / MultByi / DivByi multiply the encrypted polynomial by the fixed-point constant a + b*X^(N/2), as NTT-domain slot scaling by a + b*psi^(N/2) on the first half and a - b*psi^(N/2) on the second half; MultByi then DivByi is the identity.", "quantifier": "all ciphertexts, constants, levels", "why_tests_cant": "All polynomials and constants.", "anchors": ["ckks/evaluator.go:MultByConst", "ckks/evaluator.go:MultByi", "ckks/evaluator.go:DivByi", "ckks/evaluator.go:MultByGaussianInteger"]}
{"id": "C54", "title": "AddConst yields a complete ciphertext", "statement": "ckks AddConst(ct0,c,ctOut) makes ctOut decrypt to dec(ct0) + c whether or not ctOut is ct0.", "quantifier": "all ciphertexts, constants, aliasing", "why_tests_cant": "Aliasing; all ciphertexts.", "anchors": ["ckks/evaluator.go:AddConst"]}
{"id": "C55", "title": "Key generation terminates", "statement": "frlwe GenSecretKey and GenPublicKey return.", "quantifier": "all parameter sets and random tapes", "why_tests_cant": "Termination is not observable by a finite test.", "anchors": ["frlwe/keygen.go:GenSecretKey", "frlwe/keygen.go:GenPublicKey"]}
{"id": "C56", "title": "fckks SwitchKeys works on encoder-produced ciphertexts", "statement": "fckks SwitchKeys re-encrypts any NTT-domain ciphertext from s_in to s_out without panicking.", "quantifier": "all ciphertexts and keys", "why_tests_cant": "All ciphertexts.", "anchors": ["fckks/evaluator.go:SwitchKeys", "frlwe/keyswitch.go:SwitchKey"]}
{"id": "C57", "title": "Ring-degree switch writes only to its output", "statement": "SwitchCiphertextRingDegree(NTT)(ctIn,...,ctOut) puts the result in ctOut, leaves ctIn unchanged, and maps p(X) to p(X^gap) (small to large) or to the sub-sampled polynomial (large to small).", "quantifier": "all ciphertexts, degrees", "why_tests_cant": "Aliasing and all polynomials.", "anchors": ["rlwe/elements.go:SwitchCiphertextRingDegreeNTT", "rlwe/elements.go:SwitchCiphertextRingDegree"]}
{"id": "C58", "title": "Conjugate-invariant folding", "statement": "FoldStandardToConjugateInvariant after UnfoldConjugateInvariantToStandard returns twice the original polynomial, and unfolded polynomials are fixed by the automorphism X -> X^-1.", "quantifier": "all polynomials", "why_tests_cant": "All polynomials.", "anchors": ["ring/conjugate_invariant.go:UnfoldConjugateInvariantToStandard", "ring/conjugate_invariant.go:FoldStandardToConjugateInvariant", "ring/conjugate_invariant.go:PadDefaultRingToConjuateInvariant"]}
{"id": "C59", "title": "Rotation key set look-ups", "statement": "RotationKeySet.GetRotationKey returns the key stored for exactly that Galois element, Includes(other) holds iff every Galois element of other is present, and Equals is an equivalence on key sets.", "quantifier": "all key sets, Galois elements", "why_tests_cant": "All sets.", "anchors": ["rlwe/keys.go:GetRotationKey", "rlwe/keys.go:Includes", "rlwe/keys.go:Equals"]}
{"id": "C60", "title": "Greatest common divisor", "statement": "The ring's internal gcd returns the greatest common divisor for all non-zero inputs and AllDistinct detects every repetition.", "quantifier": "all uint64 pairs, all slices", "why_tests_cant": "All pairs.", "anchors": ["ring/utils.go:gcd", "utils/utils.go:AllDistinct"]}
{"id": "C61", "title": "Ring equality is congruence", "statement": "EqualLvl(level, p1, p2) returns true exactly when the coefficients of p1 and p2 are congruent modulo q_0..q_level, whether or not the operands are reduced, and leaves both operands reduced with unchanged residues and unchanged higher rows.", "quantifier": "all rings, levels and pairs of polynomials", "why_tests_cant": "All pairs of words, including unreduced representatives.", "anchors": ["ring/ring.go:EqualLvl", "ring/ring.go:Equal"]}
{"id": "C62", "title": "Scaling by t/Q rounds to nearest", "statement": "The RNS scaler and the simple scaler map the residues of x in [0,Q) to the residue modulo t of floor((t*x + floor(Q/2))/Q).", "quantifier": "all chains Q, plaintext moduli t, x in [0,Q)", "why_tests_cant": "The rounding boundary and the wrap at t occur for isolated values among Q many.", "anchors": ["ring/ring_scaling.go:DivByQOverTRounded", "ring/ring_scaling.go:reconstructThenScale"]}
{"id": "C63", "title": "Ternary coefficients use disjoint random bits", "statement": "The bits of the PRNG stream that determine one coefficient (value and sign) of a ternary polynomial determine no other coefficient of it.", "quantifier": "all PRNG streams, densities p, ring degrees", "why_tests_cant": "A statement about every stream; a correlation between neighbours is invisible in range checks and in single coefficients.", "anchors": ["ring/ring_sampler_ternary.go:kysampling", "ring/ring_sampler_ternary.go:sampleProba"]}
{"id": "C64", "title": "Products and relinearization decrypt to the product", "statement": "ckks Mul, MulRelin, Relinearize and their New variants leave in the receiver a ciphertext that decrypts to the product of the operands' decryptions (plus the key-switching error when relinearizing), whatever the receiver contained and also when operands and receiver coincide.", "quantifier": "all operands of degree at most 1, levels, receivers, secrets, errors", "why_tests_cant": "The receiver's previous contents and the aliasing pattern are part of the input; tests use fresh receivers.", "anchors": ["ckks/evaluator.go:mulRelin", "ckks/evaluator.go:Relinearize", "ckks/evaluator.go:MulNew", "ckks/evaluator.go:MulRelinNew", "ckks/evaluator.go:RelinearizeNew"]}
{"id": "C65", "title": "Classical rotation and conjugation decrypt to the automorphic image", "statement": "ckks Rotate(k), Conjugate and their New variants decrypt, under the same secret, to the image of the message plus key-switching error under the Galois automorphism of the rotation or conjugation.", "quantifier": "all ciphertexts of degree 1, levels, rotations, secrets, errors, receivers", "why_tests_cant": "All ciphertexts and rotations; the composition of key switch, NTT conversion and index permutation is exact modulo every prime.", "anchors": ["ckks/evaluator.go:Rotate", "ckks/evaluator.go:Conjugate", "ckks/evaluator.go:permuteNTT", "ckks/evaluator.go:RotateNew", "ckks/evaluator.go:ConjugateNew"]}
{"id": "C66", "title": "A product can be rescaled", "statement": "MulRelin (ckks and fckks) with a generated relinearization key followed by Rescale of the product divides it by the product P of the consumed moduli: P times the new decryption is the product of the operands' decryptions, plus the error of one key switch, plus a rounding term of at most P/2 per coefficient and component.", "quantifier": "all operands of degree 1, levels, scales, minScale below the panic bound of C37, secrets, errors", "why_tests_cant": "It is a statement about the composition of two lazy-reduction routines for all residues; tests use moduli so large, or so few coefficients, that a wrapped word shows only as noise.", "anchors": ["ckks/evaluator.go:mulRelin", "ckks/evaluator.go:Rescale", "fckks/evaluator.go:MulRelin"]}
{"id": "C67", "title": "Conjugate-invariant NTT", "statement": "NTTConjugateInvariant of a compressed polynomial a0..a(N-1) is the first half of the standard NTT of degree 2N of a0 + sum aj(X^j + X^-j); InvNTTConjugateInvariant inverts it on reduced input; pointwise multiplication is multiplication of the symmetric polynomials modulo X^2N+1.", "quantifier": "all conjugate-invariant rings with moduli below 2^61, all levels, all polynomials", "why_tests_cant": "All degrees, moduli and coefficient vectors; overflow of the lazy butterflies depends on rare values.", "anchors": ["ring/ring_ntt.go:NTTConjugateInvariant", "ring/ring_ntt.go:InvNTTConjugateInvariant", "ring/ring_ntt_interface.go:Forward", "ring/ring_ntt_interface.go:ForwardLvl", "ring/ring_ntt_interface.go:ForwardLazy", "ring/ring_ntt_interface.go:ForwardLazyLvl", "ring/ring_ntt_interface.go:Backward", "ring/ring_ntt_interface.go:BackwardLvl", "ring/ring_ntt_interface.go:BackwardLazy", "ring/ring_ntt_interface.go:BackwardLazyLvl", "ring/ring_ntt_interface.go:ForwardVec", "ring/ring_ntt_interface.go:ForwardLazyVec", "ring/ring_ntt_interface.go:BackwardVec", "ring/ring_ntt_interface.go:BackwardLazyVec"]}
{"id": "C68", "title": "Padding into the conjugate-invariant ring", "statement": "PadDefaultRingToConjuateInvariant writes the whole receiver: in the NTT domain the unfolded row, independent of the previous content of the receiver and determined injectively by the input.", "quantifier": "all polynomials, moduli and receivers", "why_tests_cant": "All polynomials and all prior contents of the receiver.", "anchors": ["ring/conjugate_invariant.go:PadDefaultRingToConjuateInvariant"]}
{"id": "C69", "title": "Coefficient encoding", "statement": "EncodeCoeffs writes, in every row up to the level of the plaintext, the reduced NTT of one and the same integer polynomial: the values times the scale rounded to the nearest integer (up to float64 error), zero beyond the last value, independently of what the plaintext held before; more than N values are refused.", "quantifier": "all rings, levels, value vectors, positive scales and plaintexts", "why_tests_cant": "The words stored before the NTT are not reduced (up to 2^61 for any modulus), so correctness needs the lazy NTT to tolerate every such input; prior contents of the receiver are unbounded.", "anchors": ["ckks/encoder.go:EncodeCoeffs", "ckks/encoder.go:EncodeCoeffsNew", "ckks/utils.go:singleFloatToFixedPointCRT"]}
{"id": "C70", "title": "Coefficient decoding", "statement": "DecodeCoeffs of a plaintext holding integers of absolute value below Q/2 returns each of them divided by the scale, at every level and whatever earlier calls left in the buffer of the encoder; composed with EncodeCoeffsNew every value comes back within half a unit of the scale up to float64 error.", "quantifier": "all rings, levels, scales, integer vectors below Q/2 and buffer contents", "why_tests_cant": "The reconstruction reads all the rows of the shared buffer, including stale rows above the level; all stale contents and boundary integers must be covered.", "anchors": ["ckks/encoder.go:decodeCoeffsPublic", "ckks/utils.go:scaleDown", "ckks/utils.go:genBigIntChain"]}
{"id": "C71", "title": "Special FFT evaluates at the powers of five", "statement": "SpecialFFTVec and SpecialFFTUL8Vec replace the first N values by the evaluations at omega^(5^j), j < N, of the polynomial having these values as coefficients, where omega is a primitive 4N-th root of unity taken from the table of the encoder, and change nothing after these N values.", "quantifier": "all powers of two N dividing M/4, all value vectors, both variants, exact arithmetic in any field with a root table", "why_tests_cant": "The layers are special-cased for blocks of 2, 4, 8 and 16 values in the unrolled version; the order 5^j of the slots and all sizes and vectors must be covered, and the memory after the slice is not visible to tests.", "anchors": ["ckks/ckks_vector_ops.go:SpecialFFTVec", "ckks/ckks_vector_ops.go:SpecialFFTUL8Vec", "ckks/utils.go:SliceBitReverseInPlaceComplex128", "ckks/encoder.go:newEncoder"]}
{"id": "C72", "title": "Special FFT and inverse special FFT cancel", "statement": "SpecialiFFTVec and SpecialiFFTUL8Vec are two-sided inverses of SpecialFFTVec and SpecialFFTUL8Vec on the first N values, in every combination of variants, and touch only the N values rounded up to the unrolling width and the slice rounded up to 8.", "quantifier": "all powers of two N dividing M/4, all value vectors, all variants, exact arithmetic in any field of odd characteristic with a root table", "why_tests_cant": "Floating point tests compare with tolerance on a few sizes; exact cancellation for all sizes and vectors cannot be observed.", "anchors": ["ckks/ckks_vector_ops.go:SpecialiFFTVec", "ckks/ckks_vector_ops.go:SpecialiFFTUL8Vec", "ckks/ckks_vector_ops.go:DivideComplex128SliceVec"]}
{"id": "C73", "title": "Slot embedding", "statement": "Embed writes the rounded scaled real parts of the transformed slots as the coefficients of 1, Y, Y^2, ... and the imaginary parts as those of Y^slots, ..., with Y = X^(N/(2 slots)), and zero elsewhere, in every row of the plaintext, in the NTT domain and in Montgomery form if asked for, whatever the plaintext held before.", "quantifier": "all rings, levels, numbers of slots, value vectors, scales and previous contents of the plaintext", "why_tests_cant": "The previous content of the plaintext and all sparsity levels matter; tests encode on fresh plaintexts with many slots.", "anchors": ["ckks/encoder.go:Embed", "ckks/utils.go:complexToFixedPointCRT", "ckks/utils.go:NttAndMontgomeryLvl"]}
{"id": "C74", "title": "Slot decoding evaluates the plaintext polynomial", "statement": "Decode of a plaintext holding integers of absolute value below Q/2 returns in slot j the value at zeta^(5^j) of the polynomial of the coefficients at the multiples of N/(2 slots), each divided by the scale in float64, at every level and whatever earlier calls left in the buffers.", "quantifier": "all rings, levels, scales, numbers of slots, integer polynomials below Q/2 and buffer contents", "why_tests_cant": "Both reconstruction paths, all gaps and stale buffer rows must be covered; the evaluation points are only visible through the algebra.", "anchors": ["ckks/encoder.go:decodePublic", "ckks/encoder.go:plaintextToComplex", "ckks/encoder.go:polyToComplexNoCRT", "ckks/encoder.go:polyToComplexCRT"]}
{"id": "C75", "title": "Galois automorphisms rotate and conjugate the slots", "statement": "Applying the automorphism of GaloisElementForColumnRotationBy(k) to a plaintext in the NTT domain rotates its decoded slots by k to the left, and the automorphism of GaloisElementForRowRotation conjugates them, for every number of slots used to decode.", "quantifier": "all rings, levels, scales, numbers of slots, rotations k (also negative), polynomials below Q/2", "why_tests_cant": "The statement links the NTT index permutation with the order of the slots in the complex transform; all rotations and all polynomials cannot be sampled.", "anchors": ["ring/ring_automorphism.go:PermuteNTTLvl", "rlwe/params.go:GaloisElementForColumnRotationBy", "rlwe/params.go:GaloisElementForRowRotation", "ckks/encoder.go:decodePublic"]}
{"id": "C76", "title": "Slot round trip", "statement": "Decode of Encode on a fresh plaintext returns every slot, and the missing ones as 0, within 2*slots times the coefficient error: the float error of the inverse transform, half a unit of the scale, and a relative 2^-50.", "quantifier": "all rings, levels, numbers of slots, value vectors, scales and buffer contents", "why_tests_cant": "The bound must hold for all vectors and sizes; tests measure precision statistically.", "anchors": ["ckks/encoder.go:Embed", "ckks/encoder.go:decodePublic"]}
{"id": "C77", "title": "Fused constant multiplication and addition", "statement": "MultByGaussianIntegerAndAdd adds (a+ib) times the decryption of the operand to the decryption of the receiver, for every mixture of levels and degrees the code accepts. MultByConstAndAdd does the same for a complex constant within the rounding of the constant and of the scale alignment, and the recorded scale of the receiver matches.", "quantifier": "all rings, levels, degrees, constants, scales and receivers, including the operand as receiver", "why_tests_cant": "The alignment of scales depends on ratios of floating-point scales and on aliasing; the failing cases (ratio 1.5, operand equal to receiver) are not reached by the suite.", "anchors": ["ckks/evaluator.go:MultByGaussianIntegerAndAdd", "ckks/evaluator.go:MultByConstAndAdd"]}
{"id": "C78", "title": "ScaleUp and SetScale keep the message", "statement": "ScaleUp by f multiplies both the recorded scale and the decryption by f; SetScale(scale) multiplies the decryption by scale/ct.Scale and records scale, up to the rounding error of a rescaling.", "quantifier": "all rings, levels, degrees, factors and scales", "why_tests_cant": "The suite only scales by integers or large ratios; the truncation of a fractional factor and the missing inner division occur for particular scales only.", "anchors": ["ckks/evaluator.go:ScaleUp", "ckks/evaluator.go:SetScale"]}
{"id": "C79", "title": "Operations with a new receiver", "statement": "NegNew, MultByConstNew, ScaleUpNew, ReduceNew, DropLevelNew, RescaleNew, MultByiNew, DivByiNew and MulByPow2New return a new ciphertext with the decryption and scale of the operation and leave every other ciphertext unchanged, for operands of every degree and level.", "quantifier": "all rings, levels, degrees, operands and secrets", "why_tests_cant": "All degrees and all operands cannot be sampled; the suite uses degree 1 throughout and never checks MulByPow2New.", "anchors": ["ckks/evaluator.go:NegNew", "ckks/evaluator.go:MultByConstNew", "ckks/evaluator.go:MultByiNew", "ckks/evaluator.go:DivByiNew", "ckks/evaluator.go:ScaleUpNew", "ckks/evaluator.go:MulByPow2New", "ckks/evaluator.go:ReduceNew", "ckks/evaluator.go:DropLevelNew", "ckks/evaluator.go:RescaleNew"]}
{"id": "C80", "title": "Hoisted rotations", "statement": "PermuteNTTHoisted on the digits of DecomposeNTT of component 1 decrypts to the rotated message plus the key-switching error, as Rotate does, whatever the pools hold; PermuteNTTHoistedNoModDown leaves P times that message plus the digit errors modulo QP; RotateHoistedNoModDownNew returns exactly the requested non-zero rotations.", "quantifier": "all rings, levels, keys, ciphertexts, lists of rotations and pool contents", "why_tests_cant": "The repository has no test of the hoisted operations of the evaluator; the relation must hold modulo every prime of Q and P for all inputs.", "anchors": ["ckks/evaluator.go:PermuteNTTHoisted", "ckks/evaluator.go:PermuteNTTHoistedNoModDown", "ckks/evaluator.go:RotateHoistedNoModDownNew", "rlwe/keyswitch.go:KeyswitchHoisted"]}
{"id": "C81", "title": "EncryptMsg and DecryptToMsg of fckks", "statement": "EncryptMsg returns a ciphertext at the scale of the encryptor that decrypts to an encoding of the message plus bounded noise, and leaves the encryptor ready for the next call; DecryptToMsg returns the slots of the decrypted polynomial divided by the scale, up to float64 rounding; encrypting and then decrypting returns the message within an explicit bound.", "quantifier": "all ring degrees, moduli, numbers of slots, levels, messages, keys, noise within the bound, and all states of the pools of encryptor and decryptor", "why_tests_cant": "The tests use a new encryptor and decryptor at the top level with many slots; the pools persist across calls and the result depends on their level and content.", "anchors": ["fckks/encryptor.go:EncryptMsg", "fckks/encryptor.go:EncryptMsgNew", "fckks/decryptor.go:DecryptToMsg", "ckks/encryptor.go:Encrypt", "ckks/decryptor.go:Decrypt"]}
{"id": "C82", "title": "Addition and subtraction at different scales", "statement": "Add and Sub of ciphertexts whose scales differ multiply the operand of the smaller scale by the ratio of the scales before adding, return the larger scale, and decrypt to the sum or difference of the two messages brought to that scale, for every aliasing of operands and receiver.", "quantifier": "all rings, levels, degrees, operands, scales, secrets and aliasing patterns", "why_tests_cant": "The suite adds ciphertexts of equal scale only; four branches depend on which operand is the receiver and which scale is larger.", "anchors": ["ckks/evaluator.go:evaluateInPlace", "ckks/evaluator.go:Add", "ckks/evaluator.go:Sub", "ckks/evaluator.go:MultByConst"]}
{"id": "C83", "title": "Derived rings and parameters", "statement": "ConjugateInvariantRing and StandardRing are inverse to each other and return the ring that the constructor of that type returns; StandardParameters of conjugate-invariant parameters are valid parameters with the same moduli and number of slots; the accepted numbers of slots are exactly 2^0 up to MaxSlots; CopyNew of parameters returns equal parameters.", "quantifier": "all degrees, moduli, parameter sets and numbers of slots", "why_tests_cant": "All valid parameter sets cannot be enumerated; the boundary degrees 16 and 2^17 are never tested.", "anchors": ["ring/ring.go:ConjugateInvariantRing", "ring/ring.go:StandardRing", "rlwe/params.go:StandardParameters", "rlwe/params.go:CopyNew", "ckks/params.go:StandardParameters", "ckks/params.go:MaxSlots", "ckks/params.go:NewParameters"]}
{"id": "C84", "title": "Encoding of rings", "statement": "UnmarshalBinary of the output of MarshalBinary of a ring restores a ring that can be used as the original, and malformed input returns an error.", "quantifier": "all rings built by a constructor, and all receivers", "why_tests_cant": "The test compares the degree and the moduli only and never calls NTT on the decoded ring.", "anchors": ["ring/ring.go:MarshalBinary", "ring/ring.go:UnmarshalBinary"]}
{"id": "C85", "title": "Operations of fckks on messages", "statement": "Read as complex messages, EncryptMsg, Add, Sub, Neg, MulRelin, Rotate, Rescale and DecryptToMsg compute the slotwise sum, difference, negation, product and rotation of the messages at the scale they record, with explicit bounds for plaintext size, noise and slot error that hold whatever ciphertexts satisfying the bounds of the operands are given.", "quantifier": "all parameter sets, keys, tapes, numbers of slots, messages, levels, scales and receivers, including receivers that are operands", "why_tests_cant": "A test compares a few decrypted messages with a fixed tolerance; it cannot bound the noise for all ciphertexts with given bounds, and does not see errors that stay below the tolerance for the sampled keys.", "anchors": ["fckks/evaluator.go:MulRelinNew", "fckks/evaluator.go:MulRelin", "fckks/evaluator.go:RotateNew", "fckks/evaluator.go:Rotate", "fckks/encryptor.go:EncryptMsg", "fckks/encryptor.go:EncryptMsgNew", "fckks/decryptor.go:DecryptToMsg", "fckks/decryptor.go:DecryptToMsgNew", "ckks/evaluator.go:newCiphertextBinary", "ckks/evaluator.go:Add", "ckks/evaluator.go:AddNoMod", "ckks/evaluator.go:AddNew", "ckks/evaluator.go:AddNoModNew", "ckks/evaluator.go:Sub", "ckks/evaluator.go:SubNoMod", "ckks/evaluator.go:SubNew", "ckks/evaluator.go:SubNoModNew", "ckks/evaluator.go:evaluateInPlace", "ckks/evaluator.go:Neg", "ckks/evaluator.go:NegNew", "ckks/evaluator.go:AddConstNew", "ckks/evaluator.go:getConstAndScale", "ckks/evaluator.go:AddConst", "ckks/evaluator.go:Rescale"]}
{"id": "C86", "title": "Programs of homomorphic operations", "statement": "Every sequence of calls that a client's bookkeeping of levels, scales and bounds allows runs to its end without panic or error, and decrypting any ciphertext afterwards with a new decryptor gives the values the bookkeeping computed, within its bounds, as long as they fit into the modulus.", "quantifier": "all programs of any length over allocation, Add, Sub, Neg, MulRelin, Rotate and Rescale, with any sharing of receivers and operands", "why_tests_cant": "There are infinitely many programs; interactions of in-place receivers, levels and scales appear only in particular sequences.", "anchors": ["fckks/evaluator.go:MulRelinNew", "fckks/evaluator.go:MulRelin", "fckks/evaluator.go:RotateNew", "fckks/evaluator.go:Rotate", "ckks/evaluator.go:newCiphertextBinary", "ckks/evaluator.go:Add", "ckks/evaluator.go:AddNoMod", "ckks/evaluator.go:AddNew", "ckks/evaluator.go:AddNoModNew", "ckks/evaluator.go:Sub", "ckks/evaluator.go:SubNoMod", "ckks/evaluator.go:SubNew", "ckks/evaluator.go:SubNoModNew", "ckks/evaluator.go:evaluateInPlace", "ckks/evaluator.go:Neg", "ckks/evaluator.go:NegNew", "ckks/evaluator.go:AddConstNew", "ckks/evaluator.go:getConstAndScale", "ckks/evaluator.go:AddConst", "ckks/evaluator.go:Rescale", "fckks/decryptor.go:NewDecryptor", "fckks/decryptor.go:Decrypt", "fckks/decryptor.go:DecryptToMsg", "fckks/decryptor.go:DecryptToMsgNew"]}
{"id": "C87", "title": "Circular shift through the Galois automorphism", "statement": "Bit reversal, inverse NTT, Rotate by k, NTT and bit reversal move the coefficients of every row by k places to the left, circularly, and agree with Shift by k; Rotate and Shift write the receiver and leave the operand alone.", "quantifier": "all ring degrees, moduli, reduced polynomials and shift amounts", "why_tests_cant": "testGaloisShift uses k = 1, in place, on random polynomials; the identity relies on the roots of unity of every modulus and on k modulo N, and a receiver different from the operand is never tried.", "anchors": ["ring/ring_operations.go:Rotate", "ring/ring_operations.go:Shift", "ring/ring_operations.go:BitReverse"]}
{"id": "C88", "title": "CopyNew makes deep copies", "statement": "CopyNew of polynomials, ciphertexts, PolyQP and keys only allocates; the copy holds what the original held, shares no memory with anything that existed before, and its components share no rows. Copy writes the source into the receiver and changes nothing else. GetCoefficients and SetCoefficients copy coefficients; NewCiphertextAtLevelFromPoly shares rows exactly as documented.", "quantifier": "all memories, including shared rows, all objects of all sizes, and all later writes to old or new memory", "why_tests_cant": "Tests compare values right after a copy; sharing shows up only when one of the two objects is written later, and stale rows only for operands of different levels or degrees.", "anchors": ["ring/ring_poly.go:CopyNew", "ring/ring_poly.go:Copy", "rlwe/elements.go:CopyNew", "rlwe/elements.go:Copy", "rlwe/keys.go:CopyNew", "rlwe/ring_qp.go:CopyNew", "ckks/ciphertext.go:NewCiphertextAtLevelFromPoly"]}
{"id": "C89", "title": "Switching keys between ring degrees and ring types", "statement": "GenSwitchingKey for secrets of different degrees gives a key of the larger ring from sIn to sOut, the smaller one taken in X^(N/n); a ciphertext mapped up and switched decrypts under the large secret to M(X^(N/n)) plus one key-switching error, and a ciphertext switched and mapped down decrypts under the small secret to every (N/n)-th coefficient of M plus those of the error. GenSwitchingKeysForRingSwap gives keys between a standard secret and the unfolded conjugate-invariant secret in both directions. None of this depends on what the key generator's pools held before.", "quantifier": "all pairs of ring degrees, moduli, levels, secrets, masks, errors, messages and pool contents", "why_tests_cant": "Tests use one pair of degrees with equal moduli and a fresh key generator; the reuse of poolQP as a secret key and stale pool rows matter only after earlier calls.", "anchors": ["rlwe/keygen.go:GenSwitchingKey", "rlwe/keygen.go:GenSwitchingKeysForRingSwap", "rlwe/elements.go:SwitchCiphertextRingDegreeNTT", "rlwe/elements.go:SwitchCiphertextRingDegree"]}
{"id": "C90", "title": "Arbitrary precision cosine and root table", "statement": "ring.Cos run on numbers of prec bits, every operation rounded to nearest even, differs from the real cosine by at most 10(prec+22)/2^prec; in exact arithmetic its truncation error is at most x^4/4^k after k halvings. The table of roots of unity that NewEncoderBigComplex builds from it differs in each part from cos and sin of 2*pi*i/m by at most 10(prec+27)/2^prec.", "quantifier": "all precisions from 12 to 2^20 bits, all arguments up to 2*pi in absolute value, all table sizes m with 8m <= 2^prec and all table indices", "why_tests_cant": "Tests print or compare a few values at one precision; the accumulated rounding error and the number of iterations have to be right at every precision.", "anchors": ["ring/complex128.go:Cos", "ring/complex128.go:NewFloat", "ckks/encoder.go:NewEncoderBigComplex"]}
{"id": "C91", "title": "Arbitrary precision encoder", "statement": "The arbitrary precision complex operations are those of the complex numbers; FFT evaluates at the powers zeta^(5^j), InvFFT inverts it, and both leave the values beyond N alone. Encode writes the rounded scaled coefficients of the polynomial with the given slot values; Decode returns the slot values of the held polynomial divided by the scale; encoding and decoding gives the values back within slots/scale.", "quantifier": "all ring degrees, moduli, levels, numbers of slots, scales, values and contents of plaintext and encoder buffers", "why_tests_cant": "Tests use one ring, a fresh encoder and vectors that fill all slots.", "anchors": ["ckks/encoder.go:encoderBigComplex.Encode", "ckks/encoder.go:encoderBigComplex.decodePublic", "ckks/encoder.go:encoderBigComplex.FFT", "ckks/encoder.go:encoderBigComplex.InvFFT", "ckks/utils.go:scaleUpVecExactBigFloat", "ring/complex128.go:Mul", "ring/complex128.go:Div"]}
{"id": "C92", "title": "Rounding errors of the complex128 transforms", "statement": "With every float64 operation rounded, the forward transform of 2^n values of size B differs from the exact one by at most 2^n*n*B/2^47, the inverse transform by at most (n+1)*B/2^47 (plus underflow), given that the cosine and sine of the library are accurate to 4 units in 2^-53. Encode followed by Decode, and EncryptMsg followed by DecryptToMsg, return every slot up to the resulting explicit error.", "quantifier": "all ring degrees, numbers of slots, buffers, values, scales, levels, keys and samples, both variants of the transforms", "why_tests_cant": "Tests measure the error of random vectors for one size; the worst case over all inputs and sizes is not reached.", "anchors": ["ckks/ckks_vector_ops.go:SpecialFFTVec", "ckks/ckks_vector_ops.go:SpecialiFFTVec", "ckks/ckks_vector_ops.go:SpecialFFTUL8Vec", "ckks/ckks_vector_ops.go:SpecialiFFTUL8Vec", "ckks/encoder.go:NewEncoder", "ckks/encoder.go:Embed", "ckks/encoder.go:decodePublic", "fckks/encryptor.go:EncryptMsg", "fckks/decryptor.go:DecryptToMsg"]}
{"id": "C93", "title": "SwitchKeys of the CKKS evaluator", "statement": "SwitchKeys and SwitchKeysNew with a key generated by GenSwitchingKey from the secret S to the secret S' turn a ciphertext that decrypts to m under S into one of degree 1 that decrypts under S' to m plus the key-switching error, at the scale of the input; no other ciphertext changes.", "quantifier": "all ring degrees, moduli, levels, secrets, tapes of samples, ciphertexts and receivers, including the ciphertext as receiver", "why_tests_cant": "Tests call SwitchKeys with receivers of the level of the input; a receiver of a higher level keeps its level and its stale upper residues, and no test compares them.", "anchors": ["ckks/evaluator.go:SwitchKeys", "ckks/evaluator.go:SwitchKeysNew", "rlwe/keygen.go:GenSwitchingKey"]}
{"id": "C94", "title": "Real slots of conjugate-invariant rings", "statement": "In a ring of type ConjugateInvariant, Decode of a plaintext with coefficients c returns in slot j the real number c_0 + 2*sum c_k*cos(2*pi*5^j*k/(4*slots)) of the coefficients at the multiples of N/slots, and Decode of Encode returns the real part of every value, missing ones as 0, within an explicit error, whatever the plaintext and the buffers held.", "quantifier": "all rings, levels, numbers of slots, value vectors, scales, plaintext and buffer contents", "why_tests_cant": "Tests encode with the full number of slots; with fewer than 16 slots in a larger ring Encode panics. The evaluation points and the error bound must hold for all sizes and vectors.", "anchors": ["ckks/encoder.go:Embed", "ckks/encoder.go:decodePublic", "ckks/encoder.go:polyToComplexNoCRT", "ckks/encoder.go:polyToComplexCRT", "ckks/utils.go:NttAndMontgomeryLvl", "ckks/utils.go:complexToFixedPointCRT"]}
{"id": "C95", "title": "The listed rotations suffice for sums over slots", "statement": "With keys for the rotations of RotationsForInnerSum, RotationsForInnerSumLog, RotationsForReplicate(Log) or RotationsForTrace alone, a program of evaluator calls computes from a ciphertext of v the sums over i < n of v(j + i*batch) in slot j, with n - 1 key-switching errors; RotationsForInnerSumLog lists no rotation twice and at most 2 log n of them; the products of parts of GaloisElementsForRowInnerSum are all Galois elements, each once.", "quantifier": "all n, batch (negative ones too), rings, keys, tapes, ciphertexts and slot counts", "why_tests_cant": "The list must work for every n, including those that are not powers of two; the operations named in its comments are not in this code base, so no test runs them.", "anchors": ["ckks/params.go:RotationsForInnerSum", "ckks/params.go:RotationsForInnerSumLog", "ckks/params.go:RotationsForReplicate", "ckks/params.go:RotationsForReplicateLog", "ckks/params.go:RotationsForTrace", "rlwe/params.go:GaloisElementsForRowInnerSum"]}
{"id": "C96", "title": "Sessions from encryption to decryption in complex128", "statement": "With generated keys, a new encryptor, evaluator and decryptor, every sequence of EncryptMsg(New), Add, Sub, Neg, MulRelin, Rotate, Rescale, NewCiphertext and DecryptToMsg(New) that the client's bookkeeping of levels, scales and bounds allows runs to its end without panic or error, and each decrypted message, in order, is the one the bookkeeping computed, within its bounds, with all encoding and decoding in complex128 arithmetic.", "quantifier": "all sessions of any length, parameter sets, keys, samples, contents of the encoder buffers, and any sharing of receivers and operands", "why_tests_cant": "The plaintext pools of encryptor and decryptor carry state from call to call, so the result of a call depends on all calls before it; a test tries a few orders.", "anchors": ["fckks/encryptor.go:NewEncryptor", "fckks/encryptor.go:Encrypt", "fckks/encryptor.go:EncryptMsg", "fckks/encryptor.go:EncryptMsgNew", "fckks/decryptor.go:NewDecryptor", "fckks/decryptor.go:Decrypt", "fckks/decryptor.go:DecryptToMsg", "fckks/decryptor.go:DecryptToMsgNew", "fckks/evaluator.go:MulRelinNew", "fckks/evaluator.go:MulRelin", "fckks/evaluator.go:RotateNew", "fckks/evaluator.go:Rotate", "ckks/encoder.go:Embed", "ckks/encoder.go:decodePublic"]}
{"id": "C97", "title": "Constants, level drops and allocating operations act on messages as the client computes", "statement": "For ciphertexts that hold complex values with known bounds: MultByGaussianInteger, MultByi, DivByi and MulByPow2 in place multiply every value by the constant exactly; MultByConst multiplies every value by the complex constant, with an error that counts only the rounding of the constant to integers at its scale (1 for Gaussian integers, else the top modulus) and of the scale to float64; AddConst in place and AddConstNew add the constant to every value; ScaleUp by an integer and DropLevel keep the values; AddNew, SubNew, NegNew, MulRelinNew, RotateNew, RescaleNew, MultByConstNew, MultByiNew, DivByiNew, ScaleUpNew and DropLevelNew give the same result as the operation into a receiver and change no other ciphertext. Programs and sessions (C86, C96) may use all of these.", "quantifier": "all rings, levels, messages, constants (parts at most 2^52 for MultByConst), receivers not above the operand, heaps and programs", "why_tests_cant": "Tests multiply random vectors by one constant at one scale with a loose precision bound; they cannot show that the slots get exactly the constant's value for every constant, level, gap and message, nor that the error bound the client computes is sound.", "anchors": ["ckks/evaluator.go:AddNoMod", "ckks/evaluator.go:AddNew", "ckks/evaluator.go:AddNoModNew", "ckks/evaluator.go:Sub", "ckks/evaluator.go:SubNoMod", "ckks/evaluator.go:SubNew", "ckks/evaluator.go:SubNoModNew", "ckks/evaluator.go:Neg", "ckks/evaluator.go:NegNew", "ckks/evaluator.go:AddConstNew", "ckks/evaluator.go:getConstAndScale", "ckks/evaluator.go:AddConst", "ckks/evaluator.go:MultByConstNew", "ckks/evaluator.go:MultByConst", "ckks/evaluator.go:MultByGaussianInteger", "ckks/evaluator.go:MultByGaussianIntegerAndAdd", "ckks/evaluator.go:MultByiNew", "ckks/evaluator.go:MultByi", "ckks/evaluator.go:DivByiNew", "ckks/evaluator.go:DivByi", "ckks/evaluator.go:ScaleUpNew", "ckks/evaluator.go:ScaleUp", "ckks/evaluator.go:SetScale", "ckks/evaluator.go:MulByPow2New", "ckks/evaluator.go:MulByPow2", "ckks/evaluator.go:ReduceNew", "ckks/evaluator.go:Reduce", "ckks/evaluator.go:DropLevelNew", "ckks/evaluator.go:DropLevel", "ckks/evaluator.go:RescaleNew", "fckks/evaluator.go:MulRelinNew", "fckks/evaluator.go:MulRelin", "fckks/evaluator.go:RotateNew", "fckks/evaluator.go:Rotate"]}
{"id": "C98", "title": "Encryptors and decryptors made by ShallowCopy can be used concurrently", "statement": "Programs create encryptors and decryptors by NewEncryptor, NewDecryptor, ShallowCopy and WithKey in any order. Any number of threads then call Encrypt, EncryptFromCRP or Decrypt, each with an object of its own; keys, plaintexts and ciphertexts that are only read may be shared. For every interleaving of the single steps of the calls (every row of a polynomial is read and written in separate steps), a call that has ended left in its outputs what it leaves when it runs alone, and alone it leaves the ciphertext or plaintext of the functional model; every thread that gets enough steps ends; afterwards all objects can be used again and nothing but the outputs has changed outside the objects. Without a copy this fails: two threads with the same decryptor can produce a wrong plaintext.", "quantifier": "all rings, keys, plaintexts, ciphertexts, generator states and samplers, sequences of constructions, numbers of threads, and schedules", "why_tests_cant": "Tests of ShallowCopy compare the pointers of two objects or decrypt once; the interleavings of two calls are far too many to try, and a buffer shared by mistake shows only under particular ones.", "anchors": ["rlwe/encryptor.go:newEncryptor", "rlwe/encryptor.go:newEncryptorBase", "rlwe/encryptor.go:newEncryptorSamplers", "rlwe/encryptor.go:newEncryptorBuffers", "rlwe/encryptor.go:Encrypt", "rlwe/encryptor.go:EncryptFromCRP", "rlwe/encryptor.go:ShallowCopy", "rlwe/encryptor.go:WithKey", "rlwe/encryptor.go:encrypt", "rlwe/encryptor.go:encryptNoP", "rlwe/decryptor.go:NewDecryptor", "rlwe/decryptor.go:Decrypt", "rlwe/decryptor.go:ShallowCopy", "rlwe/decryptor.go:WithKey", "ring/ring_basis_extension.go:ShallowCopy"]}
{"id": "C99", "title": "Rounding errors of the arbitrary precision encoder", "statement": "With every big.Float operation rounded to nearest even with prec bits and the computed table of roots: each value of FFT differs from the exact evaluation at zeta^(5^j) by at most 2^n B (g^n - 1), each value of InvFFT from the exact inverse by at most B ((1+u) g^n - 1), with g = (1+u)(1+d)(1+3u), u = 2^-prec, d = 15 (prec+27) 2^-prec and B a bound for the inputs. Encode stores integers that differ from the exact scaled coefficients by at most (1+u)/2 + scale B ((1+u)^5 g^n - 1); Decode returns the slots of the held polynomial up to 2^n B' ((1+u)^2/(1-u) g^n - 1). Encoding and decoding gives the values back up to 2^n (2/scale + 128 B (n+1)(prec+27)/2^prec), for every earlier content of the plaintext and the buffers, and leaves the encoder ready for the next call.", "quantifier": "all precisions from 12 bits below 2^20, rings of type Standard, levels, numbers of slots, positive scales, values that fit the modulus, and contents of plaintext and buffers", "why_tests_cant": "Tests compare a few decoded vectors with a tolerance; they cannot show that the rounding errors of the table, the layers, the scaling and the division stay below a bound for every precision, ring degree and vector.", "anchors": ["ckks/encoder.go:encoderBigComplex.Encode", "ckks/encoder.go:encoderBigComplex.decodePublic", "ckks/encoder.go:encoderBigComplex.FFT", "ckks/encoder.go:encoderBigComplex.InvFFT", "ckks/encoder.go:NewEncoderBigComplex", "ckks/utils.go:scaleUpVecExactBigFloat", "ring/complex128.go:Mul"]}
{"id": "C100", "title": "Ring operations without a level argument", "statement": "Every operation of Ring without a level argument (Add, AddNoMod, Sub, SubNoMod, Neg, Reduce, ReduceConstant, Mod, the MulCoeffs family, AddScalar, SubScalar, MulScalar and their big-integer variants, MForm, InvMForm, MulByPow2, MultByMonomialNew) computes the ring operation on exactly the rows that the ring and all its polynomials have, and leaves the other rows of the receiver as they were; with a polynomial that has no rows nothing changes. NTT, NTTLazy, InvNTT and InvNTTLazy transform one row per modulus of the ring, panic exactly when a polynomial has fewer rows, and every entry point chooses the transform of the ring's type.", "quantifier": "all rings with valid moduli, numbers of rows of operands and receiver (including zero and unequal), coefficients within the operation's range, and both ring types", "why_tests_cant": "Tests call these operations with polynomials that all have as many rows as the ring; the number of rows processed with unequal or missing rows, and what is left in the others, is never observed.", "anchors": ["ring/ring_operations.go:Add", "ring/ring_operations.go:AddNoMod", "ring/ring_operations.go:Sub", "ring/ring_operations.go:SubNoMod", "ring/ring_operations.go:Neg", "ring/ring_operations.go:Reduce", "ring/ring_operations.go:ReduceConstant", "ring/ring_operations.go:Mod", "ring/ring_operations.go:MulCoeffs", "ring/ring_operations.go:MulCoeffsAndAdd", "ring/ring_operations.go:MulCoeffsMontgomery", "ring/ring_operations.go:MulCoeffsMontgomeryAndAdd", "ring/ring_operations.go:MulCoeffsMontgomeryAndSub", "ring/ring_operations.go:AddScalar", "ring/ring_operations.go:AddScalarBigint", "ring/ring_operations.go:SubScalar", "ring/ring_operations.go:SubScalarBigint", "ring/ring_operations.go:MulScalar", "ring/ring_operations.go:MulScalarBigint", "ring/ring_operations.go:MForm", "ring/ring_operations.go:InvMForm", "ring/ring_operations.go:MulByPow2New", "ring/ring_operations.go:MulByPow2", "ring/ring_operations.go:MultByMonomialNew", "ring/ring_operations.go:minLevelTernary", "ring/ring_operations.go:minLevelBinary", "ring/ring_ntt.go:NTT", "ring/ring_ntt.go:InvNTT", "ring/ring_ntt.go:NTTSingle"]}
{"id": "C101", "title": "RingQP is the ring of polynomials modulo QP", "statement": "A PolyQP with reduced rows at levels (levelQ, levelP), in coefficient or NTT form, is exactly a polynomial modulo QP: congruent integer polynomials have the same rows, and any reduced rows hold exactly one polynomial with coefficients in [0, QP). Every operation of RingQP computes the operation on that polynomial: sums, differences, NTT and inverse, Montgomery form and back, products modulo X^N+1 with and without accumulation, automorphisms, copies; lazy variants within their bounds. Rows above the levels and parts over a ring that is nil are unchanged, and an operation panics exactly when a part over a ring that is there is missing or too short. Copy makes the receiver equal to the operand. UniformSamplerQP draws the Q and P parts from disjoint stretches of the generator's output, both reduced.", "quantifier": "all rings, with or without P, all levels, all pairwise coprime moduli, all integer polynomials, all receivers, all byte streams", "why_tests_cant": "Tests check single operations on random polynomials row by row; that the pair of parts represents one integer polynomial modulo QP is a statement about the Chinese remainder theorem over all residues, and parameters where it fails (a prime shared by Q and P) are never tried.", "anchors": ["rlwe/ring_qp.go:Equals", "rlwe/ring_qp.go:CopyValues", "rlwe/ring_qp.go:CopyNew", "rlwe/ring_qp.go:NewPoly", "rlwe/ring_qp.go:NewPolyLvl", "rlwe/ring_qp.go:AddLvl", "rlwe/ring_qp.go:AddNoModLvl", "rlwe/ring_qp.go:SubLvl", "rlwe/ring_qp.go:NTTLvl", "rlwe/ring_qp.go:InvNTTLvl", "rlwe/ring_qp.go:NTTLazyLvl", "rlwe/ring_qp.go:MFormLvl", "rlwe/ring_qp.go:InvMFormLvl", "rlwe/ring_qp.go:MulCoeffsMontgomeryLvl", "rlwe/ring_qp.go:MulCoeffsMontgomeryConstantLvl", "rlwe/ring_qp.go:MulCoeffsMontgomeryConstantAndAddNoModLvl", "rlwe/ring_qp.go:MulCoeffsMontgomeryAndSubLvl", "rlwe/ring_qp.go:MulCoeffsMontgomeryConstantAndSubNoModLvl", "rlwe/ring_qp.go:MulCoeffsMontgomeryAndAddLvl", "rlwe/ring_qp.go:PermuteNTTWithIndexLvl", "rlwe/ring_qp.go:PermuteNTTWithIndexAndAddNoModLvl", "rlwe/ring_qp.go:CopyValuesLvl", "rlwe/ring_qp.go:ExtendBasisSmallNormAndCenter", "rlwe/ring_qp.go:Copy", "rlwe/ring_qp.go:GetDataLen", "rlwe/ring_qp.go:WriteTo", "rlwe/ring_qp.go:DecodePolyNew", "rlwe/ring_qp.go:NewUniformSamplerQP", "rlwe/ring_qp.go:Read", "rlwe/ring_qp.go:PolyQP.Copy", "rlwe/ring_qp.go:UniformSamplerQP.Read", "rlwe/params.go:CheckModuli"]}
{"id": "C102", "title": "Moduli and parameters generated from bit sizes", "statement": "GenModuli(logN, logQ, logP) always returns or panics. It returns an error exactly when the degree, the number of moduli or a size is outside of the limits. Otherwise it delivers one prime congruent to 1 modulo 2N per size, in order, all moduli of both chains distinct, and for every size the primes nearest to that power of two, nearest first; it panics only if there are too few such primes. NewParametersFromLiteral takes a literal with exactly both chains or exactly both lists of sizes, refuses every other one, fills in the default Hamming weight and deviation, generates for twice the degree in the conjugate-invariant ring, and returns parameters whose rings meet the hypotheses under which key generation, encryption and key switching are correct.", "quantifier": "all degrees, lists of sizes, counts, ring types and literals", "why_tests_cant": "Tests use a few literals with sizes of 30 to 61 bits where primes are plentiful; the order and completeness of the search, its end, the exact limits, and sizes whose primes collide are never examined.", "anchors": ["rlwe/params.go:GenModuli", "rlwe/params.go:checkModuliLogSize", "rlwe/params.go:NewParametersFromLiteral", "ring/primes.go:GenerateNTTPrimes"]}
{"id": "C103", "title": "Factors, primitive roots and acceptance of moduli", "statement": "The table of small primes holds exactly the primes below 17390. getFactors(n) returns exactly the prime factors of n, and primitiveRoot(q) the smallest primitive root of q. NewRing and NewParameters return for every argument (no loop runs forever): they succeed exactly when the degree is a power of two within the limits and the moduli are distinct primes congruent to 1 modulo 2N (4N in the conjugate-invariant ring) within the limits of number and size, and return an error otherwise.", "quantifier": "all n from 1 to 2^63, all primes up to 2^63, all degrees, ring types and lists of moduli", "why_tests_cant": "Tests build rings on a handful of moduli and never look at the factors or the order of the root; whether the search of Pollard's rho ends, and what it finds, depends on the cycle structure of x^2+c modulo each number.", "anchors": ["ring/utils.go:getFactors", "ring/utils.go:factorizationPollardsRho", "ring/utils.go:primitiveRoot", "ring/ring.go:NewRing", "rlwe/params.go:NewParameters"]}
{"id": "C104", "title": "The parameter sets of the code meet the hypotheses of the correctness theorems", "statement": "A literal that lists moduli is accepted by the constructors of rlwe, ckks, frlwe and fckks exactly when its degree, moduli and number of slots are acceptable (for frlwe: T admits a ring and no prime is in both Q and P), and the parameters have its fields with the documented defaults; a literal by sizes is accepted once moduli have been generated for it. All 20 default parameter sets of ckks, the test sets of rlwe, and the sets of frlwe and fckks are accepted; their rings meet the hypotheses of the correctness theorems (for the conjugate-invariant sets: those of their standard parameters), the auxiliary modulus T of the fast key switch is large enough, and the error of one key switch is below 2^16, 2^24 and 2^26. LogQ, LogP and LogQP are the sizes of the products of the moduli, and LogQP of a default set is the number in its name.", "quantifier": "all literals; for the named sets: all inputs, levels, keys and errors", "why_tests_cant": "Tests run a few of the sets on random inputs: that all moduli of all sets are prime, that T is large enough for every input at every level (the margin of PN16QP1760 is a factor below 3) and the worst error of a key switch cannot be sampled.", "anchors": ["ckks/params.go:PN12QP109", "ckks/params.go:NewParametersFromLiteral", "rlwe/rlwe_test_params.go:TestPN12QP109", "rlwe/rlwe_test_params.go:TestPN13QP218", "rlwe/rlwe_test_params.go:TestPN14QP438", "rlwe/rlwe_test_params.go:TestPN15QP880", "rlwe/params.go:LogQP", "frlwe/params.go:NewParametersFromLiteral", "fckks/params.go:NewParametersFromLiteral", "fckks/fckks_test.go:PN16QP1760", "profile/new/main.go:main"]}
{"id": "C105", "title": "Distributions of the samplers", "statement": "On a stream of independent uniform bytes, read from any position: Read/ReadLvl of the uniform sampler returns every choice of coefficients below the moduli with the same probability; the ternary sampler with p = 1/2 returns independent coefficients, 0 with probability 1/2 and 1, -1 with probability 1/4; the sampler of fixed Hamming weight returns every ternary polynomial of this weight with the same probability 1/((N choose h) 2^h); RandUniform is uniform. Rejection loops end with probability one, and in every case the bytes that follow are independent of the result and random again, so that successive samples are independent. With p different from 1/2 the coefficients are 0, 1, -1 with probabilities p, (1-p)/2, (1-p)/2, and GenSecretKey draws from [1/3, 1/3, 1/3].", "quantifier": "all degrees, moduli, levels, weights, positions in the stream and results; probability over all infinite byte streams", "why_tests_cant": "A test sees a few samples: neither exact probabilities of N-coefficient polynomials (below 2^-10000) nor independence of what follows can be estimated.", "anchors": ["ring/ring_sampler_uniform.go:ReadLvl", "ring/ring_sampler_uniform.go:RandUniform", "ring/ring_sampler_ternary.go:sampleProba", "ring/ring_sampler_ternary.go:sampleSparse", "ring/ring_sampler_ternary.go:kysampling", "rlwe/keygen.go:GenSecretKey"]}
{"id": "C106", "title": "Key switches leave no trace of their reused buffers and do not disturb each other", "statement": "SwitchKeysInPlace, DecomposeNTT and KeyswitchHoisted of rlwe and SwitchKey of frlwe, run step by step on memory with the pools of their key switchers, return what the key switch without buffers returns, whatever earlier calls left in the pools; they write nothing but their pools and outputs, leave every length and NTT flag as it was, and the key switcher can be used again. This also holds when the outputs are pools, as in relinearisation and hoisted rotations. NewKeySwitcher and ShallowCopy give every key switcher memory of its own, and key switches in different threads with different key switchers return the sequential result under every interleaving, even when they share keys and inputs.", "quantifier": "all rings, keys, levels, inputs, contents of buffers, sequences of constructor calls, numbers of threads and schedules", "why_tests_cant": "Tests run one key switch after another with buffers left by the same operations; a stale row is visible only for particular sequences of levels and inputs, and an interleaving that corrupts a result is one in a huge number.", "anchors": ["rlwe/keyswitch.go:SwitchKeysInPlace", "rlwe/keyswitch.go:SwitchKeysInPlaceNoModDown", "rlwe/keyswitch.go:DecomposeNTT", "rlwe/keyswitch.go:KeyswitchHoisted", "rlwe/keyswitch.go:ShallowCopy", "frlwe/keyswitch.go:SwitchKey", "frlwe/keyswitch.go:externalProduct", "frlwe/keyswitch.go:NewKeySwitcher", "ring/ring_basis_extension.go:ShallowCopy"]}
{"id": "C107", "title": "The Gaussian sampler draws independent, symmetric, bounded coefficients and returns", "statement": "On a stream of independent uniform bytes, from any position of the generator and of the pointer in the 1024-byte buffer: the coefficients that Read/ReadLvl/ReadFromDistLvl write, and those that ReadAndAdd adds, are independent and have one law, the same for all positions; the law is symmetric, has no mass beyond the bound and total mass one, so that the calls return with probability one. The bytes that follow a call are independent of its result and random again, so that polynomials drawn one after the other from one sampler, also in different rings or with other parameters, are independent.", "quantifier": "all interpretations of the floating-point operations (for termination: with log 1 = 0 and 0 rounded to 0), all deviations, bounds, rings, levels, positions, polynomials", "why_tests_cant": "A statement about the distribution on all byte streams, with loops that need not end on some of them, for every implementation of the floating-point functions.", "anchors": ["ring/ring_sampler_gaussian.go:NewGaussianSampler", "ring/ring_sampler_gaussian.go:normFloat64", "ring/ring_sampler_gaussian.go:randFloat64", "ring/ring_sampler_gaussian.go:readLvl", "ring/ring_sampler_gaussian.go:ReadAndAddFromDistLvl"]}
{"id": "C108", "title": "The Gaussian sampler follows the rounded, truncated normal law", "statement": "With exact arithmetic in place of floating-point arithmetic, on a stream of independent uniform bytes: for all integers a <= b within the bound, the probability that a coefficient drawn by the Gaussian sampler lies between a and b differs by at most 6e-5 from the integral of exp(-x^2/2) from (a-1/2)/sigma to (b+1/2)/sigma, divided by the same integral over all values within the bound. In particular the tables kn, wn, fn, the constant of the tail and the tests of normFloat64 fit together.", "quantifier": "all deviations up to 2^59, all bounds of at least two deviations, all intervals of integers", "why_tests_cant": "A statistical test sees samples, for one deviation; a wrong entry in one of the 384 table entries moves probabilities by 1e-3 or less in one place, and no test covers all deviations and intervals.", "anchors": ["ring/ring_sampler_gaussian.go:normFloat64", "ring/ring_sampler_gaussian.go:randFloat64", "ring/ring_sampler_gaussian.go:readLvl", "ring/ring_sampler_gaussian.go:ReadAndAddFromDistLvl"]}
{"id": "C109", "title": "The profiling programs run to the end and switch correctly", "statement": "The main functions of profile/new and profile/old: their parameters are accepted, and for every output of the samplers within their ranges and every table of roots of the encoder the program runs to the end. The zero message encodes to exactly zero, the input of the loop decrypts to noise of at most 65537 per coefficient and is left unchanged by the loop, and each of the 50 ciphertexts that SwitchKeysNew returns on the coefficient-domain input decrypts under s to the input with s^2 in the place of s, up to an error below 2^26, on all 47 primes. The outputs hold coefficients but are marked as being in the NTT domain.", "quantifier": "all secrets, errors, masks and encryption draws in range, all root tables, all fuel of at least 2^61", "why_tests_cant": "The programs print times and check nothing; the statement is about all keys and all randomness at N = 2^16 with 47 primes.", "anchors": ["profile/new/main.go:main", "profile/old/main.go:main"]}
{"id": "C110", "title": "The Gaussian sampler follows the rounded, truncated normal law with floating-point arithmetic", "statement": "With floating-point operations whose results are exact up to the relative error of one rounding (2^-53 for float64, 2^-24 for float32; a few units in the last place for math.Log, math.Exp and for sums of products that the compiler may fuse) and up to 2^-140: for all integers a <= b within the bound, the probability that a coefficient drawn by the Gaussian sampler from independent uniform bytes lies between a and b differs by at most 1e-4 from the integral of exp(-x^2/2) from (a-1/2)/sigma to (b+1/2)/sigma, divided by the same integral over all values within the bound.", "quantifier": "all interpretations of the floating-point operations within these errors, all deviations up to 2^59, all bounds of at least two deviations, all intervals of integers", "why_tests_cant": "A statement about the distribution on all byte streams, for every way the compiler and processor may round; for large deviations nearly every single sample differs from that of exact arithmetic, although the law does not.", "anchors": ["ring/ring_sampler_gaussian.go:normFloat64", "ring/ring_sampler_gaussian.go:randFloat64", "ring/ring_sampler_gaussian.go:readLvl", "ring/ring_sampler_gaussian.go:ReadAndAddFromDistLvl"]}
{"id": "C111", "title": "The one-pass scaler rounds t X/Q modulo t", "statement": "reconstructAndScale of the SimpleScaler writes on every row of the receiver, for each coefficient X given by its residues modulo the chain Q, the word round(t X/Q) mod t, up to the stated rounding distance around the half-integers.", "quantifier": "all rings, all plaintext moduli t, all polynomials and receivers", "why_tests_cant": "The function is only benchmarked, its result is never compared with anything; integer parts that are wrong by one, saturation of the sum and even moduli occur for particular t and chains only.", "anchors": ["ring/ring_scaling.go:reconstructAndScale", "ring/ring_scaling.go:NewSimpleScaler"]}
{"id": "C112", "title": "The parameter sets of package ring are usable", "statement": "Qi60 followed by Pi60 is what GenerateNTTPrimes(61, 2^18, 64) returns, the 64 largest primes below 2^61 that are 1 modulo 2^18 in decreasing order; NewRing accepts the moduli of each of the five parameter sets in their degree, and the resulting rings meet the hypotheses of the theorems on rings, with no modulus shared between Q and P.", "quantifier": "all five parameter sets, all 64 moduli, all numbers of steps from a bound on", "why_tests_cant": "The tests use the probabilistic primality test on the same numbers and run NewRing on some of the sets only; none compares the lists with the generator.", "anchors": ["ring/ring_test_params.go:DefaultParams", "ring/primes.go:GenerateNTTPrimes", "ring/primes.go:GenerateNTTPrimesP", "ring/ring.go:NewRing"]}
{"id": "C113", "title": "The measured standard deviations of an error are right", "statement": "StandardDeviation returns the standard deviation of its input times the scale, up to an explicit bound on the float64 rounding errors. GetErrSTDSlotDomain returns that of the real and imaginary parts of the differences of two vectors of slots, GetErrSTDCoeffDomain that of the coefficients of the polynomial that encodes the differences, whatever the buffers of the encoder hold; the sum of squares of the coefficients is that of the slots divided by the number of slots, which relates the two results.", "quantifier": "all vectors of up to 2^19 values, all scales, all buffer contents, all root tables and root functions within the rounding error", "why_tests_cant": "No test calls these functions; tests could only compare a few vectors with a recomputation in the same arithmetic.", "anchors": ["ckks/utils.go:StandardDeviation", "ckks/encoder.go:GetErrSTDCoeffDomain", "ckks/encoder.go:GetErrSTDSlotDomain"]}
{"id": "C114", "title": "A set of rotation keys serves exactly the listed rotations", "statement": "GenRotationKeys returns a set with a switching key for exactly the listed Galois elements; each key is the one that the formula of the scheme gives from the randomness of its last occurrence in the list, with no trace of earlier keys or of the buffers of the generator. With the set of GenRotationKeysForRotations, rotating by k succeeds exactly when k is the identity or agrees with a listed rotation modulo N/2, and then gives an encryption of the rotated message; conjugation works exactly when it was asked for; other rotations panic. GenRotationKeysForInnerSum lists the powers of two below N/2 and the conjugation.", "quantifier": "all rings, lists of rotations (negative, repeated, larger than N/2), secret keys, sampled values, contents of the buffers, ciphertexts and rotation amounts", "why_tests_cant": "Tests generate a few lists of distinct rotations with a fresh key generator and rotate by listed amounts; repeated or congruent entries, stale buffers and missing keys are not exercised.", "anchors": ["rlwe/keygen.go:GenRotationKeys", "rlwe/keygen.go:GenRotationKeysForRotations", "rlwe/keygen.go:GenRotationKeysForInnerSum", "rlwe/keygen.go:genrotKey", "rlwe/keygen.go:genSwitchingKey", "rlwe/keys.go:NewRotationKeySet", "rlwe/keys.go:GetRotationKey", "ckks/evaluator.go:Rotate", "ckks/evaluator.go:Conjugate"]}
{"id": "C115", "title": "The masks and errors of generated keys are independent draws with the stated laws", "statement": "On random bytes, GenSwitchingKey returns with probability one a switching key for the two secrets; its masks are uniform over all reduced polynomials, its errors have the law of the Gaussian sampler, and all masks and errors are independent of each other, of the secrets, of what the memory held and of the bytes that the samplers read next, although all samplers share one generator and the Gaussian sampler keeps a buffer between calls. The same for GenPublicKey. All reduced tuples of polynomials are equally likely as NewCiphertextRandom.", "quantifier": "all rings, secrets, error bounds below half of the first modulus, masks, errors, states of the samplers, contents of the memory, degrees and levels", "why_tests_cant": "Tests check that keys decrypt with small noise; the joint law of masks and errors over the whole space, and independence from later draws, cannot be observed in a few samples.", "anchors": ["rlwe/keygen.go:genSwitchingKey", "rlwe/keygen.go:GenPublicKey", "rlwe/elements.go:NewCiphertextRandom", "rlwe/elements.go:PopulateElementRandom", "ckks/ciphertext.go:NewCiphertextRandom", "ring/ring_sampler_uniform.go:ReadLvl", "ring/ring_sampler_gaussian.go:ReadLvl"]}
{"id": "C116", "title": "A fresh secret-key ciphertext has a uniform mask and an independent error with the stated law", "statement": "On random bytes, the secret-key encryptor returns with probability one; every pair of a reduced mask and a small error is the outcome with probability one over the number of masks times the probability that the Gaussian sampler gives to the error, whatever the message, the secret, the previous content of the ciphertext and the state of the samplers, and independently of the bytes that are read next. The decryption of the ciphertext at any level exceeds the message by exactly an error of this law.", "quantifier": "all rings, secrets, messages in either domain, levels, error bounds below half of the first modulus, masks, errors, states of the samplers, contents of the memory, output levels", "why_tests_cant": "Tests decrypt a few ciphertexts and look at precision; independence of mask, error, message and secret and the exact law of the decryption error are statements about all outcomes.", "anchors": ["rlwe/encryptor.go:Encrypt", "rlwe/encryptor.go:encrypt", "rlwe/decryptor.go:Decrypt", "ring/ring_sampler_uniform.go:ReadLvl", "ring/ring_sampler_gaussian.go:ReadAndAddLvl"]}
{"id": "C117", "title": "Key pairs and public-key ciphertexts have the stated joint law on random bytes", "statement": "On random bytes, GenKeyPair returns with probability one; every triple of a ternary secret of the Hamming weight of the parameters, an error within the bound and a reduced mask is the outcome with the product of their probabilities (uniform over such secrets, Gaussian law, uniform over masks), independently of the bytes read next. Public-key encryption draws every triple of an ephemeral ternary polynomial of that weight and two errors with the product of their probabilities, whatever the message, the key and the memory, and the ciphertext is the message plus the noise determined by the draws and the error of the key; with probability one it decrypts with an error of about ((2N+1) bound)/P + N + 1 per coefficient.", "quantifier": "all rings with special primes and degree below 2^32, Hamming weights, error bounds below half of the first modulus, secrets, errors, masks, messages in either domain, levels, states of the samplers, contents of the memory", "why_tests_cant": "Tests decrypt a few ciphertexts under a few keys; a joint law over all secrets, masks and errors, and independence from later draws of the shared generator, are statements about all outcomes.", "anchors": ["rlwe/keygen.go:GenKeyPair", "rlwe/keygen.go:GenSecretKey", "rlwe/keygen.go:genSecretKeyFromSampler", "rlwe/keygen.go:GenPublicKey", "rlwe/encryptor.go:Encrypt", "rlwe/encryptor.go:encrypt", "rlwe/decryptor.go:Decrypt", "ring/ring_sampler_ternary.go:sampleSparse"]}
{"id": "C118", "title": "GenSwitchkeysRescalingParams returns the Montgomery form of the inverse of the special modulus", "statement": "For primes Q below 2^63 and any list P of primes outside Q, GenSwitchkeysRescalingParams returns one word per modulus q of Q, below q, and it is the only such word whose product with the product of P is 2^64 modulo q. MRed by the constant sends every word congruent to a*P to the residue of a. The constants equal, word for word, those that the basis extender precomputes for the division by all special primes.", "quantifier": "all lists of primes Q and P (any length and order, P possibly empty or with repetitions), all words", "why_tests_cant": "The function has no caller and no test in the repository; the statement is about all chains of primes.", "anchors": ["ckks/utils.go:GenSwitchkeysRescalingParams", "ring/utils.go:ModExp", "ring/modular_reduction.go:MForm", "ring/ring_basis_extension.go:genModDownParams"]}
{"id": "C119", "title": "Key pairs and public-key ciphertexts have the stated joint law on random bytes, without special primes", "statement": "With no special prime, on random bytes, GenKeyPair returns with probability one; every triple of a ternary secret of the Hamming weight of the parameters, an error within the bound and a reduced mask is the outcome with the product of their probabilities, independently of the bytes read next. Public-key encryption (encryptNoP) draws every triple of an ephemeral ternary polynomial and two errors with the product of their probabilities, and the ciphertext is the message plus U e + e0 + e1 s exactly, where in the NTT domain the first error drawn is e1 and otherwise e0; with probability one it decrypts with an error of at most (2N+1) bound per coefficient.", "quantifier": "all rings of degree below 2^32, Hamming weights, error bounds below half of the first modulus, secrets, errors, masks, messages and ciphertexts in either domain, levels, states of the samplers, contents of the memory", "why_tests_cant": "The tests use parameter sets with special primes; a joint law over all secrets, masks and errors, and independence from later draws, are statements about all outcomes.", "anchors": ["rlwe/keygen.go:GenKeyPair", "rlwe/keygen.go:genSecretKeyFromSampler", "rlwe/keygen.go:GenPublicKey", "rlwe/encryptor.go:Encrypt", "rlwe/encryptor.go:encryptNoP", "rlwe/decryptor.go:Decrypt", "ring/ring_sampler_ternary.go:sampleSparse"]}
{"id": "C120", "title": "AddNoMod and SubNoMod followed by Reduce compute sums and differences", "statement": "AddNoMod and SubNoMod of ciphertexts and plaintexts of any degrees, levels and scales do not panic, change only the receiver (and the pool when scales differ) and hold the sum or difference of the operands, the operand of smaller scale multiplied by the integer part of the ratio, with words below the sum of the bounds of the operands, if no word exceeds 2^64; for SubNoMod the subtrahend has words at most q. Any number of reduced ciphertexts accumulated by AddNoMod and then reduced decrypt to the sum, with canonical words, if the number of terms times q is at most 2^64. A component of AddNoMod is the sum modulo a prime exactly if no pair of its words wraps around, and a component of SubNoMod is the difference exactly if no x + q - y does.", "quantifier": "all valid rings, operands, degrees, levels, scales, bounds on words, receivers (operands included), keys, numbers of terms", "why_tests_cant": "No test calls the NoMod variants; wrap-around depends on the sizes of words, which are all cases of the quantifier.", "anchors": ["ckks/evaluator.go:AddNoMod", "ckks/evaluator.go:AddNoModNew", "ckks/evaluator.go:SubNoMod", "ckks/evaluator.go:SubNoModNew", "ckks/evaluator.go:evaluateInPlace", "ckks/evaluator.go:Reduce", "ring/ring_operations.go:AddNoModLvl", "ring/ring_operations.go:SubNoModLvl"]}
{"id": "C121", "title": "The keys of the fast key-switch have the stated joint law on random bytes and work with probability one", "statement": "On random bytes, GenRelinKey and GenRotKey of frlwe return with probability one; every family of errors within the bound and of reduced masks is that of the generated fast key with the product of their probabilities, independently of the secret, of the contents of the pools and of the bytes read next; the blocks of a fast key modulo T determine its masks, and all families of masks are equally likely. With probability one the fast key-switch with the generated key maps every polynomial at every level from s^2 to s (relinearization) or from s to s(X^g'), g' the inverse of the Galois element of the rotation (rotation), with the key errors within the bound; the stored rotation index is the index reduced modulo N/2.", "quantifier": "all accepted parameters whose T is large enough, secrets, errors, masks, rotation indices, levels, input polynomials, states of the samplers, contents of the pools", "why_tests_cant": "A joint law over all masks and errors, independence from the secret and from later draws, and correctness for almost all byte streams are statements about all outcomes.", "anchors": ["frlwe/keygen.go:GenRelinKey", "frlwe/keygen.go:GenRotKey", "frlwe/keygen.go:polyQPToPolyTs", "frlwe/keyswitch.go:SwitchKey", "rlwe/keygen.go:GenRelinearizationKey", "rlwe/keygen.go:GenSwitchingKeyForRotationBy", "rlwe/keygen.go:genrotKey", "rlwe/keygen.go:genSwitchingKey"]}
{"id": "C122", "title": "A product of fresh ciphertexts decrypts correctly with probability one, from random bytes to result", "statement": "Key pair and fast relinearization key are made by one key generator from its random bytes, two messages m0, m1 are encrypted under the public key by encryptors with generators of their own, the ciphertexts are multiplied with MulRelin of fckks and the product is decrypted. With probability one over the bytes of the key generator the keys are made, and for these keys with probability one over the bytes of the encryptors both encryptions end, have degree 1 and the level of plaintext and receiver, and MulRelin then succeeds for every placement of operands and receiver in memory, aliased or not, changes nothing but the receiver, and Decrypt at any level and in either domain returns (m0 + D0)(m1 + D1) + E modulo every prime, with |D0|, |D1| at most ((2N+1) bound)/p0 + (N+1)(1 + 2^-42) and |E| at most (1 + 2^-42)(d N M bound / P + N + 1), d the number of digits and M the largest block of primes. The keys of one generator are jointly distributed as independent draws: every ternary secret of the Hamming weight, errors within the bound and masks, for the public key and for each digit of the relinearization key, occur with the product of their probabilities.", "quantifier": "all accepted parameters whose T is large enough, Hamming weights, messages, levels, receivers, contents of the pools, states of the samplers, placements in memory", "why_tests_cant": "The claim is about all parameters, messages and placements and about almost all byte streams of three generators.", "anchors": ["rlwe/keygen.go:GenKeyPair", "frlwe/keygen.go:GenRelinKey", "rlwe/encryptor.go:Encrypt", "fckks/evaluator.go:MulRelin", "rlwe/decryptor.go:Decrypt", "frlwe/keyswitch.go:SwitchKey"]}
{"id": "C123", "title": "A rotated product of fresh ciphertexts decrypts correctly with probability one, from random bytes to result", "statement": "One key generator makes the key pair, the fast relinearization key and the fast key for a rotation from its random bytes. Two messages m0, m1 are encrypted under the public key, the ciphertexts are multiplied with MulRelin of fckks, and the product is rotated with Rotate into any ciphertext of degree 1 at a level not above that of the product, possibly the product itself. With probability one over the bytes of the key generator the keys are made, for these keys with probability one over the bytes of the encryptors both encryptions end, and then no operation panics, each writes nothing but its receiver, Rotate keeps the scale of the receiver, and Decrypt at any level and in either domain returns ((m0 + D0)(m1 + D1) + E + E') at X^g modulo every prime, g the Galois element of the rotation, with |D0|, |D1| at most the bound for fresh ciphertexts and |E|, |E'| at most the bound for one key switch at the level of product and receiver.", "quantifier": "all accepted parameters whose T is large enough, Hamming weights, rotations (of either sign and any size), messages, levels, receivers, contents of the pools, states of the samplers, placements in memory", "why_tests_cant": "The claim is about all parameters, rotations, messages and placements and about almost all byte streams of three generators.", "anchors": ["rlwe/keygen.go:GenKeyPair", "frlwe/keygen.go:GenRelinKey", "frlwe/keygen.go:GenRotKey", "rlwe/encryptor.go:Encrypt", "fckks/evaluator.go:MulRelin", "fckks/evaluator.go:Rotate", "rlwe/decryptor.go:Decrypt"]}
{"id": "C124", "title": "The keys of the fast key-switch fit the memory allocated for them, and the generator's buffer does not leak into them", "statement": "NewRelinKey and NewRotationKey allocate two keys of beta digits with ceil((level + alpha + 1)/gamma) polynomials over T each. GenRelinKey and GenRotKey fill them through one buffer of gamma rows that is never cleared. Whatever that buffer holds, no index or slice of the conversion is out of range, each basis extension stays within its 32 source rows and reads and writes rows of one length, and the keys returned are those computed on a cleared buffer; the buffer keeps its shape, so that the next call meets the same conditions.", "quantifier": "all accepted parameters (alpha, gamma, chains of primes), secrets, random tapes, rotations of either sign and any size, contents of the buffer, sequences of calls", "why_tests_cant": "The last block is short when gamma does not divide level + alpha + 1, and stale rows of the block before it then lie behind the rows that are read: tests see few parameter sets and mostly a fresh buffer.", "anchors": ["frlwe/keys.go:NewSwitchingKey", "frlwe/keys.go:NewRelinKey", "frlwe/keys.go:NewRotationKey", "frlwe/keygen.go:NewKeyGenerator", "frlwe/keygen.go:polyQPToPolyTs", "frlwe/keygen.go:GenRelinKey", "frlwe/keygen.go:GenRotKey"]}
{"id": "C125", "title": "On accepted parameters the fast key-switch never panics", "statement": "If NewParametersFromLiteral of frlwe accepts a literal and NewKeySwitcher and NewKeyGenerator succeed, SwitchKey on a polynomial of the level and keys of the allocated shape has no index or slice out of range: the digits, the pools over T, the blocks, the basis extensions with their 32 source rows, and the final division by P; nor have GenRelinKey and GenRotKey. Violated: the literal may have more than 32 primes in T (or P), and then every call of SwitchKey panics, at every level and on every key; and gamma may be above 32, and then with more than 32 primes in P and Q every call of GenRelinKey and GenRotKey panics. Proved: with alpha, gamma and the number of primes of T between 1 and 32 there is no panic at any level, with the keys of GenRelinKey and of GenRotKey, and every parameter set of frlwe and fckks is within these limits.", "quantifier": "all parameters, levels, polynomials, keys, contents of the receivers", "why_tests_cant": "The limit of 32 is in an unsafe cast in the basis extension, far from the place where parameters are checked, and no parameter set of the tests comes near it.", "anchors": ["frlwe/params.go:NewParametersFromLiteral", "frlwe/keyswitch.go:NewKeySwitcher", "frlwe/keyswitch.go:SwitchKey", "frlwe/keyswitch.go:externalProduct", "ring/ring_basis_extension.go:ModUpQtoP", "ring/ring_basis_extension.go:ModDownQPtoQ", "frlwe/keygen.go:GenRelinKey", "frlwe/keygen.go:GenRotKey"]}
{"id": "C126", "title": "On accepted parameters the classical key-switch never panics", "statement": "If NewParameters of rlwe accepts its arguments, SwitchKeysInPlace on a polynomial of the level, in either representation, with a generated relinearization or rotation key has no index or slice out of range: the table of the decomposer for each digit, also the short last one, the arrays of 32 words, the index of the correction term computed in floating point, the rows of the key, and the division by P; nor have DecomposeNTT followed by KeyswitchHoisted. Violated: up to 100 primes are accepted in P, and with more than 32 every call panics. Proved: with at most 32 there is no panic, at any level, on any words; and the standard parameter sets of ckks and rlwe are within this limit.", "quantifier": "all accepted parameters, levels, representations, secrets, random tapes, rotations, polynomials, contents of the receivers", "why_tests_cant": "The limit of 32 is the length of a local array in the basis extension; parameters are checked against a limit of 100, and the parameter sets of the tests have few special primes.", "anchors": ["rlwe/params.go:NewParameters", "rlwe/keyswitch.go:SwitchKeysInPlace", "rlwe/keyswitch.go:SwitchKeysInPlaceNoModDown", "rlwe/keyswitch.go:DecomposeSingleNTT", "ring/ring_basis_extension.go:NewDecomposer", "ring/ring_basis_extension.go:DecomposeAndSplit", "ring/ring_basis_extension.go:ModDownQPtoQ", "ring/ring_basis_extension.go:ModDownQPtoQNTT", "rlwe/keyswitch.go:DecomposeNTT", "rlwe/keyswitch.go:KeyswitchHoisted", "rlwe/keyswitch.go:KeyswitchHoistedNoModDown"]}
{"id": "C127", "title": "Encryption under a public key does not panic, however many primes P has", "statement": "On accepted parameters with P not empty, Encrypt of pkEncryptor at any level, from and into either representation, has no index or slice out of range if the receiver has two components with rows up to the level: the rows of the key, the pools, and both divisions by P with their 32 source rows and the correction index computed in floating point. This holds with up to 100 primes in P, where every key-switch panics (C126), because only the first prime is used. A receiver of degree 0 makes it panic.", "quantifier": "all accepted parameters, levels, representations, public keys, random tapes, plaintexts, contents of the receiver", "why_tests_cant": "No parameter set of the tests has many special primes, and the index of the correction depends on the sampled words.", "anchors": ["rlwe/encryptor.go:Encrypt", "rlwe/encryptor.go:encrypt", "rlwe/keygen.go:GenPublicKey", "rlwe/params.go:NewParameters", "ring/ring_basis_extension.go:ModDownQPtoQ"]}
