{"claims": [
 {"property": "C01", "status": "proved", "theorems": ["FastKsw.Props.C01_mred_exact", "FastKsw.Props.C01_hypothesis_of_reduced"], "note": ""},
 {"property": "C02", "status": "proved", "theorems": ["FastKsw.Props.C02_mredConstant_lazy"], "note": ""},
 {"property": "C03", "status": "proved", "theorems": ["FastKsw.Props.C03_mredParams_inverse"], "note": ""},
 {"property": "C04", "status": "proved", "theorems": ["FastKsw.Props.C04_bredAdd_exact"], "note": ""},
 {"property": "C05", "status": "proved", "theorems": ["FastKsw.Props.C05_bred_exact"], "note": ""},
 {"property": "C06", "status": "proved", "theorems": ["FastKsw.Props.C06_mform_exact", "FastKsw.Props.C06_invMform_exact", "FastKsw.Props.C06_mform_roundtrip"], "note": ""},
 {"property": "C07", "status": "proved", "theorems": ["FastKsw.Props.C07_modExp_exact", "FastKsw.Props.C07_modexpMontgomery_exact"], "note": ""},
 {"property": "C08", "status": "proved", "theorems": ["FastKsw.Props.C08_divRound", "FastKsw.Props.C08_unique", "FastKsw.Props.C08_alias_divisor_wrong"], "note": "DivRound returns the nearest integer, ties away from zero, for all integers with b != 0, and that integer is unique. When the receiver aliases the divisor the code is wrong (C08_alias_divisor_wrong); the property speaks of the three operands as values."},
 {"property": "C09", "status": "partial", "theorems": ["FastKsw.Props.C09_next", "FastKsw.Props.C09_previous_violated", "FastKsw.Props.C09_previous_partial", "FastKsw.Props.C09_generateQ_partial", "FastKsw.Props.C09_smallLogQ_violated", "FastKsw.Props.C09_generateP_partial"], "note": "NextNTTPrime proved (prime, congruent, smallest larger). PreviousNTTPrime wraps below 1 (C09_previous_violated) and is proved when a smaller NTT prime exists. Generated batches proved for root orders dividing 2^logQ; for smaller logQ the code returns non-NTT primes (C09_smallLogQ_violated)."},
 {"property": "C10", "status": "proved", "theorems": ["FastKsw.Props.C10_add", "FastKsw.Props.C10_addNoMod", "FastKsw.Props.C10_sub", "FastKsw.Props.C10_subNoMod", "FastKsw.Props.C10_neg", "FastKsw.Props.C10_reduce", "FastKsw.Props.C10_reduceConstant", "FastKsw.Props.C10_mulCoeffs", "FastKsw.Props.C10_mulCoeffsConstant", "FastKsw.Props.C10_mulCoeffsAndAdd", "FastKsw.Props.C10_mulCoeffsAndAddNoMod", "FastKsw.Props.C10_mulCoeffsMontgomery", "FastKsw.Props.C10_mulCoeffsMontgomeryConstant", "FastKsw.Props.C10_mulCoeffsMontgomeryConstantAndNeg", "FastKsw.Props.C10_mulCoeffsMontgomeryAndAdd", "FastKsw.Props.C10_mulCoeffsMontgomeryAndAddNoMod", "FastKsw.Props.C10_mulCoeffsMontgomeryConstantAndAddNoMod", "FastKsw.Props.C10_mulCoeffsMontgomeryAndSub", "FastKsw.Props.C10_mulCoeffsMontgomeryAndSubNoMod", "FastKsw.Props.C10_mulCoeffsMontgomeryConstantAndSubNoMod", "FastKsw.Props.C10_mform", "FastKsw.Props.C10_mformConstant", "FastKsw.Props.C10_invMform", "FastKsw.Props.C10_mulScalar", "FastKsw.Props.C10_mulScalarBigint", "FastKsw.Props.C10_mulByVectorMontgomery", "FastKsw.Props.C10_mulByVectorMontgomeryAndAddNoMod", "FastKsw.Props.C10_mod", "FastKsw.Props.C10_mform_invMform"], "note": ""},
 {"property": "C11", "status": "partial", "theorems": ["FastKsw.Props.C11_addScalar_violated", "FastKsw.Props.C11_subScalar_violated", "FastKsw.Props.C11_scalarBigint_violated", "FastKsw.Props.C11_inPlace_partial"], "note": "The code violates it: the receiver p2 is never written and p1 is overwritten (the three _violated theorems). What holds is proved: with p1 = p2 the operation is correct."},
 {"property": "C12", "status": "partial", "theorems": ["FastKsw.Props.C12_mulByPow2_inPlace_partial", "FastKsw.Props.C12_mulByPow2_distinct_value", "FastKsw.Props.C12_mulByPow2_distinct_violated"], "note": "The code violates it when p1 and p2 differ (the loop reads p2): C12_mulByPow2_distinct_violated. In place it is proved."},
 {"property": "C13", "status": "proved", "theorems": ["FastKsw.Props.C13_invNtt_ntt", "FastKsw.Props.C13_ntt_invNtt", "FastKsw.Props.C13_lazy"], "note": ""},
 {"property": "C14", "status": "proved", "theorems": ["FastKsw.Props.C14_no_overflow", "FastKsw.Props.C14_no_overflow_wide", "FastKsw.Props.C14_documented_range_exceeded"], "note": "The repository documents outputs of NTTLazy below 2q; the proved range is 6q and C14_documented_range_exceeded gives a witness above 2q."},
 {"property": "C15", "status": "proved", "theorems": ["FastKsw.Props.C15_ntt_evaluates", "FastKsw.Props.C15_product", "FastKsw.Props.C15_negacyclic"], "note": ""},
 {"property": "C16", "status": "partial", "theorems": ["FastKsw.Props.C16_checkModuli_bounds", "FastKsw.Props.C16_checkModuli_violated", "FastKsw.Props.C16_small_partial"], "note": "The code violates it: CheckModuli accepts a 62-bit prime for which InvNTT(NTT(x)) differs from x (C16_checkModuli_violated). For accepted moduli of at most 61 bits it is proved."},
 {"property": "C17", "status": "proved", "theorems": ["FastKsw.Props.C17_newRing_valid", "FastKsw.Props.C17_newRing_rejects"], "note": "Moduli are assumed below 2^63, NewRing does not check their size."},
 {"property": "C18", "status": "partial", "theorems": ["FastKsw.Props.C18_import", "FastKsw.Props.C18_importBigint", "FastKsw.Props.C18_importUint64", "FastKsw.Props.C18_importInt64", "FastKsw.Props.C18_export", "FastKsw.Props.C18_roundtrip", "FastKsw.Props.C18_centered_partial", "FastKsw.Props.C18_centered_violated"], "note": "The code violates the centred half at one value: (Q-1)/2 is exported as -(Q+1)/2 (C18_centered_violated, for every ring). Import, export, round trip and the centred export of all other residues are proved."},
 {"property": "C19", "status": "proved", "theorems": ["FastKsw.Props.C19_modUpQtoP", "FastKsw.Props.C19_modUpPtoQ"], "note": "The correction term is modelled with float64 division and addition rounded to nearest even (Model/Float.lean)."},
 {"property": "C20", "status": "proved", "theorems": ["FastKsw.Props.C20_modDownQPtoQ", "FastKsw.Props.C20_modDownQPtoQNTT", "FastKsw.Props.C20_no_overflow"], "note": "The moduli of Q and P must be distinct (otherwise P has no inverse). For the NTT variant a no-overflow condition is assumed, proved to hold for up to 16 moduli P."},
 {"property": "C21", "status": "partial", "theorems": ["FastKsw.Props.C21_modDownQPtoP_partial", "FastKsw.Props.C21_actual_value", "FastKsw.Props.C21_violated"], "note": "The code violates it when levelQ differs from levelP: line 274 uses modDownParams[levelP] (C21_violated). For levelQ = levelP it is proved; C21_actual_value states what is computed for all levels."},
 {"property": "C22", "status": "partial", "theorems": ["FastKsw.Props.C22_divFloor", "FastKsw.Props.C22_divRound", "FastKsw.Props.C22_divRound_inPlace", "FastKsw.Props.C22_divRound_operand", "FastKsw.Props.C22_divRound_inPlace_top", "FastKsw.Props.C22_divFloorMany", "FastKsw.Props.C22_divFloorManyNTT", "FastKsw.Props.C22_divRoundMany", "FastKsw.Props.C22_divRoundNTT", "FastKsw.Props.C22_divRoundManyNTT", "FastKsw.Props.C22_divRoundManyNTT_lazy", "FastKsw.Props.C22_divFloorNTT_violated", "FastKsw.Props.C22_divFloorNTT_partial"], "note": "DivFloorByLastModulusNTTLvl violates it in every ring (C22_divFloorNTT_violated: the lazy inverse NTT turns 0 into q_L, so 0 is divided to -1); C22_divFloorNTT_partial states what it computes. All other variants are exact; the Many variants equal one division by the product."},
 {"property": "C23", "status": "proved", "theorems": ["FastKsw.Props.C23_decomposeAndSplit", "FastKsw.Props.C23_decomposeNTT"], "note": "Block length is levelP + 1 as in the key-switcher; at most 32 special primes (the unrolled reconstruction bound), 2^-42 slack from the float64 correction."},
 {"property": "C24", "status": "proved", "theorems": ["FastKsw.Props.C24_permute", "FastKsw.Props.C24_permuteNTT", "FastKsw.Props.C24_permuteNTT_ntt", "FastKsw.Props.C24_permuteNTT_min", "FastKsw.Props.C24_permuteNTT_addNoMod", "FastKsw.Props.C24_inPlace_violated", "FastKsw.Props.C24_compose", "FastKsw.Props.C24_inverse"], "note": "Entries of Permute's output are at most q_i (a negated zero is stored as q_i); the statement is about residues."},
 {"property": "C25", "status": "proved", "theorems": ["FastKsw.Props.C25_rotation_add", "FastKsw.Props.C25_rotation_odd", "FastKsw.Props.C25_rotation_period", "FastKsw.Props.C25_inverse", "FastKsw.Props.C25_row_rotation", "FastKsw.Props.C25_genGaloisParams", "FastKsw.Props.C25_genGaloisParams_rotation"], "note": ""},
 {"property": "C26", "status": "proved", "theorems": ["FastKsw.Props.C26_params", "FastKsw.Props.C26_constructors", "FastKsw.Props.C26_externalProductQP", "FastKsw.Props.C26_keyBlocks", "FastKsw.Props.C26_digits"], "note": "The 2^-41 slack is what the float64 correction in the conversion out of T can need; it replaces the exact bound T/2."},
 {"property": "C27", "status": "proved", "theorems": ["FastKsw.Props.C27_switchKey", "FastKsw.Props.C27_keySwitched", "FastKsw.Props.C27_relin", "FastKsw.Props.C27_rotation", "FastKsw.Props.C27_noise"], "note": "Keys meeting IsSwitchKey (the gadget relation); that generated keys meet it is C33. Moduli below 2^61 (the parameter checker would accept larger ones)."},
 {"property": "C28", "status": "proved", "theorems": ["FastKsw.Props.C28_noModDown", "FastKsw.Props.C28_switchKeys", "FastKsw.Props.C28_hoisted", "FastKsw.Props.C28_relin", "FastKsw.Props.C28_galois"], "note": "Keys meeting IsSwitchKey (generated relinearization and Galois keys compose: C28_relin, C28_galois); at most 32 special primes, above 16 only for moduli below (2^64-2^15)/10; moduli below 2^61."},
 {"property": "C29", "status": "proved", "theorems": ["FastKsw.Props.C29_accumulate", "FastKsw.Props.C29_partial_sums"], "note": ""},
 {"property": "C30", "status": "proved", "theorems": ["FastKsw.Props.C30_mulRelin", "FastKsw.Props.C30_alias", "FastKsw.Props.C30_mulRelinNew"], "note": "MulRelin and MulRelinNew of fckks with a generated relinearization key: for operands of degree 1 with any words, any levels and any aliasing, the result has degree 1, the minimal level, the rounded product of the scales and decrypts to the product plus the error of one key switch (bounded by C27_noise); only the receiver changes; C30_alias: the resulting words do not depend on aliasing or on what the receiver held."},
 {"property": "C31", "status": "proved", "theorems": ["FastKsw.Props.C31_rotate", "FastKsw.Props.C31_rotateNew", "FastKsw.Props.C31_alias"], "note": "Rotate and RotateNew of fckks with a key of GenRotKey, every index, also in place (C31_alias: same words); the receiver's level must not be above the input's (Go panics otherwise) and Rotate leaves the receiver's scale as it was."},
 {"property": "C32", "status": "proved", "theorems": ["FastKsw.Props.C32_decrypt", "FastKsw.Props.C32_skEncrypt", "FastKsw.Props.C32_pkEncryptNoP", "FastKsw.Props.C32_pkEncrypt", "FastKsw.Props.C32_noise_bound", "FastKsw.Props.C32_draws", "FastKsw.Props.C32_publicKey", "FastKsw.Props.C32_roundtrip"], "note": "Decryption of an encryption equals m plus the stated noise modulo every prime, in both domains, for secret-key, public-key and public-key-without-P encryption; C32_roundtrip composes generated keys, encryption and decryption with an explicit noise bound."},
 {"property": "C33", "status": "proved", "theorems": ["FastKsw.Props.C33_secretKey", "FastKsw.Props.C33_publicKey", "FastKsw.Props.C33_publicKeyQ", "FastKsw.Props.C33_switchingKey", "FastKsw.Props.C33_relinearization", "FastKsw.Props.C33_galois", "FastKsw.Props.C33_rotation", "FastKsw.Props.C33_rowRotation", "FastKsw.Props.C33_genSwitchingKey"], "note": "Secrets have the ring degree of the parameters (GenSwitchingKey between different degrees embeds first, C52). Errors must be below half of the first prime of Q and at most every prime of P. Moduli below 2^61."},
 {"property": "C34", "status": "proved", "theorems": ["FastKsw.Props.C34_add", "FastKsw.Props.C34_sub", "FastKsw.Props.C34_add_enc", "FastKsw.Props.C34_sub_enc", "FastKsw.Props.C34_addNew", "FastKsw.Props.C34_subNew", "FastKsw.Props.C34_neg"], "note": "Add, Sub, AddNew, SubNew and Neg for ciphertext operands of any degrees and any receiver, equal scales (other scales: C82); entries are at most q (Neg of a zero residue is q)."},
 {"property": "C42", "status": "proved", "theorems": ["FastKsw.Props.C42_uniform"], "note": ""},
 {"property": "C43", "status": "proved", "theorems": ["FastKsw.Props.C43_half", "FastKsw.Props.C43_proba", "FastKsw.Props.C43_sparse", "FastKsw.Props.C43_sampled"], "note": ""},
 {"property": "C44", "status": "proved", "theorems": ["FastKsw.Props.C44_read", "FastKsw.Props.C44_readAndAdd", "FastKsw.Props.C44_sampled", "FastKsw.Props.C44_tape"], "note": "normFloat64 is abstracted to an arbitrary stream of (magnitude, sign) draws; a zero with sign bit 0 is stored as q, hence the bound q+1."},
 {"property": "C45", "status": "proved", "theorems": ["FastKsw.Props.C45_bitReverse_involutive", "FastKsw.Props.C45_slice_permutes", "FastKsw.Props.C45_slice_involutive"], "note": ""},
 {"property": "C47", "status": "proved", "theorems": ["FastKsw.Props.C47_setClock", "FastKsw.Props.C47_fresh", "FastKsw.Props.C47_deterministic", "FastKsw.Props.C47_stream"], "note": "The blake2b XOF is an arbitrary function of key and position."},
 {"property": "C48", "status": "proved", "theorems": ["FastKsw.Props.C48_rotateSlice", "FastKsw.Props.C48_rotateSlots"], "note": ""},
 {"property": "C49", "status": "proved", "theorems": ["FastKsw.Props.C49_hammingWeight64"], "note": ""},
 {"property": "C50", "status": "partial", "theorems": ["FastKsw.Props.C50_multByMonomial_partial", "FastKsw.Props.C50_negative_panics", "FastKsw.Props.C50_negative_wrong"], "note": "The code violates it for negative exponents (panic, or a wrong result at k = -N). For every k >= 0 it is proved."},
 {"property": "C51", "status": "partial", "theorems": ["FastKsw.Props.C51_decrypt_partial", "FastKsw.Props.C51_decrypt_unreduced", "FastKsw.Props.C51_decrypt_lazy_partial", "FastKsw.Props.C51_violated"], "note": "The code violates the claim in the coefficient domain for degree 7 mod 8 (C51_violated gives a wrong decryption); C51_decrypt_partial proves it for all other degrees and the whole NTT domain."},
 {"property": "C53", "status": "proved", "theorems": ["FastKsw.Props.C53_multByConst", "FastKsw.Props.C53_multByConst_exact", "FastKsw.Props.C53_fixedPoint", "FastKsw.Props.C53_multByGaussianInteger", "FastKsw.Props.C53_multByi", "FastKsw.Props.C53_divByi", "FastKsw.Props.C53_multByi_divByi", "FastKsw.Props.C53_multByConst_enc", "FastKsw.Props.C53_integer_inexact"], "note": "MultByConst, MultByGaussianInteger, MultByi and DivByi for every constant kind, with the fixed-point rounding of the constant made explicit; C53_integer_inexact shows an integer constant above 2^52 that is not multiplied exactly."},
 {"property": "C54", "status": "partial", "theorems": ["FastKsw.Props.C54_addConst_partial", "FastKsw.Props.C54_addConstNew_partial", "FastKsw.Props.C54_other_components", "FastKsw.Props.C54_violated"], "note": "AddConst is correct when the receiver is the input; C54_violated shows that with a different receiver the other components are not written, so the receiver does not decrypt to the sum."},
 {"property": "C56", "status": "partial", "theorems": ["FastKsw.Props.C56_panics", "FastKsw.Props.C56_switchKeys_partial", "FastKsw.Props.C56_switchKeysNew_flag", "FastKsw.Props.C56_violated"], "note": "Violated: SwitchKeys panics on every ciphertext in the NTT domain (C56_panics, C56_violated); SwitchKeysNew marks coefficient data as NTT (C56_switchKeysNew_flag). Proved for the coefficient domain."},
 {"property": "C60", "status": "proved", "theorems": ["FastKsw.Props.C60_gcd", "FastKsw.Props.C60_allDistinct"], "note": ""},
 {"property": "C61", "status": "proved", "theorems": ["FastKsw.Props.C61_equal"], "note": ""},
 {"property": "C62", "status": "partial", "theorems": ["FastKsw.Props.C62_rnsScaler", "FastKsw.Props.C62_rnsScaler_exact", "FastKsw.Props.C62_simpleScaler_partial", "FastKsw.Props.C62_simpleScaler_violated"], "note": "SimpleScaler does not reduce modulo t (C62_simpleScaler_violated). The RNSScaler is exact unless t*x + floor(Q/2) is within 2^-42 Q of a multiple of Q, where the floating-point estimate may be off by one."},
 {"property": "C63", "status": "partial", "theorems": ["FastKsw.Props.C63_sign_reused", "FastKsw.Props.C63_correlated", "FastKsw.Props.C63_half_partial"], "note": "Holds for density 1/2. Violated for p != 1/2: kysampling leaves the pointer on the sign bit, so that bit is also the first bit of the next coefficient (C63_sign_reused, C63_correlated)."},
 {"property": "C35", "status": "partial", "theorems": ["FastKsw.Props.C35_computes", "FastKsw.Props.C35_computes'", "FastKsw.Props.C35_mulRelinAndAdd_partial", "FastKsw.Props.C35_mulAndAdd_partial", "FastKsw.Props.C35_mulPtAndAdd", "FastKsw.Props.C35_squareAndAdd_partial", "FastKsw.Props.C35_violated", "FastKsw.Props.C35_scaleUp", "FastKsw.Props.C35_mulPtAndAdd_scaleUp", "FastKsw.Props.C35_mulRelinAndAdd_scaleUp_partial", "FastKsw.Props.C35_mulAndAdd_scaleUp_partial", "FastKsw.Props.C35_alias_computes", "FastKsw.Props.C35_alias_violated"], "note": "The cross term is wrong: the code adds x0*y1 twice instead of x0*y1 + x1*y0 (C35_computes, C35_computes'). C35_violated is a concrete pair that does not decrypt to the sum. Correct when x0*y1 = x1*y0, in particular for squares, and for plaintext times ciphertext (C35_mulPtAndAdd). A receiver of smaller scale is multiplied by the rounded quotient first (C35_scaleUp and the *_scaleUp theorems; quotient up to 2^50), but when the receiver is itself an operand the operand is scaled too and the result is wrong (C35_alias_computes, C35_alias_violated)."},
 {"property": "C36", "status": "partial", "theorems": ["FastKsw.Props.C36_inPlace_ignores", "FastKsw.Props.C36_rotate_zero_partial", "FastKsw.Props.C36_violated"], "note": "Violated for every nonzero rotation: permuteNTT overwrites component 0 before adding it, so the in-place result does not depend on component 0 (C36_inPlace_ignores) and C36_violated gives a ciphertext where in-place and out-of-place decrypt differently. Holds for rotation by 0."},
 {"property": "C64", "status": "partial", "theorems": ["FastKsw.Props.C64_mulRelin_stale", "FastKsw.Props.C64_mulRelin_partial", "FastKsw.Props.C64_mulRelinNew", "FastKsw.Props.C64_relinearize", "FastKsw.Props.C64_relinearizeNew", "FastKsw.Props.C64_mul", "FastKsw.Props.C64_mulNew", "FastKsw.Props.C64_mulPt_stale", "FastKsw.Props.C64_mulPt_partial", "FastKsw.Props.C64_violated"], "note": "MulRelin and plaintext products leave components >= 2 of the receiver untouched (C64_mulRelin_stale, C64_mulPt_stale give the exact result; C64_violated is a concrete receiver of degree 2). Holds for receivers of degree 1, for Mul into degree 1 or 2, and for the New variants, Relinearize and RelinearizeNew."},
 {"property": "C65", "status": "partial", "theorems": ["FastKsw.Props.C65_rotate_partial", "FastKsw.Props.C65_conjugate_partial", "FastKsw.Props.C65_rotateNew", "FastKsw.Props.C65_conjugateNew"], "note": "Holds when the receiver is another ciphertext at a level not above the input's, and for RotateNew and ConjugateNew. In place it is violated (C36_violated)."},
 {"property": "C37", "status": "partial", "theorems": ["FastKsw.Props.C37_loop", "FastKsw.Props.C37_panics_iff", "FastKsw.Props.C37_divides", "FastKsw.Props.C37_copies", "FastKsw.Props.C37_rescale_partial", "FastKsw.Props.C37_violated", "FastKsw.Props.C37_rescale_exact_partial"], "note": "The loop reads Modulus[-1] and panics exactly when dividing by all moduli leaves the scale at or above minScale/2 (C37_panics_iff, C37_violated). Otherwise it divides by the largest admissible number of moduli and keeps the decryption up to rounding (C37_rescale_partial); words of the input must be below 2q, which ckks MulRelin does not ensure (C66_violated)."},
 {"property": "C66", "status": "partial", "theorems": ["FastKsw.Props.C66_fckks_mulRelin_rescale_partial", "FastKsw.Props.C66_violated"], "note": "Proved for fckks. Violated for ckks: mulRelin adds the output of NTTLazyLvl, so words reach 6q and Rescale wraps (C66_violated evaluates a generated key, product and rescale at degree 16)."},
 {"property": "C38", "status": "partial", "theorems": ["FastKsw.Props.C38_marshal", "FastKsw.Props.C38_unmarshal_into", "FastKsw.Props.C38_roundTrip_partial", "FastKsw.Props.C38_fresh", "FastKsw.Props.C38_roundTrip32", "FastKsw.Props.C38_truncated", "FastKsw.Props.C38_noPanic", "FastKsw.Props.C38_violated"], "note": "Round trip of ring.Poly (64- and 32-bit words) into a receiver without coefficients, and into a used receiver of the same shape apart from flags; exact error/panic behaviour on truncated input. C38_violated: stale flags, extra rows kept, panics on short or wrapping headers, dirty buffers."},
 {"property": "C39", "status": "partial", "theorems": ["FastKsw.Props.C39_ciphertext", "FastKsw.Props.C39_ckks", "FastKsw.Props.C39_secretKey", "FastKsw.Props.C39_secretKey_into", "FastKsw.Props.C39_publicKey", "FastKsw.Props.C39_switchingKey_any", "FastKsw.Props.C39_switchingKey_partial", "FastKsw.Props.C39_relinKey_partial", "FastKsw.Props.C39_rotationKeys_partial", "FastKsw.Props.C39_violated"], "note": "Ciphertexts (with scale), secret and public keys into fresh receivers; switching, relinearization and rotation keys whose parts are all present (Galois elements below 2^32, any iteration order). C39_violated: a switching key without part modulo P comes back with an empty one, and a used receiver keeps stale parts."},
 {"property": "C40", "status": "partial", "theorems": ["FastKsw.Props.C40_binary_partial", "FastKsw.Props.C40_panics", "FastKsw.Props.C40_violated", "FastKsw.Props.C40_ckks_partial", "FastKsw.Props.C40_json_partial", "FastKsw.Props.C40_json_violated", "FastKsw.Props.C40_json_witness", "FastKsw.Props.C40_ckks_json_partial", "FastKsw.Props.C40_ckks_json_violated"], "note": "Binary round trip of rlwe and ckks parameters returned by NewParameters; exact characterisation of the inputs on which decoding panics. JSON round trip with non-default fields. Violations: short input panics, rlwe JSON loses the ring type, zero H/Sigma/LogSlots are replaced, malformed ckks JSON panics."},
 {"property": "C41", "status": "partial", "theorems": ["FastKsw.Props.C41_equals", "FastKsw.Props.C41_panics", "FastKsw.Props.C41_partial", "FastKsw.Props.C41_symm_partial", "FastKsw.Props.C41_violated"], "note": "Exact characterisation of Equals (prefix comparison) and of its panics; on chains of equal lengths it decides equality and is symmetric. C41_violated: asymmetric and panicking on chains of different lengths, not reflexive with NaN sigma."},
 {"property": "C46", "status": "proved", "theorems": ["FastKsw.Props.C46_roundTrip", "FastKsw.Props.C46_appends", "FastKsw.Props.C46_panics"], "note": "Any sequence of buffer writes is read back; reads past the end panic."},
 {"property": "C59", "status": "partial", "theorems": ["FastKsw.Props.C59_getRotationKey", "FastKsw.Props.C59_includes", "FastKsw.Props.C59_refl", "FastKsw.Props.C59_equals_partial", "FastKsw.Props.C59_equivalence_partial", "FastKsw.Props.C59_relin_partial", "FastKsw.Props.C59_violated"], "note": "Look-ups and Includes proved; Equals is an equivalence on keys all of whose parts are present. C59_violated: PolyQP.Equals skips nil parts of the receiver and is not symmetric."},
 {"property": "C52", "status": "partial", "theorems": ["FastKsw.Props.C52_map", "FastKsw.Props.C52_sparse_partial", "FastKsw.Props.C52_violated"], "note": "Mapping in the NTT domain is proved for all rings, gaps and polynomials (C52_map). NttAndMontgomeryLvl is proved for n >= 16, and for n < 16 when the row is zero between n and 16 (C52_sparse_partial); it fails otherwise because the unrolled loops read past n (C52_violated)."},
 {"property": "C57", "status": "partial", "theorems": ["FastKsw.Props.C57_up_partial", "FastKsw.Props.C57_down_violated", "FastKsw.Props.C57_violated", "FastKsw.Props.C57_down_partial", "FastKsw.Props.C57_coeff_down", "FastKsw.Props.C57_coeff_up_partial", "FastKsw.Props.C57_coeff_violated"], "note": "Small to large in the NTT domain (C57_up_partial) and large to small in the coefficient domain (C57_coeff_down) hold. Large to small in the NTT domain writes into ctIn and leaves ctOut as it was (C57_down_violated for all inputs, C57_violated witness, C57_down_partial says what is in ctIn). Small to large in the coefficient domain keeps stale coefficients (C57_coeff_violated; C57_coeff_up_partial for a zero output)."},
 {"property": "C55", "status": "partial", "theorems": ["FastKsw.Props.C55_violated", "FastKsw.Props.C55_embedded_partial"], "note": "Violated: GenSecretKey and GenPublicKey of frlwe.KeyGenerator call themselves and never return (C55_violated, all rings and random tapes, in a big-step call relation with Go's method promotion); C55_embedded_partial: the embedded generator and GenKeyPair return exactly one result."},
 {"property": "C58", "status": "proved", "theorems": ["FastKsw.Props.C58_fixed", "FastKsw.Props.C58_fold"], "note": "Fold after Unfold is 2p mod q for all reduced polynomials, levels and receivers (C58_fold); unfolded rows are fixed by PermuteNTT with NthRoot-1 and denote elements fixed by X -> X^-1 (C58_fixed)."},
 {"property": "C67", "status": "proved", "theorems": ["FastKsw.Props.C67_rings", "FastKsw.Props.C67_ntt", "FastKsw.Props.C67_inverse", "FastKsw.Props.C67_mul"], "note": "Transform against the standard NTT of degree 2N (C67_ntt), inversion in both orders (C67_inverse), product (C67_mul), rings built by NewRingConjugateInvariant / NewRing meet the hypotheses (C67_rings). Moduli below 2^61."},
 {"property": "C68", "status": "partial", "theorems": ["FastKsw.Props.C68_violated", "FastKsw.Props.C68_partial"], "note": "Violated for every degree, modulus and polynomial (C68_violated): the loops write indices n-j of the lower half, the upper half of the receiver keeps its content, half of the NTT values or the constant coefficient are lost. C68_partial: symmetric input and mirrored receiver."},
 {"property": "C69", "status": "partial", "theorems": ["FastKsw.Props.C69_encodeCoeffs_partial", "FastKsw.Props.C69_encodeCoeffsNew_partial", "FastKsw.Props.C69_tooMany", "FastKsw.Props.C69_reuse_violated"], "note": "Fresh plaintexts, and exact description of reused ones: coefficients beyond len(values) keep the old words (C69_reuse_violated). A product of exactly 2^64 in float64 is left out, Go leaves the conversion open."},
 {"property": "C70", "status": "partial", "theorems": ["FastKsw.Props.C70_decodeCoeffs_partial", "FastKsw.Props.C70_roundtrip_partial", "FastKsw.Props.C70_boundary_violated"], "note": "Holds for integers in [-(Q+1)/2, (Q-1)/2), any level and buffer; violated for (Q-1)/2, decoded as -(Q+1)/2 (C70_boundary_violated). Round trip with EncodeCoeffsNew in C70_roundtrip_partial."},
 {"property": "C71", "status": "partial", "theorems": ["FastKsw.Props.C71_encoder_table", "FastKsw.Props.C71_specialFFT", "FastKsw.Props.C71_frame_partial", "FastKsw.Props.C71_frame_violated"], "note": "Evaluation proved for all sizes and both variants in exact arithmetic, also for the cos/sin table of NewEncoder. The frame holds for the plain variant and from 16 values on; violated by the unrolled variant on 8 values (C71_frame_violated). The rounding of complex128 is C92."},
 {"property": "C72", "status": "proved", "theorems": ["FastKsw.Props.C72_inverse", "FastKsw.Props.C72_frame"], "note": "Both orders and all combinations of variants, in exact arithmetic; The rounding of complex128 is C92."},
 {"property": "C73", "status": "partial", "theorems": ["FastKsw.Props.C73_embed_partial", "FastKsw.Props.C73_reuse_violated"], "note": "All sizes from 8 slots on and fresh plaintexts below; violated for fewer than 8 slots on a plaintext used before (C73_reuse_violated). Products of exactly 2^64 are left out."},
 {"property": "C74", "status": "partial", "theorems": ["FastKsw.Props.C74_toComplex_partial", "FastKsw.Props.C74_decodeSlots_partial"], "note": "Integers in [-(Q+1)/2, (Q-1)/2), as in C70; the transform is the exact one, The rounding of complex128 is C92."},
 {"property": "C75", "status": "proved", "theorems": ["FastKsw.Props.C75_rotation", "FastKsw.Props.C75_conjugation"], "note": "Rotations by any k and conjugation, at every number of slots; the transform is the exact one, the float64 division of the coefficients is included."},
 {"property": "C76", "status": "partial", "theorems": ["FastKsw.Props.C76_roundtrip_partial"], "note": "Round trip on a fresh plaintext with an explicit error bound; the float error of the inverse transform is a parameter, that of the decoder transform is left out (both are bounded in C92), products of exactly 2^64 are left out."},
 {"property": "C77", "status": "partial", "theorems": ["FastKsw.Props.C77_gaussianAndAdd", "FastKsw.Props.C77_constAndAdd_partial", "FastKsw.Props.C77_constAndAdd_exact_partial", "FastKsw.Props.C77_violated", "FastKsw.Props.C77_alias_violated"], "note": "MultByGaussianIntegerAndAdd in full; MultByConstAndAdd for distinct operand and receiver with an integer scale ratio; violated for the ratio 1.5 (C77_violated) and for operand = receiver (C77_alias_violated)."},
 {"property": "C78", "status": "partial", "theorems": ["FastKsw.Props.C78_scaleUp_value", "FastKsw.Props.C78_scaleUp_partial", "FastKsw.Props.C78_setScale_value", "FastKsw.Props.C78_setScale_int_partial", "FastKsw.Props.C78_setScale_frac_partial", "FastKsw.Props.C78_scaleUp_violated", "FastKsw.Props.C78_setScale_violated"], "note": "ScaleUp for integer factors, SetScale for integer ratios and for ratios where the inner rescaling divides; violated for the factor 5/2 (C78_scaleUp_violated, C78_setScale_violated)."},
 {"property": "C79", "status": "partial", "theorems": ["FastKsw.Props.C79_negNew", "FastKsw.Props.C79_multByConstNew", "FastKsw.Props.C79_scaleUpNew_partial", "FastKsw.Props.C79_reduce", "FastKsw.Props.C79_reduceNew", "FastKsw.Props.C79_dropLevelNew", "FastKsw.Props.C79_rescaleNew_partial", "FastKsw.Props.C79_multByiNew_value", "FastKsw.Props.C79_divByiNew_value", "FastKsw.Props.C79_byiNew_partial", "FastKsw.Props.C79_byiNew_degree0", "FastKsw.Props.C79_mulByPow2_partial", "FastKsw.Props.C79_mulByPow2New_value", "FastKsw.Props.C79_multByiNew_violated", "FastKsw.Props.C79_mulByPow2New_violated"], "note": "All operations at every degree except MultByiNew and DivByiNew, which hold for degree 1, lose components above (C79_multByiNew_violated) and panic for degree 0 (C79_byiNew_degree0), and MulByPow2New, which multiplies by 2^(k-64) (C79_mulByPow2New_violated)."},
 {"property": "C80", "status": "proved", "theorems": ["FastKsw.Props.C80_hoisted", "FastKsw.Props.C80_noModDown", "FastKsw.Props.C80_hoisted_zero", "FastKsw.Props.C80_rotateHoisted"], "note": "All three operations, for any pool contents, with keys generated by GenSwitchingKeyForGalois."},
 {"property": "C81", "status": "partial", "theorems": ["FastKsw.Props.C81_encryptNew", "FastKsw.Props.C81_encryptMsg_partial", "FastKsw.Props.C81_encryptMsgNew_partial", "FastKsw.Props.C81_decryptNew", "FastKsw.Props.C81_decryptToMsg_partial", "FastKsw.Props.C81_decryptToMsg_fresh", "FastKsw.Props.C81_roundtrip_partial", "FastKsw.Props.C81_decryptToMsg_violated", "FastKsw.Props.C81_encryptMsg_violated", "FastKsw.Props.C81_encryptMsg_noP_partial"], "note": "Round trip with an explicit error bound for any level and repeated use, encryption also for parameters without special primes, relative to the float64 error of the inverse transform (bounded in C92). It fails for an encryptor with fewer than 8 slots used twice (C81_encryptMsg_violated) and for a decryptor that saw a ciphertext of a lower level before (C81_decryptToMsg_violated)."},
 {"property": "C82", "status": "partial", "theorems": ["FastKsw.Props.C82_add", "FastKsw.Props.C82_sub", "FastKsw.Props.C82_add_enc", "FastKsw.Props.C82_sub_enc", "FastKsw.Props.C82_add_panics", "FastKsw.Props.C82_add_exact_partial", "FastKsw.Props.C82_sub_exact_partial", "FastKsw.Props.C82_violated"], "note": "Exact for scales whose ratio is an integer below 2^51, for every aliasing; for other ratios the factor is the rounded float64 ratio (C82_add, C82_sub). Violated for the scales 3 and 2, where the factor 1.5 becomes 1 (C82_violated)."},
 {"property": "C83", "status": "partial", "theorems": ["FastKsw.Props.C83_rings_partial", "FastKsw.Props.C83_rings_violated", "FastKsw.Props.C83_slots", "FastKsw.Props.C83_maxSlots", "FastKsw.Props.C83_standard", "FastKsw.Props.C83_standard_ckks", "FastKsw.Props.C83_standard_violated", "FastKsw.Props.C83_standard_witness", "FastKsw.Props.C83_copyNew", "FastKsw.Props.C83_qLvl"], "note": "Degrees from 32 for ConjugateInvariantRing and all degrees for StandardParameters, CopyNew and slots. Violated at degree 16, where the derived ring has degree 8 (C83_rings_violated), and at logN 17, whose standard parameters cannot be decoded (C83_standard_violated)."},
 {"property": "C84", "status": "partial", "theorems": ["FastKsw.Props.C84_roundtrip_partial", "FastKsw.Props.C84_violated", "FastKsw.Props.C84_panics"], "note": "Round trip into a receiver with the transformer of the same type. Violated for a new receiver, whose transformer stays nil (C84_violated), and for a zero root of unity, which panics (C84_panics)."},
 {"property": "C85", "status": "partial", "theorems": ["FastKsw.Props.C85_newCiphertext", "FastKsw.Props.C85_decrypt_partial", "FastKsw.Props.C85_encrypt_partial", "FastKsw.Props.C85_add", "FastKsw.Props.C85_sub", "FastKsw.Props.C85_neg", "FastKsw.Props.C85_rescale_partial", "FastKsw.Props.C85_rotate", "FastKsw.Props.C85_mulRelin"], "note": "Add, Sub, Neg, MulRelin, Rotate and NewCiphertext in full. EncryptMsg relative to the float64 error of the inverse transform and a pool without stale coefficients (C81_encryptMsg_violated), Rescale when it does not run out of moduli (C37_violated), DecryptToMsg at the level of the decryptor's pool (C81_decryptToMsg_violated)."},
 {"property": "C86", "status": "proved", "theorems": ["FastKsw.Props.C86_step", "FastKsw.Props.C86_program", "FastKsw.Props.C86_result"], "note": "The bookkeeping is the relation Track; complex128 arithmetic of the decoder is exact up to the rounding of the coefficients (DESIGN.md)."},
 {"property": "C87", "status": "partial", "theorems": ["FastKsw.Props.C87_galoisShift_partial", "FastKsw.Props.C87_shift_partial", "FastKsw.Props.C87_shifts_agree", "FastKsw.Props.C87_rotate_receiver_violated", "FastKsw.Props.C87_shift_panics", "FastKsw.Props.C87_rotate_negative_violated"], "note": "In place and for shifts from 0 to N both functions are proved to shift. Rotate never writes a different receiver and overwrites its operand (C87_rotate_receiver_violated), ignores negative shifts from degree 64 on (C87_rotate_negative_violated), and Shift panics for shifts above N and for -1 (C87_shift_panics)."},
 {"property": "C88", "status": "partial", "theorems": ["FastKsw.Props.C88_copyNew", "FastKsw.Props.C88_isolated", "FastKsw.Props.C88_keys_partial", "FastKsw.Props.C88_relin_partial", "FastKsw.Props.C88_empty_key_violated", "FastKsw.Props.C88_ct_nodup", "FastKsw.Props.C88_copy", "FastKsw.Props.C88_copy_equal_partial", "FastKsw.Props.C88_copy_level_violated", "FastKsw.Props.C88_ctCopy_degree_violated", "FastKsw.Props.C88_ctCopy_partial", "FastKsw.Props.C88_coefficients", "FastKsw.Props.C88_copyLvl", "FastKsw.Props.C88_atLevel", "FastKsw.Props.C88_shift_shares"], "note": "Polynomials, ciphertexts, PolyQP, secret and public keys in full; switching and relinearization keys unless empty (C88_empty_key_violated: the copy is nil). Ciphertext.Copy between ciphertexts of equal degree and level; otherwise it leaves stale rows or components, or panics (C88_copy_level_violated, C88_ctCopy_degree_violated)."},
 {"property": "C89", "status": "proved", "theorems": ["FastKsw.Props.C89_rings", "FastKsw.Props.C89_up", "FastKsw.Props.C89_down", "FastKsw.Props.C89_ringSwap", "FastKsw.Props.C89_ciphertext_up", "FastKsw.Props.C89_ciphertext_down"], "note": "Secrets over all primes for the ring swap; a smaller input secret may have fewer primes than the output secret if it is small. The map down is SwitchCiphertextRingDegree in coefficient form; the NTT variant is refuted in C57."},
 {"property": "C90", "status": "proved", "theorems": ["FastKsw.Props.C90_cos", "FastKsw.Props.C90_iteration", "FastKsw.Props.C90_table"], "note": "All roundings included. The decimal expansion of pi in the source enters as the hypothesis |pi - real pi| <= real pi / 2^prec; exponent overflow of big.Float cannot occur for these arguments."},
 {"property": "C91", "status": "partial", "theorems": ["FastKsw.Props.C91_complex", "FastKsw.Props.C91_transforms_partial", "FastKsw.Props.C91_frame_violated", "FastKsw.Props.C91_encode_partial", "FastKsw.Props.C91_decode_partial", "FastKsw.Props.C91_roundtrip_partial", "FastKsw.Props.C91_fewer_violated"], "note": "The operations are read in exact arithmetic; their roundings are in C99, the accuracy of the root table in C90. sigma = 0 in decodePublic, rings of type Standard. InvFFT divides all values and not only the first N (C91_frame_violated); Encode panics on fewer values than slots although its documentation allows them (C91_fewer_violated)."},
 {"property": "C92", "status": "partial", "theorems": ["FastKsw.Props.C92_fft", "FastKsw.Props.C92_ifft", "FastKsw.Props.C92_size", "FastKsw.Props.C92_table", "FastKsw.Props.C92_encode", "FastKsw.Props.C92_decode", "FastKsw.Props.C92_roundtrip_partial", "FastKsw.Props.C92_decryptToMsg", "FastKsw.Props.C92_encrypted_partial"], "note": "Transforms, table, encoder and decoder in full, with gradual underflow; overflow to infinity and fused multiply-add are left out and the accuracy of math.Cos and math.Sin is a hypothesis. The round trips need scaled values up to 2^63 and, with fewer than 8 slots, a fresh plaintext or pool."},
 {"property": "C93", "status": "partial", "theorems": ["FastKsw.Props.C93_switchKeys_partial", "FastKsw.Props.C93_switchKeysNew", "FastKsw.Props.C93_switchKeys_stale", "FastKsw.Props.C93_violated"], "note": "SwitchKeysNew without condition on levels; SwitchKeys for a receiver of a level at most the level of the input. For a receiver of a higher level the claim fails: its level is not lowered and the upper residues stay stale (C93_switchKeys_stale, C93_violated)."},
 {"property": "C94", "status": "partial", "theorems": ["FastKsw.Props.C94_embed_partial", "FastKsw.Props.C94_panics", "FastKsw.Props.C94_violated", "FastKsw.Props.C94_toComplex_partial", "FastKsw.Props.C94_decodeSlots_partial", "FastKsw.Props.C94_roundtrip_partial", "FastKsw.Props.C94_float_partial"], "note": "Rings of type ConjugateInvariant with at least 16 slots, exact and complex128 transforms, scaled values up to 2^63. With 1 to 8 slots in a larger ring Encode panics although the checks pass (C94_panics, C94_violated)."},
 {"property": "C95", "status": "proved", "theorems": ["FastKsw.Props.C95_innerSumLog_list", "FastKsw.Props.C95_innerSumLog", "FastKsw.Props.C95_innerSum", "FastKsw.Props.C95_trace", "FastKsw.Props.C95_replicate", "FastKsw.Props.C95_surplus", "FastKsw.Props.C95_galois"], "note": "The comment that the list is what the operation performs is not exact: it always has a rotation that is not needed, by 0 or by n*batch (C95_surplus). GaloisElementsForRowInnerSum for rings of type Standard."},
 {"property": "C96", "status": "proved", "theorems": ["FastKsw.Props.C96_step", "FastKsw.Props.C96_session"], "note": "The bookkeeping demands what the violations C81_encryptMsg_violated and C81_decryptToMsg_violated make necessary: with fewer than 8 slots only the first encryption, and a decryption whose plaintext fits into the modulus at the lowest level decrypted so far. Limits of the complex128 model as in C92."},
 {"property": "C97", "status": "partial", "theorems": ["FastKsw.Props.C97_multByGaussianInteger", "FastKsw.Props.C97_multByi", "FastKsw.Props.C97_divByi", "FastKsw.Props.C97_mulByPow2_partial", "FastKsw.Props.C97_multByConst", "FastKsw.Props.C97_scaleUp_partial", "FastKsw.Props.C97_addConst_partial", "FastKsw.Props.C97_addConstNew", "FastKsw.Props.C97_dropLevel", "FastKsw.Props.C97_negNew", "FastKsw.Props.C97_multByConstNew", "FastKsw.Props.C97_scaleUpNew_partial", "FastKsw.Props.C97_rescaleNew_partial", "FastKsw.Props.C97_byiNew", "FastKsw.Props.C97_rotateNew", "FastKsw.Props.C97_addNew", "FastKsw.Props.C97_subNew", "FastKsw.Props.C97_mulRelinNew"], "note": "Missing: MulByPow2 and AddConst into a receiver other than the operand (refuted: C79_mulByPow2New_violated, C54_violated), ScaleUp by a non-integer (C78), and Rescale as in C37. Everything else in the statement is proved for all messages, and C86/C96 allow these calls."},
 {"property": "C98", "status": "proved", "theorems": ["FastKsw.Props.C98_noninterference", "FastKsw.Props.C98_frame", "FastKsw.Props.C98_progress", "FastKsw.Props.C98_decrypt_within", "FastKsw.Props.C98_decrypt", "FastKsw.Props.C98_encrypt_within", "FastKsw.Props.C98_encryptFromCRP_within", "FastKsw.Props.C98_encrypt", "FastKsw.Props.C98_encryptFromCRP", "FastKsw.Props.C98_objects", "FastKsw.Props.C98_objects_empty", "FastKsw.Props.C98_call", "FastKsw.Props.C98_concurrent", "FastKsw.Props.C98_concurrent_ready", "FastKsw.Props.C98_shared_refuted"], "note": "C98_shared_refuted shows that the hypothesis of an own object is needed (the documentation promises nothing for a shared one). Sampling a polynomial is one step on the generator followed by one step per row. Memory is sequentially consistent; distinct polynomials have distinct rows."},
 {"property": "C99", "status": "proved", "theorems": ["FastKsw.Props.C99_table", "FastKsw.Props.C99_fft", "FastKsw.Props.C99_ifft", "FastKsw.Props.C99_encode", "FastKsw.Props.C99_decode", "FastKsw.Props.C99_roundtrip", "FastKsw.Props.C99_size", "FastKsw.Props.C99_precision"], "note": "The exponent of a big.Float is unbounded in the model, sigma = 0 in decodePublic, and the string pi is assumed exact to the precision (it has 1000 decimals)."},
 {"property": "C100", "status": "partial", "theorems": ["FastKsw.Props.C100_add", "FastKsw.Props.C100_addNoMod", "FastKsw.Props.C100_sub", "FastKsw.Props.C100_subNoMod", "FastKsw.Props.C100_mulCoeffs", "FastKsw.Props.C100_mulCoeffsConstant", "FastKsw.Props.C100_mulCoeffsAndAdd", "FastKsw.Props.C100_mulCoeffsAndAddNoMod", "FastKsw.Props.C100_mulCoeffsMontgomery", "FastKsw.Props.C100_mulCoeffsMontgomeryConstant", "FastKsw.Props.C100_mulCoeffsMontgomeryAndAdd", "FastKsw.Props.C100_mulCoeffsMontgomeryAndAddNoMod", "FastKsw.Props.C100_mulCoeffsMontgomeryConstantAndAddNoMod", "FastKsw.Props.C100_mulCoeffsMontgomeryAndSub", "FastKsw.Props.C100_mulCoeffsMontgomeryAndSubNoMod", "FastKsw.Props.C100_neg", "FastKsw.Props.C100_reduce", "FastKsw.Props.C100_reduceConstant", "FastKsw.Props.C100_mform", "FastKsw.Props.C100_invMform", "FastKsw.Props.C100_mulScalar", "FastKsw.Props.C100_mulScalarBigint", "FastKsw.Props.C100_mulByVectorMontgomery", "FastKsw.Props.C100_mulByVectorMontgomeryAndAddNoMod", "FastKsw.Props.C100_mod", "FastKsw.Props.C100_scalar_inPlace_partial", "FastKsw.Props.C100_scalar_violated", "FastKsw.Props.C100_mulByPow2_inPlace_partial", "FastKsw.Props.C100_mulByPow2New_violated", "FastKsw.Props.C100_multByMonomialNew", "FastKsw.Props.C100_transforms_panic", "FastKsw.Props.C100_dispatch", "FastKsw.Props.C100_transforms"], "note": "Proved for all operations, except that AddScalar, SubScalar and their big-integer variants with another receiver write the operand (C100_scalar_violated) and MulByPow2New multiplies by 2^(k-64) (C100_mulByPow2New_violated)."},
 {"property": "C101", "status": "partial", "theorems": ["FastKsw.Props.C101_add", "FastKsw.Props.C101_sub", "FastKsw.Props.C101_addNoMod", "FastKsw.Props.C101_ntt", "FastKsw.Props.C101_nttLazy", "FastKsw.Props.C101_invNtt", "FastKsw.Props.C101_mform", "FastKsw.Props.C101_invMform", "FastKsw.Props.C101_mul", "FastKsw.Props.C101_mulConstant", "FastKsw.Props.C101_mulAndAdd", "FastKsw.Props.C101_mulAndSub", "FastKsw.Props.C101_mulConstantAndAddNoMod", "FastKsw.Props.C101_mulConstantAndSubNoMod", "FastKsw.Props.C101_permute", "FastKsw.Props.C101_permuteAndAdd", "FastKsw.Props.C101_copyValuesLvl", "FastKsw.Props.C101_panic3", "FastKsw.Props.C101_panic2", "FastKsw.Props.C101_newPoly", "FastKsw.Props.C101_crt_partial", "FastKsw.Props.C101_copy_partial", "FastKsw.Props.C101_copy_violated", "FastKsw.Props.C101_copy_panics", "FastKsw.Props.C101_read", "FastKsw.Props.C101_sharedPrime_violated"], "note": "Proved for all operations when Q and P are coprime; nothing checks that (C101_sharedPrime_violated: NewParameters accepts a common prime, and then rows exist that hold no polynomial). Copy from a polynomial without P part keeps the old P part (C101_copy_violated)."},
 {"property": "C102", "status": "partial", "theorems": ["FastKsw.Props.C102_primes", "FastKsw.Props.C102_terminates", "FastKsw.Props.C102_fermat_violated", "FastKsw.Props.C102_rejects", "FastKsw.Props.C102_genModuli_partial", "FastKsw.Props.C102_distinct_partial", "FastKsw.Props.C102_keyParams", "FastKsw.Props.C102_literal", "FastKsw.Props.C102_literal_keyParams_partial", "FastKsw.Props.C102_literal_refused", "FastKsw.Props.C102_shared_violated"], "note": "Proved for sizes of at least logN+1, up to: primes generated for different sizes may coincide, also between Q and P, and the parameters are accepted (C102_shared_violated); distinct when every modulus is within a quarter of its power of two. The power of two plus one is never taken even if it is the nearest prime (C102_fermat_violated). Smaller sizes give primes without the roots (C09_smallLogQ_violated)."},
 {"property": "C103", "status": "partial", "theorems": ["FastKsw.Props.C103_newRing", "FastKsw.Props.C103_newParameters", "FastKsw.Props.C103_table", "FastKsw.Props.C103_rho", "FastKsw.Props.C103_getFactors", "FastKsw.Props.C103_factors_partial", "FastKsw.Props.C103_factors_violated", "FastKsw.Props.C103_primitiveRoot", "FastKsw.Props.C103_root_partial", "FastKsw.Props.C103_root_violated"], "note": "Acceptance proved for all arguments. factorizationPollardsRho never finds a factor of a number without small primes (C103_rho), so that getFactors lists the product of all primes above 17389 as one factor (C103_factors_violated) and primitiveRoot can return an element that is not a primitive root (C103_root_violated); both proved correct when that product is 1 or a prime."},
 {"property": "C104", "status": "partial", "theorems": ["FastKsw.Props.C104_rlwe_sizes", "FastKsw.Props.C104_literal", "FastKsw.Props.C104_literal_ckks", "FastKsw.Props.C104_literal_frlwe", "FastKsw.Props.C104_sizes_violated", "FastKsw.Props.C104_literal_sizes_partial", "FastKsw.Props.C104_ckks", "FastKsw.Props.C104_rlwe", "FastKsw.Props.C104_sizes", "FastKsw.Props.C104_logQP_partial", "FastKsw.Props.C104_logQP_violated", "FastKsw.Props.C104_fast", "FastKsw.Props.C104_literal_fckks", "FastKsw.Props.C104_fckks", "FastKsw.Props.C104_noise"], "note": "Proved for all literals that list moduli and all named sets that do. frlwe and fckks panic on every literal by sizes, although it has the fields (C104_sizes_violated); rlwe accepts it when every modulus is within a quarter of its power of two. LogQP differs by one from the name for some default sets (C104_logQP_violated). The two test sets of rlwe given by sizes are accepted (C104_rlwe_sizes)."},
 {"property": "C105", "status": "partial", "theorems": ["FastKsw.Props.C105_uniform", "FastKsw.Props.C105_uniform_returns", "FastKsw.Props.C105_half_partial", "FastKsw.Props.C105_proba_violated", "FastKsw.Props.C105_secretKey_violated", "FastKsw.Props.C105_randUniform", "FastKsw.Props.C105_sparse", "FastKsw.Props.C105_sparse_returns"], "note": "Proved for the uniform sampler, the ternary sampler with p = 1/2, fixed Hamming weight and RandUniform. Violated with p = 1/3: -1 followed by 0 has probability at most 1/128 instead of 1/9 (C105_proba_violated); GenSecretKey draws a fixed Hamming weight, so no polynomial has its documented probability 3^-N (C105_secretKey_violated). The Gaussian sampler is C107."},
 {"property": "C106", "status": "proved", "theorems": ["FastKsw.Props.C106_switchKeysInPlace", "FastKsw.Props.C106_buffers_irrelevant", "FastKsw.Props.C106_decomposeNTT", "FastKsw.Props.C106_hoisted", "FastKsw.Props.C106_fswitchKey", "FastKsw.Props.C106_within", "FastKsw.Props.C106_fwithin", "FastKsw.Props.C106_objects", "FastKsw.Props.C106_objects_empty", "FastKsw.Props.C106_call", "FastKsw.Props.C106_concurrent", "FastKsw.Props.C106_concurrent_ready", "FastKsw.Props.C106_evaluator", "FastKsw.Props.C106_evaluator_hoisted", "FastKsw.Props.C106_shared_refuted", "FastKsw.Props.C106_alias_refuted"], "note": "For key switchers made by NewKeySwitcher and ShallowCopy, keys with the digits that the level needs and at most 2^20 moduli (where the float quotients are exact). Sharing one key switcher between threads is refuted (C106_shared_refuted), as is an output that is the input (C106_alias_refuted)."},
 {"property": "C107", "status": "proved", "theorems": ["FastKsw.Props.C107_symmetric", "FastKsw.Props.C107_bounded", "FastKsw.Props.C107_total", "FastKsw.Props.C107_new", "FastKsw.Props.C107_state", "FastKsw.Props.C107_read", "FastKsw.Props.C107_readAndAdd", "FastKsw.Props.C107_returns", "FastKsw.Props.C107_twice"], "note": "For every interpretation of the floating-point operations; total mass one and termination under FloatOps.Starts (the draw 0 is within the bound; randFloat64 = 1 is accepted in the tail), which exact arithmetic meets."},
 {"property": "C108", "status": "proved", "theorems": ["FastKsw.Props.C108_gaussian_shape"], "note": "With exact arithmetic (realOps): the roundings of float64/float32 arithmetic, math.Log and math.Exp are left out. Deviation at most 2^59 and bound at least two deviations."},
 {"property": "C109", "status": "proved", "theorems": ["FastKsw.Props.C109_new", "FastKsw.Props.C109_old"], "note": "The draws of the samplers are given (their ranges are C42-C44, their laws C105-C107); fuel for the constructors at least 2^61. The wrong flag of the outputs is C56."},
 {"property": "C110", "status": "proved", "theorems": ["FastKsw.Props.C110_gaussian_float", "FastKsw.Props.C110_exact"], "note": "For all operations that meet FloatOps.Close (error bounds per operation; that the float64, float32, math.Log and math.Exp of Go meet them is assumed). Rounding to nearest with 53 and 24 bits is shown to meet them (roundOps_close)."},
 {"property": "C111", "status": "partial", "theorems": ["FastKsw.Props.C111_reconstructAndScale_partial", "FastKsw.Props.C111_exact", "FastKsw.Props.C111_of_scaleOk", "FastKsw.Props.C111_benchmark", "FastKsw.Props.C111_wrap_violated", "FastKsw.Props.C111_floor_violated", "FastKsw.Props.C111_even_violated"], "note": "Violated by the fifth parameter set of the benchmark (the sum of fractional parts exceeds a word, C111_wrap_violated), by integer parts that a rounding raises by one (C111_floor_violated) and by even t that are not a power of two (C111_even_violated); proved for the other parameters, in particular the first four sets (C111_benchmark)."},
 {"property": "C112", "status": "proved", "theorems": ["FastKsw.Props.C112_lists", "FastKsw.Props.C112_rings"], "note": "Primality by Pratt certificates checked in the kernel; IsPrime is the mathematical notion, as elsewhere."},
 {"property": "C113", "status": "partial", "theorems": ["FastKsw.Props.C113_standardDeviation", "FastKsw.Props.C113_slotDomain", "FastKsw.Props.C113_parseval", "FastKsw.Props.C113_coeffDomain_partial", "FastKsw.Props.C113_coeffDomain", "FastKsw.Props.C113_relation", "FastKsw.Props.C113_size", "FastKsw.Props.C113_coeff_violated"], "note": "Violated by GetErrSTDCoeffDomain when the number of values is not a power of two: coefficients are left out (C113_coeff_violated, 3 values); proved for powers of two (C113_coeffDomain) and for the other two functions. Overflow is left out of the float64 model."},
 {"property": "C114", "status": "partial", "theorems": ["FastKsw.Props.C114_genrotKey", "FastKsw.Props.C114_keys", "FastKsw.Props.C114_galEl_inj", "FastKsw.Props.C114_row_ne", "FastKsw.Props.C114_forRotations", "FastKsw.Props.C114_innerSum", "FastKsw.Props.C114_missing", "FastKsw.Props.C114_multiple_violated", "FastKsw.Props.C114_rotate_partial", "FastKsw.Props.C114_conjugate"], "note": "Violated for rotations by a nonzero multiple of N/2, which are the identity: they panic unless a multiple of N/2 is listed (C114_multiple_violated); proved for all other rotations, for the conjugation and for the content of the sets. Standard rings; the other ring type is C59 and C25."},
 {"property": "C115", "status": "proved", "theorems": ["FastKsw.Props.C115_switchingKey", "FastKsw.Props.C115_masks", "FastKsw.Props.C115_switchingKey_returns", "FastKsw.Props.C115_publicKey", "FastKsw.Props.C115_ciphertext", "FastKsw.Props.C115_ciphertext_rejected"], "note": "Random bytes are independent and uniform (the keyed generator is idealised); floats of the Gaussian sampler are abstract as in C107. Top levels, special primes present. A random ciphertext is not marked as transformed, so the evaluator panics on it (C115_ciphertext_rejected)."},
 {"property": "C116", "status": "proved", "theorems": ["FastKsw.Props.C116_skEncrypt", "FastKsw.Props.C116_decrypt", "FastKsw.Props.C116_returns"], "note": "Random bytes are independent and uniform (the keyed generator is idealised); floats of the Gaussian sampler are abstract as in C107. Secret-key encryptor; public-key encryption is C32 for given draws."},
 {"property": "C117", "status": "proved", "theorems": ["FastKsw.Props.C117_keyPair", "FastKsw.Props.C117_keyPair_returns", "FastKsw.Props.C117_pkEncrypt", "FastKsw.Props.C117_decrypt"], "note": "Random bytes are independent and uniform (the keyed generator is idealised); floats of the Gaussian sampler are abstract as in C107. Special primes present. The law of the ephemeral draws is stated for the draws, since the ciphertext need not determine them."},
 {"property": "C118", "status": "proved", "theorems": ["FastKsw.Props.C118_rescalingParams", "FastKsw.Props.C118_divides", "FastKsw.Props.C118_modDown"], "note": "The moduli are primes; the code panics on a zero modulus, which the model does not represent."},
 {"property": "C119", "status": "proved", "theorems": ["FastKsw.Props.C119_keyPair", "FastKsw.Props.C119_keyPair_returns", "FastKsw.Props.C119_pkEncrypt", "FastKsw.Props.C119_decrypt"], "note": "Random bytes are independent and uniform (the keyed generator is idealised); floats of the Gaussian sampler are abstract as in C107. No special prime. The law of the ephemeral draws is stated for the draws."},
 {"property": "C120", "status": "partial", "theorems": ["FastKsw.Props.C120_add", "FastKsw.Props.C120_sub_partial", "FastKsw.Props.C120_add_scaled", "FastKsw.Props.C120_sub_scaled_partial", "FastKsw.Props.C120_add_enc", "FastKsw.Props.C120_sub_enc_partial", "FastKsw.Props.C120_addNew", "FastKsw.Props.C120_subNew_partial", "FastKsw.Props.C120_accumulate", "FastKsw.Props.C120_add_iff", "FastKsw.Props.C120_sub_iff", "FastKsw.Props.C120_sub_wrong"], "note": "Violated by SubNoMod of a ciphertext that AddNoMod left unreduced: the words wrap around and Reduce cannot repair it (C120_sub_wrong); proved for subtrahends with words at most q, and for AddNoMod without restriction other than wrap-around, which is shown to be exact (C120_add_iff, C120_sub_iff)."},
 {"property": "C121", "status": "proved", "theorems": ["FastKsw.Props.C121_relin", "FastKsw.Props.C121_relin_masks", "FastKsw.Props.C121_relin_switches", "FastKsw.Props.C121_rotation", "FastKsw.Props.C121_rotation_switches"], "note": "Random bytes are independent and uniform (the keyed generator is idealised); floats of the Gaussian sampler are abstract as in C107. T large enough is FParams.Fits."},
 {"property": "C122", "status": "proved", "theorems": ["FastKsw.Props.C122_keys", "FastKsw.Props.C122_product"], "note": "Random bytes are independent and uniform (the keyed generator is idealised); floats of the Gaussian sampler are abstract as in C107. T large enough is FParams.Fits. The byte streams of key generator and encryptors are quantified one after the other (nested probability one)."},
 {"property": "C123", "status": "proved", "theorems": ["FastKsw.Props.C123_rotated_product"], "note": "Same idealisation as C122. The pools that the first two key generations leave are an argument of arbitrary content."},
 {"property": "C124", "status": "proved", "theorems": ["FastKsw.Props.C124_conversion", "FastKsw.Props.C124_relin", "FastKsw.Props.C124_rotation"], "note": "The buffer is one of gamma rows of length N, as NewKeyGenerator allocates it (newPool_ok) and each call leaves it."},
 {"property": "C125", "status": "partial", "theorems": ["FastKsw.Props.C125_rotation_partial", "FastKsw.Props.C125_defaults", "FastKsw.Props.C125_gamma_panic", "FastKsw.Props.C125_gamma_not", "FastKsw.Props.C125_no_panic_partial", "FastKsw.Props.C125_panic", "FastKsw.Props.C125_not", "FastKsw.Props.C125_relin_partial"], "note": "The code violates the full statement: C125_not, C125_panic (more than 32 primes in T or P) and C125_gamma_not, C125_gamma_panic (gamma above 32). C125_no_panic_partial needs at most 32 primes in T and in P and gamma at most 32; C125_relin_partial and C125_rotation_partial apply it to generated keys, C125_defaults to the shipped parameter sets."},
 {"property": "C126", "status": "partial", "theorems": ["FastKsw.Props.C126_defaults", "FastKsw.Props.C126_no_panic_partial", "FastKsw.Props.C126_hoisted_partial", "FastKsw.Props.C126_hoisted_panic", "FastKsw.Props.C126_panic", "FastKsw.Props.C126_keys", "FastKsw.Props.C126_not"], "note": "The code violates the full statement (C126_not, C126_panic, C126_hoisted_panic: more than 32 primes in P). C126_no_panic_partial and C126_hoisted_partial need a key over at most 32 primes of P; C126_keys decides both cases for generated keys, C126_defaults covers the shipped parameter sets."},
 {"property": "C127", "status": "proved", "theorems": ["FastKsw.Props.C127_special", "FastKsw.Props.C127_encrypt", "FastKsw.Props.C127_keys", "FastKsw.Props.C127_33"], "note": "C127_encrypt decides both cases; C127_special shows that the rows checked are those that are divided; C127_keys applies it to generated keys and contrasts it with C126; C127_33 gives accepted parameters with 33 primes in P."}
]}
