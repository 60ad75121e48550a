# Formal model of SNUCP/fast-ksw in Lean 4

Source: `/repo` (Go; a Lattigo v3 fork with packages `ring`, `utils`, `rlwe`,
`ckks`, plus the new `frlwe` and `fckks`).  The Go code is read as text only;
it is never built or run.  Properties are in `properties.jsonl` (C01 …), the
status of each in `MANIFEST.json`, mutation tests in `seeded/LOG.jsonl`.

## Layout

* `lean/Verif/Model/*`  – executable model, one definition per Go function, each
  with a comment citing file and lines.  No theorems.
* `lean/Verif/Spec/*`   – small independent specifications (congruence, the
  negacyclic ring, CRT representation, noise bounds).
* `lean/Verif/Lemmas/*` – helper lemmas.
* `lean/Verif/Props/*`  – the property theorems, each with non-vacuity examples.

## Modelling conventions

* `uint64` is Lean's `UInt64` (wrap-around arithmetic as in Go).  `bits.Mul64`,
  `bits.Add64`, `bits.Div64` are modelled by their documented results.
* A row of coefficients (`[]uint64`) is `List UInt64`; `x[j]` is `getD j 0`,
  `x[j] = v` is `List.set`.  Go panics on an out-of-range index; theorems about
  such code carry the length hypotheses under which no index is out of range,
  or the model returns `none` / `.panic` where the property is about panics.
* Go loops are folds over `List.range`, or structural recursion.  Loops unrolled
  by 8 through `unsafe.Pointer` are modelled element by element where the row
  length is a multiple of 8 (`NewRing` enforces N ≥ 16 a power of two).  Where
  it need not be (`Model/Sparse`, `Model/SpecialFFT`, `Model/Encoder`), the model
  has the over-run of the last block: reads and writes beyond the slice but
  inside its backing array.
* A function writing through a pointer returns the new value of everything it
  writes.  Ciphertext operations run on a heap `Ref → Ct` (`Model/Evaluator`), so
  receivers may be operands; the pointer comparisons in the code compare
  references.  `Heap.set`/`setRows` are the only writes.
* Scratch memory (`pool`, `polypool`, `buff`) is a parameter with arbitrary
  contents of the allocated shape; theorems hold for every content.  Where the
  contents survive a call and matter (pools of the fckks encryptor and decryptor,
  C81) the model returns them.  The functional model of the key switch starts with fresh pools; C106 proves that
  the code with its reused buffers computes the same.
* `big.Int` is `Int`/`Nat`; `ModInverse` is the inverse in `ZMod` when it exists.
* `float64` is a rational with explicit IEEE-754 round-to-nearest-even to 53 bits
  (`Model/Float`; no subnormals, overflow, infinities or NaN except as bit patterns
  in the encoders, C40/C41).  A conversion `uint64(x)` of a float outside
  [0, 2^64) is left open by Go; theorems exclude it.
* `big.Float` of precision `p` is a real; for C90 every operation is followed by round-to-nearest-even to `p` bits
  (unbounded exponent), for C91 the operations are exact, for C99 rounded; in C111 it is a rational, rounded likewise
* `complex128` in the encoder's FFT is an exact field (`ℂ`, or any field with the roots of
  unity).  Between the inverse FFT and the rounding to integers an arbitrary function
  `fl` stands for the float error; theorems bound their conclusion by its distance
  from the exact value (`FloatOK`).  The decoder's final divisions and the scaling are
  rounded, its FFT is not.  C92 replaces this: there every complex128 operation is rounded,
  with gradual underflow; overflow and fused multiply-add (amd64 does not fuse) are left out;
  the accuracy of `math.Cos` and `math.Sin` is a hypothesis.
* Randomness is an arbitrary tape: samplers read bytes from an arbitrary stream
  (C42–C44, C63), key generation and encryption read the sampled polynomials from tapes
  (`KeyTape`, `EncTape`).  The blake2b XOF is an arbitrary function (C47),
  `normFloat64` an arbitrary stream of draws (C44) or, in C107, the code on bytes with
  arbitrary floating-point operations (`FloatOps`); in C108 these are exact, in C110 exact up to the error bounds
  of `FloatOps.Close`, which are assumed of the hardware and of `math.Log` and `math.Exp`.
  Only C105, C107, C108 and C110 speak of probability: the stream of the generator is replaced by independent
  uniform bytes (`Spec/Random`), which is what blake2b is assumed to be indistinguishable from.
* Errors and panics are `Option`, `Except` or the outcome `Go` (`ok`, `err`, `panic`).
  `none` in evaluator functions is a panic.
* Byte slices are `List UInt8` with capacity = length.  `encoding/binary` is modelled
  by its byte order.  JSON and gob are modelled at the level of the decoded
  literal (`Option` fields, the document as a list of fields), not of the text.
* A nil pointer is `none` (nil parts of keys, nil transformer of a decoded ring).
* Recursion of a method into itself through embedding is a big-step call relation
  (`Model/KeygenCalls`, C55).
* Meaning of a ciphertext: `CtEnc` (decrypts modulo every prime to given ring elements),
  and above it `CtMsg` (`Spec/Msg`): holds complex values at a scale with bounds on plaintext,
  noise and slot error.  Programs of a client are lists of calls (`Spec/Program`).

## Trusted base

Lean 4 kernel; axioms at most `propext`, `Classical.choice`, `Quot.sound`
(checked with `#print axioms` for every theorem listed in MANIFEST); Mathlib
definitions that occur in statements (`ZMod`, `Polynomial`, `AdjoinRoot`,
`Nat.Prime`, `Finset.sum`, `ℚ`, `ℂ`); and the reading of the Go source into the model.

Not modelled: `math/big` internals, `ProbablyPrime` (a parameter), blake2b, rounding of
complex128 FFT butterflies, the arbitrary-precision (`BigComplex`) encoder, JSON text syntax, weak memory
(threads of C98 interleave single row reads and writes), performance, garbage collection, memory layout.

## Where the code violates a property

Each has a theorem `Cxx_violated` (or a name with that suffix) with a concrete witness, or a statement
for all inputs, and `_partial` theorems for what holds.

| id | what is wrong |
|----|---------------|
| C08 | `DivRound` with the receiver aliasing the divisor |
| C09 | `PreviousNTTPrime` wraps below 1; prime generation returns non-NTT primes for small `logQ` |
| C11, C12 | scalar addition and subtraction write `p1`; `MulByPow2` reads `p2` |
| C14 | `NTTLazy` leaves words up to 6q, documented as 2q |
| C16 | `CheckModuli` accepts 62-bit moduli, for which the NTT overflows |
| C18, C70 | centred export maps (Q-1)/2 to -(Q+1)/2 |
| C21 | `ModDownQPtoP` indexes `modDownParams[levelP]` |
| C22 | `DivFloorByLastModulusNTTLvl` divides 0 to -1 |
| C35 | `MulAndAdd` adds `x0*y1` twice; a receiver that is also an operand and has a smaller scale than the product is scaled up before it is multiplied |
| C36, C65 | `Rotate` of ckks in place loses component 0 |
| C37 | `Rescale` reads `Modulus[-1]` when the scale stays large |
| C38–C41 | decoders keep stale flags and rows, panic on short input; `Equals` is not symmetric |
| C50 | negative monomial exponents |
| C51 | decryption in the coefficient domain at degree 7 mod 8 |
| C52, C73, C71 | unrolled loops read or write past sparse rows |
| C53 | integer constants above 2^52 are rounded |
| C54 | `AddConst` does not write the other components of a new receiver |
| C55 | `GenSecretKey`, `GenPublicKey` of `frlwe` call themselves for ever |
| C56 | `SwitchKeys` of `fckks` panics in the NTT domain |
| C57 | switching to a smaller ring in the NTT domain writes into the input |
| C59 | `PolyQP.Equals` skips nil parts |
| C62 | `SimpleScaler` does not reduce modulo t |
| C63 | the ternary sampler reuses the sign bit for p ≠ 1/2 |
| C64 | products leave higher components of the receiver |
| C66 | `MulRelin` of `ckks` leaves words up to 6q and the next `Rescale` wraps |
| C68 | `PadDefaultRingToConjuateInvariant` loses half of the values |
| C69 | encoding coefficients into a used plaintext keeps old words |
| C77, C78, C82 | fractional scale ratios are rounded to integers |
| C79 | `MulByPow2New` multiplies by 2^(k-64); `MultByiNew` loses components |
| C81 | the fckks encryptor with few slots and the decryptor across levels are not reusable |
| C83, C84 | derived ring of degree 8; a decoded ring has no transformer |
| C87 | `ring.Rotate` never writes its receiver and ignores negative shifts from degree 64 on; `Shift` panics for shifts above N and for -1 |
| C91 | `encoderBigComplex.InvFFT` divides the values beyond `N` too; `Encode` panics on fewer values than slots |
| C93 | `SwitchKeys` into a receiver of a higher level keeps that level and its stale upper residues |
| C94 | `Encode` with 8 slots or fewer panics in a larger ring of type `ConjugateInvariant` |
| C100 | as C11, C12 and C79 |
| C101 | `NewParameters` accepts a prime in both `Q` and `P`: then a `PolyQP` is not a polynomial modulo `QP` and `ModDown` divides by zero; `PolyQP.Copy` from a polynomial without `P` part keeps the receiver's old `P` part |
| C102 | `GenModuli` may generate the same prime for two different sizes, also in both `Q` and `P`, and the parameters are accepted; `2^s+1` is never taken although prime and nearest |
| C103 | Pollard's rho never finds a factor (the walks are exchanged and meet at once), so `getFactors` returns the product of all primes above 17389 as one factor, and `primitiveRoot` can return a number that is not a primitive root (`q = 79889944193`, result 3) |
| C104 | `frlwe.NewParametersFromLiteral` (and `fckks`) panics on every literal by sizes (`LogQ`, `LogP`): the ring modulo `PQ` is built on the empty lists of the literal; `LogQP` of `PN12QP109` is 108 |
| C105 | with `p = 1/3` the sign bit of a coefficient is the first bit of the next one: `-1` then `0` has probability at most 1/128 instead of 1/9; `GenSecretKey` (documented `[1/3, 1/3, 1/3]`) draws a polynomial of fixed Hamming weight |
| C106 | a key switcher shared by two threads gives wrong results (no documentation says that it must not be shared; `ShallowCopy` exists for the classical one only); `SwitchKeysInPlace` with an output equal to its input gives a wrong result from two digits on |
| C111 | the one-pass scaler: the sum of fractional parts exceeds a word for the fifth parameter set of the benchmark; integer parts raised by a rounding; even `t` that are not a power of two |
| C113 | `GetErrSTDCoeffDomain` leaves out coefficients when the number of values is not a power of two |
| C114 | `Rotate` by a nonzero multiple of `N/2` panics without a key although it is the identity; `Rotate` by 0 needs no key |
| C115 | `NewCiphertextRandom` leaves `IsNTT` false, so the evaluator panics on its result |
| C88 | `Ciphertext.Copy` keeps stale rows and components of a larger receiver; the copy of an empty key is `nil` |
| C125 | `NewParametersFromLiteral` of `frlwe` accepts more than 32 primes in `T`, and `gamma` above 32; every `SwitchKey`, or every key generation, then panics |
| C126 | `NewParameters` of `rlwe` accepts up to 100 primes in `P`; with more than 32 every key switch panics |

## Plan per property

| id | model | proof |
|----|-------|-------|
| C01–C06 | `ring/modular_reduction.go` on `UInt64` | Nat arithmetic on `toNat`; C03 by unit-group/2-adic argument over the 63-step loop |
| C07 | `ModExp`, `ModexpMontgomery` loops | loop invariant over the exponent bits |
| C08 | `DivRound` on `Int` | case analysis, Euclidean division |
| C09 | search loops with a primality oracle and fuel | invariant of the search; negation witness for `PreviousNTTPrime` wrap-around |
| C10 | vector ops, `*Lvl` ops | pointwise, from C01–C06 |
| C11, C12 | store with two polys | expected false (writes to p1): negation + aliased `_partial` |
| C13–C15 | `ring_ntt.go` layer loops | layer invariant: partial evaluation modulo X^t − ζ; ring homs of `AdjoinRoot (X^N+1)`; bounds carried along |
| C16 | `CheckModuli` | expected false: 62/63-bit moduli accepted, butterfly overflow witness |
| C17 | `NewRing`, `genNTTParams`, `primitiveRoot` | order argument in `ZMod q` |
| C18 | `SetCoefficientsBigint`, `PolyToBigint*` | CRT |
| C19 | `basisextenderparameters`, `reconstructRNS`, `multSum` with rounded-float v | CRT identity over ℤ, float error ≤ k·2^-52 |
| C20, C21 | `ModDown*` | from C19; C21 expected false (index levelP) |
| C22 | `ring_scaling.go` | exact division in ZMod |
| C23 | `DecomposeAndSplit`, `DecomposeSingleNTT` | from C19 |
| C24, C25 | `ring_automorphism.go`, Galois elements | ring homs X ↦ X^g |
| C26, C27 | `frlwe/keyswitch.go`, `frlwe/keygen.go` | C13–C15, C19, norm bound N·‖a‖·‖b‖, then C20 |
| C28, C29 | `rlwe/keyswitch.go` | accumulation invariant, C20, C23 |
| C30, C31 | `fckks/evaluator.go`, `ckks` mulRelin | C27 + C24 |
| C32, C33 | `rlwe/encryptor.go`, `decryptor.go`, `keygen.go` | algebra in ∏ R_{q_i}, tapes universally quantified |
| C34–C37, C51, C53, C54 | `ckks/evaluator.go`, `rlwe/decryptor.go` | store model; negations where the code is wrong |
| C38–C41, C46 | byte-list encoders/decoders | round-trip by induction; negations for stale flags etc. |
| C42–C44 | samplers on arbitrary byte tapes | loop invariants |
| C45, C47–C50, C60 | `utils/*`, small `ring/*` | bit/list induction |
| C52, C58 | sparse NTT, Fold/Unfold | corollary of C15 / index algebra |
| C55 | recursion `GenSecretKey` | the method's unfolding never returns: every fuel is exhausted |
| C56, C57 | `fckks` SwitchKeys, `SwitchCiphertextRingDegree*` | panic/aliasing witness |
| C59 | `RotationKeySet` as a finite map | map lemmas |
| C61, C62 | `ring_scaling.go`, scalers | division with remainder, float margin |
| C63 | Knuth–Yao ternary sampler on bytes | bit-tape invariant; correlation witness |
| C64–C66 | `ckks` products, relinearization, ranges | heap model, `EltIs` with word bounds |
| C67, C68 | conjugate-invariant NTT and mappings | refinement to the standard NTT of degree 2N |
| C69–C76 | `ckks/encoder.go` | layer invariant of the special FFT, slots as evaluations at powers of 5 |
| C77–C79, C82 | scale management, constants, New variants | `CtEnc` algebra with rounded factors |
| C80 | hoisted rotations | C23, C28 |
| C81 | `fckks` encryptor, decryptor | C32, C33, C74–C76 composed |
| C83, C84 | derived rings and parameters, ring encoding | constructors compared field by field |
| C85, C86 | `fckks`, `ckks` evaluators on messages | `CtMsg`/`Info` bookkeeping, induction on programs |
| C87 | `Rotate`, `Shift`, `BitReverse` | evaluation at rotated powers of the root of unity |
| C88 | memory of rows and polynomials, `CopyNew`, `Copy` | copies only allocate; induction over components |
| C89 | `GenSwitchingKey` with pools for all degrees, `GenSwitchingKeysForRingSwap` | `X ↦ X^(N/n)` on transforms, ring homomorphism, sampling of negacyclic products |
| C90 | `big.Float` rounding, `Cos`, root table | error propagation through doubling of `4 - s`; Taylor bound for the start value |
| C91 | complex operations on pairs of reals, FFT, `Encode`, `Decode` | transport to C72 along `ℝ × ℝ ≃ ℂ`; unitary bound on coefficients |
| C92 | complex128 operations, both transforms, root table, encoder, decoder | invariant `Near` per layer with growth factor `2(1+u)(1+δ)(1+3u)`; angle error; composition with C74, C76, C81 |
| C93 | `SwitchKeys`, `SwitchKeysNew` of `ckks` | `switchKeys_is` from C28 and C33; frame of the rows above the common level |
| C94 | encoder and decoder for rings of type `ConjugateInvariant` | embedding `symm` into the standard ring of twice the degree (C67), C72, C92 |
| C95 | rotation lists of `ckks/params.go` | programs of C86 that keep a sum of `2^e` rotations and the last `n mod 2^e`; bit products modulo `2N` |
| C96 | encryptor, evaluator and decryptor of `fckks` together | invariant of the session state (`SessionInv`), C85, C86, C92, induction on the calls |
| C97 | operations with constants, level drops and `...New` operations of `ckks/evaluator.go`, `fckks/evaluator.go` | `a + b X^(N/2)` has the value `a + b i` in every slot; C53, C54, C78, C79 lifted to messages (`CtMsg`); further constructors of `Op`/`Track`, so C86 and C96 cover them |
| C98 | buffers of `rlwe/encryptor.go`, `rlwe/decryptor.go`, `ShallowCopy`, `WithKey` | calls as resumable threads over a memory of cells; non-interference of threads with disjoint writes by an invariant over schedules; ownership invariant of the constructors; each call alone refines the functional model |
| C99 | as C91, with `rnd` the rounding of `big.Float` | relative error bounds of the complex operations; induction over the layers with a common growth factor per layer; exact run of C91 as reference; exponential bound for the growth |
| C100 | wrappers without a level of `ring_operations.go`, `ring_ntt.go` | reduction to the operation at a level (C10–C15) by the number of common rows, with the case of no rows; loop with panic for the transforms |
| C101 | `rlwe/ring_qp.go` with nil parts and panics | operations row by row (C10, C13–C15, C24) lifted to integer polynomials; Chinese remainder theorem over all moduli of `Q` and `P`; consumed bytes of the uniform sampler (C42) |
| C102 | `GenModuli`, literals by sizes (`Model/ParamsLit`, `Model/Primes`) | invariant of the two-sided search: all usable primes between the two ends are listed; termination measure; occurrence numbers of sizes; limits; parameters to the hypotheses of the correctness theorems |
| C103 | factors, primitive roots, acceptance (`Model/Ring`, `Model/Params`) | the table evaluated against trial division in the kernel; Pollard's rho: the exchanged walks meet in the second step; exact result of `getFactors`; the search for a root ends at a non-residue; acceptance as an equivalence, independent of the number of steps |
| C104 | parameter sets of the code (`Model/Defaults`, literals copied by a script) | acceptance from C103; Lucas/Pratt certificates of all moduli checked in the kernel (`Lemmas/DefaultPrimes`); the size of `T` and the error of a key switch evaluated on numbers; the test sets by sizes from C102 and six certified primes near `2^60` (`Props/DefaultSizes`) |
| C105 | samplers on a random byte stream (`Spec/Random`: product measure of uniform bytes) | generic rejection sampling (`Lemmas/RandomBytes`): the accepted value is uniform and independent of the bytes that follow; the samplers of the model are linked to it draw by draw; position lists of the sparse sampler counted as permutations |
| C106 | buffers of `rlwe/keyswitch.go`, `frlwe/keyswitch.go` and the basis extender | the key switch row by row as threads over memory cells (`Model/ThreadKeySwitch`); simulation with a symbolic state per buffer (`Lemmas/ThreadState`) shows that it refines the functional model for every content of the buffers; ownership invariant of constructors and `ShallowCopy`; footprints give non-interference by C98 |
| C107 | `ring/ring_sampler_gaussian.go` from the bytes of the generator | `normFloat64` and its buffer modelled on bytes, floats abstract (`Model/GaussianBytes`); the loops equal a machine that reads blocks of 8 bytes (`Lemmas/GaussianBytes`), whose law factors out of whatever follows by induction on the blocks (`Lemmas/RandomMachine`); symmetry by flipping the top bit of every block; termination because every state can stop within 4 blocks |
| C108 | the law of `normFloat64` in exact arithmetic, with the tables of the code | table entries bounded against the bell curve by rational Taylor bounds in the kernel (`Lemmas/GaussianTables`); the sum of the acceptance chances over the 128 strips telescopes to the curve (`Ziggurat`), words of a strip are a Riemann sum (`Riemann`, `ZigguratBody`), tail by Mills' bounds and substitution (`ZigguratTail`); the law of the loops from one attempt by the first-block equation of the machine (`GaussianMass`) |
| C109 | the programs `profile/new`, `profile/old` | `Model/Profile` composes the modelled constructors, key generation, encryption and `SwitchKeysNew`; zeros stay zeros through the inverse transform for any roots, so the encoding is exact; induction over the 50 passes of the loop; C104 gives parameters and the noise bound |
| C110 | the same law with rounded arithmetic | the machines with rounded and with exact operations read the same bytes; they differ only for points within 2^-22 of an edge, draws at the border of the wedge or tail test, and the draw 0, counted by their diameter; the first-block equation of both machines bounds the distance of the laws by that of one attempt (`Lemmas/GaussianFloat`) |
| C111 | one-pass scaler | the integer part of a twice-rounded quotient is right unless the quotient is near an integer; relative error `(1+u)^k` along the loop; Chinese remainder theorem over the rationals for `t X/Q` (`Lemmas/SimpleScaler`) |
| C112 | parameter sets of package `ring` | Pratt certificates and Fermat's test for all 1334 candidates, evaluated in the kernel; acceptance by C103 |
| C113 | standard deviation of an error | induction over the two loops with relative errors; triangle inequality for the root mean square; the points of evaluation are orthogonal, so the transform scales the sum of squares (`Lemmas/ErrStd`) |
| C114 | sets of rotation keys (`Model/RotKeys`: key generation into existing memory, maps as functions) | what is written does not depend on what was there, row by row; induction over the list of elements; order of 5 modulo `2N` (C25); C65 for the result of a rotation |
| C115 | key generation and random ciphertexts from the bytes of the shared generator (`Model/RandomKeys`) | a computation on the state of the samplers with an outcome of a probability that factors out of what follows (`Lemmas/RandomStep`); such steps compose; C105 and C107 give the steps of the samplers; a key determines its errors because they are small |
| C116 | secret-key encryption from the bytes of the shared generator (`Model/RandomEncrypt`) | the step calculus of C115 for one mask and one error; a ciphertext with its mask determines the error because it is small; decryption by the theorem on given draws |
| C117 | key pairs and public-key encryption from the bytes of the shared generator (`Model/RandomPair`) | the sampler of fixed Hamming weight as a step (`Lemmas/RandomTernary`); a key pair determines secret, error and mask; the theorems on given draws (C32, C33) for the algebra |
| C118 | `GenSwitchkeysRescalingParams` (`Model/SwitchParams`) | Fermat for the product of `P`, Montgomery form; uniqueness by coprimality; comparison with the constants of the basis extender (`modDownParam_spec`) |
| C119 | key pairs and `encryptNoP` from the bytes of the shared generator (`Model/RandomNoP`) | as C117 with the steps of the samplers; secret, error and mask are determined by the key pair; C32 and C33 without special primes for the algebra |
| C120 | `AddNoMod`, `SubNoMod` and their `New` variants (`Model/EvaluatorNoMod`), accumulation followed by `Reduce` | `evaluateInPlace` with separate bounds for the operands and the result (`Lemmas/AddNoModCt`); induction on the number of terms; exactness from evaluations at the roots, since 2^64 is a unit modulo every prime |
| C121 | `GenRelinKey`, `GenRotKey` of frlwe on random bytes (`Model/RandomFKeys`) | the switching key of C115 mapped through the conversion; the blocks modulo `T` determine the polynomial since `T` exceeds every block (`fdigit_unique`), so the event for the fast key is the event for the switching key (`fastKey_iff`); C27 for the key-switch |
| C122 | `GenKeyPair`, `GenRelinKey`, two `Encrypt`, `MulRelin`, `Decrypt` on random bytes (`Model/RandomSession`) | the relinearization key depends on the secret but its draws do not (`Step.dep`), so the keys are sound with probability one (`sessionKeys_step`) and have the product law (`Step.depLaw`, `C122_keys`); for sound keys each encryption is sound with probability one (C117); `MulRelin` with any key that switches `s^2` to `s` (`mulRelin_switches`), then C30, C27 for the sizes |
| C123 | `GenKeyPair`, `GenRelinKey`, `GenRotKey`, two `Encrypt`, `MulRelin`, `Rotate`, `Decrypt` on random bytes (`Model/RandomSession`) | as C122, with `Step.dep` once more for the rotation key (`circuitKeys_step`) and `Rotate` with any key that switches `s` to `s(X^g')` (`rotate_switches`) |
| C124 | `NewRelinKey`, `NewRotationKey`, `GenRelinKey`, `GenRotKey` in memory (`Model/FKeyMem`: `none` is a panic, the buffer is carried along) | loop invariants of `foldlM`; `ModUpQtoP` depends on the first rows only (`modUpQtoP_congr`) |
| C125 | `SwitchKey` of frlwe with its index checks (`Model/FSwitchMem`: `none` is a panic) | each check from the shapes of `FParams.OK` and `FKeyShape`; the row of `vtimesqmodp` from the bound on the rounded quotient; refutation with 33 primes accepted by C103 |
| C126 | `SwitchKeysInPlace` of rlwe with its index checks (`Model/SwitchMem`) | as C125, with the table of the decomposer from `modUpParams_at`; refutation with 33 primes accepted by C103 |
| C127 | `Encrypt` of `pkEncryptor` with its index checks (`Model/EncryptMem`) | the range lemma of C126 for the division, at `levelP = 0`; shapes of the generated key from C32 |
