import Verif.Model.Automorphism
import Verif.Model.BasisExtension
import Verif.Model.BigComplex
import Verif.Model.Bits
import Verif.Model.Bytes
import Verif.Model.CRT
import Verif.Model.ConjInv
import Verif.Model.ConjInvEncoder
import Verif.Model.Defaults
import Verif.Model.Encoder
import Verif.Model.Encrypt
import Verif.Model.EncryptMem
import Verif.Model.ErrStd
import Verif.Model.Evaluator
import Verif.Model.EvaluatorMore
import Verif.Model.EvaluatorNoMod
import Verif.Model.FEvaluator
import Verif.Model.FKeyMem
import Verif.Model.FKeySwitch
import Verif.Model.FSwitchMem
import Verif.Model.Facade
import Verif.Model.Float
import Verif.Model.FloatFFT
import Verif.Model.GaussianBytes
import Verif.Model.Hoisted
import Verif.Model.KeyEq
import Verif.Model.KeyGen
import Verif.Model.KeySwitch
import Verif.Model.KeygenCalls
import Verif.Model.LevelFree
import Verif.Model.Memory
import Verif.Model.ModRed
import Verif.Model.NTT
import Verif.Model.Params
import Verif.Model.ParamsLit
import Verif.Model.Primes
import Verif.Model.Prng
import Verif.Model.Profile
import Verif.Model.RandUniform
import Verif.Model.RandomEncrypt
import Verif.Model.RandomFKeys
import Verif.Model.RandomKeys
import Verif.Model.RandomNoP
import Verif.Model.RandomPair
import Verif.Model.RandomSession
import Verif.Model.Ring
import Verif.Model.RingMore
import Verif.Model.RingOps
import Verif.Model.RingQP
import Verif.Model.RingTestParams
import Verif.Model.RotKeys
import Verif.Model.RotationSets
import Verif.Model.Samplers
import Verif.Model.Scaling
import Verif.Model.Serialize
import Verif.Model.Shift
import Verif.Model.SimpleScaler
import Verif.Model.SlotEncoder
import Verif.Model.SmallPrimes
import Verif.Model.Sparse
import Verif.Model.SpecialFFT
import Verif.Model.SwitchDegrees
import Verif.Model.SwitchMem
import Verif.Model.SwitchParams
import Verif.Model.Thread
import Verif.Model.ThreadKeySwitch
import Verif.Model.Utils
import Verif.Model.VecOps
import Verif.Model.Word
import Verif.Spec.Accept
import Verif.Spec.Automorphism
import Verif.Spec.Ct
import Verif.Spec.EltIs
import Verif.Spec.Encrypt
import Verif.Spec.Factors
import Verif.Spec.Gauss
import Verif.Spec.Gaussian
import Verif.Spec.GenModuli
import Verif.Spec.KeySwitch
import Verif.Spec.Memory
import Verif.Spec.Msg
import Verif.Spec.MsgConst
import Verif.Spec.NegaRing
import Verif.Spec.NoWrap
import Verif.Spec.PolyIs
import Verif.Spec.Program
import Verif.Spec.RNS
import Verif.Spec.Random
import Verif.Spec.Ring
import Verif.Spec.RingQP
import Verif.Spec.RowIs
import Verif.Spec.Session
import Verif.Spec.Thread
import Verif.Spec.ThreadKeySwitch
import Verif.Lemmas.Accumulate
import Verif.Lemmas.AddCt
import Verif.Lemmas.AddNoModCt
import Verif.Lemmas.Automorphism
import Verif.Lemmas.BasisExt
import Verif.Lemmas.BigComplex
import Verif.Lemmas.BigCos
import Verif.Lemmas.BigFFT
import Verif.Lemmas.BigPrime
import Verif.Lemmas.Bits
import Verif.Lemmas.Blocks
import Verif.Lemmas.Bytes
import Verif.Lemmas.CRT
import Verif.Lemmas.CkksMul
import Verif.Lemmas.CkksMulAdd
import Verif.Lemmas.CkksPermute
import Verif.Lemmas.Classic
import Verif.Lemmas.Components
import Verif.Lemmas.ComposeExample
import Verif.Lemmas.ConjInv
import Verif.Lemmas.ConstCt
import Verif.Lemmas.CtEnc
import Verif.Lemmas.Decompose
import Verif.Lemmas.DefaultPrimes
import Verif.Lemmas.EltIs
import Verif.Lemmas.Encoder
import Verif.Lemmas.Encrypt
import Verif.Lemmas.ErrStd
import Verif.Lemmas.ExternalProduct
import Verif.Lemmas.FDigit
import Verif.Lemmas.FEvaluator
import Verif.Lemmas.FKeySwitchBuild
import Verif.Lemmas.FSwitch
import Verif.Lemmas.Factors
import Verif.Lemmas.Float
import Verif.Lemmas.FloatFFT
import Verif.Lemmas.FloatMono
import Verif.Lemmas.FusedMul
import Verif.Lemmas.Gauss
import Verif.Lemmas.GaussianBytes
import Verif.Lemmas.GaussianFloat
import Verif.Lemmas.GaussianLaw
import Verif.Lemmas.GaussianMass
import Verif.Lemmas.GaussianTables
import Verif.Lemmas.Heap
import Verif.Lemmas.KeyGen
import Verif.Lemmas.KeyRel
import Verif.Lemmas.KeySwitched
import Verif.Lemmas.Margin
import Verif.Lemmas.ModDown
import Verif.Lemmas.ModExp
import Verif.Lemmas.ModRed
import Verif.Lemmas.ModUp
import Verif.Lemmas.ModUpPoly
import Verif.Lemmas.MulCt
import Verif.Lemmas.NTT
import Verif.Lemmas.NTTAlg
import Verif.Lemmas.NTTLayer
import Verif.Lemmas.NegaRing
import Verif.Lemmas.NewRing
import Verif.Lemmas.NoWrap
import Verif.Lemmas.Permute
import Verif.Lemmas.PolyIs
import Verif.Lemmas.Pratt
import Verif.Lemmas.PrimeWitness
import Verif.Lemmas.RandomBits
import Verif.Lemmas.RandomBytes
import Verif.Lemmas.RandomDraws
import Verif.Lemmas.RandomKeys
import Verif.Lemmas.RandomMachine
import Verif.Lemmas.RandomSparse
import Verif.Lemmas.RandomStep
import Verif.Lemmas.RandomTernary
import Verif.Lemmas.RandomUniform
import Verif.Lemmas.Rescale
import Verif.Lemmas.Riemann
import Verif.Lemmas.RingGen
import Verif.Lemmas.RingMisc
import Verif.Lemmas.RingTestPrimes
import Verif.Lemmas.Samplers
import Verif.Lemmas.Scaling
import Verif.Lemmas.Serialize
import Verif.Lemmas.SerializeKeys
import Verif.Lemmas.SimpleScaler
import Verif.Lemmas.SlotInt
import Verif.Lemmas.Sparse
import Verif.Lemmas.SpecialFFT
import Verif.Lemmas.SubNTT
import Verif.Lemmas.Switch
import Verif.Lemmas.Thread
import Verif.Lemmas.ThreadEncrypt
import Verif.Lemmas.ThreadFKeySwitch
import Verif.Lemmas.ThreadKeySwitch
import Verif.Lemmas.ThreadState
import Verif.Lemmas.Utils
import Verif.Lemmas.VecOps
import Verif.Lemmas.Ziggurat
import Verif.Lemmas.ZigguratBody
import Verif.Lemmas.ZigguratMass
import Verif.Lemmas.ZigguratTail
import Verif.Props.Accept
import Verif.Props.AddNoMod
import Verif.Props.AddScales
import Verif.Props.Automorphism
import Verif.Props.BasisExt
import Verif.Props.BigComplex
import Verif.Props.BigCos
import Verif.Props.BigFFT
import Verif.Props.Bytes
import Verif.Props.CRT
import Verif.Props.CkksSwitch
import Verif.Props.Compose
import Verif.Props.Concurrent
import Verif.Props.ConjInv
import Verif.Props.ConjInvEncoder
import Verif.Props.ConjInvFloat
import Verif.Props.Constants
import Verif.Props.DefaultSizes
import Verif.Props.Defaults
import Verif.Props.Derived
import Verif.Props.Distribution
import Verif.Props.DistributionProba
import Verif.Props.DistributionRand
import Verif.Props.DistributionSparse
import Verif.Props.Encoder
import Verif.Props.Encrypt
import Verif.Props.EncryptMem
import Verif.Props.EndToEnd
import Verif.Props.EndToEndNoP
import Verif.Props.ErrStd
import Verif.Props.Evaluator
import Verif.Props.FEvaluator
import Verif.Props.FKeyMem
import Verif.Props.FKeySwitch
import Verif.Props.FKeys
import Verif.Props.FSwitchGen
import Verif.Props.FSwitchMem
import Verif.Props.Factors
import Verif.Props.FloatFFT
import Verif.Props.FusedMul
import Verif.Props.Gaussian
import Verif.Props.GaussianFloat
import Verif.Props.GaussianShape
import Verif.Props.GenModuli
import Verif.Props.Hoisted
import Verif.Props.Homomorphic
import Verif.Props.KeyEq
import Verif.Props.KeyGen
import Verif.Props.KeySwitch
import Verif.Props.KeySwitchBuffers
import Verif.Props.KeySwitchThreads
import Verif.Props.KeygenCalls
import Verif.Props.LevelFree
import Verif.Props.Memory
import Verif.Props.ModRed
import Verif.Props.MsgConst
import Verif.Props.Mul
import Verif.Props.MulAdd
import Verif.Props.MulAddScale
import Verif.Props.NTT
import Verif.Props.NewVariants
import Verif.Props.ParamsLit
import Verif.Props.Primes
import Verif.Props.Prng
import Verif.Props.Profile
import Verif.Props.Program
import Verif.Props.RandomCircuit
import Verif.Props.RandomEncrypt
import Verif.Props.RandomFKeys
import Verif.Props.RandomKeys
import Verif.Props.RandomNoP
import Verif.Props.RandomPair
import Verif.Props.RandomSession
import Verif.Props.Rescale
import Verif.Props.RescaleExact
import Verif.Props.Ring
import Verif.Props.RingMisc
import Verif.Props.RingOps
import Verif.Props.RingQP
import Verif.Props.RingTestParams
import Verif.Props.RotKeys
import Verif.Props.Rotate
import Verif.Props.RotationSets
import Verif.Props.Samplers
import Verif.Props.ScaleMgmt
import Verif.Props.Scaling
import Verif.Props.Serialize
import Verif.Props.SerializeKeys
import Verif.Props.Session
import Verif.Props.Shift
import Verif.Props.SimpleScaler
import Verif.Props.SlotEncoder
import Verif.Props.Slots
import Verif.Props.Sparse
import Verif.Props.SpecialFFT
import Verif.Props.SwitchDegrees
import Verif.Props.SwitchGen
import Verif.Props.SwitchMem
import Verif.Props.SwitchParams
