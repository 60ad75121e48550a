import Verif.Model.ParamsLit
import Verif.Model.FKeySwitch

/-!
# The parameter sets listed in the code

The literals of ckks/params.go (default parameters), rlwe/rlwe_test_params.go, frlwe/fksw_test.go and fckks/fckks_test.go (also used by
profile/new/main.go and profile/old/main.go), `LogQ`, `LogP`, `LogQP` of parameters, and the constructors
of parameters of the fast key switch from a literal.

`Sigma` is `rlwe.DefaultSigma` in all of them and `H` is not set.  `DefaultScale: 1 << k` is the `float64` with bits `(1023+k)·2^52`.
-/

namespace FastKsw

/-- `PN12QP109`, ckks/params.go:38-47 -/
def pn12qp109 : CParamLit :=
  ⟨⟨12,
    some [0x200000e001, 0x100006001],
    some [0x3ffffea001], none, none, defaultSigma, 0, .standard⟩,
    11, 0x41f0000000000000⟩

/-- `PN13QP218`, ckks/params.go:50-63 -/
def pn13qp218 : CParamLit :=
  ⟨⟨13,
    some [0x1fffec001, 0x3fff4001, 0x3ffe8001, 0x40020001, 0x40038001, 0x3ffc0001],
    some [0x800004001], none, none, defaultSigma, 0, .standard⟩,
    12, 0x41d0000000000000⟩

/-- `PN14QP438`, ckks/params.go:65-77 -/
def pn14qp438 : CParamLit :=
  ⟨⟨14,
    some [0x200000008001, 0x400018001, 0x3fffd0001, 0x400060001, 0x400068001, 0x3fff90001, 0x400080001,
         0x4000a8001, 0x400108001, 0x3ffeb8001],
    some [0x7fffffd8001, 0x7fffffc8001], none, none, defaultSigma, 0, .standard⟩,
    13, 0x4210000000000000⟩

/-- `PN15QP880`, ckks/params.go:80-93 -/
def pn15qp880 : CParamLit :=
  ⟨⟨15,
    some [0x4000000120001, 0x10000140001, 0xffffe80001, 0x10000290001, 0xffffc40001, 0x100003e0001,
         0x10000470001, 0x100004b0001, 0xffffb20001, 0x10000500001, 0x10000650001, 0xffff940001,
         0xffff8a0001, 0xffff820001, 0xffff780001, 0x10000890001, 0xffff750001, 0x10000960001],
    some [0x40000001b0001, 0x3ffffffdf0001, 0x4000000270001], none, none, defaultSigma, 0, .standard⟩,
    14, 0x4270000000000000⟩

/-- `PN16QP1761`, ckks/params.go:95-111 -/
def pn16qp1761 : CParamLit :=
  ⟨⟨16,
    some [0x80000000080001, 0x2000000a0001, 0x2000000e0001, 0x1fffffc20001, 0x200000440001, 0x200000500001,
         0x200000620001, 0x1fffff980001, 0x2000006a0001, 0x1fffff7e0001, 0x200000860001, 0x200000a60001,
         0x200000aa0001, 0x200000b20001, 0x200000c80001, 0x1fffff360001, 0x200000e20001, 0x1fffff060001,
         0x200000fe0001, 0x1ffffede0001, 0x1ffffeca0001, 0x1ffffeb40001, 0x200001520001, 0x1ffffe760001,
         0x2000019a0001, 0x1ffffe640001, 0x200001a00001, 0x1ffffe520001, 0x200001e80001, 0x1ffffe0c0001,
         0x1ffffdee0001, 0x200002480001, 0x1ffffdb60001, 0x200002560001],
    some [0x80000000440001, 0x7fffffffba0001, 0x80000000500001, 0x7fffffffaa0001], none, none, defaultSigma, 0, .standard⟩,
    15, 0x42c0000000000000⟩

/-- `PN12QP109CI`, ckks/params.go:114-123 -/
def pn12qp109CI : CParamLit :=
  ⟨⟨12,
    some [0x1ffffe0001, 0x100014001],
    some [0x4000038001], none, none, defaultSigma, 0, .conjugateInvariant⟩,
    12, 0x41f0000000000000⟩

/-- `PN13QP218CI`, ckks/params.go:126-139 -/
def pn13qp218CI : CParamLit :=
  ⟨⟨13,
    some [0x200038001, 0x3ffe8001, 0x40020001, 0x40038001, 0x3ffc0001, 0x40080001],
    some [0x800008001], none, none, defaultSigma, 0, .conjugateInvariant⟩,
    13, 0x41d0000000000000⟩

/-- `PN14QP438CI`, ckks/params.go:141-153 -/
def pn14qp438CI : CParamLit :=
  ⟨⟨14,
    some [0x2000000a0001, 0x3fffd0001, 0x400060001, 0x3fff90001, 0x400080001, 0x400180001, 0x3ffd20001,
         0x400300001, 0x400360001, 0x4003e0001],
    some [0x80000050001, 0x7ffffdb0001], none, none, defaultSigma, 0, .conjugateInvariant⟩,
    14, 0x4210000000000000⟩

/-- `PN15QP880CI`, ckks/params.go:156-170 -/
def pn15qp880CI : CParamLit :=
  ⟨⟨15,
    some [0x4000000120001, 0x10000140001, 0xffffe80001, 0xffffc40001, 0x100003e0001, 0xffffb20001,
         0x10000500001, 0xffff940001, 0xffff8a0001, 0xffff820001, 0xffff780001, 0x10000960001,
         0x10000a40001, 0xffff580001, 0x10000b60001, 0xffff480001, 0xffff420001, 0xffff340001],
    some [0x3ffffffd20001, 0x4000000420001, 0x3ffffffb80001], none, none, defaultSigma, 0, .conjugateInvariant⟩,
    15, 0x4270000000000000⟩

/-- `PN16QP1761CI`, ckks/params.go:172-189 -/
def pn16qp1761CI : CParamLit :=
  ⟨⟨16,
    some [0x80000000080001, 0x200000440001, 0x200000500001, 0x1fffff980001, 0x200000c80001, 0x1ffffeb40001,
         0x1ffffe640001, 0x200001a00001, 0x200001e80001, 0x1ffffe0c0001, 0x200002480001, 0x200002800001,
         0x1ffffd800001, 0x200002900001, 0x1ffffd700001, 0x2000029c0001, 0x1ffffcf00001, 0x200003140001,
         0x1ffffcc80001, 0x1ffffcb40001, 0x1ffffc980001, 0x200003740001, 0x200003800001, 0x200003d40001,
         0x1ffffc200001, 0x1ffffc140001, 0x200004100001, 0x200004180001, 0x1ffffbc40001, 0x200004700001,
         0x1ffffb900001, 0x200004cc0001, 0x1ffffb240001, 0x200004e80001],
    some [0x80000000440001, 0x80000000500001, 0x7fffffff380001, 0x80000000e00001], none, none, defaultSigma, 0, .conjugateInvariant⟩,
    16, 0x42c0000000000000⟩

/-- `PN12QP101pq`, ckks/params.go:192-200 -/
def pn12qp101pq : CParamLit :=
  ⟨⟨12,
    some [0x800004001, 0x40002001],
    some [0x1000002001], none, none, defaultSigma, 0, .standard⟩,
    11, 0x41d0000000000000⟩

/-- `PN13QP202pq`, ckks/params.go:202-210 -/
def pn13qp202pq : CParamLit :=
  ⟨⟨13,
    some [0x1fffec001, 0x8008001, 0x8020001, 0x802c001, 0x7fa8001, 0x7f74001],
    some [0x400018001], none, none, defaultSigma, 0, .standard⟩,
    12, 0x41a0000000000000⟩

/-- `PN14QP411pq`, ckks/params.go:213-223 -/
def pn14qp411pq : CParamLit :=
  ⟨⟨14,
    some [0x10000048001, 0x200038001, 0x1fff90001, 0x200080001, 0x1fff60001, 0x2000b8001, 0x200100001,
         0x1fff00001, 0x1ffef0001, 0x200128001],
    some [0x1ffffe0001, 0x1ffffc0001], none, none, defaultSigma, 0, .standard⟩,
    13, 0x4200000000000000⟩

/-- `PN15QP827pq`, ckks/params.go:226-237 -/
def pn15qp827pq : CParamLit :=
  ⟨⟨15,
    some [0x400000060001, 0x4000170001, 0x3fffe80001, 0x40002f0001, 0x4000300001, 0x3fffcf0001, 0x40003f0001,
         0x3fffc10001, 0x4000450001, 0x3fffb80001, 0x3fffb70001, 0x40004a0001, 0x3fffb20001, 0x4000510001,
         0x3fffaf0001, 0x4000540001, 0x4000560001, 0x4000590001],
    some [0x2000000a0001, 0x2000000e0001, 0x2000001d0001], none, none, defaultSigma, 0, .standard⟩,
    14, 0x4250000000000000⟩

/-- `PN16QP1654pq`, ckks/params.go:239-252 -/
def pn16qp1654pq : CParamLit :=
  ⟨⟨16,
    some [0x80000000080001, 0x2000000a0001, 0x2000000e0001, 0x1fffffc20001, 0x200000440001, 0x200000500001,
         0x200000620001, 0x1fffff980001, 0x2000006a0001, 0x1fffff7e0001, 0x200000860001, 0x200000a60001,
         0x200000aa0001, 0x200000b20001, 0x200000c80001, 0x1fffff360001, 0x200000e20001, 0x1fffff060001,
         0x200000fe0001, 0x1ffffede0001, 0x1ffffeca0001, 0x1ffffeb40001, 0x200001520001, 0x1ffffe760001,
         0x2000019a0001, 0x1ffffe640001, 0x200001a00001, 0x1ffffe520001, 0x200001e80001, 0x1ffffe0c0001,
         0x1ffffdee0001, 0x200002480001],
    some [0x7fffffffe0001, 0x80000001c0001, 0x80000002c0001, 0x7ffffffd20001], none, none, defaultSigma, 0, .standard⟩,
    15, 0x42c0000000000000⟩

/-- `PN12QP101CIpq`, ckks/params.go:255-263 -/
def pn12qp101CIpq : CParamLit :=
  ⟨⟨12,
    some [0x800004001, 0x3fff4001],
    some [0xffffc4001], none, none, defaultSigma, 0, .conjugateInvariant⟩,
    12, 0x41d0000000000000⟩

/-- `PN13QP202CIpq`, ckks/params.go:265-273 -/
def pn13qp202CIpq : CParamLit :=
  ⟨⟨13,
    some [0x1ffffe0001, 0x100050001, 0xfff88001, 0x100098001, 0x1000b0001],
    some [0x1ffffc0001], none, none, defaultSigma, 0, .conjugateInvariant⟩,
    13, 0x41f0000000000000⟩

/-- `PN14QP411CIpq`, ckks/params.go:276-288 -/
def pn14qp411CIpq : CParamLit :=
  ⟨⟨14,
    some [0x10000140001, 0x1fff90001, 0x200080001, 0x1fff60001, 0x200100001, 0x1fff00001, 0x1ffef0001,
         0x1ffe60001, 0x2001d0001, 0x2002e0001],
    some [0x1ffffe0001, 0x1ffffc0001], none, none, defaultSigma, 0, .conjugateInvariant⟩,
    14, 0x4200000000000000⟩

/-- `PN15QP827CIpq`, ckks/params.go:291-303 -/
def pn15qp827CIpq : CParamLit :=
  ⟨⟨15,
    some [0x400000060001, 0x3fffe80001, 0x4000300001, 0x3fffb80001, 0x40004a0001, 0x3fffb20001, 0x4000540001,
         0x4000560001, 0x3fff900001, 0x4000720001, 0x3fff8e0001, 0x4000800001, 0x40008a0001, 0x3fff6c0001,
         0x40009e0001, 0x3fff300001, 0x3fff1c0001, 0x4000fc0001],
    some [0x2000000a0001, 0x2000000e0001, 0x1fffffc20001], none, none, defaultSigma, 0, .conjugateInvariant⟩,
    15, 0x4250000000000000⟩

/-- `PN16QP1654CIpq`, ckks/params.go:305-319 -/
def pn16qp1654CIpq : CParamLit :=
  ⟨⟨16,
    some [0x80000000080001, 0x200000440001, 0x200000500001, 0x1fffff980001, 0x200000c80001, 0x1ffffeb40001,
         0x1ffffe640001, 0x200001a00001, 0x200001e80001, 0x1ffffe0c0001, 0x200002480001, 0x200002800001,
         0x1ffffd800001, 0x200002900001, 0x1ffffd700001, 0x2000029c0001, 0x1ffffcf00001, 0x200003140001,
         0x1ffffcc80001, 0x1ffffcb40001, 0x1ffffc980001, 0x200003740001, 0x200003800001, 0x200003d40001,
         0x1ffffc200001, 0x1ffffc140001, 0x200004100001, 0x200004180001, 0x1ffffbc40001, 0x200004700001,
         0x1ffffb900001, 0x200004cc0001],
    some [0x80000001c0001, 0x80000002c0001, 0x8000000500001, 0x7ffffff9c0001], none, none, defaultSigma, 0, .conjugateInvariant⟩,
    16, 0x42c0000000000000⟩

/-- the default parameters of ckks/params.go:34-331 with the value of `logQP` in their description (the one in their name) -/
def ckksDefaults : List (Nat × CParamLit) :=
  [(109, pn12qp109), (218, pn13qp218), (438, pn14qp438), (880, pn15qp880), (1761, pn16qp1761),
   (109, pn12qp109CI), (218, pn13qp218CI), (438, pn14qp438CI), (880, pn15qp880CI), (1761, pn16qp1761CI),
   (101, pn12qp101pq), (202, pn13qp202pq), (411, pn14qp411pq), (827, pn15qp827pq), (1654, pn16qp1654pq),
   (101, pn12qp101CIpq), (202, pn13qp202CIpq), (411, pn14qp411CIpq), (827, pn15qp827CIpq), (1654, pn16qp1654CIpq)]

/-- `TestPN12QP109`, rlwe/rlwe_test_params.go:21-26 -/
def testPn12qp109 : ParamLit :=
  ⟨12, some [0x7ffffec001, 0x40002001],
    some [0x8000016001], none, none, defaultSigma, 0, .standard⟩

/-- `TestPN13QP218`, rlwe/rlwe_test_params.go:28-33 -/
def testPn13qp218 : ParamLit :=
  ⟨13, some [0x3fffffffef8001, 0x4000000011c001, 0x40000000120001],
    some [0x7ffffffffb4001], none, none, defaultSigma, 0, .standard⟩

/-- `TestPN14QP438`, rlwe/rlwe_test_params.go:36-42 -/
def testPn14qp438 : ParamLit :=
  ⟨14, some [0x100000000060001, 0x80000000068001, 0x80000000080001, 0x3fffffffef8001, 0x40000000120001,
         0x3fffffffeb8001],
    some [0x80000000130001, 0x7fffffffe90001], none, none, defaultSigma, 0, .standard⟩

/-- `TestPN15QP880`, rlwe/rlwe_test_params.go:45-53 -/
def testPn15qp880 : ParamLit :=
  ⟨15, some [0x7ffffffffe70001, 0x7ffffffffe10001, 0x7ffffffffcc0001, 0x400000000270001, 0x400000000350001,
         0x400000000360001, 0x3ffffffffc10001, 0x3ffffffffbe0001, 0x3ffffffffbd0001, 0x4000000004d0001,
         0x400000000570001, 0x400000000660001],
    some [0xffffffffffc0001, 0x10000000001d0001, 0x10000000006e0001], none, none, defaultSigma, 0, .standard⟩

/-- `TestPN16QP240`, rlwe/rlwe_test_params.go:54-60 -/
def testPn16qp240 : ParamLit := ⟨16, none, none, some [60, 60, 60], some [60], defaultSigma, 0, .standard⟩

/-- `TestPN17QP360`, rlwe/rlwe_test_params.go:62-68 -/
def testPn17qp360 : ParamLit := ⟨17, none, none, some [60, 60, 60, 60], some [60, 60], defaultSigma, 0, .standard⟩

/-- the literals of rlwe/rlwe_test_params.go:19-53, the ones that list moduli, with the value of `logQP` in their description -/
def rlweTestParams : List (Nat × ParamLit) :=
  [(109, testPn12qp109), (218, testPn13qp218), (438, testPn14qp438), (880, testPn15qp880)]

/-- `ring.NewUint(1)` times all moduli: the loop of `LogQ`, `LogP`, `LogQP` -/
def mulAll (acc : Nat) (l : List UInt64) : Nat := l.foldl (fun tmp x => tmp * x.toNat) acc

/-- `big.Int.BitLen` of a natural number -/
def bitLenNat (x : Nat) : Nat := if x = 0 then 0 else Nat.log2 x + 1

/-- `LogQ`, rlwe/params.go:295-301 -/
def RParams.logQ (p : RParams) : Nat := bitLenNat (mulAll 1 p.qi)

/-- `LogP`, rlwe/params.go:304-310 -/
def RParams.logP (p : RParams) : Nat := bitLenNat (mulAll 1 p.pi)

/-- `LogQP`, rlwe/params.go:313-322 -/
def RParams.logQP (p : RParams) : Nat := bitLenNat (mulAll (mulAll 1 p.qi) p.pi)

/-- `frlwe.ParametersLiteral`, frlwe/params.go:10-20; the ring type is not a field, and left at its zero value in the literal handed
to `rlwe` -/
structure FParamLit where
  rl : ParamLit
  t : List UInt64
  gamma : Nat

/-- `frlwe.Parameters`, frlwe/params.go:22-29 -/
structure FullFParams where
  rl : RParams
  gamma : Nat
  ringR : Ring
  ringT : Ring

/-- `frlwe.NewParametersFromLiteral`, frlwe/params.go:31-59: every error is a panic.  A nil slice is appended as an empty one.  The
degree has been accepted by `rlwe` when it is shifted. -/
def frlweNewParametersFromLiteral (fuel : Nat) (l : FParamLit) : Option (Go FullFParams) :=
  match newParametersFromLiteral fuel { l.rl with ringType := .standard } with
  | none => none
  | some .panic => some .panic
  | some .err => some .panic
  | some (.ok rl) =>
    match newRing fuel (2 ^ l.rl.logN.toNat) l.t with
    | .error _ => some .panic
    | .ok ringT =>
      match newRing fuel (2 ^ l.rl.logN.toNat) (l.rl.p.getD [] ++ l.rl.q.getD []) with
      | .error _ => some .panic
      | .ok ringR => some (.ok ⟨rl, l.gamma, ringR, ringT⟩)

/-- `fckks.ParametersLiteral`, fckks/params.go:9-21 -/
structure FCParamLit where
  fl : FParamLit
  logSlots : Int
  defaultScale : UInt64

/-- `fckks.Parameters`, fckks/params.go:23-26 -/
structure FCParams where
  ckks : CParams
  frlwe : FullFParams

/-- `fckks.NewParametersFromLiteral`, fckks/params.go:28-64 -/
def fckksNewParametersFromLiteral (fuel : Nat) (l : FCParamLit) : Option (Go FCParams) :=
  match ckksNewParametersFromLiteral fuel ⟨{ l.fl.rl with ringType := .standard }, l.logSlots, l.defaultScale⟩ with
  | none => none
  | some .panic => some .panic
  | some .err => some .panic
  | some (.ok c) =>
    match frlweNewParametersFromLiteral fuel l.fl with
    | none => none
    | some .panic => some .panic
    | some .err => some .err
    | some (.ok f) => some (.ok ⟨c, f⟩)

/-- `PN15QP880`, frlwe/fksw_test.go:17-40 -/
def fPN15QP880 : FParamLit :=
  ⟨⟨15,
    some [0x1fffffcf0001, 0x1fffffc20001, 0x1fffffbf0001, 0x1fffffb10001, 0x1fffff980001, 0x1fffff950001,
         0x1fffff7e0001, 0x1fffff750001, 0x1fffff690001, 0x1fffff630001, 0x1fffff360001, 0x1fffff1b0001,
         0x1fffff060001, 0x1ffffefd0001, 0x1ffffef30001, 0x1ffffede0001, 0x1ffffeca0001, 0x1ffffec30001],
    some [0x3ffffffd20001, 0x3ffffffb80001], none, none, defaultSigma, 0, .standard⟩,
    [0x7fffffffba0001, 0x7fffffffaa0001, 0x7fffffff7e0001, 0x7fffffff380001], 2⟩

/-- `PN15QP870`, fckks/fckks_test.go:18-49 -/
def fcPN15QP870 : FCParamLit :=
  ⟨⟨⟨15,
    some [0xffff00001, 0xfff9c0001, 0xfff8e0001, 0xfff840001, 0xfff700001, 0xfff640001, 0xfff4c0001,
         0xfff3c0001, 0xfff280001, 0xfff100001, 0xffefe0001, 0xffee80001, 0x10004a0001, 0x1000500001,
         0x1000960001, 0x1000a20001, 0x1000b40001, 0x1000f60001, 0x10011a0001, 0x1001220001, 0x10014c0001,
         0x1001680001, 0x10017c0001],
    some [0x1002700001], none, none, defaultSigma, 0, .standard⟩,
    [0xffffffffffc0001, 0xfffffffff840001, 0xfffffffff6a0001], 3⟩,
    14, 0x4230000000000000⟩

/-- `PN16QP1760`, fckks/fckks_test.go:51-87 -/
def fcPN16QP1760 : FCParamLit :=
  ⟨⟨⟨16,
    some [0xffff00001, 0xfff9c0001, 0xfff8e0001, 0xfff840001, 0xfff700001, 0xfff640001, 0xfff4c0001,
         0xfff3c0001, 0xfff280001, 0xfff100001, 0xffefe0001, 0xffee80001, 0x10004a0001, 0x1000500001,
         0x1000960001, 0x1000a20001, 0x1000b40001, 0x1000f60001, 0x10011a0001, 0x1001220001, 0x10014c0001,
         0x1001680001, 0x10017c0001, 0x1001880001, 0xffee20001, 0xffeda0001, 0xffeca0001, 0xffea40001,
         0xffe940001, 0xffe920001, 0xffe760001, 0xffe040001, 0xffdf80001, 0xffdf00001, 0xffdd20001,
         0xffdbc0001, 0x1001940001, 0x1001a40001, 0x1001d00001, 0x1001fa0001, 0x1002180001, 0x10021c0001,
         0x10021e0001, 0x1002300001, 0x1002340001, 0x1002480001, 0x1002540001],
    some [0x1002700001], none, none, defaultSigma, 0, .standard⟩,
    [0xffffffffffc0001, 0xfffffffff840001, 0xfffffffff6a0001, 0xfffffffff5a0001], 5⟩,
    15, 0x4230000000000000⟩

end FastKsw
