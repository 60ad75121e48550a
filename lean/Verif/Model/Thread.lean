import Verif.Model.Encrypt

/-!
# Encryptors and decryptors in memory, and the threads that use them

`rlwe/encryptor.go` and `rlwe/decryptor.go` write their intermediate results to buffers that belong to the encryptor or the
decryptor.  Here these buffers are cells of a memory, and a call is a `Thread`: a sequence of steps, each of which reads the memory or
writes one cell.  Several threads run by interleaving their steps in any order (`runSched`).

A cell holds a `ring.Poly` or the state of a random generator with its samplers.  Different polynomials have different rows (they
come from `NewPoly`).  The rows of a polynomial are written one after the other, each after a step that reads what it is computed from.
-/

namespace FastKsw

/-- a computation on a memory `L → V` that yields an `α`, in steps: a step changes the memory and goes on with a computation that
depends on the memory before the step -/
inductive Thread (L V α : Type) where
  | ret : α → Thread L V α
  | act : ((L → V) → L → V) → ((L → V) → Thread L V α) → Thread L V α

namespace Thread

variable {L V α β : Type}

def bind : Thread L V α → (α → Thread L V β) → Thread L V β
  | ret a, f => f a
  | act u k, f => act u fun s => (k s).bind f

instance : Monad (Thread L V) where
  pure := ret
  bind := bind

/-- a step that reads -/
def look (f : (L → V) → α) : Thread L V α := act id fun s => ret (f s)

/-- a step that writes -/
def write (f : (L → V) → L → V) : Thread L V Unit := act f fun _ => ret ()

/-- all steps without interruption -/
def run : Thread L V α → (L → V) → α × (L → V)
  | ret a, s => (a, s)
  | act u k, s => (k s).run (u s)

end Thread

/-- one step of thread `i`; a finished thread does nothing -/
def schedStep {ι L V α : Type} [DecidableEq ι] (i : ι) (x : (ι → Thread L V α) × (L → V)) : (ι → Thread L V α) × (L → V) :=
  match x.1 i with
  | .ret _ => x
  | .act u k => (fun j => if j = i then k x.2 else x.1 j, u x.2)

/-- the threads after the steps of a schedule: the list says which thread takes the next step -/
def runSched {ι L V α : Type} [DecidableEq ι] (sched : List ι) (x : (ι → Thread L V α) × (L → V)) :
    (ι → Thread L V α) × (L → V) :=
  sched.foldl (fun x i => schedStep i x) x

/-- a memory cell: a polynomial, or a random generator with its samplers -/
inductive Cell (σ : Type) where
  | poly : Poly → Cell σ
  | rnd : σ → Cell σ

/-- a memory -/
abbrev Store (σ : Type) := Nat → Cell σ

/-- computations on this memory -/
abbrev Proc (σ : Type) := Thread Nat (Cell σ)

variable {σ : Type}

/-- the polynomial in a cell -/
def Store.poly (s : Store σ) (a : Nat) : Poly :=
  match s a with
  | .poly p => p
  | .rnd _ => default

def Store.rows (s : Store σ) (a : Nat) : Rows := (s.poly a).coeffs

def Store.set (s : Store σ) (a : Nat) (v : Cell σ) : Store σ := fun b => if b = a then v else s b

def Store.setRows (s : Store σ) (a : Nat) (x : Rows) : Store σ := s.set a (.poly ⟨x, (s.poly a).isNTT⟩)

/-- a step that reads -/
def rd {α : Type} (f : Store σ → α) : Proc σ α := Thread.look f

/-- a step that writes -/
def wr (f : Store σ → Store σ) : Proc σ Unit := Thread.write f

/-- the memory after an uninterrupted run -/
def after {α : Type} (p : Proc σ α) (s : Store σ) : Store σ := (p.run s).2

/-- `for i, row := range ... { p.Coeffs[i] = row i }` for the rows of a list: `f s i` is computed from the memory `s` -/
def rowLoop (out : Nat) (f : Store σ → Nat → Row) : List Nat → Proc σ Unit
  | [] => .ret ()
  | i :: is => do
    let x ← rd fun s => f s i
    wr fun s => s.setRows out ((s.rows out).set i x)
    rowLoop out f is

/-- a function of package `ring` at a level: row by row, each row computed from the memory at that time.  `op` is the function of
`RingOps.lean` applied to the contents of the arguments. -/
def ringCall (level out : Nat) (op : Store σ → Rows) : Proc σ Unit :=
  rowLoop out (fun s i => (op s).row i) (List.range (level + 1))

/-- assignment of the flag `IsNTT` -/
def setNTT (a : Nat) (b : Bool) : Proc σ Unit := wr fun s => s.set a (.poly ⟨s.rows a, b⟩)

/-- `p.Coeffs = p.Coeffs[:level+1]` -/
def truncate (a level : Nat) : Proc σ Unit := wr fun s => s.set a (.poly ((s.poly a).trunc level))

/-- a call of a sampler: it returns what it draws and leaves its generator in another state -/
def sample {α : Type} (rnd : Nat) (f : σ → α × σ) (dflt : α) : Proc σ α :=
  .act (fun (s : Store σ) => match s rnd with
      | .rnd x => s.set rnd (.rnd (f x).2)
      | .poly _ => s)
    fun s => .ret (match s rnd with
      | .rnd x => (f x).1
      | .poly _ => dflt)

/-! ## Decryptor -/

/-- `decryptor`, rlwe/decryptor.go:31-35: the addresses of the buffer and of `sk.Value.Q` -/
structure Decryptor where
  ringQ : Ring
  pool : Nat
  sk : Nat

/-- the loop of `Decrypt`, rlwe/decryptor.go:70-84, from index `i` down to 1 -/
def Decryptor.loop (d : Decryptor) (level c0 : Nat) (ct : List Nat) (pt : Nat) : Nat → Proc σ Unit
  | 0 => .ret ()
  | i + 1 => do
    ringCall level pt fun s => d.ringQ.mulCoeffsMontgomeryLvl level (s.rows pt) (s.rows d.sk) (s.rows pt)
    let isNTT ← rd fun s => (s.poly c0).isNTT
    if !isNTT then
      ringCall level d.pool fun s => d.ringQ.nttLazyLvl level (s.rows (ct.getD i 0)) (s.rows d.pool)
      ringCall level pt fun s => d.ringQ.addLvl level (s.rows pt) (s.rows d.pool) (s.rows pt)
    else
      ringCall level pt fun s => d.ringQ.addLvl level (s.rows pt) (s.rows (ct.getD i 0)) (s.rows pt)
    if (i + 1) % 8 = 7 then
      ringCall level pt fun s => d.ringQ.reduceLvl level (s.rows pt) (s.rows pt)
    d.loop level c0 ct pt i

/-- `Decrypt`, rlwe/decryptor.go:55-93: `ct` are the addresses of the components, `pt` that of the plaintext -/
def Decryptor.decrypt (d : Decryptor) (ct : List Nat) (pt : Nat) : Proc σ Unit := do
  let c0 := ct.getD 0 0
  let degree := ct.length - 1
  let level ← rd fun s => min (s.poly c0).level (s.poly pt).level
  truncate pt level
  let isNTT ← rd fun s => (s.poly c0).isNTT
  if isNTT then
    ringCall level pt fun s => writeLvl level (fun u => (s.rows (ct.getD degree 0)).row u) (s.rows pt)
  else
    ringCall level pt fun s => d.ringQ.nttLazyLvl level (s.rows (ct.getD degree 0)) (s.rows pt)
  d.loop level c0 ct pt degree
  if degree % 8 ≠ 7 then
    ringCall level pt fun s => d.ringQ.reduceLvl level (s.rows pt) (s.rows pt)
  let ptNTT ← rd fun s => (s.poly pt).isNTT
  if !ptNTT then
    ringCall level pt fun s => d.ringQ.invNttLvl level (s.rows pt) (s.rows pt)

/-! ## Encryptors -/

/-- the samplers of an encryptor as functions of the state of the generator they share: the rows of a ternary polynomial, the
accepted draws of a Gaussian one, the rows of a uniform one (`Samplers.lean`) -/
structure Samplers (σ : Type) where
  ternary : σ → (Nat → Row) × σ
  gaussian : σ → List (UInt64 × Bool) × σ
  uniform : σ → (Nat → Row) × σ

/-- `encryptor`, rlwe/encryptor.go:32-37, with the addresses of its buffers: `poolQ[0]`, `poolP[0..2]`, `polypoolQ` and
`polypoolP` of the basis extender, and of its generator -/
structure Encryptor where
  ringQ : Ring
  ringP : Ring
  rnd : Nat
  poolQ : Nat
  poolP0 : Nat
  poolP1 : Nat
  poolP2 : Nat
  beQ : Nat
  beP : Nat

/-- the addresses of a public key -/
structure PkRef where
  q0 : Nat
  p0 : Nat
  q1 : Nat
  p1 : Nat

/-- `ReadLvl` of the uniform and the ternary sampler -/
def readRows (rnd : Nat) (f : σ → (Nat → Row) × σ) (level out : Nat) : Proc σ Unit := do
  let u ← sample rnd f fun _ => []
  ringCall level out fun s => writeLvl level u (s.rows out)

/-- `ReadLvl` of the Gaussian sampler -/
def readGauss (r : Ring) (rnd : Nat) (f : σ → List (UInt64 × Bool) × σ) (level out : Nat) : Proc σ Unit := do
  let g ← sample rnd f []
  ringCall level out fun s => gaussWrite r level g (s.rows out)

/-- `ReadAndAddLvl` of the Gaussian sampler -/
def readAddGauss (r : Ring) (rnd : Nat) (f : σ → List (UInt64 × Bool) × σ) (level out : Nat) : Proc σ Unit := do
  let g ← sample rnd f []
  ringCall level out fun s => gaussAdd r level g (s.rows out)

/-- `ModDownQPtoQ(levelQ, levelP, p1Q, p1P, p1Q)`, ring/ring_basis_extension.go:207-223 -/
def Encryptor.modDown (e : Encryptor) (levelQ levelP q p : Nat) : Proc σ Unit := do
  let be := newBasisExtender e.ringQ e.ringP
  ringCall levelQ e.beQ fun s => be.modUpPtoQ levelP levelQ (s.rows p) (s.rows e.beQ)
  ringCall levelQ q fun s => writeLvl levelQ (fun i =>
    let t := be.ringQ.sub i
    subVecAndMulScalarMontgomeryTwoQiVec ((s.rows e.beQ).row i) ((s.rows q).row i)
      (t.q - (be.modDownPtoQ.row levelP).at i) t.q t.mred) (s.rows q)

/-- the last lines of the three `encrypt` functions: `Coeffs = Coeffs[:levelQ+1]` of both components -/
def truncateBoth (c0 c1 level : Nat) : Proc σ Unit := do
  truncate c0 level
  truncate c1 level

/-- `pkEncryptor.encrypt`, rlwe/encryptor.go:196-277 -/
def Encryptor.pkEncrypt (S : Samplers σ) (e : Encryptor) (pk : PkRef) (pt c0 c1 : Nat) : Proc σ Unit := do
  let rQ := e.ringQ
  let rP := e.ringP
  let levelQ ← rd fun s => min (s.poly pt).level (s.poly c0).level
  let levelP := 0
  let ciphertextNTT ← rd fun s => (s.poly c0).isNTT
  readRows e.rnd S.ternary levelQ e.poolQ
  ringCall levelP e.poolP2 fun s => extendBasisSmallNorm rQ rP levelP (s.rows e.poolQ) (s.rows e.poolP2)
  ringCall levelQ e.poolQ fun s => rQ.nttLvl levelQ (s.rows e.poolQ) (s.rows e.poolQ)
  ringCall levelP e.poolP2 fun s => rP.nttLvl levelP (s.rows e.poolP2) (s.rows e.poolP2)
  ringCall levelQ e.poolQ fun s => rQ.mformLvl levelQ (s.rows e.poolQ) (s.rows e.poolQ)
  ringCall levelP e.poolP2 fun s => rP.mformLvl levelP (s.rows e.poolP2) (s.rows e.poolP2)
  ringCall levelQ c0 fun s => rQ.mulCoeffsMontgomeryLvl levelQ (s.rows e.poolQ) (s.rows pk.q0) (s.rows c0)
  ringCall levelP e.poolP0 fun s => rP.mulCoeffsMontgomeryLvl levelP (s.rows e.poolP2) (s.rows pk.p0) (s.rows e.poolP0)
  ringCall levelQ c1 fun s => rQ.mulCoeffsMontgomeryLvl levelQ (s.rows e.poolQ) (s.rows pk.q1) (s.rows c1)
  ringCall levelP e.poolP1 fun s => rP.mulCoeffsMontgomeryLvl levelP (s.rows e.poolP2) (s.rows pk.p1) (s.rows e.poolP1)
  ringCall levelQ c0 fun s => rQ.invNttLvl levelQ (s.rows c0) (s.rows c0)
  ringCall levelP e.poolP0 fun s => rP.invNttLvl levelP (s.rows e.poolP0) (s.rows e.poolP0)
  ringCall levelQ c1 fun s => rQ.invNttLvl levelQ (s.rows c1) (s.rows c1)
  ringCall levelP e.poolP1 fun s => rP.invNttLvl levelP (s.rows e.poolP1) (s.rows e.poolP1)
  readGauss rQ e.rnd S.gaussian levelQ e.poolQ
  ringCall levelP e.poolP2 fun s => extendBasisSmallNorm rQ rP levelP (s.rows e.poolQ) (s.rows e.poolP2)
  ringCall levelQ c0 fun s => rQ.addLvl levelQ (s.rows c0) (s.rows e.poolQ) (s.rows c0)
  ringCall levelP e.poolP0 fun s => rP.addLvl levelP (s.rows e.poolP0) (s.rows e.poolP2) (s.rows e.poolP0)
  readGauss rQ e.rnd S.gaussian levelQ e.poolQ
  ringCall levelP e.poolP2 fun s => extendBasisSmallNorm rQ rP levelP (s.rows e.poolQ) (s.rows e.poolP2)
  ringCall levelQ c1 fun s => rQ.addLvl levelQ (s.rows c1) (s.rows e.poolQ) (s.rows c1)
  ringCall levelP e.poolP1 fun s => rP.addLvl levelP (s.rows e.poolP1) (s.rows e.poolP2) (s.rows e.poolP1)
  e.modDown levelQ levelP c0 e.poolP0
  e.modDown levelQ levelP c1 e.poolP1
  let ptNTT ← rd fun s => (s.poly pt).isNTT
  if ciphertextNTT then
    if !ptNTT then
      ringCall levelQ c0 fun s => rQ.addLvl levelQ (s.rows c0) (s.rows pt) (s.rows c0)
    ringCall levelQ c0 fun s => rQ.nttLvl levelQ (s.rows c0) (s.rows c0)
    ringCall levelQ c1 fun s => rQ.nttLvl levelQ (s.rows c1) (s.rows c1)
    if ptNTT then
      ringCall levelQ c0 fun s => rQ.addLvl levelQ (s.rows c0) (s.rows pt) (s.rows c0)
  else if !ptNTT then
    ringCall levelQ c0 fun s => rQ.addLvl levelQ (s.rows c0) (s.rows pt) (s.rows c0)
  else
    ringCall levelQ e.poolQ fun s => rQ.invNttLvl levelQ (s.rows pt) (s.rows e.poolQ)
    ringCall levelQ c0 fun s => rQ.addLvl levelQ (s.rows c0) (s.rows e.poolQ) (s.rows c0)
  setNTT c1 ciphertextNTT
  truncateBoth c0 c1 levelQ

/-- `pkEncryptor.encryptNoP`, rlwe/encryptor.go:279-340 -/
def Encryptor.pkEncryptNoP (S : Samplers σ) (e : Encryptor) (pk : PkRef) (pt c0 c1 : Nat) : Proc σ Unit := do
  let rQ := e.ringQ
  let levelQ ← rd fun s => min (s.poly pt).level (s.poly c0).level
  let ciphertextNTT ← rd fun s => (s.poly c0).isNTT
  readRows e.rnd S.ternary levelQ e.poolQ
  ringCall levelQ e.poolQ fun s => rQ.nttLvl levelQ (s.rows e.poolQ) (s.rows e.poolQ)
  ringCall levelQ e.poolQ fun s => rQ.mformLvl levelQ (s.rows e.poolQ) (s.rows e.poolQ)
  ringCall levelQ c0 fun s => rQ.mulCoeffsMontgomeryLvl levelQ (s.rows e.poolQ) (s.rows pk.q0) (s.rows c0)
  ringCall levelQ c1 fun s => rQ.mulCoeffsMontgomeryLvl levelQ (s.rows e.poolQ) (s.rows pk.q1) (s.rows c1)
  let ptNTT ← rd fun s => (s.poly pt).isNTT
  if ciphertextNTT then
    readGauss rQ e.rnd S.gaussian levelQ e.poolQ
    ringCall levelQ e.poolQ fun s => rQ.nttLvl levelQ (s.rows e.poolQ) (s.rows e.poolQ)
    ringCall levelQ c1 fun s => rQ.addLvl levelQ (s.rows c1) (s.rows e.poolQ) (s.rows c1)
    readGauss rQ e.rnd S.gaussian levelQ e.poolQ
    if !ptNTT then
      ringCall levelQ e.poolQ fun s => rQ.addLvl levelQ (s.rows e.poolQ) (s.rows pt) (s.rows e.poolQ)
      ringCall levelQ e.poolQ fun s => rQ.nttLvl levelQ (s.rows e.poolQ) (s.rows e.poolQ)
      ringCall levelQ c0 fun s => rQ.addLvl levelQ (s.rows c0) (s.rows e.poolQ) (s.rows c0)
    else
      ringCall levelQ e.poolQ fun s => rQ.nttLvl levelQ (s.rows e.poolQ) (s.rows e.poolQ)
      ringCall levelQ c0 fun s => rQ.addLvl levelQ (s.rows c0) (s.rows e.poolQ) (s.rows c0)
      ringCall levelQ c0 fun s => rQ.addLvl levelQ (s.rows c0) (s.rows pt) (s.rows c0)
  else
    ringCall levelQ c0 fun s => rQ.invNttLvl levelQ (s.rows c0) (s.rows c0)
    ringCall levelQ c1 fun s => rQ.invNttLvl levelQ (s.rows c1) (s.rows c1)
    let lvl ← rd fun s => (s.poly c0).level
    readAddGauss rQ e.rnd S.gaussian lvl c0
    readAddGauss rQ e.rnd S.gaussian lvl c1
    if !ptNTT then
      ringCall levelQ c0 fun s => rQ.addLvl levelQ (s.rows c0) (s.rows pt) (s.rows c0)
    else
      ringCall levelQ e.poolQ fun s => rQ.invNttLvl levelQ (s.rows pt) (s.rows e.poolQ)
      ringCall levelQ c0 fun s => rQ.addLvl levelQ (s.rows c0) (s.rows e.poolQ) (s.rows c0)
  setNTT c1 ciphertextNTT
  truncateBoth c0 c1 levelQ

/-- `skEncryptor.encrypt`, rlwe/encryptor.go:342-394; `sk` is the address of `sk.Value.Q` -/
def Encryptor.skEncrypt (S : Samplers σ) (e : Encryptor) (sk pt c0 c1 : Nat) : Proc σ Unit := do
  let rQ := e.ringQ
  let levelQ ← rd fun s => min (s.poly pt).level (s.poly c0).level
  let ciphertextNTT ← rd fun s => (s.poly c0).isNTT
  ringCall levelQ c0 fun s => rQ.mulCoeffsMontgomeryLvl levelQ (s.rows c1) (s.rows sk) (s.rows c0)
  ringCall levelQ c0 fun s => rQ.negLvl levelQ (s.rows c0) (s.rows c0)
  let ptNTT ← rd fun s => (s.poly pt).isNTT
  if ciphertextNTT then
    readGauss rQ e.rnd S.gaussian levelQ e.poolQ
    if ptNTT then
      ringCall levelQ e.poolQ fun s => rQ.nttLvl levelQ (s.rows e.poolQ) (s.rows e.poolQ)
      ringCall levelQ c0 fun s => rQ.addLvl levelQ (s.rows c0) (s.rows e.poolQ) (s.rows c0)
      ringCall levelQ c0 fun s => rQ.addLvl levelQ (s.rows c0) (s.rows pt) (s.rows c0)
    else
      ringCall levelQ e.poolQ fun s => rQ.addLvl levelQ (s.rows e.poolQ) (s.rows pt) (s.rows e.poolQ)
      ringCall levelQ e.poolQ fun s => rQ.nttLvl levelQ (s.rows e.poolQ) (s.rows e.poolQ)
      ringCall levelQ c0 fun s => rQ.addLvl levelQ (s.rows c0) (s.rows e.poolQ) (s.rows c0)
    setNTT c0 true
    setNTT c1 true
  else
    if ptNTT then
      ringCall levelQ c0 fun s => rQ.addLvl levelQ (s.rows c0) (s.rows pt) (s.rows c0)
      ringCall levelQ c0 fun s => rQ.invNttLvl levelQ (s.rows c0) (s.rows c0)
    else
      ringCall levelQ c0 fun s => rQ.invNttLvl levelQ (s.rows c0) (s.rows c0)
      ringCall levelQ c0 fun s => rQ.addLvl levelQ (s.rows c0) (s.rows pt) (s.rows c0)
    let lvl ← rd fun s => (s.poly c0).level
    readAddGauss rQ e.rnd S.gaussian lvl c0
    ringCall levelQ c1 fun s => rQ.invNttLvl levelQ (s.rows c1) (s.rows c1)
    setNTT c0 false
    setNTT c1 false
  truncateBoth c0 c1 levelQ

/-- an encryptor with its key, rlwe/encryptor.go:39-47 -/
inductive EncKey where
  | pk : PkRef → EncKey
  | sk : Nat → EncKey

/-- `Encrypt` of both encryptors, rlwe/encryptor.go:126-134 and 142-147; without special primes the basis extender is `nil` -/
def Encryptor.encrypt (S : Samplers σ) (e : Encryptor) (key : EncKey) (pt c0 c1 : Nat) : Proc σ Unit := do
  let level ← rd fun s => min (s.poly pt).level (s.poly c0).level
  readRows e.rnd S.uniform level c1
  match key with
  | .pk k => if e.ringP.subs ≠ [] then e.pkEncrypt S k pt c0 c1 else e.pkEncryptNoP S k pt c0 c1
  | .sk k => e.skEncrypt S k pt c0 c1

/-- `EncryptFromCRP` of `skEncryptor`, rlwe/encryptor.go:151-155; `CopyValues` copies up to the smaller level.  `pkEncryptor`
panics. -/
def Encryptor.encryptFromCRP (S : Samplers σ) (e : Encryptor) (sk pt crp c0 c1 : Nat) : Proc σ Unit := do
  let level ← rd fun s => min (s.poly crp).level (s.poly c1).level
  ringCall level c1 fun s => writeLvl level (fun u => (s.rows crp).row u) (s.rows c1)
  e.skEncrypt S sk pt c0 c1

/-! ## Construction -/

/-- memory with the number of cells in use; addresses from there on are free -/
structure Alloc (σ : Type) where
  store : Store σ
  next : Nat

/-- allocation of one cell -/
def Alloc.new (m : Alloc σ) (v : Cell σ) : Nat × Alloc σ := (m.next, ⟨m.store.set m.next v, m.next + 1⟩)

/-- `r.NewPoly()` -/
def Alloc.newPoly (m : Alloc σ) (r : Ring) : Nat × Alloc σ := m.new (.poly ⟨FastKsw.newPoly r.n r.subs.length, false⟩)

/-- `NewDecryptor`, rlwe/decryptor.go:38-49, for a key of the right degree -/
def newDecryptor (m : Alloc σ) (r : Ring) (sk : Nat) : Decryptor × Alloc σ :=
  let p := m.newPoly r
  (⟨r, p.1, sk⟩, p.2)

/-- `ShallowCopy`, rlwe/decryptor.go:97-103 -/
def Decryptor.shallowCopy (d : Decryptor) (m : Alloc σ) : Decryptor × Alloc σ :=
  let p := m.newPoly d.ringQ
  (⟨d.ringQ, p.1, d.sk⟩, p.2)

/-- `WithKey`, rlwe/decryptor.go:108-114 -/
def Decryptor.withKey (d : Decryptor) (sk : Nat) (m : Alloc σ) : Decryptor × Alloc σ :=
  let p := m.newPoly d.ringQ
  (⟨d.ringQ, p.1, sk⟩, p.2)

/-- the samplers, the buffers and the basis extender of a new encryptor, rlwe/encryptor.go:56-69, 86-97 and 104-118; `seed` is the
key of `NewPRNG`.  Without special primes the buffers modulo `P` are `nil`, here empty polynomials. -/
def newEncryptor (m : Alloc σ) (rQ rP : Ring) (seed : σ) : Encryptor × Alloc σ :=
  let beQ := m.newPoly rQ
  let beP := beQ.2.newPoly rP
  let rnd := beP.2.new (.rnd seed)
  let p0 := rnd.2.newPoly rP
  let p1 := p0.2.newPoly rP
  let p2 := p1.2.newPoly rP
  let q := p2.2.newPoly rQ
  (⟨rQ, rP, rnd.1, q.1, p0.1, p1.1, p2.1, beQ.1, beP.1⟩, q.2)

/-- `ShallowCopy`, rlwe/encryptor.go:160-187, with the basis extender of ring/ring_basis_extension.go:172-187; with another key also
`WithKey`, lines 192-194 -/
def Encryptor.shallowCopy (e : Encryptor) (seed : σ) (m : Alloc σ) : Encryptor × Alloc σ :=
  let beQ := m.newPoly e.ringQ
  let beP := beQ.2.newPoly e.ringP
  let rnd := beP.2.new (.rnd seed)
  let p0 := rnd.2.newPoly e.ringP
  let p1 := p0.2.newPoly e.ringP
  let p2 := p1.2.newPoly e.ringP
  let q := p2.2.newPoly e.ringQ
  (⟨e.ringQ, e.ringP, rnd.1, q.1, p0.1, p1.1, p2.1, beQ.1, beP.1⟩, q.2)

/-- polynomials, encryptors and decryptors that have been created -/
structure Objects (σ : Type) where
  mem : Alloc σ
  polys : List Nat
  encs : List Encryptor
  decs : List Decryptor

/-- a program creates objects; those to be copied are named by their position, the newest first -/
inductive Make (σ : Type) where
  /-- a polynomial of a key, a plaintext or a ciphertext -/
  | poly : Poly → Make σ
  | newEncryptor : Ring → Ring → σ → Make σ
  | copyEncryptor : Nat → σ → Make σ
  | newDecryptor : Ring → Nat → Make σ
  | copyDecryptor : Nat → Make σ
  | decryptorWithKey : Nat → Nat → Make σ

def Objects.addEnc (o : Objects σ) (x : Encryptor × Alloc σ) : Objects σ := { o with mem := x.2, encs := x.1 :: o.encs }

def Objects.addDec (o : Objects σ) (x : Decryptor × Alloc σ) : Objects σ := { o with mem := x.2, decs := x.1 :: o.decs }

def Objects.make (o : Objects σ) : Make σ → Objects σ
  | .poly p => let x := o.mem.new (.poly p); { o with mem := x.2, polys := x.1 :: o.polys }
  | .newEncryptor rQ rP seed => o.addEnc (newEncryptor o.mem rQ rP seed)
  | .copyEncryptor i seed =>
    match o.encs[i]? with
    | some e => o.addEnc (e.shallowCopy seed o.mem)
    | none => o
  | .newDecryptor r sk => o.addDec (newDecryptor o.mem r sk)
  | .copyDecryptor i =>
    match o.decs[i]? with
    | some d => o.addDec (d.shallowCopy o.mem)
    | none => o
  | .decryptorWithKey i sk =>
    match o.decs[i]? with
    | some d => o.addDec (d.withKey sk o.mem)
    | none => o

/-- a call -/
inductive Job where
  | encrypt : Encryptor → EncKey → (pt c0 c1 : Nat) → Job
  | encryptFromCRP : Encryptor → (sk pt crp c0 c1 : Nat) → Job
  | decrypt : Decryptor → (ct : List Nat) → (pt : Nat) → Job

def Job.thread (S : Samplers σ) : Job → Proc σ Unit
  | .encrypt e key pt c0 c1 => e.encrypt S key pt c0 c1
  | .encryptFromCRP e sk pt crp c0 c1 => e.encryptFromCRP S sk pt crp c0 c1
  | .decrypt d ct pt => d.decrypt ct pt

end FastKsw
