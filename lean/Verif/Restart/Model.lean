/-
Saving interactions to a restart archive and loading them again: the functions `save`
and `loadParameters` of the classes in src/simp/interaction.

An archive is a list of values. Reading a value of another kind than the one written, or
past the end, is a failure (in the binary archive, bytes of another value are read).
`loadParameter`, `loadCArray`, `loadDArray`, `ar >>` and `MpiLoader` read the same
values. The archive of the classes with tables holds the first elements of each table.
-/
import Verif.Pair.Model
import Verif.Bond.Model
import Verif.Angle.Model
import Verif.Dihedral.Model
import Verif.External.Model

set_option autoImplicit false

namespace Verif.Restart

open Verif.Cpp Verif.Cpp.Out Verif.Boundary

/-- A value in an archive. -/
inductive Tok where
  | int (i : ℤ)
  | dbl (x : ℝ)
  | bool (b : Bool)
  | str (s : String)

/-- `ar >> int`. -/
def getInt : List Tok → Out (ℤ × List Tok)
  | Tok.int i :: r => ok (i, r)
  | _ => throw

/-- `ar >> double`. -/
def getDbl : List Tok → Out (ℝ × List Tok)
  | Tok.dbl x :: r => ok (x, r)
  | _ => throw

/-- `ar >> bool`. -/
def getBool : List Tok → Out (Bool × List Tok)
  | Tok.bool b :: r => ok (b, r)
  | _ => throw

/-- `ar >> std::string`. -/
def getStr : List Tok → Out (String × List Tok)
  | Tok.str b :: r => ok (b, r)
  | _ => throw

/-- Any number of elements. -/
def getMany {α : Type} (get : List Tok → Out (α × List Tok)) : ℕ → List Tok → Out (List α × List Tok)
  | 0, r => ok ([], r)
  | n + 1, r => do
    let (a, r) ← get r
    let (l, r) ← getMany get n r
    ok (a :: l, r)

/-- `ar << DArray`: the capacity and the elements. -/
def putArr {α : Type} (put : α → List Tok) (l : List α) : List Tok :=
  Tok.int l.length :: l.flatMap put

/-- `array.allocate(n); loadDArray(ar, label, array, n)`: `allocate` throws unless the
capacity is positive, and the capacity in the archive must agree. -/
def getArr {α : Type} (get : List Tok → Out (α × List Tok)) (n : ℤ) (r : List Tok) :
    Out (List α × List Tok) := do
  check (n > 0)
  let (c, r) ← getInt r
  check (c = n)
  getMany get n.toNat r

/-- `Vector`. -/
def putVec (v : Vec) : List Tok := [Tok.dbl (v 0), Tok.dbl (v 1), Tok.dbl (v 2)]

def getVec (r : List Tok) : Out (Vec × List Tok) := do
  let (x, r) ← getDbl r
  let (y, r) ← getDbl r
  let (z, r) ← getDbl r
  ok (![x, y, z], r)

/-- `IntVector`. -/
def putIVec (v : IVec) : List Tok := [Tok.int (v 0), Tok.int (v 1), Tok.int (v 2)]

def getIVec (r : List Tok) : Out (IVec × List Tok) := do
  let (x, r) ← getInt r
  let (y, r) ← getInt r
  let (z, r) ← getInt r
  ok (![x, y, z], r)

def putDbl (x : ℝ) : List Tok := [Tok.dbl x]

/-- `ar.pack(t, n)`: the first `n` elements. -/
def putTab (n : ℤ) (t : ℤ → ℝ) : List Tok := (List.range n.toNat).map fun (i : ℕ) => Tok.dbl (t i)

/-- `loadCArray(ar, label, t, n)`, `ar.unpack(t, n)`. -/
def getTab (n : ℤ) (t : ℤ → ℝ) (r : List Tok) : Out ((ℤ → ℝ) × List Tok) :=
  loop (fun (s : (ℤ → ℝ) × List Tok) (i : ℕ) => do
    let (x, r) ← getDbl s.2
    ok (fun k => if k = i then x else s.1 k, r)) (List.range n.toNat) (t, r)

/-- `ar.pack(t[0], n, n, MaxAtomType)`: the first `n` elements of the first `n` rows. -/
def putTab2 (n : ℤ) (t : Pair.Tab) : List Tok :=
  (List.range n.toNat).flatMap fun (i : ℕ) => putTab n (t i)

/-- `loadCArray2D(ar, label, t[0], n, n, MaxAtomType)`. -/
def getTab2 (n : ℤ) (t : Pair.Tab) (r : List Tok) : Out (Pair.Tab × List Tok) :=
  loop (fun (s : Pair.Tab × List Tok) (i : ℕ) => do
    let (x, r) ← getTab n (s.1 i) s.2
    ok (fun k => if k = i then x else s.1 k, r)) (List.range n.toNat) (t, r)

/-! ### Pair interactions -/

/-- `LJPair::save` (LJPair.cpp:229-239), also of `WcaPair`. -/
def saveLJ (s : Pair.LJ) : List Tok :=
  putTab2 s.n s.epsilon ++ putTab2 s.n s.sigma ++ putTab2 s.n s.cutoff ++ putTab2 s.n s.sigmaSq ++
    putTab2 s.n s.cutoffSq ++ putTab2 s.n s.ljShift ++ putTab2 s.n s.eps48 ++ [Tok.dbl s.maxCut]

/-- `LJPair::loadParameters` (LJPair.cpp:196-224). -/
def loadLJ (s : Pair.LJ) (r : List Tok) : Out (Pair.LJ × List Tok) := do
  check (s.n > 0)
  let (epsilon, r) ← getTab2 s.n s.epsilon r
  let (sigma, r) ← getTab2 s.n s.sigma r
  let (cutoff, r) ← getTab2 s.n s.cutoff r
  let (sigmaSq, r) ← getTab2 s.n s.sigmaSq r
  let (cutoffSq, r) ← getTab2 s.n s.cutoffSq r
  let (ljShift, r) ← getTab2 s.n s.ljShift r
  let (eps48, r) ← getTab2 s.n s.eps48 r
  let (maxCut, r) ← getDbl r
  ok ({ epsilon := epsilon, sigma := sigma, cutoff := cutoff, sigmaSq := sigmaSq
        cutoffSq := cutoffSq, ljShift := ljShift, eps48 := eps48, maxCut := maxCut
        n := s.n, init := true }, r)

/-- `DpdPair::save` (DpdPair.cpp:136-144). -/
def saveDpd (s : Pair.Dpd) : List Tok :=
  putTab2 s.n s.epsilon ++ putTab2 s.n s.sigma ++ putTab2 s.n s.sigmaSq ++ putTab2 s.n s.cf ++
    putTab2 s.n s.ce ++ [Tok.dbl s.maxCut]

/-- `DpdPair::loadParameters` (DpdPair.cpp:105-131). -/
def loadDpd (s : Pair.Dpd) (r : List Tok) : Out (Pair.Dpd × List Tok) := do
  check (s.n > 0)
  let (epsilon, r) ← getTab2 s.n s.epsilon r
  let (sigma, r) ← getTab2 s.n s.sigma r
  let (sigmaSq, r) ← getTab2 s.n s.sigmaSq r
  let (cf, r) ← getTab2 s.n s.cf r
  let (ce, r) ← getTab2 s.n s.ce r
  let (maxCut, r) ← getDbl r
  ok ({ epsilon := epsilon, sigma := sigma, sigmaSq := sigmaSq, ce := ce, cf := cf
        maxCut := maxCut, n := s.n, init := true }, r)

/-! ### Bonds, angles and dihedrals -/

/-- `HarmonicBond::save` (HarmonicBond.cpp:88-93). -/
def saveHarm (s : Bond.Harm) : Out (List Tok) := do
  check (s.n > 0)
  ok (putTab s.n s.kappa ++ putTab s.n s.length)

/-- `HarmonicBond::loadParameters` (HarmonicBond.cpp:78-83). -/
def loadHarm (s : Bond.Harm) (r : List Tok) : Out (Bond.Harm × List Tok) := do
  check (s.n > 0)
  let (kappa, r) ← getTab s.n s.kappa r
  let (length, r) ← getTab s.n s.length r
  ok ({ kappa := kappa, length := length, n := s.n }, r)

/-- `HarmonicL0Bond::save` (HarmonicL0Bond.cpp:84-88). -/
def saveHarm0 (s : Bond.Harm0) : Out (List Tok) := do
  check (s.n > 0)
  ok (putTab s.n s.kappa)

/-- `HarmonicL0Bond::loadParameters` (HarmonicL0Bond.cpp:75-79). -/
def loadHarm0 (s : Bond.Harm0) (r : List Tok) : Out (Bond.Harm0 × List Tok) := do
  check (s.n > 0)
  let (kappa, r) ← getTab s.n s.kappa r
  ok ({ kappa := kappa, n := s.n }, r)

/-- `FeneBond::save` (FeneBond.cpp:139-151). -/
def saveFene (s : Bond.Fene) : Out (List Tok) := do
  check (s.n > 0)
  ok (putTab s.n s.kappa ++ putTab s.n s.r0 ++ [Tok.dbl s.forceCutoff] ++ putTab s.n s.r0Sq ++
    putTab s.n s.r0SqInv ++ putTab s.n s.ce ++ putTab s.n s.rl ++ putTab s.n s.rlSq ++
    putTab s.n s.energyCutoff)

/-- `FeneBond::loadParameters` (FeneBond.cpp:112-134). -/
def loadFene (s : Bond.Fene) (r : List Tok) : Out (Bond.Fene × List Tok) := do
  check (s.n > 0)
  let (kappa, r) ← getTab s.n s.kappa r
  let (r0, r) ← getTab s.n s.r0 r
  let (forceCutoff, r) ← getDbl r
  let (r0Sq, r) ← getTab s.n s.r0Sq r
  let (r0SqInv, r) ← getTab s.n s.r0SqInv r
  let (ce, r) ← getTab s.n s.ce r
  let (rl, r) ← getTab s.n s.rl r
  let (rlSq, r) ← getTab s.n s.rlSq r
  let (energyCutoff, r) ← getTab s.n s.energyCutoff r
  ok ({ kappa := kappa, r0 := r0, r0Sq := r0Sq, r0SqInv := r0SqInv, ce := ce, rlSq := rlSq
        rl := rl, energyCutoff := energyCutoff, forceCutoff := forceCutoff, n := s.n }, r)

/-- `CosineSqAngle::save` (CosineSqAngle.cpp:109-115). -/
def saveCosSq (s : Angle.CosSq) : Out (List Tok) := do
  check (s.n > 0)
  ok (putTab s.n s.kappa ++ putTab s.n s.theta0 ++ putTab s.n s.cosTheta0)

/-- `CosineSqAngle::loadParameters` (CosineSqAngle.cpp:93-104). -/
def loadCosSq (s : Angle.CosSq) (r : List Tok) : Out (Angle.CosSq × List Tok) := do
  check (s.n > 0)
  let (kappa, r) ← getTab s.n s.kappa r
  let (theta0, r) ← getTab s.n s.theta0 r
  let (cosTheta0, r) ← getTab s.n s.cosTheta0 r
  ok ({ kappa := kappa, theta0 := theta0, cosTheta0 := cosTheta0, n := s.n }, r)

/-- `HarmonicAngle::save` (HarmonicAngle.cpp:98-103). -/
def saveHarmAngle (s : Angle.Harmonic) : Out (List Tok) := do
  check (s.n > 0)
  ok (putTab s.n s.kappa ++ putTab s.n s.theta0)

/-- `HarmonicAngle::loadParameters` (HarmonicAngle.cpp:88-93). -/
def loadHarmAngle (s : Angle.Harmonic) (r : List Tok) : Out (Angle.Harmonic × List Tok) := do
  check (s.n > 0)
  let (kappa, r) ← getTab s.n s.kappa r
  let (theta0, r) ← getTab s.n s.theta0 r
  ok ({ kappa := kappa, theta0 := theta0, n := s.n }, r)

/-- `CoeffList::serialize` (FourierDihedral.h:221-236). -/
def putCoeff (p : Dihedral.Coeff) : List Tok :=
  [p.k0, p.k1, p.k2, p.k3, p.k4, p.a0, p.a1, p.a2, p.a3, p.a4, p.g2, p.g3, p.g4].map Tok.dbl

def getCoeff (r : List Tok) : Out (Dihedral.Coeff × List Tok) := do
  let (k0, r) ← getDbl r
  let (k1, r) ← getDbl r
  let (k2, r) ← getDbl r
  let (k3, r) ← getDbl r
  let (k4, r) ← getDbl r
  let (a0, r) ← getDbl r
  let (a1, r) ← getDbl r
  let (a2, r) ← getDbl r
  let (a3, r) ← getDbl r
  let (a4, r) ← getDbl r
  let (g2, r) ← getDbl r
  let (g3, r) ← getDbl r
  let (g4, r) ← getDbl r
  ok (⟨k0, k1, k2, k3, k4, a0, a1, a2, a3, a4, g2, g3, g4⟩, r)

/-- `FourierDihedral::save` (FourierDihedral.cpp:144-167). -/
def saveFourier (s : Dihedral.Fourier) : List Tok :=
  Tok.int s.n :: putArr putCoeff ((List.range s.n.toNat).map fun (i : ℕ) => s.coeffs i)

/-- `FourierDihedral::loadParameters` (FourierDihedral.cpp:110-139); the array was
allocated by `setNDihedralType`. -/
def loadFourier (s : Dihedral.Fourier) (r : List Tok) : Out (Dihedral.Fourier × List Tok) := do
  let (n, r) ← getInt r
  check (n > 0)
  check (n = s.n)
  let (l, r) ← getArr getCoeff n r
  ok ({ coeffs := fun i => if 0 ≤ i ∧ i < n then l.getD i.toNat Dihedral.Coeff.zero else s.coeffs i
        n := n }, r)

/-! ### External fields

The parameter `n` is the number of types of atoms set before loading, `prefactor` has
`n` elements. -/

open Verif.External

/-- `SlitExternal::save` (SlitExternal.cpp:135-142). -/
def saveSlit (s : Wall) : List Tok :=
  [Tok.dbl s.epsilon, Tok.dbl s.sigma, Tok.dbl s.cutoff, Tok.dbl s.sigmaCb, Tok.dbl s.coeff]

/-- The part common to the three classes of walls (SlitExternal.cpp:124-129). -/
def loadWall (r : List Tok) : Out (Wall × List Tok) := do
  let (epsilon, r) ← getDbl r
  let (sigma, r) ← getDbl r
  let (cutoff, r) ← getDbl r
  let (sigmaCb, r) ← getDbl r
  let (coeff, r) ← getDbl r
  ok ({ epsilon := epsilon, sigma := sigma, cutoff := cutoff, sigmaCb := sigmaCb, coeff := coeff
        initialized := true }, r)

/-- `SlitExternal::loadParameters` (SlitExternal.cpp:116-130). -/
def loadSlit (n : ℤ) (r : List Tok) : Out (Wall × List Tok) := do
  check (n ≠ 0)
  loadWall r

/-- `BoxExternal::save` (BoxExternal.cpp:136-143). -/
def saveBox (s : Wall) : List Tok :=
  [Tok.dbl s.epsilon, Tok.dbl s.sigma, Tok.dbl s.cutoff, Tok.dbl s.sigmaCb, Tok.dbl s.coeff]

/-- `BoxExternal::loadParameters` (BoxExternal.cpp:116-131). -/
def loadBox (r : List Tok) : Out (Wall × List Tok) := do
  let (n, r) ← getInt r
  check (n > 0)
  loadWall r

/-- `OrthoBoxExternal::save` (OrthoBoxExternal.cpp:147-156): the wall and `indConfine_`. -/
def saveOrthoBox (n : ℤ) (s : Wall × ℤ) : List Tok :=
  [Tok.int n, Tok.int s.2, Tok.dbl s.1.epsilon, Tok.dbl s.1.sigma, Tok.dbl s.1.cutoff,
    Tok.dbl s.1.sigmaCb, Tok.dbl s.1.coeff]

/-- `OrthoBoxExternal::loadParameters` (OrthoBoxExternal.cpp:123-142). -/
def loadOrthoBox (r : List Tok) : Out ((Wall × ℤ) × List Tok) := do
  let (n, r) ← getInt r
  check (n > 0)
  let (i, r) ← getInt r
  check (0 ≤ i ∧ i ≤ 3)
  let (w, r) ← loadWall r
  ok ((w, i), r)

/-- The elements of `prefactor_`. -/
def prefactors (n : ℤ) (p : ℤ → ℝ) : List ℝ := (List.range n.toNat).map fun (i : ℕ) => p i

/-- `prefactor_` after loading. -/
def ofList (l : List ℝ) : ℤ → ℝ := fun i => l.getD i.toNat 0

/-- `LamellarOrderingExternal::save` (LamellarOrderingExternal.cpp:139-148). -/
def saveLamellar (n : ℤ) (s : Lamellar) : List Tok :=
  [Tok.int (s.perpDirection : ℕ)] ++ putArr putDbl (prefactors n s.prefactor) ++
    [Tok.dbl s.externalParameter, Tok.dbl s.interfaceWidth, Tok.int s.periodicity]

/-- `LamellarOrderingExternal::loadParameters` (LamellarOrderingExternal.cpp:121-134). -/
def loadLamellar (n : ℤ) (r : List Tok) : Out (Lamellar × List Tok) := do
  check (n > 0)
  let (i, r) ← getInt r
  check (0 ≤ i ∧ i < 3)
  let (l, r) ← getArr getDbl n r
  let (e, r) ← getDbl r
  let (w, r) ← getDbl r
  let (p, r) ← getInt r
  ok ({ perpDirection := if i = 0 then 0 else if i = 1 then 1 else 2
        prefactor := ofList l, externalParameter := e, interfaceWidth := w, periodicity := p }, r)

/-- `SimplePeriodicExternal::save` (SimplePeriodicExternal.cpp:145-152). -/
def saveSimple (n : ℤ) (s : Simple) : List Tok :=
  putArr putDbl (prefactors n s.prefactor) ++ [Tok.dbl s.externalParameter] ++
    putArr putIVec s.waves ++ [Tok.dbl s.interfaceWidth, Tok.int s.periodicity]

/-- `SimplePeriodicExternal::loadParameters` (SimplePeriodicExternal.cpp:128-140); `m` is
the value of `nWaveVectors_` before. -/
def loadSimple (n m : ℤ) (r : List Tok) : Out (Simple × List Tok) := do
  check (n > 0)
  let (l, r) ← getArr getDbl n r
  let (e, r) ← getDbl r
  let (ws, r) ← getArr getIVec m r
  let (w, r) ← getDbl r
  let (p, r) ← getInt r
  ok ({ prefactor := ofList l, externalParameter := e, waves := ws, interfaceWidth := w
        periodicity := p }, r)

/-- `PeriodicExternal::save` (PeriodicExternal.cpp:175-186). -/
def savePeriodic (n : ℤ) (s : Periodic) : List Tok :=
  putArr putDbl (prefactors n s.prefactor) ++ [Tok.dbl s.externalParameter,
    Tok.int s.waves.length, Tok.dbl s.C] ++ putArr putVec (s.waves.map Prod.fst) ++
    putArr putDbl (s.waves.map Prod.snd) ++ putVec s.shift ++
    [Tok.dbl s.interfaceWidth, Tok.int s.periodicity]

/-- `PeriodicExternal::loadParameters` (PeriodicExternal.cpp:152-170). -/
def loadPeriodic (n : ℤ) (r : List Tok) : Out (Periodic × List Tok) := do
  check (n > 0)
  let (l, r) ← getArr getDbl n r
  let (e, r) ← getDbl r
  let (m, r) ← getInt r
  let (C, r) ← getDbl r
  let (ws, r) ← getArr getVec m r
  let (ps, r) ← getArr getDbl m r
  let (sh, r) ← getVec r
  let (w, r) ← getDbl r
  let (p, r) ← getInt r
  ok ({ prefactor := ofList l, externalParameter := e, C := C, waves := ws.zip ps, shift := sh
        interfaceWidth := w, periodicity := p }, r)

/-- `GeneralPeriodicExternal::save` (GeneralPeriodicExternal.cpp:189-199), the first values:
number of types, prefactors and parameter; `rest` are the values written after them. -/
def saveGeneral (n : ℤ) (pre : List ℝ) (rest : List Tok) : List Tok :=
  [Tok.int n] ++ putArr putDbl pre ++ rest

/-- The beginning of `GeneralPeriodicExternal::loadParameters`
(GeneralPeriodicExternal.cpp:160-167); `m` is the value of `nWaveVectors_` before. -/
def loadGeneral (m : ℤ) (r : List Tok) : Out (List ℝ × List Tok) := do
  let (n, r) ← getInt r
  check (n > 0)
  getArr getDbl (n * m) r

/-- `NucleationExternal::save` (NucleationExternal.cpp:192-205). -/
def saveNucleation (n : ℤ) (s : Nucleation) : List Tok :=
  [Tok.int n] ++ putArr putDbl (prefactors n s.prefactor) ++ [Tok.dbl s.externalParameter,
    Tok.dbl s.C] ++ putArr putVec (s.waves.map Prod.fst) ++
    putArr putDbl (s.waves.map Prod.snd) ++ putVec s.shift ++
    [Tok.dbl s.interfaceWidth, Tok.int s.periodicity, Tok.dbl s.nucleationClip, Tok.dbl s.bias]

/-- `NucleationExternal::loadParameters` (NucleationExternal.cpp:168-187); `m` is the value
of `nWaveVectors_` before. The array of phases is not allocated. -/
def loadNucleation (m : ℤ) (r : List Tok) : Out (Nucleation × List Tok) := do
  let (n, r) ← getInt r
  check (n > 0)
  let (l, r) ← getArr getDbl n r
  let (e, r) ← getDbl r
  let (C, r) ← getDbl r
  let (ws, r) ← getArr getVec m r
  let (ps, r) ← getArr getDbl m r
  let (sh, r) ← getVec r
  let (w, r) ← getDbl r
  let (p, r) ← getInt r
  let (c, r) ← getDbl r
  let (b, r) ← getDbl r
  ok ({ prefactor := ofList l, externalParameter := e, C := C, waves := ws.zip ps, shift := sh
        interfaceWidth := w, periodicity := p, nucleationClip := c, bias := b }, r)

/-- `SphericalTabulatedExternal::save` (SphericalTabulatedExternal.cpp:208-221). -/
def saveTabulated (n : ℤ) (s : Tabulated) : List Tok :=
  [Tok.int n, Tok.dbl s.rMax, Tok.int s.nr] ++
    (List.range n.toNat).flatMap fun (i : ℕ) => putTab s.nr (s.potentials i)

/-- `SphericalTabulatedExternal::loadParameters` (SphericalTabulatedExternal.cpp:172-203)
of a new object. -/
noncomputable def loadTabulated (r : List Tok) : Out (Tabulated × List Tok) := do
  let (n, r) ← getInt r
  check (n > 0)
  let (rMax, r) ← getDbl r
  let (nr, r) ← getInt r
  check (nr > 0)
  let (t, r) ← loop (fun (s : Pair.Tab × List Tok) (i : ℕ) => do
    let (x, r) ← getTab nr (s.1 i) s.2
    ok (fun k => if k = i then x else s.1 k, r)) (List.range n.toNat) (fun _ _ => 0, r)
  ok ({ rMax := rMax, rMaxSq := rMax * rMax, dr := rMax / ((nr - 1 : ℤ) : ℝ), nr := nr
        potentials := t }, r)

end Verif.Restart
