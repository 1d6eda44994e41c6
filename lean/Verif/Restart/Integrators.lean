/-
Saving and loading the integrators of molecular dynamics, the header of a simulation
and the sequence of potentials of a system:

  src/mcMd/mdIntegrators/*.cpp, src/ddMd/integrators/*.cpp
  src/mcMd/simulation/Simulation.cpp
  src/mcMd/mdSimulation/MdSystem.cpp, src/mcMd/mcSimulation/McSystem.cpp

An archive is a list of values, as in `Restart.Model`. An array (DArray) whose
elements are doubles or vectors is a list.
-/
import Verif.Restart.Props

set_option autoImplicit false

namespace Verif.Restart

open Verif.Cpp Verif.Cpp.Out Verif.Boundary

@[simp] theorem getBool_put (b : Bool) (r : List Tok) : getBool (Tok.bool b :: r) = ok (b, r) := rfl

@[simp] theorem getStr_put (b : String) (r : List Tok) : getStr (Tok.str b :: r) = ok (b, r) := rfl

/-- `ar & array` when loading into an array that has not been allocated: it is allocated
with the capacity in the archive. -/
def getNew {α : Type} (get : List Tok → Out (α × List Tok)) (r : List Tok) :
    Out (List α × List Tok) := do
  let (c, r) ← getInt r
  getMany get c.toNat r

theorem getNew_put {α : Type} {get : List Tok → Out (α × List Tok)} {put : α → List Tok}
    (h : ∀ a r, get (put a ++ r) = ok (a, r)) (l : List α) (r : List Tok) :
    getNew get (putArr put l ++ r) = ok (l, r) := by
  unfold getNew putArr
  simp only [List.cons_append, getInt_put, ok_bind]
  simpa using getMany_put h l r

/-! ### Integrators of mcMd -/

/-- NveVvIntegrator. -/
structure NveVv where
  dt : ℝ
  pref : List ℝ

/-- NveVvIntegrator::save (NveVvIntegrator.cpp:62-66). -/
def NveVv.save (g : NveVv) : List Tok := [Tok.dbl g.dt] ++ putArr putDbl g.pref

/-- NveVvIntegrator::loadParameters (NveVvIntegrator.cpp:51-57); `n` is the number of
atom types. -/
def NveVv.load (n : ℤ) (r : List Tok) : Out (NveVv × List Tok) := do
  let (dt, r) ← getDbl r
  let (pref, r) ← getArr getDbl n r
  ok ({ dt := dt, pref := pref }, r)

/-- NvtNhIntegrator. -/
structure NvtNh where
  dt : ℝ
  tauT : ℝ
  nuT : ℝ
  target : ℝ
  kinetic : ℝ
  xiDot : ℝ
  xi : ℝ
  pref : List ℝ

/-- NvtNhIntegrator::save (NvtNhIntegrator.cpp:97-107). -/
def NvtNh.save (g : NvtNh) : List Tok :=
  [Tok.dbl g.dt, Tok.dbl g.tauT, Tok.dbl g.nuT, Tok.dbl g.target, Tok.dbl g.kinetic,
    Tok.dbl g.xiDot, Tok.dbl g.xi] ++ putArr putDbl g.pref

/-- NvtNhIntegrator::loadParameters (NvtNhIntegrator.cpp:82-92). -/
def NvtNh.load (r : List Tok) : Out (NvtNh × List Tok) := do
  let (dt, r) ← getDbl r
  let (tauT, r) ← getDbl r
  let (nuT, r) ← getDbl r
  let (target, r) ← getDbl r
  let (kinetic, r) ← getDbl r
  let (xiDot, r) ← getDbl r
  let (xi, r) ← getDbl r
  let (pref, r) ← getNew getDbl r
  ok ({ dt := dt, tauT := tauT, nuT := nuT, target := target, kinetic := kinetic
        xiDot := xiDot, xi := xi, pref := pref }, r)

/-- NvtDpdVvIntegrator. -/
structure DpdVv where
  dt : ℝ
  cutoff : ℝ
  gamma : ℝ
  temperature : ℝ
  sigma : ℝ
  cutoffSq : ℝ
  capacity : ℤ
  factors : List ℝ
  diss : List Vec
  rand : List Vec

/-- NvtDpdVvIntegrator::save (NvtDpdVvIntegrator.cpp:126-138). -/
def DpdVv.save (g : DpdVv) : List Tok :=
  [Tok.dbl g.dt, Tok.dbl g.cutoff, Tok.dbl g.gamma, Tok.dbl g.temperature, Tok.dbl g.sigma,
    Tok.dbl g.cutoffSq, Tok.int g.capacity] ++ (putArr putDbl g.factors ++
    (putArr putVec g.diss ++ putArr putVec g.rand))

/-- NvtDpdVvIntegrator::loadParameters (NvtDpdVvIntegrator.cpp:97-121) of an object that is
not initialized; `maxCut` is the largest cutoff of the pair potential. -/
noncomputable def DpdVv.load (maxCut : ℝ) (r : List Tok) : Out (DpdVv × List Tok) := do
  let (dt, r) ← getDbl r
  let (cutoff, r) ← getDbl r
  check (cutoff ≤ maxCut)
  let (gamma, r) ← getDbl r
  let (temperature, r) ← getDbl r
  let (sigma, r) ← getDbl r
  let (cutoffSq, r) ← getDbl r
  let (capacity, r) ← getInt r
  let (factors, r) ← getNew getDbl r
  let (diss, r) ← getNew getVec r
  let (rand, r) ← getNew getVec r
  ok ({ dt := dt, cutoff := cutoff, gamma := gamma, temperature := temperature, sigma := sigma
        cutoffSq := cutoffSq, capacity := capacity, factors := factors, diss := diss
        rand := rand }, r)

/-- NphIntegrator of mcMd; `mode` is the number of the LatticeSystem. -/
structure McNph where
  dt : ℝ
  W : ℝ
  mode : ℤ
  eta : Vec
  currP : Vec
  pref : List ℝ

/-- NphIntegrator::save (mcMd NphIntegrator.cpp:76-84). -/
def McNph.save (g : McNph) : List Tok :=
  [Tok.dbl g.dt, Tok.dbl g.W, Tok.int g.mode] ++ (putVec g.eta ++ (putVec g.currP ++
    putArr putDbl g.pref))

/-- NphIntegrator::loadParameters (mcMd NphIntegrator.cpp:63-71). -/
def McNph.load (r : List Tok) : Out (McNph × List Tok) := do
  let (dt, r) ← getDbl r
  let (W, r) ← getDbl r
  let (mode, r) ← getInt r
  let (eta, r) ← getVec r
  let (currP, r) ← getVec r
  let (pref, r) ← getNew getDbl r
  ok ({ dt := dt, W := W, mode := mode, eta := eta, currP := currP, pref := pref }, r)

/-- NvtLangevinIntegrator of mcMd. -/
structure McLangevin where
  dt : ℝ
  gamma : ℝ
  pref : List ℝ
  cv : List ℝ
  cr : List ℝ

/-- NvtLangevinIntegrator::save (mcMd NvtLangevinIntegrator.cpp:72-79). -/
def McLangevin.save (g : McLangevin) : List Tok :=
  [Tok.dbl g.dt, Tok.dbl g.gamma] ++ (putArr putDbl g.pref ++ (putArr putDbl g.cv ++
    putArr putDbl g.cr))

/-- NvtLangevinIntegrator::loadParameters (mcMd NvtLangevinIntegrator.cpp:59-67) of the
object `g`. -/
def McLangevin.load (n : ℤ) (g : McLangevin) (r : List Tok) : Out (McLangevin × List Tok) := do
  let (dt, r) ← getDbl r
  let (pref, r) ← getArr getDbl n r
  let (cv, r) ← getNew getDbl r
  let (cr, r) ← getNew getDbl r
  ok ({ g with dt := dt, pref := pref, cv := cv, cr := cr }, r)

/-! ### Integrators of ddMd -/

/-- The data of the base class Integrator of ddMd. -/
structure Base where
  saveInterval : ℤ
  saveFileName : String
  iStep : ℤ
  isSetup : Bool

/-- Integrator::save (ddMd Integrator.cpp:105-113). -/
def Base.save (g : Base) : List Tok :=
  [Tok.int g.saveInterval] ++ ((if g.saveInterval > 0 then [Tok.str g.saveFileName] else []) ++
    [Tok.int g.iStep, Tok.bool g.isSetup])

/-- Integrator::loadParameters (ddMd Integrator.cpp:83-100); `base` is
Analyzer::baseInterval, and `name` the file name before. -/
def Base.load (base : ℤ) (name : String) (r : List Tok) : Out (Base × List Tok) := do
  let (saveInterval, r) ← getInt r
  if saveInterval > 0 then
    check (base > 0)
    check (saveInterval.tmod base = 0)
    let (saveFileName, r) ← getStr r
    let (iStep, r) ← getInt r
    let (isSetup, r) ← getBool r
    ok ({ saveInterval := saveInterval, saveFileName := saveFileName, iStep := iStep
          isSetup := isSetup }, r)
  else
    let (iStep, r) ← getInt r
    let (isSetup, r) ← getBool r
    ok ({ saveInterval := saveInterval, saveFileName := name, iStep := iStep
          isSetup := isSetup }, r)

/-- NveIntegrator. -/
structure DdNve where
  dt : ℝ
  base : Base

/-- NveIntegrator::save (ddMd NveIntegrator.cpp:68-72). -/
def DdNve.save (g : DdNve) : List Tok := [Tok.dbl g.dt] ++ g.base.save

/-- NveIntegrator::loadParameters (ddMd NveIntegrator.cpp:53-63). -/
def DdNve.load (base : ℤ) (name : String) (r : List Tok) : Out (DdNve × List Tok) := do
  let (dt, r) ← getDbl r
  let (b, r) ← Base.load base name r
  ok ({ dt := dt, base := b }, r)

/-- NvtIntegrator. -/
structure DdNvt where
  dt : ℝ
  tauT : ℝ
  base : Base
  nuT : ℝ
  xi : ℝ

/-- NvtIntegrator::save (ddMd NvtIntegrator.cpp:96-103). -/
def DdNvt.save (g : DdNvt) : List Tok :=
  [Tok.dbl g.dt, Tok.dbl g.tauT] ++ (g.base.save ++ [Tok.dbl g.nuT, Tok.dbl g.xi])

/-- NvtIntegrator::loadParameters (ddMd NvtIntegrator.cpp:77-91). -/
def DdNvt.load (base : ℤ) (name : String) (r : List Tok) : Out (DdNvt × List Tok) := do
  let (dt, r) ← getDbl r
  let (tauT, r) ← getDbl r
  let (b, r) ← Base.load base name r
  let (nuT, r) ← getDbl r
  let (xi, r) ← getDbl r
  ok ({ dt := dt, tauT := tauT, base := b, nuT := nuT, xi := xi }, r)

/-- NptIntegrator. -/
structure DdNpt where
  dt : ℝ
  tauT : ℝ
  tauP : ℝ
  mode : ℤ
  base : Base
  xi : ℝ
  eta : ℝ
  nu : Vec

/-- NptIntegrator::save (ddMd NptIntegrator.cpp:86-96). -/
def DdNpt.save (g : DdNpt) : List Tok :=
  [Tok.dbl g.dt, Tok.dbl g.tauT, Tok.dbl g.tauP, Tok.int g.mode] ++ (g.base.save ++
    ([Tok.dbl g.xi, Tok.dbl g.eta] ++ putVec g.nu))

/-- NptIntegrator::loadParameters (ddMd NptIntegrator.cpp:64-81). -/
def DdNpt.load (base : ℤ) (name : String) (r : List Tok) : Out (DdNpt × List Tok) := do
  let (dt, r) ← getDbl r
  let (tauT, r) ← getDbl r
  let (tauP, r) ← getDbl r
  let (mode, r) ← getInt r
  let (b, r) ← Base.load base name r
  let (xi, r) ← getDbl r
  let (eta, r) ← getDbl r
  let (nu, r) ← getVec r
  ok ({ dt := dt, tauT := tauT, tauP := tauP, mode := mode, base := b, xi := xi, eta := eta
        nu := nu }, r)

/-- NphIntegrator of ddMd. -/
structure DdNph where
  dt : ℝ
  W : ℝ
  mode : ℤ
  base : Base
  nu : Vec

/-- NphIntegrator::save (ddMd NphIntegrator.cpp:82-89). -/
def DdNph.save (g : DdNph) : List Tok :=
  [Tok.dbl g.dt, Tok.dbl g.W, Tok.int g.mode] ++ (g.base.save ++ putVec g.nu)

/-- NphIntegrator::loadParameters (ddMd NphIntegrator.cpp:62-77). -/
def DdNph.load (base : ℤ) (name : String) (r : List Tok) : Out (DdNph × List Tok) := do
  let (dt, r) ← getDbl r
  let (W, r) ← getDbl r
  let (mode, r) ← getInt r
  let (b, r) ← Base.load base name r
  let (nu, r) ← getVec r
  ok ({ dt := dt, W := W, mode := mode, base := b, nu := nu }, r)

/-- NvtLangevinIntegrator of ddMd. -/
structure DdLangevin where
  dt : ℝ
  gamma : ℝ
  base : Base

/-- NvtLangevinIntegrator::save (ddMd NvtLangevinIntegrator.cpp:81-86). -/
def DdLangevin.save (g : DdLangevin) : List Tok := [Tok.dbl g.dt, Tok.dbl g.gamma] ++ g.base.save

/-- NvtLangevinIntegrator::loadParameters (ddMd NvtLangevinIntegrator.cpp:64-76) of the
object `g`. -/
def DdLangevin.load (base : ℤ) (name : String) (g : DdLangevin) (r : List Tok) :
    Out (DdLangevin × List Tok) := do
  let (dt, r) ← getDbl r
  let (b, r) ← Base.load base name r
  ok ({ g with dt := dt, base := b }, r)

/-! ### Header of a simulation -/

/-- The features with which the program has been compiled: SIMP_BOND, SIMP_ANGLE,
SIMP_DIHEDRAL, SIMP_COULOMB, SIMP_EXTERNAL, MCMD_LINK, SIMP_TETHER, SIMP_SPECIAL. -/
structure Features where
  bond : Bool
  angle : Bool
  dihedral : Bool
  coulomb : Bool
  external : Bool
  link : Bool
  tether : Bool
  special : Bool

/-- The numbers of types of groups and the flags of a simulation; zero if the feature is
not compiled in. -/
structure Header where
  nAtomType : ℤ
  nBondType : ℤ
  nAngleType : ℤ
  nDihedralType : ℤ
  hasCoulomb : ℤ
  hasExternal : ℤ
  nLinkType : ℤ
  hasTether : ℤ
  hasSpecial : ℤ

/-- `Parameter::saveOptional(ar, value, (bool)value)`. -/
def putOpt (i : ℤ) : List Tok := if i ≠ 0 then [Tok.bool true, Tok.int i] else [Tok.bool false]

/-- `value = 0; loadParameter(ar, label, value, false)`: an optional parameter. -/
def getOpt (r : List Tok) : Out (ℤ × List Tok) := do
  let (b, r) ← getBool r
  if b then getInt r else ok (0, r)

/-- A line that is only compiled with a feature. -/
def when (b : Bool) (l : List Tok) : List Tok := if b then l else []

def getWhen (b : Bool) (get : List Tok → Out (ℤ × List Tok)) (r : List Tok) : Out (ℤ × List Tok) :=
  if b then get r else ok (0, r)

/-- Simulation::save, the counts and flags (Simulation.cpp:389-413). -/
def Header.save (f : Features) (h : Header) : List Tok :=
  [Tok.int h.nAtomType] ++ (when f.bond [Tok.int h.nBondType] ++ (when f.angle (putOpt h.nAngleType) ++
    (when f.dihedral (putOpt h.nDihedralType) ++ (when f.coulomb (putOpt h.hasCoulomb) ++
    (when f.external (putOpt h.hasExternal) ++ (when f.link (putOpt h.nLinkType) ++
    (when f.tether ([Tok.int h.hasTether] ++ putOpt h.hasTether) ++
    when f.special (putOpt h.hasSpecial))))))))

/-- Simulation::loadParameters, the counts and flags (Simulation.cpp:328-359). -/
def Header.load (f : Features) (r : List Tok) : Out (Header × List Tok) := do
  let (nAtomType, r) ← getInt r
  let (nBondType, r) ← getWhen f.bond getInt r
  let (nAngleType, r) ← getWhen f.angle getOpt r
  let (nDihedralType, r) ← getWhen f.dihedral getOpt r
  let (hasCoulomb, r) ← getWhen f.coulomb getOpt r
  let (hasExternal, r) ← getWhen f.external getOpt r
  let (nLinkType, r) ← getWhen f.link getOpt r
  let (hasTether, r) ← getWhen f.tether getOpt r
  let (hasSpecial, r) ← getWhen f.special getOpt r
  ok ({ nAtomType := nAtomType, nBondType := nBondType, nAngleType := nAngleType
        nDihedralType := nDihedralType, hasCoulomb := hasCoulomb, hasExternal := hasExternal
        nLinkType := nLinkType, hasTether := hasTether, hasSpecial := hasSpecial }, r)

/-- Features that are not compiled in have value zero. -/
structure Header.Fits (f : Features) (h : Header) : Prop where
  bond : f.bond = false → h.nBondType = 0
  angle : f.angle = false → h.nAngleType = 0
  dihedral : f.dihedral = false → h.nDihedralType = 0
  coulomb : f.coulomb = false → h.hasCoulomb = 0
  external : f.external = false → h.hasExternal = 0
  link : f.link = false → h.nLinkType = 0
  tether : f.tether = false → h.hasTether = 0
  special : f.special = false → h.hasSpecial = 0

/-! ### The potentials of a system -/

/-- The parts of a system that are saved between the potential styles and the
ensembles. -/
inductive Part where
  | coulomb | pair | bond | angle | dihedral | external | special
  | linkMaster | link | tetherMaster | tether
  deriving DecidableEq

/-- What a simulation contains; `pair` is false with SIMP_NOPAIR. -/
structure Contents where
  coulomb : Bool
  pair : Bool
  bond : Bool
  angle : Bool
  dihedral : Bool
  external : Bool
  special : Bool
  link : Bool
  tether : Bool

/-- `if (flag) { … }`. -/
def only (b : Bool) (l : List Part) : List Part := if b then l else []

/-- MdSystem::saveParameters (MdSystem.cpp:589-638) of a system that is not a copy. -/
def mdSaved (c : Contents) : List Part :=
  only c.coulomb [.coulomb] ++ only c.pair [.pair] ++ only c.bond [.bond] ++ only c.angle [.angle] ++
    only c.dihedral [.dihedral] ++ only c.link [.linkMaster, .link] ++
    only c.external [.external] ++ only c.special [.special] ++ only c.tether [.tetherMaster, .tether]

/-- MdSystem::loadParameters (MdSystem.cpp:438-547) of a system that is not a copy. -/
def mdLoaded (c : Contents) : List Part :=
  only c.coulomb [.coulomb] ++ only c.pair [.pair] ++ only c.bond [.bond] ++ only c.angle [.angle] ++
    only c.dihedral [.dihedral] ++ only c.external [.external] ++ only c.special [.special] ++
    only c.link [.linkMaster, .link] ++ only c.tether [.tetherMaster, .tether]

/-- McSystem::saveParameters (McSystem.cpp:335-372), with saveTetherMaster
(System.cpp:695-700). If there is no tether potential, its `save` is called through a null
pointer; `none` then. `built` tells whether the program is compiled with SIMP_TETHER. -/
def mcSaved (built : Bool) (c : Contents) : Option (List Part) :=
  let l := only c.pair [.pair] ++ only c.bond [.bond] ++ only c.angle [.angle] ++
    only c.dihedral [.dihedral] ++ only c.external [.external] ++ only c.link [.linkMaster, .link]
  if built && c.external then
    if c.tether then some (l ++ [.tetherMaster, .tether]) else none
  else some l

/-- McSystem::loadParameters (McSystem.cpp:239-313), with loadTetherMaster
(System.cpp:687-693). -/
def mcLoaded (built : Bool) (c : Contents) : List Part :=
  only c.pair [.pair] ++ only c.bond [.bond] ++ only c.angle [.angle] ++
    only c.dihedral [.dihedral] ++ only c.external [.external] ++ only c.link [.linkMaster, .link] ++
    only (built && c.tether) [.tetherMaster, .tether]

/-- What the parts write, one after the other. -/
def writeParts (put : Part → List Tok) (l : List Part) : List Tok := l.flatMap put

/-- The parts read, one after the other. -/
def readParts (get : Part → List Tok → Out (List Tok)) : List Part → List Tok → Out (List Tok)
  | [], r => ok r
  | p :: l, r => do
    let r ← get p r
    readParts get l r

end Verif.Restart
