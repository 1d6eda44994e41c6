import Verif.Boundary.Model
import Mathlib.Analysis.SpecialFunctions.Pow.Real

/-!
# Model of the pair interactions

Sources: `src/simp/interaction/pair/{LJPair,WcaPair,DpdPair}.{h,cpp}` and `CompensatedPair.h`.

`double` is `ℝ`; a table `double x[MaxAtomType][MaxAtomType]` is a function of two integers, of
which the values for `0 ≤ i, j < 4` are the elements. An access outside of the array is the
outcome `ub`. Members that the constructors leave uninitialized have arbitrary values. Parameter
names are strings. Reading a parameter file supplies the arrays as arguments.
-/

set_option autoImplicit false

namespace Verif.Pair

/-- A table of parameters for pairs of types. -/
abbrev Tab := ℤ → ℤ → ℝ

/-- Outcomes other than a normal return. -/
inductive Err
  | throw
  | ub
deriving DecidableEq

/-- `t[i][j] = x`. -/
def upd (t : Tab) (i j : ℤ) (x : ℝ) : Tab := fun k l => if k = i ∧ l = j then x else t k l

/-- Index pair inside the first `n` rows and columns. -/
def In (n i j : ℤ) : Prop := 0 ≤ i ∧ i < n ∧ 0 ≤ j ∧ j < n

instance (n i j : ℤ) : Decidable (In n i j) := by unfold In; infer_instance

/-- `MaxAtomType` (LJPair.h:199, DpdPair.h:198). -/
def maxType : ℤ := 4

/-- `for (i = 0; i < n; ++i) for (j = 0; j < n; ++j)`: pairs in loop order. -/
def pairsOf (n : ℤ) : List (ℤ × ℤ) :=
  (List.range n.toNat).flatMap fun (i : ℕ) => (List.range n.toNat).map fun (j : ℕ) => ((i : ℤ), (j : ℤ))

/-- `if (x > maxPairCutoff_) maxPairCutoff_ = x` for all pairs, from zero
(LJPair.cpp:175, 184-186; DpdPair.cpp:87, 91-93). -/
noncomputable def maxOver (n : ℤ) (t : Tab) : ℝ :=
  (pairsOf n).foldl (fun m p => if t p.1 p.2 > m then t p.1 p.2 else m) 0

/-- First `n` rows and columns from `a`, the rest from `t`. -/
def fill (n : ℤ) (a t : Tab) : Tab := fun i j => if In n i j then a i j else t i j

/-! ## Lennard-Jones -/

/-- `LJPair` (LJPair.h:202-230). -/
structure LJ where
  epsilon : Tab
  sigma : Tab
  sigmaSq : Tab
  cutoff : Tab
  cutoffSq : Tab
  ljShift : Tab
  eps48 : Tab
  maxCut : ℝ
  n : ℤ
  init : Bool

/-- `-4.0*epsilon*(r6i*r6i - r6i)` with `r6i = (sigmaSq/cutoffSq)^3` (LJPair.cpp:110-112,
143-145, 181-183, 290-292). -/
noncomputable def shiftOf (eps sigmaSq cutoffSq : ℝ) : ℝ :=
  let x := sigmaSq / cutoffSq
  let r6i := x * x * x
  (-4) * eps * (r6i * r6i - r6i)

/-- `setNAtomType` (LJPair.cpp:78-87). -/
def LJ.setNAtomType (s : LJ) (n : ℤ) : Except Err LJ :=
  if n ≤ 0 then .error .throw
  else if n > maxType then .error .throw
  else .ok { s with n := n }

/-- `readParameters` (LJPair.cpp:159-191) with the arrays of the parameter file. -/
noncomputable def LJ.read (s : LJ) (eps sig cut : Tab) : Except Err LJ :=
  if s.n ≤ 0 then .error .throw
  else
    let epsilon := fill s.n eps s.epsilon
    let sigma := fill s.n sig s.sigma
    let cutoff := fill s.n cut s.cutoff
    let sigmaSq := fill s.n (fun i j => sigma i j * sigma i j) s.sigmaSq
    let cutoffSq := fill s.n (fun i j => cutoff i j * cutoff i j) s.cutoffSq
    .ok { s with
      epsilon := epsilon
      sigma := sigma
      cutoff := cutoff
      eps48 := fill s.n (fun i j => 48 * epsilon i j) s.eps48
      sigmaSq := sigmaSq
      cutoffSq := cutoffSq
      ljShift := fill s.n (fun i j => shiftOf (epsilon i j) (sigmaSq i j) (cutoffSq i j)) s.ljShift
      maxCut := maxOver s.n cutoff
      init := true }

/-- Tests at the start of the setters (LJPair.cpp:96-104, 129-137; DpdPair.cpp:167-175,
195-203). -/
def guard (init : Bool) (n i j : ℤ) : Except Err Unit :=
  if init = false then .error .throw
  else if i < 0 ∨ i ≥ n then .error .throw
  else if j < 0 ∨ j ≥ n then .error .throw
  else .ok ()

/-- `setEpsilon` (LJPair.cpp:92-120). -/
noncomputable def LJ.setEpsilon (s : LJ) (i j : ℤ) (x : ℝ) : Except Err LJ :=
  (guard s.init s.n i j).bind fun _ =>
    let epsilon := upd s.epsilon i j x
    let eps48 := upd s.eps48 i j (48 * x)
    let ljShift := upd s.ljShift i j (shiftOf (epsilon i j) (s.sigmaSq i j) (s.cutoffSq i j))
    .ok (if j ≠ i then
      { s with epsilon := upd epsilon j i (epsilon i j), eps48 := upd eps48 j i (eps48 i j)
               ljShift := upd ljShift j i (ljShift i j) }
    else { s with epsilon := epsilon, eps48 := eps48, ljShift := ljShift })

/-- `setSigma` (LJPair.cpp:125-154). The last statement assigns an element to itself
(LJPair.cpp:151). -/
noncomputable def LJ.setSigma (s : LJ) (i j : ℤ) (x : ℝ) : Except Err LJ :=
  (guard s.init s.n i j).bind fun _ =>
    let sigma := upd s.sigma i j x
    let sigmaSq := upd s.sigmaSq i j (x * x)
    let ljShift := upd s.ljShift i j (shiftOf (s.epsilon i j) (sigmaSq i j) (s.cutoffSq i j))
    .ok (if j ≠ i then
      { s with sigma := upd sigma j i (sigma i j), sigmaSq := upd sigmaSq j i (sigmaSq i j)
               ljShift := upd ljShift j i (ljShift j i) }
    else { s with sigma := sigma, sigmaSq := sigmaSq, ljShift := ljShift })

/-- The first part of `LJPair::set` and `WcaPair::set` for `epsilon` (LJPair.cpp:273-279,
WcaPair.cpp:63-69). -/
noncomputable def LJ.putEpsilon (s : LJ) (i j : ℤ) (x : ℝ) : LJ :=
  let epsilon := upd s.epsilon i j x
  let eps48 := upd s.eps48 i j (48 * x)
  if j ≠ i then { s with epsilon := upd epsilon j i x, eps48 := upd eps48 j i (eps48 i j) }
  else { s with epsilon := epsilon, eps48 := eps48 }

/-- The first part of `LJPair::set` for `sigma` (LJPair.cpp:281-287). -/
noncomputable def LJ.putSigma (s : LJ) (i j : ℤ) (x : ℝ) : LJ :=
  let sigma := upd s.sigma i j x
  let sigmaSq := upd s.sigmaSq i j (x * x)
  if j ≠ i then
    { s with sigma := upd sigma j i (sigma i j), sigmaSq := upd sigmaSq j i (sigmaSq i j) }
  else { s with sigma := sigma, sigmaSq := sigmaSq }

/-- The last part of `LJPair::set` and `WcaPair::set` (LJPair.cpp:292-298, WcaPair.cpp:74-80),
again with an assignment of an element to itself. -/
noncomputable def LJ.reshift (s : LJ) (i j : ℤ) : LJ :=
  let ljShift := upd s.ljShift i j (shiftOf (s.epsilon i j) (s.sigmaSq i j) (s.cutoffSq i j))
  if j ≠ i then { s with ljShift := upd ljShift j i (ljShift j i) }
  else { s with ljShift := ljShift }

/-- `LJPair::set` (LJPair.cpp:270-300). Indices are not tested. -/
noncomputable def LJ.set (s : LJ) (name : String) (i j : ℤ) (x : ℝ) : Except Err LJ :=
  if name = "epsilon" then
    if In maxType i j then .ok ((s.putEpsilon i j x).reshift i j) else .error .ub
  else if name = "sigma" then
    if In maxType i j then .ok ((s.putSigma i j x).reshift i j) else .error .ub
  else .error .throw

/-- `LJPair::get` (LJPair.cpp:305-321). -/
def LJ.get (s : LJ) (name : String) (i j : ℤ) : Except Err ℝ :=
  if name = "epsilon" then if In maxType i j then .ok (s.epsilon i j) else .error .ub
  else if name = "sigma" then if In maxType i j then .ok (s.sigma i j) else .error .ub
  else if name = "cutoff" then if In maxType i j then .ok (s.cutoff i j) else .error .ub
  else .error .throw

/-- `energy` (LJPair.h:237-250). -/
noncomputable def LJ.energy (s : LJ) (rsq : ℝ) (i j : ℤ) : ℝ :=
  if rsq < s.cutoffSq i j then
    let rsq := if rsq < 0.6 * s.sigmaSq i j then 0.6 * s.sigmaSq i j else rsq
    let x := s.sigmaSq i j / rsq
    let r6i := x * x * x
    4 * s.epsilon i j * (r6i * r6i - r6i) + s.ljShift i j
  else 0

/-- `forceOverR` (LJPair.h:255-262). -/
noncomputable def LJ.forceOverR (s : LJ) (rsq : ℝ) (i j : ℤ) : ℝ :=
  let r2i := 1 / rsq
  let x := s.sigmaSq i j * r2i
  let r6i := x * x * x
  s.eps48 i j * (r6i - 0.5) * r6i * r2i

/-- Copy constructor and assignment (LJPair.cpp:33-73): `old` is the object assigned to, or
uninitialized memory. -/
def LJ.assign (old s : LJ) : LJ :=
  { epsilon := fill s.n s.epsilon old.epsilon, sigma := fill s.n s.sigma old.sigma
    sigmaSq := fill s.n s.sigmaSq old.sigmaSq, cutoff := fill s.n s.cutoff old.cutoff
    cutoffSq := fill s.n s.cutoffSq old.cutoffSq, ljShift := fill s.n s.ljShift old.ljShift
    eps48 := fill s.n s.eps48 old.eps48, maxCut := s.maxCut, n := s.n, init := s.init }

/-! ## WCA: a subclass of `LJPair` -/

/-- `WcaPair::readParameters` (WcaPair.cpp:21-57). -/
noncomputable def LJ.readWca (s : LJ) (eps sig : Tab) : Except Err LJ :=
  if s.n ≤ 0 then .error .throw
  else
    let epsilon := fill s.n eps s.epsilon
    let sigma := fill s.n sig s.sigma
    let cutoff := fill s.n (fun i j => sigma i j * (2 : ℝ) ^ ((1 : ℝ) / 6)) s.cutoff
    let sigmaSq := fill s.n (fun i j => sigma i j * sigma i j) s.sigmaSq
    let cutoffSq := fill s.n (fun i j => cutoff i j * cutoff i j) s.cutoffSq
    .ok { s with
      epsilon := epsilon
      sigma := sigma
      cutoff := cutoff
      eps48 := fill s.n (fun i j => 48 * epsilon i j) s.eps48
      sigmaSq := sigmaSq
      cutoffSq := cutoffSq
      ljShift := fill s.n (fun i j => shiftOf (epsilon i j) (sigmaSq i j) (cutoffSq i j)) s.ljShift
      maxCut := maxOver s.n cutoff
      init := true }

/-- `WcaPair::set` (WcaPair.cpp:61-82). -/
noncomputable def LJ.setWca (s : LJ) (name : String) (i j : ℤ) (x : ℝ) : Except Err LJ :=
  if name = "epsilon" then
    if In maxType i j then .ok ((s.putEpsilon i j x).reshift i j) else .error .ub
  else .error .throw

/-! ## Use by the potential classes -/

/-- `forceOverR` of the potential classes (MdPairPotentialImpl.h:307-316,
McPairPotentialImpl.h:274-284, ddMd/potentials/pair/PairPotentialImpl.h:436-445), and the test
around each force in their loops: the force of the interaction, if below the cutoff. -/
noncomputable def cutForce (cutoffSq : ℝ) (force : ℝ → ℝ) (rsq : ℝ) : ℝ :=
  if rsq < cutoffSq then force rsq else 0

/-! ## Dissipative particle dynamics -/

/-- `DpdPair` (DpdPair.h:201-221). -/
structure Dpd where
  epsilon : Tab
  sigma : Tab
  sigmaSq : Tab
  ce : Tab
  cf : Tab
  maxCut : ℝ
  n : ℤ
  init : Bool

/-- `setNAtomType` (DpdPair.cpp:149-158). -/
def Dpd.setNAtomType (s : Dpd) (n : ℤ) : Except Err Dpd :=
  if n ≤ 0 then .error .throw
  else if n > maxType then .error .throw
  else .ok { s with n := n }

/-- `readParameters` (DpdPair.cpp:72-100). -/
noncomputable def Dpd.read (s : Dpd) (eps sig : Tab) : Except Err Dpd :=
  if s.n ≤ 0 then .error .throw
  else
    let epsilon := fill s.n eps s.epsilon
    let sigma := fill s.n sig s.sigma
    let sigmaSq := fill s.n (fun i j => sigma i j * sigma i j) s.sigmaSq
    let cf := fill s.n (fun i j => epsilon i j / sigmaSq i j) s.cf
    .ok { s with
      epsilon := epsilon
      sigma := sigma
      sigmaSq := sigmaSq
      cf := cf
      ce := fill s.n (fun i j => 0.5 * cf i j) s.ce
      maxCut := maxOver s.n sigma
      init := true }

/-- `setEpsilon` (DpdPair.cpp:163-186). -/
noncomputable def Dpd.setEpsilon (s : Dpd) (i j : ℤ) (x : ℝ) : Except Err Dpd :=
  (guard s.init s.n i j).bind fun _ =>
    let epsilon := upd s.epsilon i j x
    let cf := upd s.cf i j (epsilon i j / s.sigmaSq i j)
    let ce := upd s.ce i j (0.5 * cf i j)
    .ok (if j ≠ i then
      { s with epsilon := upd epsilon j i x, cf := upd cf j i (cf i j), ce := upd ce j i (ce i j) }
    else { s with epsilon := epsilon, cf := cf, ce := ce })

/-- `setSigma` (DpdPair.cpp:191-218). -/
noncomputable def Dpd.setSigma (s : Dpd) (i j : ℤ) (x : ℝ) : Except Err Dpd :=
  (guard s.init s.n i j).bind fun _ =>
    let sigma := upd s.sigma i j x
    let sigmaSq := upd s.sigmaSq i j (x * x)
    let cf := upd s.cf i j (s.epsilon i j / sigmaSq i j)
    let ce := upd s.ce i j (0.5 * cf i j)
    .ok (if j ≠ i then
      { s with sigma := upd sigma j i x, sigmaSq := upd sigmaSq j i (sigmaSq i j)
               cf := upd cf j i (cf i j), ce := upd ce j i (ce i j) }
    else { s with sigma := sigma, sigmaSq := sigmaSq, cf := cf, ce := ce })

/-- `set` (DpdPair.cpp:249-261). -/
noncomputable def Dpd.set (s : Dpd) (name : String) (i j : ℤ) (x : ℝ) : Except Err Dpd :=
  if name = "epsilon" then
    if In maxType i j then .ok { s with epsilon := upd (upd s.epsilon i j x) j i x } else .error .ub
  else if name = "sigma" then
    if In maxType i j then .ok { s with sigma := upd (upd s.sigma i j x) j i x } else .error .ub
  else .error .throw

/-- `energy` (DpdPair.h:229-238). -/
noncomputable def Dpd.energy (s : Dpd) (rsq : ℝ) (i j : ℤ) : ℝ :=
  if rsq < s.sigmaSq i j then
    let dr := Real.sqrt rsq - s.sigma i j
    s.ce i j * dr * dr
  else 0

/-- `forceOverR` (DpdPair.h:243-250). -/
noncomputable def Dpd.forceOverR (s : Dpd) (rsq : ℝ) (i j : ℤ) : ℝ :=
  if rsq < s.sigmaSq i j then s.cf i j * (s.sigma i j / Real.sqrt rsq - 1) else 0

/-- `cutoffSq` (DpdPair.h:255-256). -/
def Dpd.cutoffSq (s : Dpd) (i j : ℤ) : ℝ := s.sigmaSq i j

/-! ## Compensated pair potential -/

/-- `CompensatedPair` (CompensatedPair.h:138-163) for one pair of types: energy, force and cutoff
of the bare pair potential, energy and force of the link potential. -/
structure Comp where
  pairEnergy : ℝ → ℝ
  pairForce : ℝ → ℝ
  pairCutoffSq : ℝ
  linkEnergy : ℝ → ℝ
  linkForce : ℝ → ℝ
  maxLinkSq : ℝ
  temp : ℝ
  mu : ℝ
  activity : ℝ
  beta : ℝ

/-- Values computed by `readParameters` (CompensatedPair.h:243-250). -/
noncomputable def Comp.read (pe pf : ℝ → ℝ) (pc : ℝ) (le lf : ℝ → ℝ) (maxLink temp mu : ℝ) : Comp :=
  let beta := 1 / temp
  { pairEnergy := pe, pairForce := pf, pairCutoffSq := pc, linkEnergy := le, linkForce := lf
    maxLinkSq := maxLink * maxLink, temp := temp, mu := mu
    activity := Real.exp (mu * beta), beta := beta }

/-- `energy` (CompensatedPair.h:291-298). -/
noncomputable def Comp.energy (s : Comp) (rsq : ℝ) : ℝ :=
  s.pairEnergy rsq +
    if rsq < s.maxLinkSq then s.activity * s.temp * Real.exp (-s.beta * s.linkEnergy rsq) else 0

/-- `forceOverR` (CompensatedPair.h:306-317). -/
noncomputable def Comp.forceOverR (s : Comp) (rsq : ℝ) : ℝ :=
  (if rsq < s.pairCutoffSq then s.pairForce rsq else 0) -
    if rsq < s.maxLinkSq then s.activity * Real.exp (-s.beta * s.linkEnergy rsq) * s.linkForce rsq else 0

end Verif.Pair
