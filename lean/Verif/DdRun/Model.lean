import Verif.DdCellList.Once
import Verif.Integrate.Verlet

/-!
# The main loop of a parallel simulation

Source: `src/ddMd/integrators/{TwoStepIntegrator,NveIntegrator,Integrator}.cpp`,
`src/ddMd/potentials/pair/PairPotentialImpl.h` (forces from the pair list),
`src/ddMd/storage/AtomStorage.cpp` (snapshots, transformations of coordinates).

All processors take the same branch of each step, since `isExchangeNeeded` reduces a flag over all
processors; the transfers of `exchange`, `update` and `reverseUpdate` are those of `DdExchange`
(every interleaving of the processors gives the result of these functions, C16 - C18), and the
lists are those of `DdCellList`. An atom that a processor holds is a slot: the index in the list of
local atoms followed by ghosts as it was after the last exchange.

Not modelled: bonded and external potentials, signals, timers, modifiers, analyzers and restart
files (none of which changes atoms), the blocks of `PAIR_BLOCK_SIZE` pairs in which the forces are
added without reverse communication (the same sum in the same order). The processors have the same
parameters.
-/

set_option autoImplicit false

namespace Verif.DdRun

open Verif.Boundary Verif.DdExchange Verif.DdCellList

/-- Constant parameters. The type of an atom is a function of its id, so that interactions are
indexed by ids. -/
structure Env (ι : Type) where
  /-- `boundary().length(i)` -/
  L : Vec
  /-- `transformGenToCart` -/
  cart : Vec → Vec
  /-- `transformCartToGen` -/
  gen : Vec → Vec
  /-- displacement by `applyShift` -/
  lat : Fin 3 → ℤ → Vec
  /-- `nCellCut` -/
  n : ℤ
  /-- `maxPairCutoff()` -/
  range : ℝ
  skin : ℝ
  dt : ℝ
  mass : ι → ℝ
  masked : ι → ι → Prop
  /-- `interaction.cutoffSq` -/
  cutSq : ι → ι → ℝ
  /-- `interaction.forceOverR` -/
  forceOverR : ℝ → ι → ι → ℝ
  /-- `reverseUpdateFlag` -/
  reverse : Bool

variable {N : Fin 3 → ℕ} {ι : Type}

/-- Cutoff of the lists and of ghosts (PairPotential.cpp:83; Simulation.cpp:630). -/
def Env.cutoff (y : Env ι) : ℝ := y.range + y.skin

/-- Widths of the slabs of ghosts (Exchanger.cpp:217). -/
noncomputable def Env.slab (y : Env ι) : Vec := fun i => y.cutoff / y.L i

/-- Data that move with an atom: the id (with type and mask) and the velocity. -/
abbrev Dat (ι : Type) := ι × Vec

/-- State of all processors within the loop. -/
structure Run (N : Fin 3 → ℕ) (ι : Type) where
  /-- atoms and ghosts, send and receive arrays after the last exchange -/
  gs : GState N (Dat ι)
  /-- numbers of local atoms -/
  nloc : Proc N → ℕ
  /-- pair lists: pointers to atoms, given by the atoms after the last exchange -/
  pairs : Proc N → List (Atom (Dat ι) × Atom (Dat ι))
  /-- Cartesian positions of all slots -/
  pos : Proc N → ℕ → Vec
  vel : Proc N → ℕ → Vec
  force : Proc N → ℕ → Vec
  /-- `snapshot_` -/
  snap : Proc N → ℕ → Vec

open Classical in
/-- The slot that a pointer points to. -/
noncomputable def slot (atoms : List (Atom (Dat ι))) (a : Atom (Dat ι)) : ℕ := atoms.idxOf a

/-- Id of a local atom. -/
def Run.localId (s : Run N ι) (p : Proc N) (k : ℕ) : Option ι :=
  if k < s.nloc p then (s.gs.atoms p)[k]?.map fun a => a.data.1 else none

/-! ## Forces -/

/-- Force of a pair (PairPotentialImpl.h:568-577, 652-657): `w` is the separation. -/
noncomputable def Env.pairForce (y : Env ι) (i j : ι) (w : Vec) : Vec :=
  open Classical in
  if normSq w < y.cutSq i j then y.forceOverR (normSq w) i j • w else 0

open Classical in
/-- Body of the loops of `computeForcesList` (PairPotentialImpl.h:562-581 with and 645-661 without
reverse communication). `nl` is the number of local atoms. -/
noncomputable def Env.addPair (y : Env ι) (atoms : List (Atom (Dat ι))) (nl : ℕ) (X : ℕ → Vec) (F : ℕ → Vec)
    (e : Atom (Dat ι) × Atom (Dat ι)) : ℕ → Vec :=
  let f := X (slot atoms e.1) - X (slot atoms e.2)
  let rsq := normSq f
  if rsq < y.cutSq e.1.data.1 e.2.data.1 then
    let f := y.forceOverR rsq e.1.data.1 e.2.data.1 • f
    let F := Function.update F (slot atoms e.1) (F (slot atoms e.1) + f)
    if y.reverse = true ∨ slot atoms e.2 < nl then
      Function.update F (slot atoms e.2) (F (slot atoms e.2) - f)
    else F
  else F

/-- `zeroForces` (AtomStorage.cpp:150-180): forces of ghosts are zeroed if they are used. -/
def Env.zeroForces (y : Env ι) (s : Run N ι) (p : Proc N) (k : ℕ) : Vec :=
  if k < s.nloc p ∨ y.reverse = true then 0 else s.force p k

/-- `computeForces` (Integrator.cpp:142-186; Simulation.cpp:1551-1580). -/
noncomputable def Env.computeForces (y : Env ι) (s : Run N ι) : Run N ι :=
  let F := fun p => (s.pairs p).foldl (y.addPair (s.gs.atoms p) (s.nloc p) (s.pos p)) (y.zeroForces s p)
  { s with force := if y.reverse then reverseUpdate s.gs F else F }

/-! ## Exchange and update -/

/-- Exchange of atoms and ghosts from generalized coordinates, transformation to Cartesian
coordinates, snapshot, and lists `P` (TwoStepIntegrator.cpp:139-167; Integrator.cpp:122-128). Forces
that atoms have before the next calculation are not used. -/
noncomputable def Env.exchanged (y : Env ι) (G : Proc N → Local (Dat ι)) (P : Proc N → List (Atom (Dat ι) × Atom (Dat ι))) :
    Run N ι :=
  let gs := exchange y.slab G
  let pos := fun p k => ((gs.atoms p)[k]?.map fun a => y.cart a.pos).getD 0
  { gs := gs
    nloc := fun p => (exchangeAtoms y.slab G p).atoms.length
    pairs := P
    pos := pos
    vel := fun p k => ((gs.atoms p)[k]?.map fun a => a.data.2).getD 0
    force := fun _ _ => 0
    snap := pos }

/-- `buildCellList` and `buildPairList` succeed on all processors and produce the lists `P`
(PairPotential.cpp:190-285). -/
def Env.Built (y : Env ι) (G : Proc N → Local (Dat ι)) (P : Proc N → List (Atom (Dat ι) × Atom (Dat ι))) : Prop :=
  ∀ p, Lists y.L y.cart (fun i => bound p i 0) (fun i => bound p i 1) y.cutoff y.n y.reverse Atom.pos
    (fun a b => y.masked a.data.1 b.data.1) ((exchange y.slab G).atoms p) (P p)

/-- Local atoms in generalized coordinates (AtomStorage.cpp:456-468): input of the exchange. -/
noncomputable def Env.gathered (y : Env ι) (s : Run N ι) : Proc N → Local (Dat ι) := fun p =>
  { atoms := ((s.gs.atoms p).take (s.nloc p)).mapIdx fun k a => ⟨(a.data.1, s.vel p k), y.gen (s.pos p k), a.plan⟩
    send := fun _ => [] }

/-- Update of ghosts (TwoStepIntegrator.cpp:177). -/
def Env.updated (y : Env ι) (s : Run N ι) : Run N ι := { s with pos := update y.lat s.gs s.pos }

open Classical in
/-- `maxSqDisplacement` (AtomStorage.cpp:403-425). -/
noncomputable def Run.maxSqDisp (s : Run N ι) (p : Proc N) : ℝ :=
  (List.range (s.nloc p)).foldl (fun m k => if normSq (s.pos p k - s.snap p k) > m then
    normSq (s.pos p k - s.snap p k) else m) 0

/-- `isExchangeNeeded` (Integrator.cpp:236-262). -/
def Env.Needed (y : Env ι) (s : Run N ι) : Prop := ∃ p, Real.sqrt (s.maxSqDisp p) > 0.5 * y.skin

/-! ## Integration -/

/-- `integrateStep1` (NveIntegrator.cpp:101-120). -/
noncomputable def Env.step1 (y : Env ι) (s : Run N ι) : Run N ι :=
  let vel := fun p k => match s.localId p k with
    | some i => s.vel p k + (0.5 * y.dt / y.mass i) • s.force p k
    | none => s.vel p k
  { s with
    vel := vel
    pos := fun p k => match s.localId p k with
      | some _ => s.pos p k + y.dt • vel p k
      | none => s.pos p k }

/-- `integrateStep2` (NveIntegrator.cpp:125-141). -/
noncomputable def Env.step2 (y : Env ι) (s : Run N ι) : Run N ι :=
  { s with vel := fun p k => match s.localId p k with
      | some i => s.vel p k + (0.5 * y.dt / y.mass i) • s.force p k
      | none => s.vel p k }

/-- One pass through the main loop (TwoStepIntegrator.cpp:79-236), if no exception is thrown. -/
inductive Step (y : Env ι) : Run N ι → Run N ι → Prop
  | exchange (s : Run N ι) (P) : y.Needed (y.step1 s) → y.Built (y.gathered (y.step1 s)) P →
      Step y s (y.step2 (y.computeForces (y.exchanged (y.gathered (y.step1 s)) P)))
  | update (s : Run N ι) : ¬ y.Needed (y.step1 s) → Step y s (y.step2 (y.computeForces (y.updated (y.step1 s))))

/-- `setup` (Integrator.cpp:117-137; NveIntegrator.cpp:77-96) from atoms in generalized coordinates. -/
def Setup (y : Env ι) (G : Proc N → Local (Dat ι)) (s : Run N ι) : Prop :=
  ∃ P, y.Built G P ∧ s = y.computeForces (y.exchanged G P)

/-- `run(n)`: the loop is entered from the state `s` and has made `n` passes. -/
inductive Runs (y : Env ι) (s : Run N ι) : ℕ → Run N ι → Prop
  | start : Runs y s 0 s
  | step {n : ℕ} {t u : Run N ι} : Runs y s n t → Step y t u → Runs y s (n + 1) u

end Verif.DdRun
