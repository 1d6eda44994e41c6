/-
Choice of moves, their counters and their setup in a Monte Carlo simulation: `McMoveManager`, `McMove`,
the loop of `McSimulation::simulate`, `MdMove`, `DpdMove`, `HybridMdMove`.

Simplified: `Random::drawFrom` of util is given the contract that index `i` is returned with probability
`p i`; a move is a Markov kernel for its effect on the system, and a boolean for its acceptance.  Of an
integrator only the table of prefactors is kept, which is `none` until something assigns it.
-/
import Verif.Cpp.Outcome
import Mathlib.Probability.Kernel.Invariance
import Mathlib.Probability.Kernel.Composition.MeasureComp

set_option autoImplicit false

namespace Verif.McRun

open Verif.Cpp
open Verif.Cpp.Out
open MeasureTheory ProbabilityTheory
open scoped ENNReal

/-! ### Probabilities -/

/-- `totalProbability`, McMoveManager.cpp:47-52. -/
noncomputable def total (w : List ℝ) : ℝ := w.foldl (fun t p => t + p) 0

/-- `probabilities_` after `McMoveManager::readParameters`, McMoveManager.cpp:41-59, for the
probabilities `w` of the moves in the parameter file. -/
noncomputable def normalize (w : List ℝ) : List ℝ := w.map fun p => p / total w

/-- One step of the main loop, `mcMoveManager().chooseMove().move()`, McSimulation.cpp:542,
McMoveManager.cpp:92-97: probability of a set of states after the step. -/
noncomputable def stepMeasure {X : Type} [MeasurableSpace X] (p : List ℝ) (κ : ℕ → Kernel X X) (x : X) :
    Measure X :=
  ∑ i ∈ Finset.range p.length, ENNReal.ofReal (p.getD i 0) • κ i x

/-! ### Counters -/

/-- Counters of a move, McMove.h:165-168. -/
structure Counter where
  nAttempt : ℕ
  nAccept : ℕ

/-- `move()` of any move: `incrementNAttempt`, and `incrementNAccept` if it is accepted (AtomDisplaceMove,
RigidDisplaceMove, EndSwapMove, HybridMdMove, ..., HomopolymerSemiGrandMove). -/
def Counter.move (c : Counter) (accept : Bool) : Counter :=
  let c := { c with nAttempt := c.nAttempt + 1 }
  if accept then { c with nAccept := c.nAccept + 1 } else c

/-- The constructor of `McMove`, McMove.cpp:20-25, and `McMove::setup`, McMove.cpp:66-70. -/
def Counter.zero : Counter := ⟨0, 0⟩

/-- Counters of all moves after the steps of a run, McSimulation.cpp:521-563; a step is the index of the
move and its result. -/
def runCounters (c : ℕ → Counter) (steps : List (ℕ × Bool)) : ℕ → Counter :=
  steps.foldl (fun c s => fun i => if i = s.1 then (c i).move s.2 else c i) c

/-- `McSimulation::simulate`, McSimulation.cpp:499-563: neither branch of line 506 calls
`mcMoveManager().setup()`. -/
def simulate (_isContinuation : Bool) (c : ℕ → Counter) (steps : List (ℕ × Bool)) : ℕ → Counter :=
  runCounters c steps

/-- The rate written at the end of a run, McSimulation.cpp:625. -/
noncomputable def rate (c : Counter) : ℝ :=
  if c.nAttempt = 0 then 0 else (c.nAccept : ℝ) / c.nAttempt

/-! ### Setup of integrators -/

/-- Moves by what they do with an integrator. -/
inductive Kind where
  /-- no integrator -/
  | plain
  /-- `HybridMdMove`, `HybridNphMdMove`: `setup` of the integrator in each move, HybridMdMove.cpp:107,
  HybridNphMdMove.cpp:131 -/
  | hybrid (nStep : ℕ)
  /-- `DpdMove`: `setup` of the integrator in `DpdMove::setup`, DpdMove.cpp:77-78 -/
  | dpd (nStep : ℕ)
  /-- `MdMove`: nothing calls `setup` of the integrator, MdMove.cpp:77-104 -/
  | md (nStep : ℕ)

/-- A move, with the prefactor of the integrator. -/
structure Mover where
  kind : Kind
  prefactor : Option ℝ

/-- `NveVvIntegrator::setup`, NveVvIntegrator.cpp:71-79, `NvtDpdVvIntegrator::setup`,
NvtDpdVvIntegrator.cpp:143-155, for the value `f` of 0.5*dt/mass. -/
def Mover.setupIntegrator (m : Mover) (f : ℝ) : Mover := { m with prefactor := some f }

/-- `step` of an integrator reads the prefactor, NveVvIntegrator.cpp:115, NvtDpdVvIntegrator.cpp:270. -/
def Mover.stepIntegrator (m : Mover) : Out Mover :=
  match m.prefactor with
  | none => ub
  | some _ => ok m

/-- `nStep` steps, MdMove.cpp:89-91, DpdMove.cpp:95-97, HybridMdMove.cpp:114-116. -/
def Mover.steps (m : Mover) (nStep : ℕ) : Out Mover :=
  loop (fun m _ => m.stepIntegrator) (List.range nStep) m

/-- `move()`: HybridMdMove.cpp:80-160, DpdMove.cpp:83-108, MdMove.cpp:77-104. -/
def Mover.move (f : ℝ) (m : Mover) : Out Mover :=
  match m.kind with
  | Kind.plain => ok m
  | Kind.hybrid n => (m.setupIntegrator f).steps n
  | Kind.dpd n => m.steps n
  | Kind.md n => m.steps n

/-- `setup()` of a move: DpdMove.cpp:77-78; the others have that of `McMove`. -/
def Mover.setup (f : ℝ) (m : Mover) : Mover :=
  match m.kind with
  | Kind.dpd _ => m.setupIntegrator f
  | _ => m

/-- `McMoveManager::setup`, McMoveManager.cpp:82-87; no function calls it. -/
def managerSetup (f : ℝ) (ms : ℕ → Mover) : ℕ → Mover := fun i => (ms i).setup f

/-- The main loop, McSimulation.cpp:521-563, for the indices of the moves that are drawn. -/
def runMoves (f : ℝ) (ms : ℕ → Mover) (draws : List ℕ) : Out (ℕ → Mover) :=
  loop (fun ms i => do
    let m ← (ms i).move f
    ok (fun k => if k = i then m else ms k)) draws ms

end Verif.McRun
