/-
Main loops and what is called in them: `McSimulation::simulate`, `MdSimulation::simulate`,
`analyzeConfigs` and `analyzeTrajectory` of both, `TwoStepIntegrator::run` of ddMd, the analyzer
managers, and `ModifierManager` of ddMd.

The model of a run is the list of the events in it.  Simplified: intervals and steps are natural
numbers (readers of analyzers reject a negative base interval); files, timers and signals are left
out.  An analyzer is what it has sampled since it was last cleared.
-/
import Verif.Cpp.Outcome
import Mathlib.Data.List.Basic
import Mathlib.Data.List.Range
import Mathlib.Data.Nat.Basic
import Mathlib.Tactic.Linarith

set_option autoImplicit false

namespace Verif.Schedule

open Verif.Cpp
open Verif.Cpp.Out

/-- Flags of modifiers, ddMd/modifiers/Modifier.cpp:15-29. -/
inductive Hook
  | setup | preIntegrate1 | postIntegrate1 | preTransform | preExchange | postExchange
  | postNeighbor | preUpdate | postUpdate | preForce | postForce | endOfStep
  | exchange | update | reverseUpdate
  deriving DecidableEq

/-- Events of a run. -/
inductive Ev
  /-- `AnalyzerManager::setup` -/
  | setup
  /-- `sample(iStep)` of all analyzers -/
  | sample (i : ℕ)
  /-- `save(saveFileName_)` -/
  | save (i : ℕ)
  /-- one Monte Carlo move or step of the integrator -/
  | step (i : ℕ)
  /-- `AnalyzerManager::output` -/
  | output
  /-- function of `ModifierManager` called by the integrator -/
  | hook (h : Hook) (i : ℕ)

/-- `Analyzer::baseInterval`, `saveInterval_`, and the number of analyzers. -/
structure Pars where
  base : ℕ
  saveInt : ℕ
  size : ℕ

/-- `AnalyzerManager::sample` of mcMd, mcMd/analyzers/AnalyzerManager.cpp:55-62. -/
def managerSample (p : Pars) (i : ℕ) : Out (List Ev) := do
  check (p.base > 0)
  check (i % p.base = 0)
  ok [Ev.sample i]

/-- Call of analyzers in the loop, McSimulation.cpp:524-532 (with `mc`), MdSimulation.cpp:472-477, and
after the loop, McSimulation.cpp:569-577, MdSimulation.cpp:496-500. -/
def sampleIf (mc : Bool) (p : Pars) (i : ℕ) : Out (List Ev) :=
  if p.base > 0 then
    if i % p.base = 0 then
      if mc then (if p.size > 0 then managerSample p i else ok [])
      else managerSample p i
    else ok []
  else ok []

/-- Restart file, McSimulation.cpp:535-539,580-584, MdSimulation.cpp:479-483,501-505. -/
def saveIf (p : Pars) (i : ℕ) : List Ev :=
  if p.saveInt > 0 then (if i % p.saveInt = 0 then [Ev.save i] else []) else []

/-- Body of the loop, McSimulation.cpp:521-563, MdSimulation.cpp:469-487. -/
def body (mc : Bool) (p : Pars) (tr : List Ev) (i : ℕ) : Out (List Ev) := do
  let s ← sampleIf mc p i
  ok (tr ++ (s ++ saveIf p i ++ [Ev.step i]))

/-- The beginning of `simulate` and the first `n` passes of the loop, McSimulation.cpp:506-563,
MdSimulation.cpp:441-487. -/
def passes (mc : Bool) (p : Pars) (iStep n : ℕ) (cont : Bool) : Out (List Ev) :=
  if cont then loop (body mc p) (List.range' iStep n) []
  else loop (body mc p) (List.range' 0 n) [Ev.setup]

/-- `simulate`, McSimulation.cpp:499-592, MdSimulation.cpp:437-508; the result is `iStep_` and the
events. -/
def simulate (mc : Bool) (p : Pars) (iStep endStep : ℕ) (cont : Bool) : Out (ℕ × List Ev) := do
  let begin' := if cont then iStep else 0
  let tr ← passes mc p iStep (endStep - begin') cont
  let last := max begin' endStep
  let s ← sampleIf mc p last
  ok (last, tr ++ s ++ saveIf p last ++ [Ev.output])

/-- `analyzeConfigs`, McSimulation.cpp:655-703 (with `mc`), MdSimulation.cpp:549-603. -/
def analyzeConfigs (mc : Bool) (p : Pars) (min max : ℕ) : Out (List Ev) := do
  check (mc = true → min > 0)
  check (max > min)
  check (p.base > 0)
  check (p.size > 0)
  let tr ← loop (fun tr i => do
    let s ← managerSample p i
    ok (tr ++ ((if i = min then [Ev.setup] else []) ++ s))) (List.range' min (max + 1 - min)) []
  ok (tr ++ [Ev.output])

/-- State of the loop of `analyzeTrajectory`: events, `iStep_` and `hasFrame`. -/
structure Frames where
  tr : List Ev
  iStep : ℕ
  hasFrame : Bool

/-- Loop of `analyzeTrajectory` for a file of `frames` frames, at most `fuel` passes,
McSimulation.cpp:753-768, MdSimulation.cpp:648-663. -/
def frameLoop (p : Pars) (min max frames : ℕ) : ℕ → Frames → Out Frames
  | 0, x => ok x
  | fuel + 1, x =>
    if x.iStep ≤ max ∧ x.hasFrame = true then
      if x.iStep < frames then do
        let s ← if x.iStep ≥ min then managerSample p x.iStep else ok []
        frameLoop p min max frames fuel
          ⟨x.tr ++ ((if x.iStep = min then [Ev.setup] else []) ++ s), x.iStep + 1, true⟩
      else frameLoop p min max frames fuel ⟨x.tr, x.iStep + 1, false⟩
    else ok x

/-- `analyzeTrajectory`, McSimulation.cpp:726-784, MdSimulation.cpp:619-681: the events and the number
of frames that is written. -/
def analyzeTrajectory (mc : Bool) (p : Pars) (min max frames : ℕ) : Out (List Ev × ℕ) := do
  check (if mc then min ≤ max else min < max ∧ p.base > 0 ∧ p.size > 0)
  let x ← frameLoop p min max frames (max + 2) ⟨[], 0, true⟩
  ok (x.tr ++ [Ev.output], x.iStep - min)

/-! ### ddMd -/

/-- Functions of the modifier manager in one step, TwoStepIntegrator.cpp:101-241. -/
def stepHooks (need : Bool) : List Hook :=
  [Hook.preIntegrate1, Hook.postIntegrate1] ++
    (if need then [Hook.preTransform, Hook.preExchange, Hook.postExchange, Hook.postNeighbor]
      else [Hook.preUpdate, Hook.postUpdate]) ++
    [Hook.preForce, Hook.postForce, Hook.endOfStep]

/-- `AnalyzerManager::sample` of ddMd, ddMd/analyzers/AnalyzerManager.cpp:82-94; the check of the
interval of each analyzer is in `Ev.apply`. -/
def ddSample (p : Pars) (i : ℕ) : List Ev :=
  if p.base > 0 then (if i % p.base = 0 then [Ev.sample i] else []) else []

/-- Body of the loop, TwoStepIntegrator.cpp:81-243; `need` is the result of `isExchangeNeeded`. -/
def ddBody (p : Pars) (need : ℕ → Bool) (beginStep i : ℕ) : List Ev :=
  ddSample p i ++
    (if p.saveInt > 0 then (if i % p.saveInt = 0 then (if i > beginStep then [Ev.save i] else [])
      else []) else []) ++
    (stepHooks (need i)).map (fun h => Ev.hook h i) ++ [Ev.step i]

/-- The beginning of `run` and the first `n` passes, TwoStepIntegrator.cpp:69-243. -/
def ddPasses (p : Pars) (need : ℕ → Bool) (iStep n : ℕ) : List Ev :=
  [Ev.hook Hook.setup iStep, Ev.setup] ++ (List.range' iStep n).flatMap (ddBody p need iStep)

/-- `TwoStepIntegrator::run`, TwoStepIntegrator.cpp:46-262. -/
def ddRun (p : Pars) (need : ℕ → Bool) (iStep n : ℕ) : List Ev :=
  ddPasses p need iStep n ++ ddSample p (iStep + n) ++ saveIf p (iStep + n)

/-- A modifier: its flags and interval, Modifier.h. -/
structure Modifier where
  flag : Hook → Bool
  interval : ℕ

/-- Lists of modifiers per flag (as indices). -/
structure Manager where
  mods : List Modifier
  lists : Hook → List ℕ

/-- Constructor, ModifierManager.cpp:40-59. -/
def Manager.empty : Manager := ⟨[], fun _ => []⟩

/-- `ModifierManager::readParameters`, ModifierManager.cpp:71-125. -/
def Manager.readParameters (_ : Manager) (ms : List Modifier) : Manager :=
  (List.range ms.length).foldl (fun m i =>
    { m with lists := fun h =>
        if (ms[i]?.map (fun x => x.flag h)).getD false then m.lists h ++ [i] else m.lists h })
    ⟨ms, fun _ => []⟩

/-- Loading from an archive: `Manager::loadParameters`, which `ModifierManager` (ModifierManager.h:32-64)
inherits. -/
def Manager.load (m : Manager) (ms : List Modifier) : Manager := { m with mods := ms }

/-- Call of one function of the manager, ModifierManager.cpp:129-276: indices of the modifiers called.
`setup` does not look at the interval. -/
def Manager.call (m : Manager) (h : Hook) (i : ℕ) : List ℕ :=
  if h = Hook.setup then m.lists h
  else (m.lists h).filter (fun k => (m.mods[k]?.map (fun x => i % x.interval == 0)).getD false)

/-- Calls of modifiers by the events of a run: modifier, function and step. -/
def Manager.calls (m : Manager) (tr : List Ev) : List (ℕ × Hook × ℕ) :=
  tr.flatMap (fun e => match e with
    | Ev.hook h i => (m.call h i).map (fun k => (k, h, i))
    | _ => [])

/-! ### What an analyzer has seen -/

/-- An analyzer: number of steps done and the samples taken, each with the step it was told and the
number of steps done before.  `sample` is used at the interval of the analyzer (`isAtInterval`,
Analyzer.h:240-241); `setup` clears if `clears` (analyzers of mcMd; those of ddMd do not). -/
structure Seen where
  steps : ℕ
  samples : List (ℕ × ℕ)

/-- Effect of an event. -/
def Ev.apply (clears : Bool) (interval : ℕ) (x : Seen) : Ev → Seen
  | Ev.setup => if clears then { x with samples := [] } else x
  | Ev.sample i => if i % interval = 0 then { x with samples := x.samples ++ [(i, x.steps)] } else x
  | Ev.step _ => { x with steps := x.steps + 1 }
  | _ => x

/-- Effect of the events of a run. -/
def see (clears : Bool) (interval : ℕ) (x : Seen) (tr : List Ev) : Seen :=
  tr.foldl (Ev.apply clears interval) x

/-- The last restart file: the step and the analyzer in it. -/
def archive (clears : Bool) (interval : ℕ) (x : Seen) (tr : List Ev) : Option (ℕ × Seen) :=
  (tr.foldl (fun (y : Seen × Option (ℕ × Seen)) e =>
    (Ev.apply clears interval y.1 e, match e with
      | Ev.save i => some (i, y.1)
      | _ => y.2)) (x, none)).2

end Verif.Schedule
