/-
Non-trivial instances of C80 and C81.
-/
import Verif.Schedule.Dd
import Mathlib.Tactic.NormNum

set_option autoImplicit false

namespace Verif.Schedule

open Verif.Cpp
open Verif.Cpp.Out

/-- Base interval 2, a restart file every 4 steps, one analyzer. -/
def pars : Pars := ⟨2, 4, 1⟩

theorem pars_good (k : ℕ) (hk : 0 < k) (h : k % 2 = 0) : Good pars k :=
  ⟨by decide, by decide, hk, h⟩

/-- C80_simulate: 5 steps, interval 2. -/
example : ∃ tr, simulate true pars 0 5 false = ok (5, tr) ∧
    see true 2 ⟨0, [(7, 7)]⟩ tr = ⟨5, [(0, 0), (2, 2), (4, 4)]⟩ :=
  C80_simulate true pars 2 0 5 (pars_good 2 (by decide) rfl) ⟨0, [(7, 7)]⟩ rfl

/-- C80_continue: a run to step 4 continued to 6 has step 4 twice. -/
example : ∃ tr, simulate false pars 4 6 true = ok (6, tr) ∧
    see true 2 ⟨4, [(0, 0), (2, 2), (4, 4)]⟩ tr =
      ⟨6, [(0, 0), (2, 2), (4, 4), (4, 4), (6, 6)]⟩ :=
  C80_continue false pars 2 4 6 (pars_good 2 (by decide) rfl) _ rfl (by decide)

/-- C80_restart: stopped after 6 passes; the file is of step 4, which an analyzer of interval 2 samples
twice. -/
example : ∃ tr s y tr', passes true pars 0 6 false = ok tr ∧ archive true 2 ⟨0, []⟩ tr = some (s, y) ∧
    simulate true pars s 6 true = ok (6, tr') ∧ s = 4 ∧
    see true 2 y tr' = ⟨6, [(0, 0), (2, 2), (4, 4), (4, 4), (6, 6)]⟩ := by
  obtain ⟨tr, s, y, tr', full, h1, h2, h3, _, h5, h6, _⟩ :=
    C80_restart true pars 2 5 6 (pars_good 2 (by decide) rfl) (by decide) ⟨0, []⟩ rfl (by decide)
  have hs : s = 4 := h5
  subst hs
  exact ⟨tr, 4, y, tr', h1, h2, h3, rfl, h6⟩

/-- C80_restart: an analyzer of interval 6 is the one of the uninterrupted run. -/
example : ∃ tr s y tr' full, passes true pars 0 6 false = ok tr ∧
    archive true 6 ⟨0, []⟩ tr = some (s, y) ∧
    simulate true pars s 12 true = ok (12, tr') ∧ simulate true pars 0 12 false = ok (12, full) ∧
    see true 6 y tr' = see true 6 ⟨0, []⟩ full := by
  obtain ⟨tr, s, y, tr', full, h1, h2, h3, h4, h5, _, h7⟩ :=
    C80_restart true pars 6 5 12 (pars_good 6 (by decide) rfl) (by decide) ⟨0, []⟩ rfl (by decide)
  have hs : s = 4 := h5
  subst hs
  exact ⟨tr, 4, y, tr', full, h1, h2, h3, h4, h7.2 (by decide)⟩

/-- C80_configs: files 1 to 5, interval 2. -/
example : ∃ tr, analyzeConfigs true ⟨1, 0, 1⟩ 1 5 = ok tr ∧ (see true 2 ⟨0, []⟩ tr).told = [2, 4] :=
  C80_configs true ⟨1, 0, 1⟩ 2 1 5 rfl (by decide) (by decide) (by decide) _

/-- C80_trajectory: frames 2 to 9 asked of a file of 6 frames; 4 frames are read and 5 reported. -/
example : ∃ tr, analyzeTrajectory false ⟨1, 0, 1⟩ 2 9 6 = ok (tr, 5) ∧
    (see true 2 ⟨0, []⟩ tr).told = [2, 4] :=
  C80_trajectory false ⟨1, 0, 1⟩ 2 2 9 6 rfl (by decide) (by decide) (by decide) _

/-- C80_dd_archive, C80_dd_restart: a run from 0 stopped after 6 passes. -/
example (need : ℕ → Bool) (h : need = fun _ => true) :
    archive false 2 ⟨0, []⟩ (ddPasses pars need 0 6) = some (4, ⟨4, [(0, 0), (2, 2), (4, 4)]⟩) := by
  subst h; rfl

/-- C80_dd_split: two runs of 3 steps, interval 2, give the samples of one of 6. -/
example (need : ℕ → Bool) :
    see false 2 (see false 2 ⟨0, []⟩ (ddRun pars need 0 3)) (ddRun pars need (0 + 3) 3) =
      see false 2 ⟨0, []⟩ (ddRun pars need 0 (3 + 3)) :=
  (C80_dd_split pars need 2 0 3 3 (pars_good 2 (by decide) rfl) _ rfl).2 (by decide)

/-- A modifier called at the end of every third step. -/
def thermostat : Modifier := ⟨fun h => h = Hook.endOfStep, 3⟩

/-- C81_once: called in step 3, not in step 4. -/
example (p : Pars) (need : ℕ → Bool) :
    ((Manager.empty.readParameters [thermostat]).calls (ddRun p need 0 5)).count
        (0, Hook.endOfStep, 3) = 1 ∧
      ((Manager.empty.readParameters [thermostat]).calls (ddRun p need 0 5)).count
        (0, Hook.endOfStep, 4) = 0 :=
  ⟨C81_once Manager.empty [thermostat] p need 0 5 0 thermostat rfl Hook.endOfStep (by decide) rfl 3,
    C81_once Manager.empty [thermostat] p need 0 5 0 thermostat rfl Hook.endOfStep (by decide) rfl 4⟩

/-- C81_load_violated: the same modifier after a restart. -/
example (p : Pars) (need : ℕ → Bool) :
    ((Manager.empty.load [thermostat]).calls (ddRun p need 0 5)).count (0, Hook.endOfStep, 3) = 0 := by
  rw [C81_load_violated]; rfl

/-- C81_unused_violated: the functions for communication. -/
example (m : Manager) (p : Pars) (need : ℕ → Bool) (b n k i : ℕ) :
    (k, Hook.exchange, i) ∉ m.calls (ddRun p need b n) ∧
      (k, Hook.update, i) ∉ m.calls (ddRun p need b n) ∧
      (k, Hook.reverseUpdate, i) ∉ m.calls (ddRun p need b n) :=
  ⟨C81_unused_violated m p need b n _ (by decide) (by decide) (by decide) k i,
    C81_unused_violated m p need b n _ (by decide) (by decide) (by decide) k i,
    C81_unused_violated m p need b n _ (by decide) (by decide) (by decide) k i⟩

end Verif.Schedule
