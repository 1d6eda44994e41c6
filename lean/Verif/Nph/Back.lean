/-
The same trajectory backwards.
-/
import Verif.Nph.Refine

set_option autoImplicit false

namespace Verif.Nph

open Verif.Boundary Verif.Integrate

variable {ι : Type}

/-- After a step the atoms can also move backwards. -/
def Back (adm : Vec → (ι → Vec) → (ι → Vec) → Vec → Prop) (y : Dyn ι) (dt : ℝ) (z : Pt ι) : Prop :=
  adm (y.len (y.step dt z).1.1) (place (y.len (y.step dt z).1.1) (y.step dt z).2.1)
    (y.shift dt (turn (y.step dt z))) (y.len z.1.1)

/-- This holds in all of `n` steps. -/
def BackRun (adm : Vec → (ι → Vec) → (ι → Vec) → Vec → Prop) (y : Dyn ι) (dt : ℝ)
    (n : ℕ) (z : Pt ι) : Prop := ∀ k < n, Back adm y dt ((y.step dt)^[k] z)

variable {y : Dyn ι} {mode : Mode} {adm : Vec → (ι → Vec) → (ι → Vec) → Vec → Prop} {dt : ℝ}

theorem half_turn (hy : y.Even) (dt : ℝ) (z : Pt ι) :
    y.half dt (turn (y.step dt z)) = turn (y.move dt (y.half dt z)) := by
  unfold Dyn.step
  conv_lhs => unfold Dyn.half
  rw [push_turn hy, kick_turn, grow_turn]
  rfl

theorem Good.back (hy : y.Even) {z : Pt ι} (hz : mode.Pos z.1.1) (h : Good mode adm y dt z)
    (hb : Back adm y dt z) : Good mode adm y dt (turn (y.step dt z)) where
  half := by
    rw [half_turn hy]
    exact h.half
  whole := by
    rw [step_turn hy]
    exact hz
  adm := by
    rw [step_turn hy]
    exact hb

theorem iterate_back (hy : y.Even) (n k : ℕ) (hk : k ≤ n) (z : Pt ι) :
    (y.step dt)^[k] (turn ((y.step dt)^[n] z)) = turn ((y.step dt)^[n - k] z) := by
  have : (y.step dt)^[n] z = (y.step dt)^[k] ((y.step dt)^[n - k] z) := by
    rw [← Function.iterate_add_apply]
    congr 1
    omega
  rw [this, iterate_turn hy]

/-- If the program can make `n` steps, it can make them backwards. -/
theorem GoodRun.back (hy : y.Even) {n : ℕ} {z : Pt ι} (hz : mode.Pos z.1.1)
    (h : GoodRun mode adm y dt n z) (hb : BackRun adm y dt n z) :
    GoodRun mode adm y dt n (turn ((y.step dt)^[n] z)) := by
  intro k hk
  rw [iterate_back hy n k hk.le]
  have e : n - k = (n - k - 1) + 1 := by omega
  rw [e, Function.iterate_succ_apply']
  refine (h _ (by omega)).back hy ?_ (hb _ (by omega))
  cases hj : n - k - 1 with
  | zero => exact hz
  | succ j =>
    rw [Function.iterate_succ_apply']
    exact (h j (by omega)).whole

end Verif.Nph
