/-
The algorithm that the integrator at constant pressure follows, in scaled coordinates:
every substep changes one of the variables by a function of the others.
-/
import Verif.Nph.Model
import Verif.Integrate.Pairs
import Verif.Integrate.Volume
import Mathlib.MeasureTheory.Constructions.Pi

set_option autoImplicit false

namespace Verif.Nph

open Verif.Boundary Verif.Integrate

/-! ### The algorithm -/

variable {ι : Type}

/-- A point of the extended phase space: coordinates `q` of the cell and their momenta
`η`; positions `s` in units of the lengths of the cell, and `u`, the velocities times
the lengths of the cell. -/
abbrev Pt (ι : Type) := (Vec × Vec) × ((ι → Vec) × (ι → Vec))

/-- A system: masses, lengths of the cell as functions of its coordinates, inverse masses
of these, forces as functions of lengths and positions, and forces on the coordinates
of the cell as functions of its lengths, positions and velocities. -/
structure Dyn (ι : Type) where
  m : ι → ℝ
  len : Vec → Vec
  c : Vec
  F : Vec → (ι → Vec) → ι → Vec
  G : Vec → (ι → Vec) → (ι → Vec) → Vec

/-- Positions. -/
def place (L : Vec) (s : ι → Vec) : ι → Vec := fun i a => L a * s i a

/-- Velocities. -/
noncomputable def speed (L : Vec) (u : ι → Vec) : ι → Vec := fun i a => u i a / L a

/-- The force on the coordinates of the cell. -/
noncomputable def Dyn.push (y : Dyn ι) (h : ℝ) (z : Pt ι) : Pt ι :=
  ((z.1.1, fun a => z.1.2 a +
    h * y.G (y.len z.1.1) (place (y.len z.1.1) z.2.1) (speed (y.len z.1.1) z.2.2) a), z.2)

/-- The forces on atoms. -/
noncomputable def Dyn.kick (y : Dyn ι) (h : ℝ) (z : Pt ι) : Pt ι :=
  (z.1, (z.2.1, fun i a => z.2.2 i a +
    h / y.m i * (y.len z.1.1 a * y.F (y.len z.1.1) (place (y.len z.1.1) z.2.1) i a)))

/-- Motion of the cell. -/
def Dyn.grow (y : Dyn ι) (h : ℝ) (z : Pt ι) : Pt ι :=
  ((fun a => z.1.1 a + h * (y.c a * z.1.2 a), z.1.2), z.2)

/-- Motion of the atoms in the cell. -/
noncomputable def Dyn.move (y : Dyn ι) (h : ℝ) (z : Pt ι) : Pt ι :=
  (z.1, (fun i a => z.2.1 i a + h * (z.2.2 i a / (y.len z.1.1 a * y.len z.1.1 a)), z.2.2))

/-- The first half of a step, before the atoms move. -/
noncomputable def Dyn.half (y : Dyn ι) (dt : ℝ) (z : Pt ι) : Pt ι :=
  y.grow (dt / 2) (y.kick (dt / 2) (y.push (dt / 2) z))

/-- One step. -/
noncomputable def Dyn.step (y : Dyn ι) (dt : ℝ) (z : Pt ι) : Pt ι :=
  y.push (dt / 2) (y.kick (dt / 2) (y.grow (dt / 2) (y.move dt (y.half dt z))))

/-- Reversal of all velocities. -/
def turn (z : Pt ι) : Pt ι := ((z.1.1, fun a => -z.1.2 a), (z.2.1, fun i a => -z.2.2 i a))

/-- The stress does not change if all velocities are reversed. -/
def Dyn.Even (y : Dyn ι) : Prop := ∀ L p v, y.G L p (fun i a => -v i a) = y.G L p v

theorem turn_turn (z : Pt ι) : turn (turn z) = z := by simp [turn]

theorem speed_neg (L : Vec) (u : ι → Vec) :
    speed L (fun i a => -u i a) = fun i a => -speed L u i a := by
  funext i a
  simp [speed, neg_div]

variable {y : Dyn ι}

theorem push_turn (hy : y.Even) (h : ℝ) (z : Pt ι) : y.push h (turn (y.push h z)) = turn z := by
  unfold Dyn.push turn
  simp only [speed_neg, hy _ _ _]
  refine Prod.ext (Prod.ext rfl ?_) rfl
  funext a
  dsimp only
  ring

theorem kick_turn (h : ℝ) (z : Pt ι) : y.kick h (turn (y.kick h z)) = turn z := by
  unfold Dyn.kick turn
  refine Prod.ext rfl (Prod.ext rfl ?_)
  funext i a
  dsimp only
  ring

theorem grow_turn (h : ℝ) (z : Pt ι) : y.grow h (turn (y.grow h z)) = turn z := by
  unfold Dyn.grow turn
  refine Prod.ext (Prod.ext ?_ rfl) rfl
  funext a
  dsimp only
  ring

theorem move_turn (h : ℝ) (z : Pt ι) : y.move h (turn (y.move h z)) = turn z := by
  unfold Dyn.move turn
  refine Prod.ext rfl (Prod.ext ?_ rfl)
  funext i a
  dsimp only
  ring

/-- The algorithm is reversible. -/
theorem step_turn (hy : y.Even) (dt : ℝ) (z : Pt ι) :
    y.step dt (turn (y.step dt z)) = turn z := by
  unfold Dyn.step Dyn.half
  rw [push_turn hy, kick_turn, grow_turn, move_turn, grow_turn, kick_turn, push_turn hy]

theorem iterate_turn (hy : y.Even) (dt : ℝ) (n : ℕ) (z : Pt ι) :
    (y.step dt)^[n] (turn ((y.step dt)^[n] z)) = turn z :=
  iterate_flip (step_turn hy dt) n z

/-! ### The three modes -/

/-- The coordinates of the cell: its lengths; length and width; or the volume. -/
def Mode.coord : Mode → Vec → Vec
  | .orthorhombic, L => L
  | .tetragonal, L => ![L 0, L 1, 0]
  | .cubic, L => ![vol L, 0, 0]

/-- The lengths as functions of the coordinates. -/
noncomputable def Mode.len : Mode → Vec → Vec
  | .orthorhombic, q => q
  | .tetragonal, q => ![q 0, q 1, q 1]
  | .cubic, q => fun _ => q 0 ^ (1 / 3 : ℝ)

/-- The inverse masses of the coordinates. -/
noncomputable def Mode.c : Mode → ℝ → Vec
  | .orthorhombic, W => fun _ => 1 / W
  | .tetragonal, W => ![1 / W, 1 / (2 * W), 0]
  | .cubic, W => ![1 / W, 0, 0]

/-- Coordinates of cells of positive size. -/
def Mode.Pos : Mode → Vec → Prop
  | .orthorhombic, q => ∀ a, 0 < q a
  | .tetragonal, q => 0 < q 0 ∧ 0 < q 1
  | .cubic, q => 0 < q 0

/-- Cells of the shape of the mode. -/
def Mode.Shape : Mode → Vec → Prop
  | .orthorhombic, _ => True
  | .tetragonal, L => L 2 = L 1
  | .cubic, L => L 1 = L 0 ∧ L 2 = L 0

/-- Kinetic part of the stress. -/
noncomputable def kin [Fintype ι] (m : ι → ℝ) (L : Vec) (v : ι → Vec) : Vec := fun a =>
  (∑ i, m i * v i a ^ 2) / vol L

/-- The force on the coordinates, for the excess `p` of the stress over the pressure. -/
noncomputable def Mode.force : Mode → Vec → Vec → Vec
  | .orthorhombic, L, p => fun a => vol L / L a * p a
  | .tetragonal, L, p => ![vol L / L 0 * p 0, vol L / L 1 * (p 1 + p 2), 0]
  | .cubic, _, p => ![(p 0 + p 1 + p 2) / 3, 0, 0]

/-- The system with forces `F` and virial stress `S`, at external pressure `extP`. -/
noncomputable def dyn [Fintype ι] (mode : Mode) (W extP : ℝ) (m : ι → ℝ)
    (F : Vec → (ι → Vec) → ι → Vec) (S : Vec → (ι → Vec) → Vec) : Dyn ι where
  m := m
  len := mode.len
  c := mode.c W
  F := F
  G L p v := mode.force L fun a => S L p a + kin m L v a - extP

theorem dyn_even [Fintype ι] (mode : Mode) (W extP : ℝ) (m : ι → ℝ)
    (F : Vec → (ι → Vec) → ι → Vec) (S : Vec → (ι → Vec) → Vec) :
    (dyn mode W extP m F S).Even := by
  intro L p v
  unfold dyn kin
  simp only [neg_sq]

theorem Mode.len_pos {mode : Mode} {q : Vec} (h : mode.Pos q) (a : Fin 3) : 0 < mode.len q a := by
  cases mode with
  | orthorhombic => exact h a
  | tetragonal => fin_cases a <;> simp [Mode.len, h.1, h.2]
  | cubic => exact Real.rpow_pos_of_pos h _

theorem vol_const (x : ℝ) : vol (fun _ => x) = x ^ 3 := by unfold vol; ring

theorem Mode.len_coord {mode : Mode} {L : Vec} (hs : mode.Shape L) (hp : ∀ a, 0 < L a) :
    mode.len (mode.coord L) = L := by
  cases mode with
  | orthorhombic => rfl
  | tetragonal =>
    funext a
    have : L 2 = L 1 := hs
    fin_cases a <;> simp [Mode.len, Mode.coord, this]
  | cubic =>
    obtain ⟨h1, h2⟩ := hs
    have h0 : vol L = L 0 ^ 3 := by unfold vol; rw [h1, h2]; ring
    funext a
    have : ((L 0 ^ 3 : ℝ)) ^ (1 / 3 : ℝ) = L 0 := by
      rw [← Real.rpow_natCast, ← Real.rpow_mul (hp 0).le]
      norm_num
    have ha : L a = L 0 := by fin_cases a <;> simp [h1, h2]
    simp only [Mode.len, Mode.coord, Matrix.cons_val_zero]
    rw [h0, this, ha]

theorem Mode.pos_coord {mode : Mode} {L : Vec} (hp : ∀ a, 0 < L a) : mode.Pos (mode.coord L) := by
  cases mode with
  | orthorhombic => exact hp
  | tetragonal => exact ⟨hp 0, hp 1⟩
  | cubic =>
    have := mul_pos (mul_pos (hp 0) (hp 1)) (hp 2)
    simpa [Mode.Pos, Mode.coord, vol] using this

theorem Mode.shape_len (mode : Mode) (q : Vec) : mode.Shape (mode.len q) := by
  cases mode <;> simp [Mode.Shape, Mode.len]

/-- The volume in cubic mode is the coordinate. -/
theorem vol_len_cubic {q : Vec} (h : 0 < q 0) : vol (Mode.cubic.len q) = q 0 := by
  simp only [Mode.len]
  rw [vol_const, ← Real.rpow_natCast, ← Real.rpow_mul h.le]
  norm_num

end Verif.Nph
