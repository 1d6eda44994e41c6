/-
The hybrid MD/MC move at constant pressure: a short simulation in which the cell changes
is a trial move of a Monte Carlo simulation.

  src/mcMd/mcMoves/common/HybridNphMdMove.cpp
  src/mcMd/mdSimulation/MdSystem.cpp
-/
import Verif.Nph.Wrap
import Verif.Nph.Force
import Verif.Integrate.Gauss
import Verif.Integrate.Thermostat
import Verif.McMoves.Model

set_option autoImplicit false
set_option linter.dupNamespace false

namespace Verif.Nph

open Verif.Boundary Verif.Integrate
open Verif.McMoves (metropolis)

variable {ι : Type} [DecidableEq ι] {P : Type}

/-! ### Model -/

/-- Parameters of a move.  `energy L l p`: sum of the energies of all potentials, the
nonbonded part being summed over the pairs of the list `l`; `temp`: temperature of the
EnergyEnsemble, whose beta is `1/temp`.

Simplified: energies are computed in every call, see `Env`. -/
structure Move (ι P : Type) extends Env ι P where
  energy : Vec → P → (ι → Vec) → ℝ
  temp : ℝ
  nStep : ℕ

/-- State: the integrator, the cell and the atoms; the array of stored positions; the
counters of McMove. -/
structure MoveState (ι P : Type) where
  md : State ι P
  oldPositions : ι → Vec
  nAttempt : ℕ
  nAccept : ℕ

/-- MdSystem::setBoltzmannVelocities (MdSystem.cpp:797-820): `gs i j` is the deviate
returned by Random::gaussian for component `j` of atom `i`. -/
noncomputable def setVelocities (w : World ι P) (temp : ℝ) (gs : ι → Vec) (s : Sys ι P) : Sys ι P :=
  w.each (fun s i =>
    { s with vel := Function.update s.vel i fun j =>
        Real.sqrt (temp / w.mass (w.typ i)) * gs i j }) s

/-- Momenta of the cell are drawn (HybridNphMdMove.cpp:140-160); the mass of the barostat
and the mode are those of the integrator (lines 64-65); `ge`: deviates. -/
noncomputable def Nph.sampleEta (temp : ℝ) (g : Nph) (ge : Vec) : Nph :=
  match g.mode with
  | .cubic =>
    let sigma := Real.sqrt (temp / g.W)
    { g with eta := ![sigma * ge 0, g.eta 1, g.eta 2] }
  | .tetragonal =>
    let sigma1 := Real.sqrt (temp / g.W)
    let sigma2 := Real.sqrt (temp / g.W / 2.0)
    { g with eta := ![sigma1 * ge 0, sigma2 * ge 1, g.eta 2] }
  | .orthorhombic =>
    let sigma := Real.sqrt (temp / g.W)
    { g with eta := ![sigma * ge 0, sigma * ge 1, sigma * ge 2] }

/-- MdSystem::potentialEnergy (MdSystem.cpp:910-958); the pair list is checked first
(MdPairPotentialImpl.h:371-377). -/
noncomputable def Move.potentialEnergy (y : Move ι P) (x : State ι P) : ℝ × State ι P :=
  let s := refresh (y.world x.L) x.sys
  (y.energy x.L s.list s.pos, { x with sys := s })

/-- HybridNphMdMove::move (HybridNphMdMove.cpp:96-225), for any way `draw` to draw the momenta
of the cell.  `ge`, `gs`, `u`: deviates.  Simplified: of buildCellList only the motion of
atoms into the cell is represented (McPairPotential.cpp:41-58). -/
noncomputable def Move.run (y : Move ι P) (draw : Nph → Vec → Nph) (ge : Vec) (gs : ι → Vec) (u : ℝ)
    (x : MoveState ι P) : MoveState ι P × Bool :=
  let oldLengths := x.md.L
  let w := y.world x.md.L
  let old := w.each (fun q i => Function.update q i (x.md.sys.pos i)) x.oldPositions
  -- initialize the MdSystem
  let s := calculateForces w (buildPairList w x.md.sys)
  let s := setVelocities w y.temp gs s
  let g := draw (x.md.nph.setup y.toEnv x.md.L) ge
  -- old energy
  let r := y.potentialEnergy { nph := g, L := x.md.L, sys := s }
  let oldEnergy := r.1 + kineticEnergy w r.2.sys.vel + y.pressure * vol r.2.L +
    r.2.nph.barostatEnergy
  -- short simulation
  let md := (step y.toEnv)^[y.nStep] r.2
  -- new energy
  let r := y.potentialEnergy md
  let newEnergy := r.1 + kineticEnergy (y.world r.2.L) r.2.sys.vel + y.pressure * vol r.2.L +
    r.2.nph.barostatEnergy
  -- decision
  if metropolis (Real.exp (-(1 / y.temp) * (newEnergy - oldEnergy))) u then
    ({ md := { r.2 with sys := shiftAtoms (y.world r.2.L) r.2.sys }
       oldPositions := old, nAttempt := x.nAttempt + 1, nAccept := x.nAccept + 1 }, true)
  else
    let w := y.world oldLengths
    ({ md := { r.2 with
         L := oldLengths
         sys := { r.2.sys with pos := w.each (fun p i => Function.update p i (old i)) r.2.sys.pos } }
       oldPositions := old, nAttempt := x.nAttempt + 1, nAccept := x.nAccept }, false)

/-- HybridNphMdMove::move (HybridNphMdMove.cpp:96-225). -/
noncomputable def Move.move (y : Move ι P) (ge : Vec) (gs : ι → Vec) (u : ℝ) (x : MoveState ι P) :
    MoveState ι P × Bool :=
  y.run (Nph.sampleEta y.temp) ge gs u x

/-! ### Specification -/

/-- Momenta with standard deviations `σ`, for the coordinates of the cell that are used. -/
def Nph.draw (σ : Vec) (g : Nph) (ge : Vec) : Nph :=
  { g with eta := fun a => if g.mode.Used a then σ a * ge a else g.eta a }

/-- The standard deviations of the program. -/
noncomputable def Nph.sigma (g : Nph) (temp : ℝ) : Vec :=
  match g.mode with
  | .tetragonal => ![Real.sqrt (temp / g.W), Real.sqrt (temp / g.W / 2), 0]
  | _ => fun _ => Real.sqrt (temp / g.W)

theorem sampleEta_eq (temp : ℝ) (g : Nph) (ge : Vec) :
    g.sampleEta temp ge = g.draw (g.sigma temp) ge := by
  have h2 : (2.0 : ℝ) = 2 := by norm_num
  unfold Nph.sampleEta Nph.draw Nph.sigma
  rw [h2]
  cases g.mode with
  | orthorhombic =>
    dsimp only
    congr 1
    funext a
    fin_cases a <;> simp [Mode.Used]
  | tetragonal =>
    dsimp only
    congr 1
    funext a
    fin_cases a <;> simp [Mode.Used]
  | cubic =>
    dsimp only
    congr 1
    funext a
    fin_cases a <;> simp [Mode.Used]

section Loops

variable {w : World ι P}

theorem each_update_list {β : Type} (f : ι → β) (l : List ι) (q : ι → β) :
    l.foldl (fun q i => Function.update q i (f i)) q = fun i => if i ∈ l then f i else q i := by
  induction l generalizing q with
  | nil => simp
  | cons a l ih =>
    rw [List.foldl_cons, ih]
    funext i
    by_cases h : i ∈ l
    · simp [h]
    · by_cases ha : i = a
      · subst ha
        simp [h]
      · simp [h, ha]

theorem each_update {β : Type} (hw : w.Complete) (f : ι → β) (q : ι → β) :
    w.each (fun q i => Function.update q i (f i)) q = f := by
  unfold World.each
  rw [each_update_list]
  funext i
  simp [hw.all i]

theorem setVelocities_eq (hw : w.Complete) (temp : ℝ) (gs : ι → Vec) (s : Sys ι P) :
    setVelocities w temp gs s = { s with vel := velocities w.m temp gs } := by
  unfold setVelocities
  have h : ∀ (l : List ι) (s : Sys ι P), l.foldl (fun (s : Sys ι P) i =>
      { s with vel := Function.update s.vel i fun j =>
        Real.sqrt (temp / w.mass (w.typ i)) * gs i j }) s =
      { s with vel := l.foldl (fun q i => Function.update q i fun j =>
        Real.sqrt (temp / w.mass (w.typ i)) * gs i j) s.vel } := by
    intro l
    induction l with
    | nil => intro s; rfl
    | cons a l ih => intro s; rw [List.foldl_cons, ih, List.foldl_cons]
  unfold World.each
  rw [h]
  congr 1
  exact each_update hw (fun i j => Real.sqrt (temp / w.mass (w.typ i)) * gs i j) s.vel

end Loops

variable [Fintype ι]

/-- The environment computes the energy `U`. -/
structure Move.OK (y : Move ι P) (F : Vec → (ι → Vec) → ι → Vec) (S : Vec → (ι → Vec) → Vec)
    (U : Vec → (ι → Vec) → ℝ) (cell : Vec → Set (ι → Vec)) (ok : Vec → P → (ι → Vec) → Prop)
    (adm : Vec → (ι → Vec) → (ι → Vec) → Vec → Prop) : Prop
    extends Exact y.toEnv F S cell ok adm where
  energy : ∀ L l p, (∀ a, 0 < L a) → ok L l p → y.energy L l p = U L p
  energyPeriodic : ∀ L p q, (∀ a, 0 < L a) → Image (lattice L) p q → U L q = U L p
  inside : ∀ (L : Vec) q, (∀ a, 0 < L a) → q ∈ cell L → ∀ i a, q i a ∈ Set.Ico 0 (L a)
  temp : 0 < y.temp
  masses : ∀ i, 0 < y.m i

/-- Energy of a point: the quantity of the acceptance criterion. -/
noncomputable def Move.H (y : Move ι P) (g : Nph) (U : Vec → (ι → Vec) → ℝ) (z : Pt ι) : ℝ :=
  enthalpy g.mode g.W y.pressure y.m U z

/-- Scaled coordinates. -/
noncomputable def Mode.scaled (mode : Mode) (q η : Vec) (r v : ι → Vec) : Pt ι :=
  ((q, η), (speed (mode.len q) r, place (mode.len q) v))

omit [DecidableEq ι] [Fintype ι] in
theorem place_speed {L : Vec} (hL : ∀ a, 0 < L a) (r : ι → Vec) : place L (speed L r) = r := by
  funext i a
  have := (hL a).ne'
  simp only [place, speed]
  field_simp

omit [DecidableEq ι] [Fintype ι] in
theorem speed_place {L : Vec} (hL : ∀ a, 0 < L a) (r : ι → Vec) : speed L (place L r) = r := by
  funext i a
  have := (hL a).ne'
  simp only [place, speed]
  field_simp

variable {y : Move ι P} {F : Vec → (ι → Vec) → ι → Vec} {S : Vec → (ι → Vec) → Vec}
  {U : Vec → (ι → Vec) → ℝ} {cell : Vec → Set (ι → Vec)} {ok : Vec → P → (ι → Vec) → Prop}
  {adm : Vec → (ι → Vec) → (ι → Vec) → Vec → Prop} {g : Nph}

omit [DecidableEq ι] in
theorem kinetic_same (m : ι → ℝ) (v : ι → Vec) : Integrate.kinetic m v = Nph.kinetic m v := by
  unfold Integrate.kinetic Nph.kinetic Integrate.sq
  rw [Finset.sum_div]
  refine Finset.sum_congr rfl fun i _ => ?_
  rw [Fin.sum_univ_three]
  ring

/-- The energy computed by the program, and that the state remains. -/
theorem energy_rep (hy : y.OK F S U cell ok adm) {x : State ι P} {z : Pt ι}
    (h : Rep F ok y.toEnv g x z) :
    (y.potentialEnergy x).2 = x ∧ (y.potentialEnergy x).1 + kineticEnergy (y.world x.L) x.sys.vel +
      y.pressure * vol x.L + x.nph.barostatEnergy = y.H g U z := by
  have hL : ∀ a, 0 < x.L a := by rw [h.L]; exact Mode.len_pos h.cell
  have hw := hy.box x.L hL
  have hr : refresh (y.world x.L) x.sys = x.sys := refresh_ok hw h.list
  have h1 : y.potentialEnergy x = (U x.L (place x.L z.2.1), x) := by
    unfold Move.potentialEnergy
    simp only [hr]
    rw [hy.energy _ _ _ hL h.list, hy.energyPeriodic _ _ _ hL h.pos]
  rw [h1]
  refine ⟨rfl, ?_⟩
  have h2 : kineticEnergy (y.world x.L) x.sys.vel = Nph.kinetic y.m (speed x.L z.2.2) := by
    rw [Integrate.kineticEnergy_eq hw.toComplete, h.vel, ← kinetic_same]
    rfl
  rw [h2, barostatEnergy_eq, h.mode, h.W, h.eta]
  unfold Move.H enthalpy
  rw [h.L]

/-- Simulations, in one cell. -/
theorem steps_rep (hy : y.OK F S U cell ok adm) (n : ℕ) {x : State ι P} {z : Pt ι}
    (h : Rep F ok y.toEnv g x z)
    (hg : ∀ k < n, Good g.mode adm (y.dyn F S g) g.dt (((y.dyn F S g).stepIn fold g.dt)^[k] z)) :
    Rep F ok y.toEnv g ((step y.toEnv)^[n] x) (((y.dyn F S g).stepIn fold g.dt)^[n] z) := by
  induction n with
  | zero => exact h
  | succ n ih =>
    have h1 := ih fun k hk => hg k (by omega)
    have h2 := hg n (by omega)
    rw [Function.iterate_succ_apply', Function.iterate_succ_apply']
    exact (step_rep hy.toExact h1 h2).alike hy.toExact
      (step_alike hy.periodic_all _ h1.cell h2.whole ⟨rfl, rfl, by simp [(units ι).zero_mem]⟩)

/-- **What a move does**: it follows the algorithm from the point with the cell, the atoms,
and the momenta and velocities drawn; the trial is accepted according to the change of the
energy; a trial that is not accepted leaves cell and atoms as they were. -/
theorem run_eq (hy : y.OK F S U cell ok adm) {draw : Nph → Vec → Nph} {ge : Vec}
    (hd : ∀ g : Nph, (draw g ge).dt = g.dt ∧ (draw g ge).W = g.W ∧ (draw g ge).mode = g.mode ∧
      (draw g ge).pref = g.pref) (gs : ι → Vec) (u : ℝ) (x : MoveState ι P) {q : Vec}
    (hdt : x.md.nph.dt = g.dt) (hW : x.md.nph.W = g.W) (hm : x.md.nph.mode = g.mode)
    (hq : g.mode.Pos q) (hL : x.md.L = g.mode.len q)
    (hin : (fun i => y.shift x.md.L (x.md.sys.pos i)) ∈ cell x.md.L)
    {z : Pt ι} (hz : z = g.mode.scaled q (draw (x.md.nph.setup y.toEnv x.md.L) ge).eta x.md.sys.pos
      (velocities y.m y.temp gs))
    (hg : ∀ k < y.nStep, Good g.mode adm (y.dyn F S g) g.dt
      (((y.dyn F S g).stepIn fold g.dt)^[k] z)) :
    ∃ x', y.run draw ge gs u x =
        (x', metropolis (Real.exp (-(1 / y.temp) *
          (y.H g U (((y.dyn F S g).stepIn fold g.dt)^[y.nStep] z) - y.H g U z))) u) ∧
      x'.nAttempt = x.nAttempt + 1 ∧
      (metropolis (Real.exp (-(1 / y.temp) *
          (y.H g U (((y.dyn F S g).stepIn fold g.dt)^[y.nStep] z) - y.H g U z))) u = true →
        x'.md.L = g.mode.len (((y.dyn F S g).stepIn fold g.dt)^[y.nStep] z).1.1 ∧
        g.mode.Pos (((y.dyn F S g).stepIn fold g.dt)^[y.nStep] z).1.1 ∧
        Image (lattice x'.md.L)
          (place x'.md.L (((y.dyn F S g).stepIn fold g.dt)^[y.nStep] z).2.1) x'.md.sys.pos ∧
        x'.md.sys.pos ∈ cell x'.md.L ∧ x'.nAccept = x.nAccept + 1) ∧
      (metropolis (Real.exp (-(1 / y.temp) *
          (y.H g U (((y.dyn F S g).stepIn fold g.dt)^[y.nStep] z) - y.H g U z))) u = false →
        x'.md.L = x.md.L ∧ x'.md.sys.pos = x.md.sys.pos ∧ x'.nAccept = x.nAccept) := by
  have hpos : ∀ a, 0 < x.md.L a := by rw [hL]; exact Mode.len_pos hq
  have hw := hy.box x.md.L hpos
  set g0 := x.md.nph.setup y.toEnv x.md.L with hg0
  obtain ⟨d1, d2, d3, d4⟩ := hd g0
  -- the state at the start
  have hb : buildPairList (y.world x.md.L) x.md.sys =
      { x.md.sys with
        pos := fun i => y.shift x.md.L (x.md.sys.pos i)
        list := y.build x.md.L x.md.sys.list fun i => y.shift x.md.L (x.md.sys.pos i) } := by
    rw [buildPairList_eq hw.toComplete]
    rfl
  have hok : ok x.md.L (y.build x.md.L x.md.sys.list fun i => y.shift x.md.L (x.md.sys.pos i))
      (fun i => y.shift x.md.L (x.md.sys.pos i)) := hw.build _ _ hin
  have hf := calculateForces_ok hw (s := buildPairList (y.world x.md.L) x.md.sys) (by
    rw [hb]; exact hok)
  have himg : Image (lattice x.md.L) x.md.sys.pos (fun i => y.shift x.md.L (x.md.sys.pos i)) :=
    fun i => hw.shift _
  set s0 := setVelocities (y.world x.md.L) y.temp gs
    (calculateForces (y.world x.md.L) (buildPairList (y.world x.md.L) x.md.sys)) with hs0
  have es0 : s0 = { pos := fun i => y.shift x.md.L (x.md.sys.pos i)
                    vel := velocities y.m y.temp gs
                    force := F x.md.L fun i => y.shift x.md.L (x.md.sys.pos i)
                    list := y.build x.md.L x.md.sys.list
                      fun i => y.shift x.md.L (x.md.sys.pos i) } := by
    rw [hs0, setVelocities_eq hw.toComplete, hf, hb]
    rfl
  have hrep : Rep F ok y.toEnv g ⟨draw g0 ge, x.md.L, s0⟩ z := by
    have hzp : place x.md.L z.2.1 = x.md.sys.pos := by
      rw [hz, hL]
      exact place_speed (Mode.len_pos hq) _
    refine ⟨d1.trans hdt, d2.trans hW, d3.trans hm, ?_, ?_, ?_, ?_, ?_, ?_, ?_, ?_⟩
    · intro i
      have := prefactors_eq hw x.md.nph.dt x.md.nph.pref i
      change (draw g0 ge).pref (y.typ i) = (draw g0 ge).dt / 2 / y.m i
      rw [d4, d1]
      exact this
    · rw [hz]; rfl
    · rw [hz]; exact hq
    · rw [hz]; exact hL
    · change ok x.md.L s0.list s0.pos
      rw [es0]
      exact hok
    · change Image (lattice x.md.L) (place x.md.L z.2.1) s0.pos
      rw [es0, hzp]
      exact himg
    · change s0.vel = speed x.md.L z.2.2
      rw [es0, hz, hL]
      exact (speed_place (Mode.len_pos hq) _).symm
    · change s0.force = F x.md.L (place x.md.L z.2.1)
      rw [es0, hzp]
      exact hw.periodic _ _ himg
  have hend := steps_rep hy y.nStep hrep hg
  obtain ⟨e1, e2⟩ := energy_rep hy hrep
  obtain ⟨f1, f2⟩ := energy_rep hy hend
  set xn := (step y.toEnv)^[y.nStep] (⟨draw g0 ge, x.md.L, s0⟩ : State ι P) with hxn
  set zn := ((y.dyn F S g).stepIn fold g.dt)^[y.nStep] z with hzn
  have hLn : ∀ a, 0 < xn.L a := by rw [hend.L]; exact Mode.len_pos hend.cell
  have hwn := hy.box xn.L hLn
  set ρ := Real.exp (-(1 / y.temp) * (y.H g U zn - y.H g U z)) with hρ
  have hrun : y.run draw ge gs u x = if metropolis ρ u then
      (({ md := { xn with sys := shiftAtoms (y.world xn.L) xn.sys }
          oldPositions := x.md.sys.pos, nAttempt := x.nAttempt + 1,
          nAccept := x.nAccept + 1 } : MoveState ι P), true)
    else ({ md := { xn with L := x.md.L, sys := { xn.sys with pos := x.md.sys.pos } }
            oldPositions := x.md.sys.pos, nAttempt := x.nAttempt + 1, nAccept := x.nAccept },
          false) := by
    unfold Move.run
    simp only [← hg0, ← hs0]
    rw [e1]
    simp only [← hxn]
    rw [f1, e2, f2, each_update hw.toComplete, each_update hw.toComplete]
  rw [hrun]
  cases hmet : metropolis ρ u with
  | true =>
    refine ⟨_, rfl, rfl, fun _ => ⟨hend.L, hend.cell, ?_, ?_, rfl⟩, fun h => by simp at h⟩
    · rw [shiftAtoms_eq hwn.toComplete]
      exact hend.pos.trans fun i => hwn.shift _
    · rw [shiftAtoms_eq hwn.toComplete]
      exact hwn.ready _ _ hend.list
  | false => exact ⟨_, rfl, rfl, fun h => by simp at h, fun _ => ⟨rfl, rfl, rfl⟩⟩

end Verif.Nph
