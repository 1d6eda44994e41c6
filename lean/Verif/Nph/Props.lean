/-
C68: molecular dynamics at constant pressure.
-/
import Verif.Nph.Wrap
import Verif.Nph.Force
import Verif.Nph.Back

set_option autoImplicit false
set_option linter.dupNamespace false

namespace Verif.Nph

open Verif.Boundary Verif.Integrate MeasureTheory

variable {ι : Type} [Fintype ι] [DecidableEq ι] {P : Type} {e : Env ι P}
  {F : Vec → (ι → Vec) → ι → Vec} {S : Vec → (ι → Vec) → Vec}
  {cell : Vec → Set (ι → Vec)} {ok : Vec → P → (ι → Vec) → Prop}
  {adm : Vec → (ι → Vec) → (ι → Vec) → Vec → Prop}

/-- **C68, part 1.** A simulation of any number of steps follows the algorithm `Dyn.step`:
lengths of the cell, momenta of the barostat and velocities are those of the algorithm,
and positions are periodic images of those of the algorithm, whichever steps shift atoms
into the primary cell or rebuild the pair list. -/
theorem C68_follows (he : Exact e F S cell ok adm) (shifts : ℕ → Bool) (n : ℕ) {x : State ι P}
    (hx : x.Start e cell ok)
    (hg : GoodRun x.nph.mode adm (e.dyn F S x.nph) x.nph.dt n x.pt) :
    let y := simulate e shifts n x
    let z := ((e.dyn F S x.nph).step x.nph.dt)^[n] x.pt
    y.L = x.nph.mode.len z.1.1 ∧ y.nph.eta = z.1.2 ∧
    (∀ i, ∃ k : IVec, y.sys.pos i = place y.L z.2.1 i + latVec y.L k) ∧
    y.sys.vel = speed y.L z.2.2 ∧ y.sys.force = F y.L y.sys.pos := by
  intro y z
  have h := simulate_rep he shifts n hx hg
  have hL : ∀ a, 0 < y.L a := by
    change ∀ a, 0 < (simulate e shifts n x).L a
    rw [h.L]
    exact Mode.len_pos h.cell
  refine ⟨h.L, h.eta, fun i => ?_, h.vel, ?_⟩
  · obtain ⟨k, hk⟩ := h.pos i
    exact ⟨k, by rw [← hk]; abel⟩
  · rw [(he.box y.L hL).periodic _ _ h.pos]
    exact h.force

/-- **C68, part 2.** The simulation is reversible: if all velocities and the momenta of the
barostat are reversed after `n` steps, then `n` more steps lead back to the lengths and
momenta of the beginning and to periodic images of its positions. -/
theorem C68_reversible (he : Exact e F S cell ok adm) (shifts shifts' : ℕ → Bool) (n : ℕ)
    {x : State ι P} (hx : x.Start e cell ok)
    (hg : GoodRun x.nph.mode adm (e.dyn F S x.nph) x.nph.dt n x.pt)
    (hb : BackRun adm (e.dyn F S x.nph) x.nph.dt n x.pt) :
    let y := simulate e shifts n x
    let r := simulate e shifts' n
      { y with nph := { y.nph with eta := fun a => -y.nph.eta a }
               sys := { y.sys with vel := fun i a => -y.sys.vel i a } }
    r.L = x.L ∧ (∀ a, r.nph.eta a = -x.nph.eta a) ∧ (∀ i a, r.sys.vel i a = -x.sys.vel i a) ∧
    ∀ i, ∃ k : IVec, r.sys.pos i = x.sys.pos i + latVec x.L k := by
  intro y r
  have h := simulate_rep he shifts n hx hg
  obtain ⟨hat, hsafe⟩ := h.back he
  have hev : (e.dyn F S x.nph).Even := dyn_even _ _ _ _ _ _
  have hdyn : e.dyn F S y.back.nph = e.dyn F S x.nph := by
    change Nph.dyn y.nph.mode y.nph.W e.pressure e.m F S = Nph.dyn x.nph.mode x.nph.W e.pressure e.m F S
    rw [h.mode, h.W]
  have hm : y.back.nph.mode = x.nph.mode := h.mode
  have hdt : y.back.nph.dt = x.nph.dt := h.dt
  have hrun := hg.back hev (Mode.pos_coord hx.pos) hb
  have h2 := simulate_at he shifts' n hat hsafe
    (by
      change GoodRun y.back.nph.mode adm (e.dyn F S y.back.nph) y.back.nph.dt n _
      rw [hdyn, hm, hdt]
      exact hrun)
  change Rep F ok e y.back.nph r (((e.dyn F S y.back.nph).step y.back.nph.dt)^[n] _) at h2
  rw [hdyn, hdt, iterate_turn hev] at h2
  have hL : r.L = x.L := by
    rw [h2.L, hm]
    exact Mode.len_coord hx.shape hx.pos
  refine ⟨hL, fun a => ?_, fun i a => ?_, fun i => ?_⟩
  · rw [h2.eta]
    rfl
  · rw [h2.vel, hL]
    change speed x.L (fun i a => -x.pt.2.2 i a) i a = _
    rw [speed_neg, speed_pt hx.pos]
  · have hp := h2.pos i
    rw [hL] at hp
    obtain ⟨k, hk⟩ := hp
    refine ⟨k, ?_⟩
    have : place x.L (turn x.pt).2.1 = x.sys.pos := place_pt hx.pos
    rw [this] at hk
    rw [← hk]
    abel

/-- **C68, part 3.** The cell keeps the shape of the mode: cubic cells stay cubic, and
tetragonal cells stay tetragonal; lengths stay positive. -/
theorem C68_shape (he : Exact e F S cell ok adm) (shifts : ℕ → Bool) (n : ℕ) {x : State ι P}
    (hx : x.Start e cell ok)
    (hg : GoodRun x.nph.mode adm (e.dyn F S x.nph) x.nph.dt n x.pt) :
    let L := (simulate e shifts n x).L
    (∀ a, 0 < L a) ∧ (x.nph.mode = .cubic → L 1 = L 0 ∧ L 2 = L 0) ∧
    (x.nph.mode = .tetragonal → L 2 = L 1) := by
  intro L
  have h := simulate_rep he shifts n hx hg
  have hs : x.nph.mode.Shape L := by
    change x.nph.mode.Shape (simulate e shifts n x).L
    rw [h.L]
    exact Mode.shape_len _ _
  refine ⟨?_, fun hm => ?_, fun hm => ?_⟩
  · change ∀ a, 0 < (simulate e shifts n x).L a
    rw [h.L]
    exact Mode.len_pos h.cell
  · rw [hm] at hs
    exact hs
  · rw [hm] at hs
    exact hs

/-- **C68, part 4.** The simulation follows a map of the extended phase space, with scaled
positions in one cell, which preserves volume.  Volume in scaled coordinates is volume of
positions, velocities, coordinates and momenta of the cell. -/
theorem C68_volume (he : Exact e F S cell ok adm) (hm : Meas F S) (g : Nph) :
    MeasurePreserving ((e.dyn F S g).stepIn fold g.dt) (g.mode.phase (unitCell ι))
      (g.mode.phase (unitCell ι)) ∧
    (∀ (shifts : ℕ → Bool) (n : ℕ) (x : State ι P), x.nph.mode = g.mode →
      x.nph.dt = g.dt → x.nph.W = g.W →
      x.Start e cell ok → GoodRun g.mode adm (e.dyn F S g) g.dt n x.pt →
      let y := simulate e shifts n x
      let z := ((e.dyn F S g).stepIn fold g.dt)^[n] x.pt.fold
      y.L = g.mode.len z.1.1 ∧ y.nph.eta = z.1.2 ∧
      (∀ i, ∃ k : IVec, y.sys.pos i = place y.L z.2.1 i + latVec y.L k) ∧
      y.sys.vel = speed y.L z.2.2) ∧
    MeasurePreserving (g.mode.physical (ι := ι))
      (((g.mode.measure.prod g.mode.measure).restrict g.mode.positive).prod (volume.prod volume))
      (((g.mode.measure.prod g.mode.measure).restrict g.mode.positive).prod
        (volume.prod volume)) := by
  refine ⟨stepIn_preserving hm fold_reduction unitCell_measurable _, ?_, physical_preserving _⟩
  intro shifts n x e1 e2 e3 hx hg y z
  have e4 : e.dyn F S x.nph = e.dyn F S g := by
    unfold Env.dyn
    rw [e1, e3]
  have h := simulate_fold he shifts n hx (by rw [e1, e2, e4]; exact hg)
  rw [e2, e4] at h
  refine ⟨?_, h.eta, fun i => ?_, h.vel⟩
  · rw [← e1]
    exact h.L
  · obtain ⟨k, hk⟩ := h.pos i
    exact ⟨k, by rw [← hk]; abel⟩

/-- **C68, part 5.** The algorithm integrates Hamilton's equations: the substeps are driven
by the derivatives of potential energy, kinetic energy, pressure times volume, and the
energy of the barostat as computed by the program.  Forces and stress have to be those of
the potential energy. -/
theorem C68_hamilton {U : Vec → (ι → Vec) → ℝ} (g : Nph) (z : Pt ι) (hp : g.mode.Pos z.1.1)
    (hv : Virial U S (g.mode.len z.1.1) z.2.1)
    (hF : ∀ i a, HasDerivAt
      (fun x => U (g.mode.len z.1.1) (put (place (g.mode.len z.1.1) z.2.1) i a x))
      (-F (g.mode.len z.1.1) (place (g.mode.len z.1.1) z.2.1) i a)
      (place (g.mode.len z.1.1) z.2.1 i a)) (t : ℝ) (hmass : ∀ i, e.m i ≠ 0) :
    let H := enthalpy g.mode g.W e.pressure e.m U
    let y := e.dyn F S g
    (∀ a, ∃ D, HasDerivAt (fun x => H ((Function.update z.1.1 a x, z.1.2), z.2)) D (z.1.1 a) ∧
      (y.push t z).1.2 a = z.1.2 a - t * D) ∧
    (∀ a, ∃ D, HasDerivAt (fun x => H ((z.1.1, Function.update z.1.2 a x), z.2)) D (z.1.2 a) ∧
      (y.grow t z).1.1 a = z.1.1 a + t * D) ∧
    (∀ i a, ∃ D, HasDerivAt (fun x => H (z.1, (put z.2.1 i a x, z.2.2))) D (z.2.1 i a) ∧
      e.m i * (y.kick t z).2.2 i a = e.m i * z.2.2 i a - t * D) ∧
    (∀ i a, ∃ D, HasDerivAt (fun x => H (z.1, (z.2.1, put z.2.2 i a x))) D (z.2.2 i a) ∧
      e.m i * (y.move t z).2.1 i a = e.m i * z.2.1 i a + t * D) ∧
    H z = U (g.mode.len z.1.1) (place (g.mode.len z.1.1) z.2.1) +
      ∑ i, ∑ a, e.m i * speed (g.mode.len z.1.1) z.2.2 i a ^ 2 / 2 +
      e.pressure * vol (g.mode.len z.1.1) + { g with eta := z.1.2 }.barostatEnergy := by
  intro H y
  refine ⟨fun a => ?_, fun a => ?_, fun i a => ?_, fun i a => ?_, ?_⟩
  · refine ⟨_, enthalpy_cell g.mode g.W e.pressure e.m F z hp hv a, ?_⟩
    simp only [y, Env.dyn, Dyn.push]
    rw [mul_neg, sub_neg_eq_add]
    rfl
  · refine ⟨_, enthalpy_momentum U g.mode g.W e.pressure e.m z a, ?_⟩
    rfl
  · refine ⟨_, enthalpy_atom U g.mode g.W e.pressure e.m F z i a (hF i a), ?_⟩
    have := hmass i
    simp only [y, Env.dyn, Dyn.kick, Nph.dyn]
    field_simp
    ring
  · refine ⟨_, enthalpy_velocity U g.mode g.W e.pressure e.m z i a, ?_⟩
    simp only [y, Env.dyn, Dyn.move, Nph.dyn]
    ring
  · rw [barostatEnergy_eq]
    rfl

end Verif.Nph
