/-
The hybrid MD/MC move: a short molecular dynamics simulation is a trial move of a
Monte Carlo simulation.

  src/mcMd/mcMoves/common/HybridMdMove.cpp
  src/mcMd/mdSimulation/MdSystem.cpp
  src/mcMd/mdIntegrators/NveVvIntegrator.cpp
  src/mcMd/potentials/pair/MdPairPotentialImpl.h, McPairPotential.cpp
  src/mcMd/potentials/misc/EnergyCalculator.cpp
-/
import Verif.Integrate.Props
import Verif.McMoves.Model

set_option autoImplicit false

namespace Verif.Integrate

open Verif.Boundary Verif.McCellList Verif.McPairList Verif.McCell Verif.Cpp Verif.Cpp.Out
open Verif.McMoves (metropolis ofRes)

/-! ### Model -/

/-- Parameters of a hybrid move.  `pairE`: `energy(rsq, i, j)` of the pair
interaction; `restE k`: total energy of the k-th of the `nRest` potentials that
the MdSystem shares with the McSystem (bond, angle, dihedral, external;
MdSystem.cpp:168-200); `linkE`: total energy of the link potential, present if
`hasLink`; `temp`: temperature of the EnergyEnsemble, whose beta is `1/temp`. -/
structure Hybrid (N : ℕ) extends PairSystem N where
  pairE : ℝ → ℕ → ℕ → ℝ
  nRest : ℕ
  restE : ℕ → (Fin N → Vec) → ℝ
  hasLink : Bool
  linkE : (Fin N → Vec) → ℝ
  temp : ℝ
  nStep : ℕ

/-- State: the atoms with the pair list of the MdSystem, its integrator, the cell
list of the McSystem, the array of stored positions, the stored energies of the
potentials (`Setable<double> energy_`), the counters of McMove. -/
structure HState (N : ℕ) where
  sys : Sys (Fin N) (Option PL)
  nve : Nve
  cells : CL
  oldPositions : Fin N → Vec
  pairMemo : Option ℝ
  restMemo : ℕ → Option ℝ
  linkMemo : Option ℝ
  nAttempt : ℕ
  nAccept : ℕ

variable {N : ℕ}

/-- An exception thrown while the pair list is made ends the program. -/
def live (s : Sys (Fin N) (Option PL)) : Out (Sys (Fin N) (Option PL)) :=
  match s.list with
  | none => throw
  | some _ => ok s

/-- MdSystem::unsetPotentialEnergy (MdSystem.cpp:963-998), the observer of the
positionSignal: the link potential is not among those that are unset. -/
def unsetPotentialEnergy (x : HState N) : HState N :=
  { x with pairMemo := none, restMemo := fun _ => none }

/-- The loop over pairs of MdPairPotentialImpl::computeEnergy
(MdPairPotentialImpl.h:379-393). -/
noncomputable def Hybrid.pairSum (y : Hybrid N) (st : PL) (p : Fin N → Vec) : ℝ :=
  st.pairs.foldl (fun e x => match x with
    | (some a, some b) =>
      if h : a < N ∧ b < N then
        e + y.pairE (y.box.distanceSq (p ⟨a, h.1⟩) (p ⟨b, h.2⟩)) (y.typ ⟨a, h.1⟩) (y.typ ⟨b, h.2⟩)
      else e
    | _ => e) 0

/-- EnergyCalculator::energy (EnergyCalculator.cpp:24-30) with
MdPairPotentialImpl::computeEnergy (MdPairPotentialImpl.h:371-397). -/
noncomputable def Hybrid.pairEnergy (y : Hybrid N) (x : HState N) : Out (ℝ × HState N) :=
  match x.pairMemo with
  | some e => ok (e, x)
  | none =>
    let s := refresh y.world x.sys
    match s.list with
    | none => throw
    | some st => ok (y.pairSum st s.pos,
        { x with sys := s, pairMemo := some (y.pairSum st s.pos) })

/-- EnergyCalculator::energy of one of the other potentials
(EnergyCalculator.cpp:24-30). -/
noncomputable def Hybrid.restEnergy (y : Hybrid N) (k : ℕ) (x : HState N) : ℝ × HState N :=
  match x.restMemo k with
  | some e => (e, x)
  | none => (y.restE k x.sys.pos,
      { x with restMemo := Function.update x.restMemo k (some (y.restE k x.sys.pos)) })

/-- EnergyCalculator::energy of the link potential (EnergyCalculator.cpp:24-30,
LinkPotentialImpl.h:319-333). -/
noncomputable def Hybrid.linkEnergy (y : Hybrid N) (x : HState N) : ℝ × HState N :=
  match x.linkMemo with
  | some e => (e, x)
  | none => (y.linkE x.sys.pos, { x with linkMemo := some (y.linkE x.sys.pos) })

/-- MdSystem::potentialEnergy (MdSystem.cpp:910-958). -/
noncomputable def Hybrid.potentialEnergy (y : Hybrid N) (x : HState N) : Out (ℝ × HState N) := do
  let (e, x) ← y.pairEnergy x
  let (e, x) := (List.range y.nRest).foldl (fun (a : ℝ × HState N) k =>
    let r := y.restEnergy k a.2
    (a.1 + r.1, r.2)) (0 + e, x)
  if y.hasLink then
    let r := y.linkEnergy x
    ok (e + r.1, r.2)
  else ok (e, x)

/-- MdSystem::setBoltzmannVelocities (MdSystem.cpp:797-820): `gs i j` is the deviate
returned by Random::gaussian for component `j` of atom `i`. -/
noncomputable def Hybrid.setVelocities (y : Hybrid N) (gs : Fin N → Vec)
    (s : Sys (Fin N) (Option PL)) : Sys (Fin N) (Option PL) :=
  y.world.each (fun s i =>
    { s with vel := Function.update s.vel i fun j =>
        Real.sqrt (y.temp / y.mass (y.typ i)) * gs i j }) s

/-- NveVvIntegrator::step (NveVvIntegrator.cpp:96-185), with the signal that the
positions have changed. -/
noncomputable def Hybrid.step (y : Hybrid N) (x : HState N) : Out (HState N) := do
  let x := unsetPotentialEnergy { x with sys := x.nve.step1 y.world x.sys }
  let s ← live (refresh y.world x.sys)
  let s ← live (calculateForces y.world s)
  ok { x with sys := x.nve.step2 y.world s }

/-- McPairPotential::buildCellList (McPairPotential.cpp:41-58): the cell list of the
McSystem has cells as large as the cutoff, without a skin. -/
noncomputable def Hybrid.buildCellList (y : Hybrid N) (p : Fin N → Vec) :
    Out ((Fin N → Vec) × CL) := do
  let c ← match setup y.box.lengths y.rc with
    | none => throw
    | some c => ok c
  loop (fun (a : (Fin N → Vec) × CL) i => do
    let r := y.box.shift (a.1 i)
    let c ← ofRes (a.2.addAtom y.box.toGen y.cellCap (i : ℕ) r)
    ok (Function.update a.1 i r, c)) (List.finRange N) (p, c)

/-- HybridMdMove::move (HybridMdMove.cpp:80-159).  `gs`, `u`: deviates. -/
noncomputable def Hybrid.move (y : Hybrid N) (gs : Fin N → Vec) (u : ℝ) (x : HState N) :
    Out (HState N × Bool) := do
  -- incrementNAttempt, store old positions
  let x := { x with
    nAttempt := x.nAttempt + 1
    oldPositions := y.world.each (fun q i => Function.update q i (x.sys.pos i)) x.oldPositions }
  -- initialize the MdSystem
  let s ← live (buildPairList y.world x.sys)
  let s ← live (calculateForces y.world s)
  let x := { x with sys := y.setVelocities gs s }
  let x := unsetPotentialEnergy { x with nve := x.nve.setup y.world }
  -- old energy
  let (e, x) ← y.potentialEnergy x
  let oldEnergy := e + kineticEnergy y.world x.sys.vel
  -- short simulation
  let x ← loop (fun x _ => y.step x) (List.range y.nStep) x
  -- new energy
  let (e, x) ← y.potentialEnergy x
  let newEnergy := e + kineticEnergy y.world x.sys.vel
  -- decision
  if metropolis (Real.exp (-(1 / y.temp) * (newEnergy - oldEnergy))) u then
    let (p, c) ← y.buildCellList x.sys.pos
    ok ({ x with sys := { x.sys with pos := p }, cells := c, nAccept := x.nAccept + 1 }, true)
  else
    let p := y.world.each (fun p i => Function.update p i (x.oldPositions i)) x.sys.pos
    ok ({ x with sys := { x.sys with pos := p } }, false)

/-! ### Specification -/

open Classical in
/-- Pair energy: every pair of atoms that is not masked once, at nearest images. -/
noncomputable def Hybrid.pairU (y : Hybrid N) (p : Fin N → Vec) : ℝ :=
  ∑ i : Fin N, ∑ j : Fin N, if i < j ∧ ¬ y.masked i j then
    y.pairE (normSq (nearest y.box.lengths (p i - p j))) (y.typ i) (y.typ j) else 0

/-- Potential energy without links. -/
noncomputable def Hybrid.U (y : Hybrid N) (p : Fin N → Vec) : ℝ :=
  y.pairU p + ∑ k ∈ Finset.range y.nRest, y.restE k p

/-- Energy of a point of phase space without links. -/
noncomputable def Hybrid.H (y : Hybrid N) (z : Phase (Fin N)) : ℝ :=
  y.U z.1 + kinetic y.world.m z.2

/-- What is assumed of the parameters. -/
structure Hybrid.OK (y : Hybrid N) : Prop extends y.toPairSystem.OK where
  rcpos : 0 < y.rc
  range : ∀ x t t', y.cutSq t t' ≤ x → y.pairE x t t' = 0
  rest : ∀ k p q, Image (lattice y.box.lengths) p q → y.restE k q = y.restE k p
  temp : 0 < y.temp
  masses : ∀ t, 0 < y.mass t

/-- No cell of the cell list of the McSystem is filled. -/
def Hybrid.McFits (y : Hybrid N) (z : Fin N → Vec) : Prop :=
  ∀ q, Image (lattice y.box.lengths) z q → (∀ i, InCell y.box.lengths (q i)) →
    ∀ s0, setup y.box.lengths y.rc = some s0 → ∀ (c : IVec) (T : Finset (Fin N)),
      (∀ i ∈ T, InBox s0.n (y.box.toGen (q i)) c) → T.card < y.cellCap

/-- The point of phase space from which the simulation starts. -/
noncomputable def Hybrid.start (y : Hybrid N) (p gs : Fin N → Vec) : Phase (Fin N) :=
  (p, velocities y.world.m y.temp gs)

/-- The point of phase space that is reached, for the time step `dt`. -/
noncomputable def Hybrid.final (y : Hybrid N) (dt : ℝ) (z : Phase (Fin N)) : Phase (Fin N) :=
  (verlet y.world.m y.field dt)^[y.nStep] z

/-! ### Energies -/

variable {y : Hybrid N}

theorem pairSum_eq {st : PL} {P : List (ℕ × ℕ)}
    (h : st.pairs = P.map fun x => (some x.1, some x.2)) (p : Fin N → Vec) :
    y.pairSum st p = (P.map fun x => if h : x.1 < N ∧ x.2 < N then
      y.pairE (y.box.distanceSq (p ⟨x.1, h.1⟩) (p ⟨x.2, h.2⟩)) (y.typ ⟨x.1, h.1⟩)
        (y.typ ⟨x.2, h.2⟩) else 0).sum := by
  unfold Hybrid.pairSum
  rw [h]
  suffices key : ∀ (P : List (ℕ × ℕ)) (e : ℝ), (P.map fun x => (some x.1, some x.2)).foldl
      (fun e x => match x with
        | (some a, some b) =>
          if h : a < N ∧ b < N then
            e + y.pairE (y.box.distanceSq (p ⟨a, h.1⟩) (p ⟨b, h.2⟩)) (y.typ ⟨a, h.1⟩)
              (y.typ ⟨b, h.2⟩)
          else e
        | _ => e) e = e + (P.map fun x => if h : x.1 < N ∧ x.2 < N then
      y.pairE (y.box.distanceSq (p ⟨x.1, h.1⟩) (p ⟨x.2, h.2⟩)) (y.typ ⟨x.1, h.1⟩)
        (y.typ ⟨x.2, h.2⟩) else 0).sum by
    refine (key P 0).trans (zero_add _)
  intro P
  induction P with
  | nil => intro e; simp
  | cons x P ih =>
    intro e
    rw [List.map_cons, List.foldl_cons, ih, List.map_cons, List.sum_cons]
    dsimp only
    split <;> ring

/-- The distance used for the energy, in terms of nearest images. -/
theorem dist_nearest (ok : y.toPairSystem.OK) {p p' : Vec}
    (h : ∀ j, -y.skin ≤ p j ∧ p j ≤ y.box.lengths j + y.skin)
    (h' : ∀ j, -y.skin ≤ p' j ∧ p' j ≤ y.box.lengths j + y.skin) :
    y.box.distanceSq p p' = normSq (nearest y.box.lengths (p - p')) := by
  have hL := ok.box.ok.pos
  rw [(C24_ortho_separation ok.box p p').2]
  have e := (C24_ortho_separation ok.box p p').1
  have key : ∀ j, y.box.separation p p' j ^ 2 = nearest y.box.lengths (p - p') j ^ 2 := by
    intro j
    have ej : y.box.separation p p' j = nearest y.box.lengths (p - p') j +
        ((y.box.translate p p' j + round ((p - p') j / y.box.lengths j) : ℤ) : ℝ) *
          y.box.lengths j := by
      rw [e]
      simp only [nearest, latVec, Pi.add_apply, Pi.sub_apply]
      push_cast
      ring
    rcases half_eq (hL j) (sep_half ok h h' j) (nearest_half hL _ j) ej with h1 | h1
    · rw [h1]
    · rw [← sq_abs, h1.1, ← sq_abs (nearest _ _ _), h1.2]
  have h0 := key 0
  have h1 := key 1
  have h2 := key 2
  unfold normSq
  nlinarith

open Classical in
/-- The sum over the list is the pair energy. -/
theorem pairSum_usable (ok : y.OK) {st : PL} {p : Fin N → Vec}
    (h : y.usable (some st) p) : y.pairSum st p = y.pairU p := by
  obtain ⟨st', P, e, hP, hnd, hmem, hnear, hfar⟩ := usable_pairs ok.toOK h
  cases e
  rw [pairSum_eq hP, ← List.sum_toFinset _ hnd]
  have e1 : ∑ x ∈ P.toFinset, (if h : x.1 < N ∧ x.2 < N then
      y.pairE (y.box.distanceSq (p ⟨x.1, h.1⟩) (p ⟨x.2, h.2⟩)) (y.typ ⟨x.1, h.1⟩)
        (y.typ ⟨x.2, h.2⟩) else 0) =
      ∑ x ∈ (Finset.univ : Finset (Fin N × Fin N)).filter fun x => ((x.1 : ℕ), (x.2 : ℕ)) ∈ P,
        y.pairE (normSq (nearest y.box.lengths (p x.1 - p x.2))) (y.typ x.1) (y.typ x.2) := by
    symm
    refine Finset.sum_bij (fun x _ => ((x.1 : ℕ), (x.2 : ℕ))) ?_ ?_ ?_ ?_
    · intro x hx
      rw [Finset.mem_filter] at hx
      exact List.mem_toFinset.2 hx.2
    · rintro ⟨a, b⟩ _ ⟨a', b'⟩ _ hab
      simp only [Prod.mk.injEq] at hab
      exact Prod.ext (Fin.ext hab.1) (Fin.ext hab.2)
    · rintro ⟨a, b⟩ hab
      rw [List.mem_toFinset] at hab
      obtain ⟨h1, h2, _⟩ := hmem _ hab
      exact ⟨(⟨a, h1⟩, ⟨b, h2⟩), by simpa using hab, rfl⟩
    · rintro ⟨a, b⟩ _
      rw [dif_pos ⟨a.2, b.2⟩, dist_nearest ok.toOK (hnear _) (hnear _)]
  rw [e1, Finset.sum_filter, Fintype.sum_prod_type]
  unfold Hybrid.pairU
  refine Finset.sum_congr rfl fun a _ => Finset.sum_congr rfl fun b _ => ?_
  by_cases hP' : ((a : ℕ), (b : ℕ)) ∈ P
  · obtain ⟨_, _, h3, h4⟩ := hmem _ hP'
    rw [if_pos hP', if_pos ⟨Fin.lt_def.2 h3, h4⟩]
  · rw [if_neg hP']
    split
    · rename_i hab
      exact (ok.range _ _ _ (not_lt.1 (hfar a b hab.1 hab.2 hP'))).symm
    · rfl

theorem pairU_periodic (ok : y.OK) {p q : Fin N → Vec} (h : Image (lattice y.box.lengths) p q) :
    y.pairU q = y.pairU p := by
  unfold Hybrid.pairU
  refine Finset.sum_congr rfl fun i _ => Finset.sum_congr rfl fun j _ => ?_
  obtain ⟨ki, hi⟩ := h i
  obtain ⟨kj, hj⟩ := h j
  have : q i - q j = p i - p j + latVec y.box.lengths (ki - kj) := by
    have e : latVec y.box.lengths (ki - kj) = latVec y.box.lengths ki - latVec y.box.lengths kj := by
      funext a
      simp [latVec, sub_mul]
    rw [e, ← hi, ← hj]
    abel
  rw [this, nearest_lat ok.box.ok.pos]

theorem U_periodic (ok : y.OK) {p q : Fin N → Vec} (h : Image (lattice y.box.lengths) p q) :
    y.U q = y.U p := by
  unfold Hybrid.U
  rw [pairU_periodic ok h]
  congr 1
  exact Finset.sum_congr rfl fun k _ => ok.rest k p q h

/-- Links are counted with their stored energy, if there is one. -/
noncomputable def Hybrid.linkPart (y : Hybrid N) (memo : Option ℝ) (p : Fin N → Vec) : ℝ :=
  if y.hasLink then memo.getD (y.linkE p) else 0

/-- Stored energies, except that of the links, belong to the positions. -/
def Fresh (y : Hybrid N) (x : HState N) : Prop :=
  (∀ e, x.pairMemo = some e → e = y.pairU x.sys.pos) ∧
  ∀ k e, x.restMemo k = some e → e = y.restE k x.sys.pos

theorem restFold (k : ℕ) (e : ℝ) (x : HState N)
    (h : ∀ k e, x.restMemo k = some e → e = y.restE k x.sys.pos) :
    ∃ f : ℕ → Option ℝ, (∀ k e, f k = some e → e = y.restE k x.sys.pos) ∧
      (List.range k).foldl (fun (a : ℝ × HState N) k =>
        let r := y.restEnergy k a.2
        (a.1 + r.1, r.2)) (e, x) =
      (e + ∑ j ∈ Finset.range k, y.restE j x.sys.pos, { x with restMemo := f }) := by
  induction k with
  | zero => exact ⟨x.restMemo, h, by simp⟩
  | succ k ih =>
    obtain ⟨f, hf, e1⟩ := ih
    cases hk : f k with
    | some a =>
      refine ⟨f, hf, ?_⟩
      rw [List.range_succ, List.foldl_append, e1, List.foldl_cons, List.foldl_nil]
      simp only [Hybrid.restEnergy, hk]
      rw [Finset.sum_range_succ, add_assoc, hf k a hk]
    | none =>
      refine ⟨Function.update f k (some (y.restE k x.sys.pos)), fun j a hj => ?_, ?_⟩
      · by_cases hjk : j = k
        · subst hjk
          rw [Function.update_self] at hj
          exact (Option.some.inj hj).symm
        · rw [Function.update_of_ne hjk] at hj
          exact hf j a hj
      · rw [List.range_succ, List.foldl_append, e1, List.foldl_cons, List.foldl_nil]
        simp only [Hybrid.restEnergy, hk]
        rw [Finset.sum_range_succ, add_assoc]

/-- The potential energy computed for a usable list. -/
theorem potentialEnergy_eq (ok : y.OK) {ρ : ℝ} (hρ : ∀ j, y.skin + ρ < y.box.lengths j)
    {x : HState N} (hl : y.usable x.sys.list x.sys.pos) (hx : Fresh y x) :
    ∃ x', y.potentialEnergy x = Out.ok (y.U x.sys.pos + y.linkPart x.linkMemo x.sys.pos, x') ∧
      Fresh y x' ∧ ∃ pm rm, x' =
        { x with pairMemo := pm, restMemo := rm,
                 linkMemo := if y.hasLink then some (y.linkPart x.linkMemo x.sys.pos)
                   else x.linkMemo } := by
  have hw := ok.toOK.exact hρ
  obtain ⟨st, P, e, -⟩ := usable_pairs ok.toOK hl
  have hpair : y.pairEnergy x = Out.ok (y.pairU x.sys.pos,
      { x with pairMemo := some (y.pairU x.sys.pos) }) := by
    unfold Hybrid.pairEnergy
    cases hm : x.pairMemo with
    | some a =>
      rw [← hx.1 a hm]
      dsimp only
      rw [← hm]
    | none =>
      simp only [refresh_ok hw hl, e]
      rw [e] at hl
      rw [pairSum_usable ok hl]
  obtain ⟨f, hf0, hf⟩ := restFold (y := y) y.nRest (0 + y.pairU x.sys.pos)
    { x with pairMemo := some (y.pairU x.sys.pos) } hx.2
  refine ⟨_, ?_, ?_, some (y.pairU x.sys.pos), f, rfl⟩
  · unfold Hybrid.potentialEnergy
    rw [hpair, ok_bind]
    dsimp only at hf ⊢
    rw [hf]
    have hU : 0 + y.pairU x.sys.pos + ∑ j ∈ Finset.range y.nRest, y.restE j x.sys.pos =
        y.U x.sys.pos := by unfold Hybrid.U; ring
    rw [hU]
    unfold Hybrid.linkPart Hybrid.linkEnergy
    cases hL : y.hasLink with
    | false => simp
    | true =>
      cases hm : x.linkMemo with
      | none => simp
      | some a => simp
  · exact ⟨fun e h => (Option.some.inj h).symm, hf0⟩

/-! ### The trajectory -/

theorem setVelocities_eq (gs : Fin N → Vec) (s : Sys (Fin N) (Option PL)) :
    y.setVelocities gs s = { s with vel := velocities y.world.m y.temp gs } := by
  have hw : y.world.Complete := ⟨List.nodup_finRange N, List.mem_finRange⟩
  unfold Hybrid.setVelocities
  rw [each_eq' (h := fun i t => (t.1, fun j => Real.sqrt (y.temp / y.mass (y.typ i)) * gs i j,
    t.2.2)) hw.nodup (fun s i => by simp [Sys.set])]
  simp only [Sys.mapOn, hw.all, if_true]
  rfl

theorem live_eq (ok : y.OK) {s : Sys (Fin N) (Option PL)} (h : y.usable s.list s.pos) :
    live s = Out.ok s := by
  obtain ⟨st, P, e, -⟩ := usable_pairs ok.toOK h
  unfold live
  rw [e]

/-- One step of the simulation. -/
theorem hybridStep_eq (ok : y.OK) {ρ : ℝ} (hρ : ∀ j, y.skin + ρ < y.box.lengths j) {x : HState N}
    {z : Phase (Fin N)} (hg : x.nve.Ready y.world)
    (h : Rep (lattice y.box.lengths) y.field y.usable x.sys z)
    (had : y.adm ρ z.1 (displacement y.world.m y.field x.nve.dt z)) :
    y.step x = Out.ok (unsetPotentialEnergy { x with sys := x.nve.step y.world x.sys }) := by
  have hw := ok.toOK.exact hρ
  have hb : (x.nve.step1 y.world x.sys).Safe y.world y.cell y.usable := by
    rw [Nve.step1_eq hw.toComplete]
    have hd : (fun i => x.nve.dt • (x.sys.vel i + x.nve.pref (y.world.typ i) • x.sys.force i)) =
        displacement y.world.m y.field x.nve.dt z := by
      funext i
      rw [hg i, h.vel, h.force]
      rfl
    have := hw.move _ _ _ _ h.list h.pos had
    rw [← hd] at this
    exact this
  have h2 := (refresh_spec hw hb).1
  have h3 : y.usable (calculateForces y.world (refresh y.world (x.nve.step1 y.world x.sys))).list
      (calculateForces y.world (refresh y.world (x.nve.step1 y.world x.sys))).pos := by
    rw [calculateForces_ok hw h2]
    exact h2
  unfold Hybrid.step
  dsimp only [unsetPotentialEnergy]
  rw [live_eq ok h2, ok_bind, live_eq ok h3, ok_bind]
  rfl

/-- The simulation. -/
theorem hybridLoop_eq (ok : y.OK) {ρ : ℝ} (hρ : ∀ j, y.skin + ρ < y.box.lengths j) {x : HState N}
    {z : Phase (Fin N)} (hg : x.nve.Ready y.world)
    (h : Rep (lattice y.box.lengths) y.field y.usable x.sys z) (hf : Fresh y x) (n : ℕ)
    (had : Admissible (y.adm ρ) y.world.m y.field x.nve.dt n z) :
    ∃ x', loop (fun x _ => y.step x) (List.range n) x = Out.ok x' ∧
      Rep (lattice y.box.lengths) y.field y.usable x'.sys
        ((verlet y.world.m y.field x.nve.dt)^[n] z) ∧ Fresh y x' ∧
      ∃ s pm rm, x' = { x with sys := s, pairMemo := pm, restMemo := rm } := by
  have hw := ok.toOK.exact hρ
  refine loop_range_ok (fun k x' => Rep (lattice y.box.lengths) y.field y.usable x'.sys
        ((verlet y.world.m y.field x.nve.dt)^[k] z) ∧ Fresh y x' ∧
      ∃ s pm rm, x' = { x with sys := s, pairMemo := pm, restMemo := rm }) _ n x
    ⟨h, hf, _, _, _, rfl⟩ ?_
  rintro k hk x' ⟨h1, _, s, pm, rm, rfl⟩
  have e := hybridStep_eq ok hρ (x := { x with sys := s, pairMemo := pm, restMemo := rm }) hg h1
    (had k hk)
  refine ⟨_, e, ?_, ⟨fun e h => ?_, fun k e h => ?_⟩, _, _, _, rfl⟩
  · rw [Function.iterate_succ_apply']
    exact Nve.step_rep hw hg h1 (had k hk)
  · cases h
  · cases h

/-! ### The cell list -/

theorem cellLoop {q : Fin N → Vec} {cap : ℕ} {gen : Vec → Vec} {sh : Vec → Vec} (l : List (Fin N))
    (hl : l.Nodup) (a : Fin N → Vec) (c c' : CL) (ha : ∀ i ∈ l, sh (a i) = q i)
    (hc : run gen cap c (l.map fun i : Fin N => Op.add (i : ℕ) (q i)) = .ok c') :
    loop (fun (a : (Fin N → Vec) × CL) i => do
      let r := sh (a.1 i)
      let c ← ofRes (a.2.addAtom gen cap (i : ℕ) r)
      ok (Function.update a.1 i r, c)) l (a, c) =
      Out.ok (fun i => if i ∈ l then q i else a i, c') := by
  induction l generalizing a c with
  | nil =>
    simp only [List.map_nil, McCellList.run, Res.ok.injEq] at hc
    subst hc
    simp
  | cons i l ih =>
    rw [List.nodup_cons] at hl
    rw [List.map_cons, McCellList.run] at hc
    rw [loop_cons]
    dsimp only
    rw [ha i (List.mem_cons_self ..)]
    change (match c.addAtom gen cap (i : ℕ) (q i) with
      | .ok s' => run gen cap s' _
      | .throw => .throw
      | .ub => .ub) = Res.ok c' at hc
    cases hs : c.addAtom gen cap (i : ℕ) (q i) with
    | ok c1 =>
      rw [hs] at hc
      have e1 : ofRes (Res.ok c1) = Out.ok c1 := rfl
      rw [e1, ok_bind, ok_bind]
      rw [ih hl.2 _ _ (fun j hj => ?_) hc]
      · congr 2
        funext j
        by_cases hj : j = i
        · subst hj
          simp [hl.1]
        · simp [hj]
      · rw [Function.update_of_ne (show j ≠ i from fun h => hl.1 (h ▸ hj))]
        exact ha j (List.mem_cons_of_mem _ hj)
    | throw =>
      rw [hs] at hc
      simp at hc
    | ub =>
      rw [hs] at hc
      simp at hc

/-- The cell list of the McSystem holds the atoms at the positions `p`. -/
def Hybrid.Holds (y : Hybrid N) (c : CL) (p : Fin N → Vec) : Prop :=
  ∃ c0, setup y.box.lengths y.rc = some c0 ∧ c.n = c0.n ∧
    Tracks y.box.toGen y.cellCap c ⟨Finset.range N, byId p⟩

theorem buildCellList_eq (ok : y.OK) {p q : Fin N → Vec} (hq : ∀ i, y.box.shift (p i) = q i)
    (hin : ∀ i, InCell y.box.lengths (q i)) (hroom : y.McFits q) :
    ∃ c, y.buildCellList p = Out.ok (q, c) ∧ y.Holds c q := by
  obtain ⟨s0, hs⟩ := (setup_isSome y.box.lengths y.rc).2 ok.rcpos
  have e : ((List.finRange N).map fun i : Fin N => Op.add (i : ℕ) (byId q i)) =
      (List.range N).map fun a => Op.add a (byId q a) := by
    rw [← List.map_coe_finRange_eq_range, List.map_map]
    rfl
  have hal : AllowedHist y.box.toGen y.cellCap s0.n ⟨∅, fun _ _ => 0⟩
      ((List.finRange N).map fun i : Fin N => Op.add (i : ℕ) (byId q i)) := by
    rw [e]
    refine Cluster.adds_allowed _ _ _ (by simp) List.nodup_range (by simp) ?_ ?_
    · intro a ha
      rw [List.mem_range] at ha
      unfold byId
      rw [dif_pos ha]
      exact ok.inUnit (hin _)
    · intro c T hT
      have hT' : ∀ a ∈ T, a < N := fun a ha => by
        have := (hT a ha).1
        simpa using this
      have := hroom q (Image.refl _ _) hin s0 hs c (T.attach.image fun a => ⟨a.1, hT' a.1 a.2⟩) (by
        intro i hi
        rw [Finset.mem_image] at hi
        obtain ⟨a, _, rfl⟩ := hi
        have := (hT a.1 a.2).2
        unfold byId at this
        rwa [dif_pos (hT' a.1 a.2)] at this)
      rwa [Finset.card_image_of_injective _ (fun a b h => Subtype.ext (Fin.mk.inj h)),
        Finset.card_attach] at this
  obtain ⟨c, hrun, hn, htr⟩ := C04_cell_list_tracks _ _ _ _ s0 hs _ hal
  rw [ids_run] at htr
  have hb : ((List.finRange N).map fun i : Fin N => Op.add (i : ℕ) (byId q i)) =
      (List.finRange N).map fun i : Fin N => Op.add (i : ℕ) (q i) := by
    refine List.map_congr_left fun i _ => ?_
    rw [byId_val]
  rw [hb] at hrun
  refine ⟨c, ?_, s0, hs, hn, htr⟩
  unfold Hybrid.buildCellList
  simp only [hs, ok_bind]
  rw [cellLoop (q := q) (sh := y.box.shift) _ (List.nodup_finRange N) p s0 c (fun i _ => hq i) hrun]
  simp

/-! ### The move -/

theorem each_update {w : World (Fin N) (Option PL)} (hw : w.Complete) {β : Type} (f : Fin N → β)
    (q : Fin N → β) : w.each (fun q i => Function.update q i (f i)) q = f := by
  unfold World.each
  have key : ∀ (l : List (Fin N)) (q : Fin N → β),
      l.foldl (fun q i => Function.update q i (f i)) q = fun i => if i ∈ l then f i else q i := by
    intro l
    induction l with
    | nil => intro q; simp
    | cons a l ih =>
      intro q
      rw [List.foldl_cons, ih]
      funext i
      by_cases hi : i = a
      · subst hi; simp
      · simp [hi]
  rw [key]
  funext i
  simp [hw.all]

/-- **What a hybrid move does.** -/
theorem hybridMove_eq (ok : y.OK) {ρ : ℝ} (hρ : ∀ j, y.skin + ρ < y.box.lengths j) (x : HState N)
    (hnear : ∀ i, NearCell y.box.lengths (x.sys.pos i)) (hfit : y.Fits x.sys.pos)
    (gs : Fin N → Vec) (u : ℝ)
    (had : Admissible (y.adm ρ) y.world.m y.field x.nve.dt y.nStep (y.start x.sys.pos gs))
    (hmc : y.McFits (y.final x.nve.dt (y.start x.sys.pos gs)).1) :
    let z := y.start x.sys.pos gs
    let z' := y.final x.nve.dt z
    ∃ x', y.move gs u x =
        Out.ok (x', metropolis (Real.exp (-(1 / y.temp) * (y.H z' - y.H z))) u) ∧
      x'.nve.dt = x.nve.dt ∧ x'.nAttempt = x.nAttempt + 1 ∧
      (metropolis (Real.exp (-(1 / y.temp) * (y.H z' - y.H z))) u = true →
        (∀ i, InCell y.box.lengths (x'.sys.pos i)) ∧
        Image (lattice y.box.lengths) z'.1 x'.sys.pos ∧
        y.Holds x'.cells x'.sys.pos ∧ x'.nAccept = x.nAccept + 1) ∧
      (metropolis (Real.exp (-(1 / y.temp) * (y.H z' - y.H z))) u = false →
        x'.sys.pos = x.sys.pos ∧ x'.cells = x.cells ∧ x'.nAccept = x.nAccept) := by
  intro z z'
  have hw := ok.toOK.exact hρ
  -- the list
  have hin : ∀ i, InCell y.box.lengths (y.box.shift (x.sys.pos i)) := fun i =>
    (C23_ortho_shift ok.box _ (hnear i)).1
  have hcell : (fun i => y.box.shift (x.sys.pos i)) ∈ y.cell :=
    ⟨hin, hfit _ (fun i => hw.shift (x.sys.pos i)) hin⟩
  have hb := buildPairList_eq hw.toComplete x.sys
  set s1 := buildPairList y.world x.sys with hs1
  have hu1 : y.usable s1.list s1.pos := by
    rw [hb]
    exact usable_build ok.toOK _ hcell
  have him1 : Image (lattice y.box.lengths) x.sys.pos s1.pos := by
    rw [hb]
    exact fun i => hw.shift _
  have hcf := calculateForces_ok hw hu1
  have hu2 : y.usable (calculateForces y.world s1).list (calculateForces y.world s1).pos := by
    rw [hcf]; exact hu1
  -- after setup
  obtain ⟨x1, hx1⟩ : ∃ x1 : HState N, x1 = unsetPotentialEnergy { x with
      nAttempt := x.nAttempt + 1
      oldPositions := x.sys.pos
      sys := y.setVelocities gs (calculateForces y.world s1)
      nve := x.nve.setup y.world } := ⟨_, rfl⟩
  have hrep1 : Rep (lattice y.box.lengths) y.field y.usable x1.sys z := by
    rw [hx1]
    dsimp only [unsetPotentialEnergy]
    rw [setVelocities_eq, hcf]
    exact ⟨hu1, him1, rfl, hw.periodic _ _ him1⟩
  have hg1 : x1.nve.Ready y.world := by
    rw [hx1]
    exact Nve.setup_ready hw _
  have hdt : x1.nve.dt = x.nve.dt := by rw [hx1]; rfl
  have hfr1 : Fresh y x1 := by
    rw [hx1]
    exact ⟨fun e h => (Option.some_ne_none _ h.symm).elim,
      fun k e h => (Option.some_ne_none _ h.symm).elim⟩
  -- old energy
  obtain ⟨x2, he2, hfr2, pm, rm, hx2⟩ := potentialEnergy_eq ok hρ hrep1.list hfr1
  have hrep2 : Rep (lattice y.box.lengths) y.field y.usable x2.sys z := by rw [hx2]; exact hrep1
  have hnve2 : x2.nve = x1.nve := by rw [hx2]
  -- the simulation
  obtain ⟨x3, he3, hrep3, hfr3, s3, pm3, rm3, hx3⟩ := hybridLoop_eq ok hρ (x := x2)
    (by rw [hnve2]; exact hg1) hrep2 hfr2 y.nStep (by rw [hnve2, hdt]; exact had)
  have hz' : (verlet y.world.m y.field x2.nve.dt)^[y.nStep] z = z' := by
    rw [hnve2, hdt]
    rfl
  rw [hz'] at hrep3
  -- new energy
  obtain ⟨x4, he4, hfr4, pm4, rm4, hx4⟩ := potentialEnergy_eq ok hρ hrep3.list hfr3
  -- the energies
  have hlink : y.linkPart x3.linkMemo x3.sys.pos = y.linkPart x1.linkMemo x1.sys.pos := by
    have h3 : x3.linkMemo = x2.linkMemo := by rw [hx3]
    rw [h3, hx2]
    cases hL : y.hasLink <;> simp [Hybrid.linkPart, hL]
  have hkin : ∀ v : Fin N → Vec, kineticEnergy y.world v = kinetic y.world.m v := fun v => by
    rw [kineticEnergy_eq hw.toComplete]
    rfl
  have hH1 : y.U x1.sys.pos + y.linkPart x1.linkMemo x1.sys.pos + kineticEnergy y.world x2.sys.vel =
      y.H z + y.linkPart x1.linkMemo x1.sys.pos := by
    rw [hkin, hrep2.vel, U_periodic ok hrep1.pos]
    unfold Hybrid.H
    ring
  have hH3 : y.U x3.sys.pos + y.linkPart x3.linkMemo x3.sys.pos + kineticEnergy y.world x4.sys.vel =
      y.H z' + y.linkPart x1.linkMemo x1.sys.pos := by
    have h4 : x4.sys = x3.sys := by rw [hx4]
    rw [hlink, hkin, h4, hrep3.vel, U_periodic ok hrep3.pos]
    unfold Hybrid.H
    ring
  have hdiff : y.U x3.sys.pos + y.linkPart x3.linkMemo x3.sys.pos + kineticEnergy y.world x4.sys.vel -
      (y.U x1.sys.pos + y.linkPart x1.linkMemo x1.sys.pos + kineticEnergy y.world x2.sys.vel) =
      y.H z' - y.H z := by
    rw [hH1, hH3]; ring
  -- the end of the move
  have hmove : ∀ b, metropolis (Real.exp (-(1 / y.temp) * (y.H z' - y.H z))) u = b →
      y.move gs u x = if b then (do
        let (p, c) ← y.buildCellList x4.sys.pos
        Out.ok ({ x4 with sys := { x4.sys with pos := p }, cells := c, nAccept := x4.nAccept + 1 },
          true))
      else Out.ok ({ x4 with sys := { x4.sys with pos := x4.oldPositions } }, false) := by
    intro b hb'
    unfold Hybrid.move
    dsimp only
    rw [← hs1, live_eq ok hu1, ok_bind, live_eq ok hu2, ok_bind, each_update hw.toComplete, ← hx1,
      he2, ok_bind]
    dsimp only
    rw [he3, ok_bind, he4, ok_bind]
    dsimp only
    rw [hdiff, hb']
    cases b with
    | true => rfl
    | false =>
      simp only [Bool.false_eq_true, if_false]
      rw [each_update hw.toComplete]
  have hold : x4.oldPositions = x.sys.pos := by rw [hx4, hx3, hx2, hx1]; rfl
  have hatt : x4.nAttempt = x.nAttempt + 1 := by rw [hx4, hx3, hx2, hx1]; rfl
  have hacc : x4.nAccept = x.nAccept := by rw [hx4, hx3, hx2, hx1]; rfl
  have hcl : x4.cells = x.cells := by rw [hx4, hx3, hx2, hx1]; rfl
  have hnv : x4.nve.dt = x.nve.dt := by rw [hx4, hx3]; dsimp only; rw [hnve2, hdt]
  have hs4 : x4.sys = x3.sys := by rw [hx4]
  cases hm : metropolis (Real.exp (-(1 / y.temp) * (y.H z' - y.H z))) u with
  | true =>
    have hq := hw.ready _ _ hrep3.list
    have him : Image (lattice y.box.lengths) z'.1 fun i => y.box.shift (x3.sys.pos i) :=
      hrep3.pos.trans fun i => hw.shift _
    obtain ⟨c, hc, hh⟩ := buildCellList_eq ok (p := x4.sys.pos)
      (q := fun i => y.box.shift (x3.sys.pos i)) (fun i => by rw [hs4]) hq.1
      (fun q' hq' hin' => hmc q' (him.trans hq') hin')
    refine ⟨{ x4 with sys := { x4.sys with pos := fun i => y.box.shift (x3.sys.pos i) },
                      cells := c, nAccept := x4.nAccept + 1 }, ?_, ?_⟩
    · rw [hmove true hm, if_pos rfl, hc, ok_bind]
    · refine ⟨hnv, hatt, fun _ => ⟨hq.1, him, hh, ?_⟩, fun h => by simp at h⟩
      dsimp only
      rw [hacc]
  | false =>
    refine ⟨{ x4 with sys := { x4.sys with pos := x4.oldPositions } }, ?_, hnv, hatt,
      fun h => by simp at h, fun _ => ⟨hold, hcl, hacc⟩⟩
    rw [hmove false hm]
    rfl

end Verif.Integrate
