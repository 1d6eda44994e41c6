/-
A simulation that is continued from a restart file comes to the same final state as the one
that was not interrupted.
-/
import Verif.Restart.Run

set_option autoImplicit false

namespace Verif.Restart

open Verif.Cpp Verif.Cpp.Out Verif.Boundary Verif.Integrate Verif.McPairList

section General

variable {ι : Type} [DecidableEq ι] {P : Type} {w : World ι P} {Λ : AddSubgroup Vec}
  {F : (ι → Vec) → ι → Vec} {cell : Set (ι → Vec)} {ok : P → (ι → Vec) → Prop}
  {adm : (ι → Vec) → (ι → Vec) → Prop}

/-- A system loaded from an archive stands for the same point of phase space. -/
theorem reload_rep (hw : w.Exact Λ F cell ok adm) {s : Sys ι P} {z : Phase ι} (h : Rep Λ F ok s z)
    (f : ι → Vec) (l : P) : Rep Λ F ok (calculateForces w (buildPairList w
      { pos := fun i => w.shift (s.pos i), vel := s.vel, force := f, list := l })) z := by
  have hc := hw.ready _ _ (hw.wrap _ _ h.list)
  have hb := hw.build l _ hc
  have him : Image Λ z.1 (fun i => w.shift (w.shift (s.pos i))) :=
    (h.pos.trans fun i => hw.shift _).trans fun i => hw.shift _
  rw [buildPairList_eq hw.toComplete]
  rw [calculateForces_ok hw hb]
  exact ⟨hb, him, h.vel, hw.periodic _ _ him⟩

/-- The array of prefactors, as saved. -/
def prefList (w : World ι P) (p : ℕ → ℝ) : List ℝ := (List.range w.nType).map p

omit [DecidableEq ι] in
theorem prefList_getD (w : World ι P) (p : ℕ → ℝ) {t : ℕ} (ht : t < w.nType) :
    (prefList w p).getD t 0 = p t := by
  simp [prefList, List.getD, ht]

/-- A simulation with the integrator NveVvIntegrator. -/
def nveProg (w : World ι P) (species : List (List (List ι))) (rest : List Tok)
    (skip : List Tok → Out (List Tok)) : Prog ι P Nve where
  w := w
  species := species
  step := Nve.next w
  save g := NveVv.save { dt := g.dt, pref := prefList w g.pref }
  load _ r := do
    let (h, r) ← NveVv.load w.nType r
    Out.ok ({ dt := h.dt, pref := fun t => h.pref.getD t 0 }, r)
  rest := rest
  skip := skip

/-- The variables of NvtNhIntegrator. -/
def nhData (w : World ι P) (T : ℝ) (tauT : ℝ) (kinetic : Nh → ℝ) (g : Nh) : NvtNh where
  dt := g.dt
  tauT := tauT
  nuT := g.nuT
  target := T
  kinetic := kinetic g
  xiDot := g.xiDot
  xi := g.xi
  pref := prefList w g.pref

/-- A simulation with the integrator NvtNhIntegrator at the temperature `T`. `tauT` and
`kinetic` are its variables that do not affect the steps. -/
noncomputable def nhProg (w : World ι P) (T : ℝ) (tauT : ℝ) (kinetic : Nh → ℝ)
    (species : List (List (List ι))) (rest : List Tok) (skip : List Tok → Out (List Tok)) :
    Prog ι P Nh where
  w := w
  species := species
  step := Nh.step w T
  save g := NvtNh.save (nhData w T tauT kinetic g)
  load _ r := do
    let (h, r) ← NvtNh.load r
    Out.ok ({ dt := h.dt, nuT := h.nuT, xi := h.xi, xiDot := h.xiDot
              pref := fun t => h.pref.getD t 0 }, r)
  rest := rest
  skip := skip

variable {species : List (List (List ι))} {rest : List Tok} {skip : List Tok → Out (List Tok)}

theorem nve_keeps (hw : w.Exact Λ F cell ok adm) (hn : 0 < w.nType)
    (hsp : atomsOf species = w.atoms) (hsk : ∀ r, skip (rest ++ r) = Out.ok r) {dt : ℝ} {n : ℕ}
    {z : Phase ι} (had : Admissible adm w.m F dt n z) :
    Keeps (nveProg w species rest skip) n fun i x =>
      x.1.dt = dt ∧ x.1.Ready w ∧ Rep Λ F ok x.2 ((verlet w.m F dt)^[i] z) where
  complete := hw.toComplete
  species := hsp
  skip := hsk
  shift := fun i x h => ⟨h.1, h.2.1, shiftAtoms_rep hw h.2.2⟩
  step := by
    rintro i ⟨g, s⟩ hi ⟨rfl, h2, h3⟩
    refine ⟨rfl, h2, ?_⟩
    rw [Function.iterate_succ_apply']
    exact Nve.step_rep hw h2 h3 (had i hi)
  load := by
    rintro i ⟨g, s⟩ g0 l f r ⟨rfl, h2, h3⟩
    have hne : prefList w g.pref ≠ [] := by
      simp only [prefList, ne_eq, List.map_eq_nil_iff, List.range_eq_nil]
      omega
    have e := (C67_mcMd_integrators r).1 { dt := g.dt, pref := prefList w g.pref } hne
    have hl : ((prefList w g.pref).length : ℤ) = w.nType := by simp [prefList]
    dsimp only at e
    rw [hl] at e
    refine ⟨{ dt := g.dt, pref := fun t => (prefList w g.pref).getD t 0 }, ?_, rfl, fun j => ?_,
      reload_rep hw h3 f l⟩
    · change (NveVv.load w.nType _ >>= _) = _
      rw [show (nveProg w species rest skip).save g =
        NveVv.save { dt := g.dt, pref := prefList w g.pref } from rfl, e, ok_bind]
    · dsimp only
      rw [prefList_getD w _ (hw.types j)]
      exact h2 j

theorem nh_keeps [Fintype ι] (hw : w.Exact Λ F cell ok adm)
    (hsp : atomsOf species = w.atoms) (hsk : ∀ r, skip (rest ++ r) = Out.ok r) {T tauT nuT dt : ℝ}
    {kinetic : Nh → ℝ} {n : ℕ} {y : ThermoPhase ι}
    (had : ThermoAdmissible adm w.m F (deviation w.m T nuT) dt n y) :
    Keeps (nhProg w T tauT kinetic species rest skip) n fun i x =>
      x.1.dt = dt ∧ x.1.nuT = nuT ∧
        Nh.Rep w Λ F ok T x ((noseHoover w.m F (deviation w.m T nuT) dt)^[i] y) where
  complete := hw.toComplete
  species := hsp
  skip := hsk
  shift := fun i x h => ⟨h.1, h.2.1, Nh.shiftAtoms_rep hw h.2.2⟩
  step := by
    rintro i ⟨g, s⟩ hi ⟨rfl, rfl, h3⟩
    refine ⟨rfl, rfl, ?_⟩
    rw [Function.iterate_succ_apply']
    exact (Nh.step_rep hw T h3 (had i hi)).1
  load := by
    rintro i ⟨g, s⟩ g0 l f r ⟨rfl, rfl, h3⟩
    have e := (C67_mcMd_integrators r).2.1 (nhData w T tauT kinetic g)
    refine ⟨{ dt := g.dt, nuT := g.nuT, xi := g.xi, xiDot := g.xiDot
              pref := fun t => (prefList w g.pref).getD t 0 }, ?_, rfl, rfl,
      reload_rep hw h3.sys f l, fun j => ?_, h3.xi, h3.xiDot⟩
    · change (NvtNh.load _ >>= _) = _
      rw [show (nhProg w T tauT kinetic species rest skip).save g =
        NvtNh.save (nhData w T tauT kinetic g) from rfl, e, ok_bind]
      rfl
    · dsimp only
      rw [prefList_getD w _ (hw.types j)]
      exact h3.pref j

end General

/-! ### Systems with pair interactions -/

variable {N : ℕ} {y : PairSystem N}

/-- Two images of one position in the primary cell are the same. -/
theorem inCell_unique {L a b : Vec} (hL : ∀ j, 0 < L j) (ha : InCell L a) (hb : InCell L b)
    (h : b - a ∈ lattice L) : a = b := by
  obtain ⟨k, hk⟩ := h
  funext j
  have e : b j - a j = k j * L j := congrFun hk j
  obtain ⟨h1, h2⟩ := ha j
  obtain ⟨h3, h4⟩ := hb j
  have hj := hL j
  have hk0 : k j = 0 := by
    have u : (k j : ℝ) < 1 := by
      by_contra hc
      push Not at hc
      nlinarith
    have l : (-1 : ℝ) < k j := by
      by_contra hc
      push Not at hc
      nlinarith
    have u' : k j < 1 := by exact_mod_cast u
    have l' : -1 < k j := by exact_mod_cast l
    omega
  rw [hk0] at e
  simp only [Int.cast_zero, zero_mul] at e
  linarith

/-- Final states that stand for one point of phase space, shifted to the primary cell, have
the same positions. -/
theorem final_pos (ok : y.OK) {ρ : ℝ} (hρ : ∀ j, y.skin + ρ < y.box.lengths j)
    {s t : Sys (Fin N) (Option PL)} {z : Phase (Fin N)}
    (hs : Rep (lattice y.box.lengths) y.field y.usable s z)
    (ht : Rep (lattice y.box.lengths) y.field y.usable t z) :
    (shiftAtoms y.world s).pos = (shiftAtoms y.world t).pos := by
  have hw := ok.exact hρ
  rw [shiftAtoms_eq hw.toComplete, shiftAtoms_eq hw.toComplete]
  funext i
  have h1 : Image (lattice y.box.lengths) z.1 (fun i => y.world.shift (s.pos i)) :=
    hs.pos.trans fun i => hw.shift _
  have h2 : Image (lattice y.box.lengths) z.1 (fun i => y.world.shift (t.pos i)) :=
    ht.pos.trans fun i => hw.shift _
  refine inCell_unique (fun j => ?_) ((hw.ready _ _ hs.list).1 i) ((hw.ready _ _ ht.list).1 i)
    (h1.symm.trans h2 i)
  have a := ok.thin j
  have b := ok.skin
  linarith

/-- The start of a simulation that is not a continuation (MdSimulation.cpp:443-455). -/
noncomputable def nveStart (y : PairSystem N) (g : Nve) (s : Sys (Fin N) (Option PL)) :
    Nve × Sys (Fin N) (Option PL) :=
  (g.setup y.world, calculateForces y.world (shiftAtoms y.world s))

noncomputable def nhStart (y : PairSystem N) (T : ℝ) (g : Nh) (s : Sys (Fin N) (Option PL)) :
    Nh × Sys (Fin N) (Option PL) :=
  let s := calculateForces y.world (shiftAtoms y.world s)
  (g.setup y.world T s, s)

/-- **C67, velocity Verlet.** Every restart file written during a simulation of `n` steps can
be loaded by a program in any state; if it then continues to step `n`, with any other
sampling of analyzers and writing of restart files, the atoms have the same positions and
velocities as at the end of the simulation that was not interrupted. -/
theorem C67_resume (ok : y.OK) {ρ : ℝ} (hρ : ∀ j, y.skin + ρ < y.box.lengths j) (hn : 0 < y.nType)
    {species : List (List (List (Fin N)))} (hsp : atomsOf species = y.world.atoms) {rest : List Tok}
    {skip : List Tok → Out (List Tok)} (hsk : ∀ r, skip (rest ++ r) = Out.ok r) (g : Nve) (n : ℕ)
    {s : Sys (Fin N) (Option PL)} (hs : Start y s)
    (had : Admissible (y.adm ρ) y.world.m y.field g.dt n (s.pos, s.vel))
    (shifts saves shifts' saves' : ℕ → Bool) :
    let q := nveProg y.world species rest skip
    let whole := q.run shifts saves 0 n (nveStart y g s)
    ∀ a ∈ whole.2, ∀ x0, ∃ z, q.resume shifts' saves' n x0 a = Out.ok z ∧
      z.1.2.pos = whole.1.2.pos ∧ z.1.2.vel = whole.1.2.vel := by
  intro q whole a ha x0
  have hw := ok.exact hρ
  have hk := nve_keeps (species := species) (rest := rest) (skip := skip) hw hn hsp hsk had
  have h0 : (nveStart y g s).1.dt = g.dt ∧ (nveStart y g s).1.Ready y.world ∧
      Rep (lattice y.box.lengths) y.field y.usable (nveStart y g s).2
        ((verlet y.world.m y.field g.dt)^[0] (s.pos, s.vel)) :=
    ⟨rfl, Nve.setup_ready hw g, start_rep hw (hs.safe ok hρ)⟩
  obtain ⟨z, x, hz, ⟨_, _, hx⟩, e⟩ := hk.resume shifts saves shifts' saves' h0 x0 ha
  obtain ⟨⟨x', ⟨_, _, hx'⟩, e'⟩, _⟩ := hk.run shifts saves n 0 _ (by omega) h0
  refine ⟨z, hz, ?_, ?_⟩
  · rw [e]
    change _ = (q.run shifts saves 0 n (nveStart y g s)).1.2.pos
    rw [e']
    exact final_pos ok hρ hx hx'
  · rw [e]
    change _ = (q.run shifts saves 0 n (nveStart y g s)).1.2.vel
    rw [e']
    change (shiftAtoms y.world x.2).vel = (shiftAtoms y.world x'.2).vel
    rw [shiftAtoms_eq hw.toComplete, shiftAtoms_eq hw.toComplete]
    exact hx.vel.trans hx'.vel.symm

/-- **C67, thermostat.** The same for the Nose-Hoover integrator; the thermostat variable is
the same, too. -/
theorem C67_resume_thermostat (ok : y.OK) {ρ : ℝ} (hρ : ∀ j, y.skin + ρ < y.box.lengths j)
    {species : List (List (List (Fin N)))} (hsp : atomsOf species = y.world.atoms) {rest : List Tok}
    {skip : List Tok → Out (List Tok)} (hsk : ∀ r, skip (rest ++ r) = Out.ok r) (T tauT : ℝ)
    (kinetic : Nh → ℝ) (g : Nh) (n : ℕ) {s : Sys (Fin N) (Option PL)} (hs : Start y s)
    (had : ThermoAdmissible (y.adm ρ) y.world.m y.field (deviation y.world.m T g.nuT) g.dt n
      ((s.pos, s.vel), 0)) (shifts saves shifts' saves' : ℕ → Bool) :
    let q := nhProg y.world T tauT kinetic species rest skip
    let whole := q.run shifts saves 0 n (nhStart y T g s)
    ∀ a ∈ whole.2, ∀ x0, ∃ z, q.resume shifts' saves' n x0 a = Out.ok z ∧
      z.1.2.pos = whole.1.2.pos ∧ z.1.2.vel = whole.1.2.vel ∧ z.1.1.xi = whole.1.1.xi := by
  intro q whole a ha x0
  have hw := ok.exact hρ
  have hk := nh_keeps (species := species) (rest := rest) (skip := skip) (tauT := tauT)
    (kinetic := kinetic) hw hsp hsk had
  have h0 : (nhStart y T g s).1.dt = g.dt ∧ (nhStart y T g s).1.nuT = g.nuT ∧
      Nh.Rep y.world (lattice y.box.lengths) y.field y.usable T (nhStart y T g s)
        ((noseHoover y.world.m y.field (deviation y.world.m T g.nuT) g.dt)^[0] ((s.pos, s.vel), 0)) :=
    ⟨rfl, rfl, Nh.setup_rep hw T g (start_rep hw (hs.safe ok hρ))⟩
  obtain ⟨z, x, hz, ⟨_, _, hx⟩, e⟩ := hk.resume shifts saves shifts' saves' h0 x0 ha
  obtain ⟨⟨x', ⟨_, _, hx'⟩, e'⟩, _⟩ := hk.run shifts saves n 0 _ (by omega) h0
  refine ⟨z, hz, ?_, ?_, ?_⟩
  · rw [e]
    change _ = (q.run shifts saves 0 n (nhStart y T g s)).1.2.pos
    rw [e']
    exact final_pos ok hρ hx.sys hx'.sys
  · rw [e]
    change _ = (q.run shifts saves 0 n (nhStart y T g s)).1.2.vel
    rw [e']
    change (shiftAtoms y.world x.2).vel = (shiftAtoms y.world x'.2).vel
    rw [shiftAtoms_eq hw.toComplete, shiftAtoms_eq hw.toComplete]
    exact hx.sys.vel.trans hx'.sys.vel.symm
  · rw [e]
    change _ = (q.run shifts saves 0 n (nhStart y T g s)).1.1.xi
    rw [e']
    exact hx.xi.trans hx'.xi.symm

/-- Without restart files written, the loop is that of C43. -/
theorem run_mainLoop {ι P G : Type} [DecidableEq ι] (q : Prog ι P G) (shifts : ℕ → Bool) (n : ℕ) :
    ∀ (i : ℕ) (x : G × Sys ι P), (q.run shifts (fun _ => false) i n x).1 =
      mainLoop q.w q.step shifts i n x := by
  induction n with
  | zero => exact fun i x => rfl
  | succ n ih =>
    intro i x
    rw [Prog.run, mainLoop]
    exact ih _ _

/-- Non-vacuity: the two atoms of C43, 20 steps, a restart file every five steps; the first
file is written before the first step. -/
example : let q := nveProg repelling.world [[[0], [1]]] [] Out.ok
    let whole := q.run (fun i => i % 10 = 0) (fun i => i % 5 = 0) 0 20
      (nveStart repelling repellingNve repellingStart)
    whole.2 ≠ [] ∧ ∀ a ∈ whole.2, ∀ x0, ∃ z, q.resume (fun _ => true) (fun _ => false) 20 x0 a =
      Out.ok z ∧ z.1.2.pos = whole.1.2.pos ∧ z.1.2.vel = whole.1.2.vel := by
  intro q whole
  refine ⟨?_, C67_resume repelling_ok (ρ := 1 / 2) (fun _ => by norm_num [repelling, Ortho.default])
    (by norm_num [repelling]) (by simp [atomsOf, PairSystem.world]; rfl) (fun r => rfl) repellingNve 20
    repelling_start repelling_admissible _ _ _ _⟩
  change (q.run _ _ 0 (19 + 1) _).2 ≠ []
  rw [Prog.run, if_pos (by decide : decide (0 % 5 = 0) = true)]
  exact List.cons_ne_nil _ _

end Verif.Restart
