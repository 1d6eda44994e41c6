/-
Velocity Verlet: the program follows the textbook algorithm up to periodic
images, whatever the history of pair lists; the algorithm is reversible and
conserves momentum.
-/
import Verif.Integrate.Loops
import Mathlib.Algebra.Module.BigOperators
import Mathlib.Tactic.Module
import Mathlib.Tactic.Abel
import Mathlib.Tactic.NormNum

set_option autoImplicit false

namespace Verif.Integrate

open Verif.Boundary

/-! ### Specification -/

section Spec

variable {ι : Type}

/-- Positions and velocities of all atoms. -/
abbrev Phase (ι : Type) := (ι → Vec) × (ι → Vec)

/-- The velocities are changed by half a time step. -/
noncomputable def kick (m : ι → ℝ) (F : (ι → Vec) → ι → Vec) (h : ℝ) (z : Phase ι) : Phase ι :=
  (z.1, fun i => z.2 i + (h / m i) • F z.1 i)

/-- Free motion during a time `h`. -/
def drift (h : ℝ) (z : Phase ι) : Phase ι := (fun i => z.1 i + h • z.2 i, z.2)

/-- The velocity Verlet algorithm: half a kick, free motion, half a kick. -/
noncomputable def verlet (m : ι → ℝ) (F : (ι → Vec) → ι → Vec) (dt : ℝ) (z : Phase ι) : Phase ι :=
  kick m F (dt / 2) (drift dt (kick m F (dt / 2) z))

/-- Reversal of all velocities. -/
def flip (z : Phase ι) : Phase ι := (z.1, fun i => -z.2 i)

/-- Total momentum. -/
def momentum [Fintype ι] (m : ι → ℝ) (v : ι → Vec) : Vec := ∑ i, m i • v i

theorem flip_flip (z : Phase ι) : flip (flip z) = z := by simp [flip]

theorem kick_flip (m : ι → ℝ) (F : (ι → Vec) → ι → Vec) (h : ℝ) (z : Phase ι) :
    kick m F h (flip (kick m F h z)) = flip z := by
  unfold kick flip
  ext1
  · rfl
  · funext i
    dsimp only
    abel

theorem drift_flip (h : ℝ) (z : Phase ι) : drift h (flip (drift h z)) = flip z := by
  unfold drift flip
  ext1
  · funext i
    dsimp only
    module
  · rfl

/-- Velocity Verlet is reversible. -/
theorem verlet_flip (m : ι → ℝ) (F : (ι → Vec) → ι → Vec) (dt : ℝ) (z : Phase ι) :
    verlet m F dt (flip (verlet m F dt z)) = flip z := by
  unfold verlet
  rw [kick_flip, drift_flip, kick_flip]

/-- A map that is reversed by a reversal of velocities, repeated. -/
theorem iterate_flip {α : Type} {f r : α → α} (h : ∀ z, f (r (f z)) = r z) (n : ℕ) (z : α) :
    f^[n] (r (f^[n] z)) = r z := by
  induction n generalizing z with
  | zero => rfl
  | succ n ih =>
    rw [Function.iterate_succ_apply' f n z, Function.iterate_succ_apply f n, h, ih]

theorem momentum_kick [Fintype ι] (m : ι → ℝ) (hm : ∀ i, m i ≠ 0) (F : (ι → Vec) → ι → Vec)
    (hF : ∀ p, ∑ i, F p i = 0) (h : ℝ) (z : Phase ι) :
    momentum m (kick m F h z).2 = momentum m z.2 := by
  unfold momentum kick
  dsimp only
  simp only [smul_add, Finset.sum_add_distrib, smul_smul]
  have : ∀ i, m i * (h / m i) = h := fun i => by field_simp [hm i]
  simp only [this, ← Finset.smul_sum, hF, smul_zero, add_zero]

theorem momentum_verlet [Fintype ι] (m : ι → ℝ) (hm : ∀ i, m i ≠ 0) (F : (ι → Vec) → ι → Vec)
    (hF : ∀ p, ∑ i, F p i = 0) (dt : ℝ) (z : Phase ι) :
    momentum m (verlet m F dt z).2 = momentum m z.2 := by
  unfold verlet
  rw [momentum_kick m hm F hF]
  exact momentum_kick m hm F hF _ _

end Spec

/-! ### Refinement -/

section Images

variable {ι : Type}

/-- Periodic images of all atoms. -/
def Image (Λ : AddSubgroup Vec) (p q : ι → Vec) : Prop := ∀ i, q i - p i ∈ Λ

theorem Image.refl (Λ : AddSubgroup Vec) (p : ι → Vec) : Image Λ p p := fun i => by simp

theorem Image.symm {Λ : AddSubgroup Vec} {p q : ι → Vec} (h : Image Λ p q) : Image Λ q p :=
  fun i => by
    have := Λ.neg_mem (h i)
    rwa [neg_sub] at this

theorem Image.trans {Λ : AddSubgroup Vec} {p q r : ι → Vec} (h : Image Λ p q) (h' : Image Λ q r) :
    Image Λ p r := fun i => by
  have := Λ.add_mem (h i) (h' i)
  rwa [add_comm, sub_add_sub_cancel] at this

theorem Image.add {Λ : AddSubgroup Vec} {p q : ι → Vec} (h : Image Λ p q) (d : ι → Vec) :
    Image Λ (fun i => p i + d i) fun i => q i + d i := fun i => by
  have := h i
  rwa [add_sub_add_right_eq_sub]

end Images

variable {ι : Type} [DecidableEq ι] {P : Type}

/-- The environment of an integrator computes the force field `F`, which has the
periodicity `Λ`:

* all atoms are visited once, and have types for which masses are given;
* Boundary::shift moves an atom to a periodic image (C23);
* `ok l p`: the list `l` has been built, and can be used for the positions `p`:
  then it reports to be current (C06) and the sum over the listed pairs is the
  force (C05, C06, C27);
* a list built for positions in the set `cell` can be used for them;
* the atoms may be moved by `d` if `adm z d`, where `z` are any images of their
  positions: if the list is still current it can be used, and in any case
  shifting brings the atoms back into `cell`. -/
structure World.Exact (w : World ι P) (Λ : AddSubgroup Vec) (F : (ι → Vec) → ι → Vec)
    (cell : Set (ι → Vec)) (ok : P → (ι → Vec) → Prop) (adm : (ι → Vec) → (ι → Vec) → Prop) : Prop
    extends w.Complete where
  types : ∀ i, w.typ i < w.nType
  shift : ∀ r, w.shift r - r ∈ Λ
  periodic : ∀ p q, Image Λ p q → F q = F p
  current : ∀ l p, ok l p → w.isCurrent l p = true
  forces : ∀ l p, ok l p → w.forces l p = F p
  wrap : ∀ l p, ok l p → ok l fun i => w.shift (p i)
  ready : ∀ l p, ok l p → (fun i => w.shift (p i)) ∈ cell
  build : ∀ l q, q ∈ cell → ok (w.build l q) q
  move : ∀ l p z d, ok l p → Image Λ z p → adm z d →
    (w.isCurrent l (fun i => p i + d i) = true → ok l fun i => p i + d i) ∧
    (fun i => w.shift (p i + d i)) ∈ cell

variable {w : World ι P} {Λ : AddSubgroup Vec} {F : (ι → Vec) → ι → Vec}
  {cell : Set (ι → Vec)} {ok : P → (ι → Vec) → Prop} {adm : (ι → Vec) → (ι → Vec) → Prop}

/-- If the list reports to be current it can be used, and shifting brings the
atoms into the cell. -/
def Sys.Safe (w : World ι P) (cell : Set (ι → Vec)) (ok : P → (ι → Vec) → Prop) (s : Sys ι P) :
    Prop :=
  (w.isCurrent s.list s.pos = true → ok s.list s.pos) ∧ (fun i => w.shift (s.pos i)) ∈ cell

theorem refresh_spec (hw : w.Exact Λ F cell ok adm) {s : Sys ι P} (hs : s.Safe w cell ok) :
    ok (refresh w s).list (refresh w s).pos ∧
    Image Λ s.pos (refresh w s).pos ∧ (refresh w s).vel = s.vel ∧
    (refresh w s).force = s.force := by
  unfold refresh
  split
  · exact ⟨hs.1 (by assumption), Image.refl _ _, rfl, rfl⟩
  · rw [buildPairList_eq hw.toComplete]
    exact ⟨hw.build _ _ hs.2, fun i => hw.shift _, rfl, rfl⟩

/-- With a usable list, refreshing does nothing. -/
theorem refresh_ok (hw : w.Exact Λ F cell ok adm) {s : Sys ι P} (hs : ok s.list s.pos) :
    refresh w s = s := by
  unfold refresh
  rw [if_pos (hw.current _ _ hs)]

/-- The forces, for positions for which the list can be used. -/
theorem calculateForces_ok (hw : w.Exact Λ F cell ok adm) {s : Sys ι P} (hs : ok s.list s.pos) :
    calculateForces w s = { s with force := F s.pos } := by
  unfold calculateForces
  rw [setZeroForces_eq hw.toComplete, addForces_eq hw.toComplete,
    refresh_ok hw (s := { s with force := fun _ => 0 }) hs]
  dsimp only
  rw [hw.forces _ _ hs]
  simp

/-- The forces are computed for positions that are images of the given ones. -/
theorem calculateForces_spec (hw : w.Exact Λ F cell ok adm) {s : Sys ι P} (hs : s.Safe w cell ok) :
    ok (calculateForces w s).list (calculateForces w s).pos ∧
    Image Λ s.pos (calculateForces w s).pos ∧
    (calculateForces w s).vel = s.vel ∧ (calculateForces w s).force = F s.pos := by
  unfold calculateForces
  rw [setZeroForces_eq hw.toComplete, addForces_eq hw.toComplete]
  set s0 : Sys ι P := { s with force := fun _ => 0 } with hs0
  have h0 : s0.Safe w cell ok := hs
  obtain ⟨hok, him, hv, hf⟩ := refresh_spec hw h0
  refine ⟨hok, him, hv, ?_⟩
  dsimp only
  rw [hf, hw.forces _ _ hok, hw.periodic _ _ him]
  simp [hs0]

/-- The state of the program stands for a point of phase space: positions up to
images, velocities, and forces that belong to the positions. -/
structure Rep (Λ : AddSubgroup Vec) (F : (ι → Vec) → ι → Vec)
    (ok : P → (ι → Vec) → Prop) (s : Sys ι P) (z : Phase ι) : Prop where
  list : ok s.list s.pos
  pos : Image Λ z.1 s.pos
  vel : s.vel = z.2
  force : s.force = F z.1

/-- The masses of the atoms. -/
def World.m (w : World ι P) (i : ι) : ℝ := w.mass (w.typ i)

/-- `setup` has been called. -/
def Nve.Ready (w : World ι P) (g : Nve) : Prop := ∀ i, g.pref (w.typ i) = g.dt / 2 / w.m i

theorem prefactors_eq (hw : w.Exact Λ F cell ok adm) (dt : ℝ) (q : ℕ → ℝ) (i : ι) :
    prefactors w dt q (w.typ i) = dt / 2 / w.m i := by
  unfold prefactors
  rw [pref_eq]
  simp only [hw.types i, if_true, World.m]
  ring

theorem Nve.setup_ready (hw : w.Exact Λ F cell ok adm) (g : Nve) : (g.setup w).Ready w := fun i =>
  prefactors_eq hw _ _ i

theorem shiftAtoms_rep (hw : w.Exact Λ F cell ok adm) {s : Sys ι P} {z : Phase ι}
    (h : Rep Λ F ok s z) : Rep Λ F ok (shiftAtoms w s) z := by
  rw [shiftAtoms_eq hw.toComplete]
  exact ⟨hw.wrap _ _ h.list, h.pos.trans fun i => hw.shift _, h.vel, h.force⟩

/-- The displacements of one step of velocity Verlet. -/
noncomputable def displacement (m : ι → ℝ) (F : (ι → Vec) → ι → Vec) (dt : ℝ) (z : Phase ι) :
    ι → Vec := fun i => dt • (kick m F (dt / 2) z).2 i

/-- The displacements of the first `n` steps of velocity Verlet are admissible. -/
def Admissible (adm : (ι → Vec) → (ι → Vec) → Prop) (m : ι → ℝ) (F : (ι → Vec) → ι → Vec) (dt : ℝ)
    (n : ℕ) (z : Phase ι) : Prop :=
  ∀ k < n, adm ((verlet m F dt)^[k] z).1 (displacement m F dt ((verlet m F dt)^[k] z))

theorem Admissible.zero {m : ι → ℝ} {dt : ℝ} {n : ℕ} {z : Phase ι}
    (h : Admissible adm m F dt (n + 1) z) : adm z.1 (displacement m F dt z) := h 0 (by omega)

theorem Admissible.succ {m : ι → ℝ} {dt : ℝ} {n : ℕ} {z : Phase ι}
    (h : Admissible adm m F dt (n + 1) z) : Admissible adm m F dt n (verlet m F dt z) :=
  fun k hk => by
    have := h (k + 1) (by omega)
    rwa [Function.iterate_succ_apply] at this

/-- **One step of the program is one step of velocity Verlet.** -/
theorem Nve.step_rep (hw : w.Exact Λ F cell ok adm) {g : Nve} (hg : g.Ready w) {s : Sys ι P}
    {z : Phase ι} (h : Rep Λ F ok s z) (had : adm z.1 (displacement w.m F g.dt z)) :
    Rep Λ F ok (g.step w s) (verlet w.m F g.dt z) := by
  unfold Nve.step
  rw [Nve.step1_eq hw.toComplete, Nve.step2_eq hw.toComplete]
  set s1 : Sys ι P := { s with
      vel := fun i => s.vel i + g.pref (w.typ i) • s.force i
      pos := fun i => s.pos i + g.dt • (s.vel i + g.pref (w.typ i) • s.force i) } with hs1
  have hd : (fun i => g.dt • (s.vel i + g.pref (w.typ i) • s.force i)) =
      displacement w.m F g.dt z := by
    funext i
    rw [hg i, h.vel, h.force]
    rfl
  have hb : s1.Safe w cell ok := by
    have := hw.move _ _ _ _ h.list h.pos had
    rw [← hd] at this
    exact this
  obtain ⟨hb2, him2, hv2, _⟩ := refresh_spec hw hb
  have hx : Image Λ (drift g.dt (kick w.m F (g.dt / 2) z)).1 s1.pos := by
    intro i
    have := (h.pos.add fun i => g.dt • (s.vel i + g.pref (w.typ i) • s.force i)) i
    rw [hs1]
    dsimp only at this ⊢
    rw [hg i, h.vel, h.force] at this ⊢
    exact this
  have e3 := calculateForces_ok hw hb2
  rw [e3]
  refine ⟨hb2, hx.trans him2, ?_, ?_⟩
  · dsimp only
    funext i
    rw [hv2, hw.periodic _ _ (hx.trans him2), hg i, hs1]
    dsimp only
    rw [h.vel, h.force, hg i]
    rfl
  · dsimp only
    rw [hw.periodic _ _ (hx.trans him2)]
    rfl

theorem Nve.iterate_rep (hw : w.Exact Λ F cell ok adm) {g : Nve} (hg : g.Ready w) (n : ℕ)
    {s : Sys ι P} {z : Phase ι} (h : Rep Λ F ok s z) (had : Admissible adm w.m F g.dt n z) :
    Rep Λ F ok ((g.step w)^[n] s) ((verlet w.m F g.dt)^[n] z) := by
  induction n generalizing s z with
  | zero => exact h
  | succ n ih => exact ih (Nve.step_rep hw hg h had.zero) had.succ

theorem Nve.mainLoop_rep (hw : w.Exact Λ F cell ok adm) {g : Nve} (hg : g.Ready w)
    (shifts : ℕ → Bool) (n : ℕ) :
    ∀ (i : ℕ) {s : Sys ι P} {z : Phase ι} (_ : Rep Λ F ok s z)
      (_ : Admissible adm w.m F g.dt n z),
      (mainLoop w (Nve.next w) shifts i n (g, s)).1 = g ∧
      Rep Λ F ok (mainLoop w (Nve.next w) shifts i n (g, s)).2 ((verlet w.m F g.dt)^[n] z) := by
  induction n with
  | zero => exact fun i s z h _ => ⟨rfl, shiftAtoms_rep hw h⟩
  | succ n ih =>
    intro i s z h had
    rw [mainLoop, Function.iterate_succ_apply]
    have : ∀ s', Rep Λ F ok s' z → Nve.next w (g, s') = (g, g.step w s') ∧
        Rep Λ F ok (g.step w s') (verlet w.m F g.dt z) :=
      fun s' h' => ⟨rfl, Nve.step_rep hw hg h' had.zero⟩
    split
    · obtain ⟨e, h'⟩ := this _ (shiftAtoms_rep hw h)
      dsimp only
      rw [e]
      exact ih _ h' had.succ
    · obtain ⟨e, h'⟩ := this _ h
      rw [e]
      exact ih _ h' had.succ

/-- The start of a simulation: the forces belong to the positions. -/
theorem start_rep (hw : w.Exact Λ F cell ok adm) {s : Sys ι P}
    (hs : (shiftAtoms w s).Safe w cell ok) :
    Rep Λ F ok (calculateForces w (shiftAtoms w s)) (s.pos, s.vel) := by
  obtain ⟨h1, h2, h3, h4⟩ := calculateForces_spec hw hs
  rw [shiftAtoms_eq hw.toComplete] at h1 h2 h3 h4 ⊢
  have him : Image Λ s.pos (fun i => w.shift (s.pos i)) := fun i => hw.shift _
  exact ⟨h1, him.trans h2, h3, by rw [h4]; exact hw.periodic _ _ him⟩

/-- A simulation can be continued by another one. -/
theorem Rep.safe (hw : w.Exact Λ F cell ok adm) {s : Sys ι P} {z : Phase ι} (h : Rep Λ F ok s z)
    (v : ι → Vec) : (shiftAtoms w { s with vel := v }).Safe w cell ok := by
  rw [shiftAtoms_eq hw.toComplete]
  have := hw.wrap _ _ h.list
  exact ⟨fun _ => this, hw.ready _ _ this⟩

/-- A simulation of `n` steps. -/
theorem Nve.simulate_rep (hw : w.Exact Λ F cell ok adm) (g : Nve) (shifts : ℕ → Bool) (n : ℕ)
    {s : Sys ι P} (hs : (shiftAtoms w s).Safe w cell ok)
    (had : Admissible adm w.m F g.dt n (s.pos, s.vel)) :
    Rep Λ F ok (simulate w (fun _ g => g.setup w) (Nve.next w) shifts n g s).2
      ((verlet w.m F g.dt)^[n] (s.pos, s.vel)) := by
  unfold simulate
  exact (Nve.mainLoop_rep hw (Nve.setup_ready hw g) shifts n 0 (start_rep hw hs) had).2

end Verif.Integrate
