/-
Non-vacuity of C68: two atoms connected by a spring.
-/
import Verif.Nph.Props
import Mathlib.MeasureTheory.Function.Floor

set_option autoImplicit false
set_option linter.dupNamespace false

namespace Verif.Nph

open Verif.Boundary Verif.Integrate MeasureTheory

/-- The vector between the atoms. -/
noncomputable def bond (L : Vec) (p : Fin 2 → Vec) : Vec := nearest L (p 0 - p 1)

/-- Forces of the spring. -/
noncomputable def springF (L : Vec) (p : Fin 2 → Vec) (i : Fin 2) : Vec := fun a =>
  if i = 0 then -bond L p a else bond L p a

/-- Its stress. -/
noncomputable def springS (L : Vec) (p : Fin 2 → Vec) : Vec := fun a => -(bond L p a) ^ 2 / vol L

/-- Two atoms of mass 1, without pair list. -/
noncomputable def spring : Env (Fin 2) Unit where
  atoms := [0, 1]
  typ _ := 0
  nType := 1
  mass _ := 1
  shift L r := fun a => Int.fract (r a / L a) * L a
  isCurrent _ _ _ := true
  build _ _ _ := ()
  forces L _ p := springF L p
  virial L _ p := springS L p
  pressure := 0

theorem bond_periodic {L : Vec} (hL : ∀ a, 0 < L a) {p q : Fin 2 → Vec}
    (h : Image (lattice L) p q) : bond L q = bond L p := by
  obtain ⟨k, hk⟩ := h 0
  obtain ⟨k', hk'⟩ := h 1
  have : q 0 - q 1 = (p 0 - p 1) + latVec L (k - k') := by
    have e : latVec L (k - k') = latVec L k - latVec L k' := by
      funext a
      simp only [latVec, Pi.sub_apply]
      push_cast
      ring
    rw [e, ← hk, ← hk']
    abel
  unfold bond
  rw [this, nearest_lat hL]

theorem spring_exact : Exact spring springF springS (fun _ => Set.univ) (fun _ _ _ => True)
    (fun _ _ _ _ => True) where
  box L hL :=
    { nodup := by simp [Env.world, spring]
      all := fun i => by fin_cases i <;> simp [Env.world, spring]
      types := fun _ => by simp [Env.world, spring]
      shift := fun r => ⟨fun a => -⌊r a / L a⌋, by
        funext a
        have := (hL a).ne'
        simp only [Env.world, spring, Pi.sub_apply, latVec, Int.fract]
        push_cast
        field_simp
        ring⟩
      periodic := fun p q h => by
        funext i a
        unfold springF
        rw [bond_periodic hL h]
      current := fun _ _ _ => rfl
      forces := fun _ _ _ => rfl
      wrap := fun _ _ _ => trivial
      ready := fun _ _ _ => trivial
      build := fun _ _ _ => trivial
      move := fun _ _ _ _ _ _ h => h.elim }
  virial _ _ _ _ _ := rfl
  periodic L p q hL h := by
    funext a
    unfold springS
    rw [bond_periodic hL h]
  move _ _ _ _ _ _ _ _ _ _ _ _ _ := ⟨fun _ => trivial, trivial⟩

/-- Lengths 10, time step 1, the atoms at distance 1 in the first direction. -/
noncomputable def springStart : State (Fin 2) Unit where
  nph := ⟨1, 1, .orthorhombic, 0, fun _ => 0⟩
  L := fun _ => 10
  sys := ⟨![![0, 0, 0], ![1, 0, 0]], fun _ _ => 0, fun _ _ => 0, ()⟩

theorem spring_start : springStart.Start spring (fun _ => Set.univ) (fun _ _ _ => True) where
  pos _ := by norm_num [springStart]
  shape := trivial
  safe := ⟨fun _ => trivial, trivial⟩

theorem spring_bond : bond springStart.L (place springStart.L springStart.pt.2.1) = ![-1, 0, 0] := by
  rw [place_pt spring_start.pos]
  have r1 : round (-(1 / 10) : ℝ) = 0 := by
    rw [round_eq, Int.floor_eq_iff]
    norm_num
  funext a
  fin_cases a
  · simp only [bond, nearest, springStart]
    norm_num [r1]
  · simp [bond, nearest, springStart]
  · simp [bond, nearest, springStart]

theorem spring_push : (((spring.dyn springF springS springStart.nph).push (1 / 2)
    springStart.pt).1.2) = ![-1 / 20, 0, 0] := by
  have e1 : (spring.dyn springF springS springStart.nph).len springStart.pt.1.1 =
      springStart.L := rfl
  have e2 : ∀ a, speed springStart.L springStart.pt.2.2 = fun (_ : Fin 2) (_ : Fin 3) => a * 0 := by
    intro a
    rw [speed_pt spring_start.pos]
    funext i b
    simp [springStart]
  simp only [Dyn.push, e1, e2 0]
  funext a
  simp only [Env.dyn, dyn, springStart, Mode.force]
  have hb := congrFun spring_bond a
  simp only [springStart] at hb
  simp only [springS, hb, kin, vol, spring]
  fin_cases a <;> norm_num <;> rfl

theorem spring_good : GoodRun springStart.nph.mode (fun _ _ _ _ => True)
    (spring.dyn springF springS springStart.nph) springStart.nph.dt 1 springStart.pt := by
  intro k hk
  obtain rfl : k = 0 := by omega
  have hc : (spring.dyn springF springS springStart.nph).c = fun _ => 1 := by
    funext a
    simp [Env.dyn, dyn, springStart, Mode.c]
  have hp := spring_push
  have hq : springStart.pt.1.1 = fun _ => 10 := rfl
  have hdt : springStart.nph.dt = 1 := rfl
  have hh : ((spring.dyn springF springS springStart.nph).half 1 springStart.pt).1 =
      (![10 - 1 / 40, 10, 10], ![-1 / 20, 0, 0]) := by
    unfold Dyn.half
    simp only [Dyn.grow, Dyn.kick, hp, hc]
    refine Prod.ext ?_ rfl
    funext a
    have : ((spring.dyn springF springS springStart.nph).push (1 / 2) springStart.pt).1.1 =
      fun _ => (10 : ℝ) := rfl
    rw [this]
    fin_cases a <;> norm_num
  refine ⟨?_, ?_, trivial⟩
  · rw [Function.iterate_zero, id, hdt, hh]
    intro a
    fin_cases a <;> norm_num
  · rw [Function.iterate_zero, id, hdt]
    intro a
    change 0 < ((spring.dyn springF springS springStart.nph).half 1 springStart.pt).1.1 a + 1 / 2 *
      ((spring.dyn springF springS springStart.nph).c a *
        ((spring.dyn springF springS springStart.nph).half 1 springStart.pt).1.2 a)
    rw [hh, hc]
    fin_cases a <;> norm_num

/-- Non-vacuity of C68: the hypotheses hold for this system, whose cell shrinks. -/
example (shifts : ℕ → Bool) :
    (let y := simulate spring shifts 1 springStart
     let r := simulate spring shifts 1
      { y with nph := { y.nph with eta := fun a => -y.nph.eta a }
               sys := { y.sys with vel := fun i a => -y.sys.vel i a } }
     r.L = springStart.L ∧ (∀ a, r.nph.eta a = -springStart.nph.eta a) ∧
     (∀ i a, r.sys.vel i a = -springStart.sys.vel i a) ∧
     ∀ i, ∃ k : IVec, r.sys.pos i = springStart.sys.pos i + latVec springStart.L k) ∧
    (∀ a, 0 < (simulate spring shifts 1 springStart).L a) ∧
    (simulate spring shifts 1 springStart).L 0 < springStart.L 0 := by
  refine ⟨C68_reversible spring_exact shifts shifts 1 spring_start spring_good
    (fun _ _ => trivial), (C68_shape spring_exact shifts 1 spring_start spring_good).1, ?_⟩
  have h := (C68_follows spring_exact shifts 1 spring_start spring_good).1
  rw [h]
  have hc : (spring.dyn springF springS springStart.nph).c = fun _ => 1 := by
    funext a
    simp [Env.dyn, dyn, springStart, Mode.c]
  change ((springStart.pt.1.1 0 + 1 / 2 * ((spring.dyn springF springS springStart.nph).c 0 *
    ((spring.dyn springF springS springStart.nph).push (1 / 2) springStart.pt).1.2 0)) +
    1 / 2 * ((spring.dyn springF springS springStart.nph).c 0 *
    ((spring.dyn springF springS springStart.nph).push (1 / 2) springStart.pt).1.2 0)) < 10
  rw [spring_push, hc]
  have : springStart.pt.1.1 0 = 10 := rfl
  rw [this]
  norm_num

theorem round_measurable : Measurable (round : ℝ → ℤ) := by
  have : (round : ℝ → ℤ) = fun x => ⌊x + 1 / 2⌋ := by
    funext x
    exact round_eq x
  rw [this]
  exact Int.measurable_floor.comp (measurable_id.add_const _)

theorem bond_measurable (a : Fin 3) : Measurable fun z : Vec × (Fin 2 → Vec) => bond z.1 z.2 a := by
  unfold bond nearest
  have h1 : Measurable fun z : Vec × (Fin 2 → Vec) => (z.2 0 - z.2 1) a :=
    ((measurable_pi_apply a).comp ((measurable_pi_apply 0).comp measurable_snd)).sub
      ((measurable_pi_apply a).comp ((measurable_pi_apply 1).comp measurable_snd))
  have h2 : Measurable fun z : Vec × (Fin 2 → Vec) => z.1 a :=
    (measurable_pi_apply a).comp measurable_fst
  exact h1.sub ((measurable_from_top.comp (round_measurable.comp (h1.div h2))).mul h2)

/-- Non-vacuity of C68, part 4. -/
theorem spring_meas : Meas springF springS where
  F := by
    refine measurable_pi_lambda _ fun i => measurable_pi_lambda _ fun a => ?_
    unfold springF
    by_cases h : i = 0
    · simp only [h, if_true]
      exact (bond_measurable a).neg
    · simp only [h, if_false]
      exact bond_measurable a
  S := by
    refine measurable_pi_lambda _ fun a => ?_
    unfold springS
    exact ((bond_measurable a).pow_const 2).neg.div (vol_measurable.comp measurable_fst)

/-- Non-vacuity of C68, part 5: a spring between one atom and the origin, and its stress. -/
example (L : Vec) (hL : ∀ a, 0 < L a) (s : Fin 1 → Vec) :
    Virial (fun _ p => ∑ a, p 0 a ^ 2 / 2) (fun L p a => -(p 0 a) ^ 2 / vol L) L s ∧
    ∀ a, HasDerivAt (fun x => ∑ b, put (place L s) 0 a x 0 b ^ 2 / 2) (place L s 0 a)
      (place L s 0 a) := by
  constructor
  · unfold Virial
    have hv : vol L ≠ 0 := (mul_pos (mul_pos (hL 0) (hL 1)) (hL 2)).ne'
    have h : ∀ a : Fin 3, HasFDerivAt (fun L' : Vec => place L' s 0 a ^ 2 / 2)
        ((L a * s 0 a ^ 2) • (ContinuousLinearMap.proj (R := ℝ) (φ := fun _ : Fin 3 => ℝ) a)) L := by
      intro a
      have h1 : HasFDerivAt (fun L' : Vec => L' a)
        (ContinuousLinearMap.proj (R := ℝ) (φ := fun _ : Fin 3 => ℝ) a) L := hasFDerivAt_apply a L
      have h2 : HasDerivAt (fun x : ℝ => (x * s 0 a) ^ 2 / 2) (L a * s 0 a ^ 2) (L a) := by
        refine ((((hasDerivAt_id' (L a)).mul_const (s 0 a)).pow 2).div_const 2).congr_deriv ?_
        simp
        ring
      exact h2.comp_hasFDerivAt L h1
    refine (HasFDerivAt.fun_sum fun a _ => h a).congr_fderiv ?_
    refine Finset.sum_congr rfl fun a _ => ?_
    congr 1
    have := (hL a).ne'
    simp only [place]
    field_simp
  · intro a
    have h : ∀ b : Fin 3, HasDerivAt (fun x => put (place L s) 0 a x 0 b ^ 2 / 2)
        (if b = a then place L s 0 a else 0) (place L s 0 a) := by
      intro b
      by_cases hb : b = a
      · subst hb
        simp only [put, Function.update_self, if_true]
        refine (((hasDerivAt_id' (place L s 0 b)).pow 2).div_const 2).congr_deriv ?_
        simp
      · simp only [put, Function.update_self, Function.update_of_ne hb, hb, if_false]
        exact hasDerivAt_const _ _
    refine (HasDerivAt.fun_sum fun b _ => h b).congr_deriv ?_
    simp

end Verif.Nph
