/-
C68: the pair list is not safe when the cell changes.

The list reports to be current as long as no atom has moved by more than half the skin
since it was built.  A cell that shrinks brings atoms on both sides of its boundary
closer together, also if they do not move.
-/
import Verif.Nph.Refine
import Verif.Integrate.Props

set_option autoImplicit false
set_option linter.dupNamespace false

namespace Verif.Nph

open Verif.Boundary Verif.Integrate Verif.McPairList

/-- The system in a cell of other lengths. -/
noncomputable def inBox {N : ℕ} (y : PairSystem N) (L : Vec) : PairSystem N :=
  { y with box := Ortho.default.setOrthorhombic L }

/-- The environment of the integrator with the pair list of `Integrate.Pairs`. -/
noncomputable def pairEnv {N : ℕ} (y : PairSystem N) (virial : Vec → Option PL → (Fin N → Vec) → Vec)
    (pressure : ℝ) : Env (Fin N) (Option PL) where
  atoms := List.finRange N
  typ := y.typ
  nType := y.nType
  mass := y.mass
  shift L := (inBox y L).box.shift
  isCurrent L := (inBox y L).world.isCurrent
  build L := (inBox y L).world.build
  forces L := (inBox y L).world.forces
  virial := virial
  pressure := pressure

/-- Two atoms that repel each other at distances below 1; the skin is 1/2. -/
noncomputable def near : PairSystem 2 where
  box := Ortho.default
  typ _ := 0
  nType := 1
  mass _ := 1
  masked _ _ := False
  cutSq _ _ := 1
  forceOverR _ _ _ := 1
  other _ _ := 0
  rc := 1
  skin := 1 / 2
  cellCap := 3
  atomCap := 2
  pairCap := 4

/-- Lengths before the step. -/
noncomputable def wide : Vec := ![10, 10, 10]

/-- Lengths after the step. -/
noncomputable def tight : Vec := ![9, 10, 10]

theorem box_lengths (L : Vec) : (Ortho.default.setOrthorhombic L).lengths = L := by
  funext i
  simp [Ortho.setOrthorhombic, Ortho.reset, Ortho.default]

theorem box_half (L : Vec) : (Ortho.default.setOrthorhombic L).half = fun i => L i / 2 := by
  funext i
  simp [Ortho.setOrthorhombic, Ortho.reset, Ortho.default]
  ring

theorem near_ok {L : Vec} (hL : ∀ i, 9 ≤ L i) : (inBox near L).OK where
  box := .ortho L (fun i => by linarith [hL i]) .default
  types _ := by simp [inBox, near]
  rc := by norm_num [inBox, near]
  half i := by
    change 1 ≤ (Ortho.default.setOrthorhombic L).lengths i / 2
    rw [box_lengths]
    linarith [hL i]
  skin := by norm_num [inBox, near]
  thin i := by
    change 1 / 2 ≤ (Ortho.default.setOrthorhombic L).lengths i / 4
    rw [box_lengths]
    linarith [hL i]
  cut _ _ := by norm_num [inBox, near]
  symm _ _ := rfl
  fsymm _ _ _ := rfl
  mask _ _ := Iff.rfl
  other _ _ _ := rfl
  atomCap := by norm_num [inBox, near]
  pairCap := by norm_num [inBox, near]

/-- Positions before the step: 1.6 apart across the boundary. -/
noncomputable def before : Fin 2 → Vec := ![![1 / 2, 5, 5], ![89 / 10, 5, 5]]

/-- Positions after the step. -/
noncomputable def after : Fin 2 → Vec :=
  ![![9 / 20, 5, 5], ![(89 / 10 + 9 / 10 * (100 / (361 / 4))) * (9 / 10), 5, 5]]

theorem wide_ge (i : Fin 3) : 9 ≤ wide i := by fin_cases i <;> norm_num [wide]

theorem tight_ge (i : Fin 3) : 9 ≤ tight i := by fin_cases i <;> norm_num [tight]

theorem before_cell : before ∈ (inBox near wide).cell := by
  refine ⟨fun i j => ?_, ?_⟩
  · change 0 ≤ before i j ∧ before i j < (Ortho.default.setOrthorhombic wide).lengths j
    rw [box_lengths]
    fin_cases i <;> fin_cases j <;> norm_num [before, wide]
  · intro s0 _ c T _
    have h : T.card ≤ 2 := (Finset.card_le_univ T).trans (by simp)
    exact lt_of_le_of_lt h (by norm_num [inBox, near])

/-- Before the step the list is empty, and no force acts. -/
theorem before_list (l : Option PL) : ∃ st, (inBox near wide).build l before = some st ∧
    st.builds ≠ 0 ∧ st.pairs = [] ∧
    ∀ ip, (0 ≤ ip ∧ ip < st.n1 ∨ st.t1 < ip ∧ ip ≤ 2 - 1) →
        ∃ i : Fin 2, st.atom1 ip = some (i : ℕ) ∧ st.old ip = before i := by
  obtain ⟨st, P, h1, h2, h3, h4, h5, -⟩ := build_ok (near_ok wide_ge) before_cell l
  refine ⟨st, h1, h2, ?_, h5⟩
  have hP : P = [] := by
    refine List.eq_nil_iff_forall_not_mem.2 ?_
    rintro ⟨a, b⟩ hab
    obtain ⟨ha, hb, hlt, -, hd⟩ := (h4.2 a b).1 hab
    rw [Finset.mem_range] at ha hb
    obtain rfl : a = 0 := by omega
    obtain rfl : b = 1 := by omega
    revert hd
    have b0 : byId before 0 = before 0 := byId_val before 0
    have b1 : byId before 1 = before 1 := byId_val before 1
    rw [b0, b1]
    change ¬ (Ortho.default.setOrthorhombic wide).distanceSq (before 0) (before 1) <
      ((1 : ℝ) + 1 / 2) ^ 2
    simp only [Ortho.distanceSq, Ortho.separation, box_lengths, box_half, image1, before, wide]
    simp only [Matrix.cons_val]
    norm_num [abs_of_neg]
  rw [h3, hP]
  rfl

/-- After the step the list reports to be current. -/
theorem after_current (l : Option PL) :
    (inBox near tight).world.isCurrent ((inBox near wide).build l before) after = true := by
  classical
  obtain ⟨st, h1, h2, -, h4⟩ := before_list l
  rw [h1]
  simp only [PairSystem.world, decide_eq_true_eq]
  refine ⟨h2, fun ip hip => ?_⟩
  obtain ⟨i, hi, ho⟩ := h4 ip hip
  refine ⟨i, hi, ?_⟩
  rw [ho, byId_val]
  change (Ortho.default.setOrthorhombic tight).distanceSq (after i) (before i) ≤
    0.25 * (1 / 2) * (1 / 2)
  simp only [Ortho.distanceSq, Ortho.separation, box_lengths, box_half, image1, tight]
  fin_cases i
  · simp [before, after]
    norm_num [abs_of_neg]
  · simp [before, after]
    norm_num [abs_of_pos]

/-- But the atoms repel each other. -/
theorem after_field : (inBox near tight).field after 0 ≠ 0 := by
  have r1 : round (((9 / 20 - (89 / 10 + 9 / 10 * (100 / (361 / 4))) * (9 / 10)) / 9 : ℝ)) = -1 := by
    rw [round_eq, Int.floor_eq_iff]
    norm_num
  have en : nearest (inBox near tight).box.lengths (after 0 - after 1) =
      ![9 / 20 - (89 / 10 + 9 / 10 * (100 / (361 / 4))) * (9 / 10) + 9, 0, 0] := by
    change nearest (Ortho.default.setOrthorhombic tight).lengths _ = _
    rw [box_lengths]
    funext j
    fin_cases j
    · change (9 / 20 - (89 / 10 + 9 / 10 * (100 / (361 / 4))) * (9 / 10)) -
        (round (((9 / 20 - (89 / 10 + 9 / 10 * (100 / (361 / 4))) * (9 / 10)) / 9 : ℝ)) : ℝ) * 9 = _
      rw [r1]
      norm_num
    · simp [nearest, after, tight]
    · simp [nearest, after, tight]
  intro h
  have h0 := congrFun h 0
  unfold PairSystem.field at h0
  rw [Fin.sum_univ_two, en] at h0
  simp [inBox, near, PairSystem.one, normSq] at h0
  norm_num at h0

/-- The state before the step; the list has just been built. -/
noncomputable def nearStart : State (Fin 2) (Option PL) where
  nph := ⟨1, 1, .orthorhombic, ![-1 - 81 / 2000, 0, 0], fun _ => 1 / 2⟩
  L := wide
  sys := ⟨before, ![![0, 0, 0], ![9 / 10, 0, 0]], fun _ => 0, (inBox near wide).build none before⟩

section

variable {virial : Vec → Option PL → (Fin 2 → Vec) → Vec}

theorem near_world (L : Vec) : (pairEnv near virial 0).world L = (inBox near L).world := rfl

theorem near_complete (L : Vec) : ((pairEnv near virial 0).world L).Complete :=
  ⟨List.nodup_finRange 2, List.mem_finRange⟩

theorem before_usable : (inBox near wide).usable nearStart.sys.list nearStart.sys.pos :=
  usable_build (near_ok wide_ge) none before_cell

theorem near_refresh : refresh ((pairEnv near virial 0).world wide) nearStart.sys = nearStart.sys := by
  have h : (inBox near wide).world.isCurrent nearStart.sys.list nearStart.sys.pos = true :=
    usable_current (near_ok wide_ge) before_usable
  unfold refresh
  rw [near_world, if_pos h]

/-- The momenta of the cell in the middle of the step. -/
theorem near_eta (hv : ∀ L st p, st.pairs = [] → virial L (some st) p = 0) :
    (nearStart.nph.pushEta 0 (vol wide) wide
      ((pairEnv near virial 0).stress wide nearStart.sys)).eta = ![-1, 0, 0] := by
  rw [pushEta_eta _ _ _ _ _ (fun _ => rfl)]
  obtain ⟨st, h1, -, h3, -⟩ := before_list none
  have hz : virial wide nearStart.sys.list nearStart.sys.pos = 0 := by
    change virial wide ((inBox near wide).build none before) before = 0
    rw [h1]
    exact hv _ _ _ h3
  have hs : (pairEnv near virial 0).stress wide nearStart.sys =
      kin (fun _ => 1) wide nearStart.sys.vel := by
    funext a
    unfold Env.stress
    rw [kineticStress_eq (near_complete wide)]
    change virial wide nearStart.sys.list nearStart.sys.pos a + _ = _
    rw [hz]
    simp only [Pi.zero_apply, zero_add]
    rfl
  rw [hs]
  funext a
  simp only [nearStart, Mode.force, kin, vol, Fin.sum_univ_two, wide]
  fin_cases a
  · simp
    norm_num
  · simp
  · simp

theorem near_boxes {g : Nph} (h1 : g.dt = 1) (h2 : g.W = 1) (h3 : g.mode = .orthorhombic)
    (h4 : g.eta = ![-1, 0, 0]) : g.boxes wide = (![19 / 2, 10, 10], tight, vol tight) := by
  unfold Nph.boxes
  simp only [h1, h2, h3, h4, one_lit, two_lit]
  have e1 : (![wide 0 + 1 / 2 * 1 / 1 * (![-1, 0, 0] : Vec) 0, wide 1 + 1 / 2 * 1 / 1 * (![-1, 0, 0] : Vec) 1,
      wide 2 + 1 / 2 * 1 / 1 * (![-1, 0, 0] : Vec) 2] : Vec) = ![19 / 2, 10, 10] := by
    funext a
    fin_cases a
    · simp [wide]; norm_num
    · simp [wide]
    · simp [wide]
  rw [e1]
  have e2 : (![(![19 / 2, 10, 10] : Vec) 0 + 1 / 2 * 1 / 1 * (![-1, 0, 0] : Vec) 0,
      (![19 / 2, 10, 10] : Vec) 1 + 1 / 2 * 1 / 1 * (![-1, 0, 0] : Vec) 1,
      (![19 / 2, 10, 10] : Vec) 2 + 1 / 2 * 1 / 1 * (![-1, 0, 0] : Vec) 2] : Vec) = tight := by
    funext a
    fin_cases a
    · simp [tight]; norm_num
    · simp [tight]
    · simp [tight]
  rw [e2]
  rfl

/-- **C68, violated.** The pair list does not notice that the cell shrinks.  At the
beginning of the step the list has just been built and the forces are correct; the step is
an admissible one, in which the cell keeps a positive size and no atom moves by more than
half the skin.  At its end two atoms are closer than the cutoff, but the program computes
no force between them. -/
theorem C68_list_violated (hv : ∀ L st p, st.pairs = [] → virial L (some st) p = 0) :
    let x' := step (pairEnv near virial 0) nearStart
    (inBox near nearStart.L).usable nearStart.sys.list nearStart.sys.pos ∧
    nearStart.sys.force = (inBox near nearStart.L).field nearStart.sys.pos ∧
    nearStart.nph.Ready (pairEnv near virial 0) ∧
    x'.L = ![9, 10, 10] ∧ x'.sys.force 0 = 0 ∧
    (inBox near x'.L).field x'.sys.pos 0 ≠ 0 := by
  intro x'
  have hforce : ∀ (L : Vec) (p : Fin 2 → Vec),
      (inBox near L).world.forces nearStart.sys.list p = fun _ => 0 := by
    intro L p
    obtain ⟨st, h1, -, h3, -⟩ := before_list none
    change (inBox near L).world.forces ((inBox near wide).build none before) p = fun _ => 0
    rw [h1]
    funext i
    simp only [PairSystem.world, PairSystem.pairForces, h3, List.foldl_nil]
    simp [inBox, near]
  set s0 : Sys (Fin 2) (Option PL) := nearStart.sys with hs0
  set g := nearStart.nph.pushEta 0 (vol wide) wide ((pairEnv near virial 0).stress wide s0) with hg
  obtain ⟨g1, g2, g3, g4⟩ := pushEta_rest nearStart.nph 0 (vol wide) wide
    ((pairEnv near virial 0).stress wide s0)
  have hbox : g.boxes wide = (![19 / 2, 10, 10], tight, vol tight) :=
    near_boxes g1 g2 g3 (near_eta hv)
  set w := (pairEnv near virial 0).world tight with hw
  have hww : w = (inBox near tight).world := rfl
  have hp : g.pref = fun _ => 1 / 2 := g4
  have hdt : g.dt = 1 := g1
  have hs1 : ∃ v, g.step1 w wide ![19 / 2, 10, 10] tight s0 =
      ⟨after, v, fun _ => 0, s0.list⟩ := by
    refine ⟨(g.step1 w wide ![19 / 2, 10, 10] tight s0).vel, ?_⟩
    rw [step1_eq (near_complete tight)]
    rw [Sys.mk.injEq]
    refine ⟨?_, rfl, rfl, rfl⟩
    funext i a
    rw [hp, hdt]
    simp only [hs0, nearStart]
    fin_cases i <;> fin_cases a <;> simp [before, after, wide, tight] <;> norm_num
  obtain ⟨v, hs1⟩ := hs1
  have hcur : ∀ v f, refresh w ⟨after, v, f, s0.list⟩ = ⟨after, v, f, s0.list⟩ := by
    intro v f
    unfold refresh
    rw [hww]
    simp only
    rw [if_pos]
    exact after_current none
  have hcalc : calculateForces w ⟨after, v, fun _ => 0, s0.list⟩ =
      ⟨after, v, fun _ => 0, s0.list⟩ := by
    unfold calculateForces
    rw [setZeroForces_eq (near_complete tight), hcur, addForces_eq (near_complete tight)]
    rw [Sys.mk.injEq]
    refine ⟨rfl, rfl, ?_, rfl⟩
    funext i
    have := congrFun (hforce tight after) i
    simp only [zero_add]
    exact this
  have hx : x'.L = tight ∧ x'.sys.pos = after ∧ x'.sys.force = fun _ => 0 := by
    have hr : refresh ((pairEnv near virial 0).world wide) nearStart.sys = s0 := near_refresh
    have e : x' = step (pairEnv near virial 0) nearStart := rfl
    rw [e]
    unfold step
    have hL : nearStart.L = wide := rfl
    have hP : (pairEnv near virial 0).pressure = 0 := rfl
    simp only [hL, hP, hr]
    rw [← hg]
    simp only [hbox]
    rw [← hw, hs1, hcur, hcalc, step2_eq (near_complete tight), hcur, hcur]
    exact ⟨trivial, rfl, rfl⟩
  refine ⟨before_usable, ?_, ?_, hx.1, by rw [hx.2.2], ?_⟩
  · have := usable_forces (near_ok wide_ge) before_usable
    change (fun _ => 0) = (inBox near wide).field before
    rw [← hforce wide before]
    exact this
  · intro i
    simp only [nearStart, Env.m, pairEnv, near]
    norm_num
  · rw [hx.1, hx.2.1]
    exact after_field

/-- Non-vacuity: a function of the pairs of the list that vanishes if there are none. -/
example : ∃ virial : Vec → Option PL → (Fin 2 → Vec) → Vec,
    ∀ L st p, st.pairs = [] → virial L (some st) p = 0 :=
  ⟨fun _ l p => match l with
    | some st => fun a => (st.pairs.map fun _ => (p 0 a - p 1 a) ^ 2).sum
    | none => 0, fun L st p h => by
      funext a
      simp [h]⟩

end

end Verif.Nph
