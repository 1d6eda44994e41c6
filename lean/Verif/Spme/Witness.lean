import Verif.Spme.Props
import Verif.Ewald.Witness

/-!
# Smooth particle mesh Ewald summation: examples and violations
-/

set_option autoImplicit false

namespace Verif.Spme

open Verif.Boundary Verif.Cpp Verif.Cpp.Out Verif.Ewald ComplexConjugate Filter Topology

/-- The state after parameters were read (and the influence function was not made). -/
noncomputable def fresh (dim : Fin 3 → ℕ) : St :=
  ⟨Inter.read 1 1 1, dim, fun _ => 0, fun _ => 0, fun _ => 0, false, none, none⟩

theorem cube_gen (r : Vec) (j : Fin 3) : (cube 1).gen r j = r j / (2 * Real.pi) := by
  have h := (cube_ok one_pos).gen r j
  have hp := Real.pi_pos
  have h1 : (cube 1).reciprocal j = (cube 1).wave (Pi.single j 1) := by
    fin_cases j <;> simp [Box.wave, latComb]
  rw [h1, cube_wave one_pos] at h
  have h2 : dot (fun i => 1 * ((Pi.single j 1 : IVec) i : ℝ)) r = r j := by
    fin_cases j <;> simp [dot]
  rw [h2] at h
  rw [← h]; field_simp

theorem inside_of {r : Vec} (h : ∀ j, 0 ≤ r j ∧ r j ≤ 2 * Real.pi) : Inside (cube 1) r := by
  intro j
  have hp := Real.pi_pos
  rw [cube_gen]
  have h1 := div_nonneg (h j).1 (by positivity : 0 ≤ 2 * Real.pi)
  have h2 : r j / (2 * Real.pi) ≤ 1 := (div_le_one (by positivity)).2 (h j).2
  exact ⟨by linarith, by linarith⟩

theorem gridWaves_cube {e0 e : Ewald.St} (hi : e0.inter = Inter.read 1 1 1) (hc : e0.kCut = 9 / 5)
    (h : e0.makeWaves (cube 1) = .ok e) : GridWaves (cube 1) (Inter.read 1 1 1) ![4, 4, 4] e.waves := by
  have hm := made_of_ok h
  have hmem : ∀ w, w ∈ e.waves ↔ Half w.k ∧ normSq ((cube 1).wave w.k) ≤ 9 / 5 * (9 / 5) ∧
      w = (cube 1).record (Inter.read 1 1 1) w.k := by
    intro w
    rw [hm.waves, mem_waves (cube_ok one_pos) (by rw [hc]; norm_num), hi, hc]
  constructor
  · exact ((C72_waves (cube_ok one_pos) e0).2.2 e h).1
  · intro w
    rw [hmem]
    refine and_congr_right fun hh => ?_
    rw [← and_assoc]
    refine and_congr_left fun _ => ?_
    rw [cube_sq one_pos]
    have h1 : ((1 : ℝ) ^ 2 * ((w.k 0 * w.k 0 + w.k 1 * w.k 1 + w.k 2 * w.k 2 : ℤ) : ℝ) ≤ 9 / 5 * (9 / 5)) ↔
        w.k 0 * w.k 0 + w.k 1 * w.k 1 + w.k 2 * w.k 2 ≤ 3 := by
      rw [one_pow, one_mul]
      constructor
      · intro h
        by_contra hn
        have h4 : (4 : ℤ) ≤ w.k 0 * w.k 0 + w.k 1 * w.k 1 + w.k 2 * w.k 2 := by omega
        have h5 : ((4 : ℤ) : ℝ) ≤ _ := Int.cast_le.2 h4
        norm_num at h5 h
        linarith
      · intro h
        have h5 : _ ≤ ((3 : ℤ) : ℝ) := Int.cast_le.2 h
        refine h5.trans ?_
        norm_num
    rw [h1]
    have sq1 : ∀ a : ℤ, 2 * |a| < 4 → a * a ≤ 1 := by
      intro a h
      have h1 : |a| ≤ 1 := by omega
      rw [abs_le] at h1
      nlinarith
    have sq2 : ∀ a : ℤ, a * a ≤ 3 → 2 * |a| < 4 := by
      intro a h
      have h1 : a < 2 := by nlinarith
      have h2 : -2 < a := by nlinarith
      have h3 : |a| < 2 := abs_lt.2 ⟨h2, h1⟩
      omega
    have p0 := mul_self_nonneg (w.k 0)
    have p1 := mul_self_nonneg (w.k 1)
    have p2 := mul_self_nonneg (w.k 2)
    constructor
    · intro h
      refine ⟨fun j => ?_, ?_⟩
      · fin_cases j
        · exact sq2 (w.k 0) (by omega)
        · exact sq2 (w.k 1) (by omega)
        · exact sq2 (w.k 2) (by omega)
      · have hpos : (1 : ℤ) ≤ w.k 0 * w.k 0 + w.k 1 * w.k 1 + w.k 2 * w.k 2 := by
          have hne := (half_or w.k).2 (.inl hh)
          by_contra hlt
          apply hne
          funext i
          have z : ∀ a : ℤ, a * a ≤ 0 → a = 0 := fun a ha =>
            mul_self_eq_zero.1 (le_antisymm ha (mul_self_nonneg a))
          fin_cases i
          · exact z (w.k 0) (by omega)
          · exact z (w.k 1) (by omega)
          · exact z (w.k 2) (by omega)
        have h5 : ((1 : ℤ) : ℝ) ≤ _ := Int.cast_le.2 hpos
        have h6 : (1 : ℝ) / 10 ^ 10 < ((1 : ℤ) : ℝ) := by norm_num
        rw [one_pow, one_mul]
        exact h6.trans_le h5
    · intro h
      have a0 := sq1 _ (h.1 0)
      have a1 := sq1 _ (h.1 1)
      have a2 := sq1 _ (h.1 2)
      omega

theorem four_le : ∀ j, 4 ≤ (![4, 4, 4] : Fin 3 → ℕ) j := by intro j; fin_cases j <;> simp
theorem four_even : ∀ j, Even ((![4, 4, 4] : Fin 3 → ℕ) j) := by
  intro j; fin_cases j <;> exact ⟨2, rfl⟩

/-- Two opposite charges at grid points. -/
noncomputable def pair : List Atom := [⟨1, 0⟩, ⟨-1, ![Real.pi / 2, 0, 0]⟩]

theorem pair_inside : ∀ a ∈ pair, Inside (cube 1) a.r := by
  have hp := Real.pi_pos
  intro a ha
  simp only [pair, List.mem_cons, List.not_mem_nil, or_false] at ha
  rcases ha with rfl | rfl
  · exact inside_of fun j => ⟨le_refl _, by positivity⟩
  · refine inside_of fun j => ?_
    fin_cases j
    · exact ⟨by simp; positivity, by simp; linarith⟩
    · exact ⟨by simp, by simp; positivity⟩
    · exact ⟨by simp, by simp; positivity⟩

theorem pair_onGrid : ∀ a ∈ pair, OnGrid (cube 1) ![4, 4, 4] a.r := by
  have hp := Real.pi_pos.ne'
  intro a ha
  simp only [pair, List.mem_cons, List.not_mem_nil, or_false] at ha
  rcases ha with rfl | rfl
  · exact fun j => ⟨0, by rw [cube_gen]; simp⟩
  · intro j
    fin_cases j
    · exact ⟨1, by rw [cube_gen]; simp; field_simp; norm_num⟩
    · exact ⟨0, by rw [cube_gen]; simp⟩
    · exact ⟨0, by rw [cube_gen]; simp⟩

/-- In a cube with a grid of 4 × 4 × 4 points the mesh reproduces Ewald summation with
`kCutoff = 1.8 (2π/L)`: the hypotheses of `C73_on_grid` are met. -/
example : ∃ (e : Ewald.St) (t : St) (t' : Ewald.St) (E : ℝ) (fs : List Vec),
    (Ewald.St.fresh (Inter.read 1 1 1) (9 / 5)).makeWaves (cube 1) = .ok e ∧
    ((fresh ![4, 4, 4]).makeWaves (cube 1)).computeEnergy (cube 1) pair = .ok t ∧ t.kSpaceEnergy = some E ∧
    e.computeEnergy (cube 1) pair = .ok t' ∧ t'.kSpaceEnergy = some E ∧
    ((fresh ![4, 4, 4]).makeWaves (cube 1)).addForces (cube 1) pair [0, 0] =
      .ok ((fresh ![4, 4, 4]).makeWaves (cube 1), fs) ∧
    e.addForces (cube 1) pair [0, 0] = .ok (e, fs) := by
  obtain ⟨e, he⟩ := (makeWaves_ok_iff (cube_ok one_pos) (Ewald.St.fresh (Inter.read 1 1 1) (9 / 5))).2
    ⟨by norm_num [Ewald.St.fresh], ![1, 0, 0], fun h => by simpa using congrFun h 0, by
      rw [cube_sq one_pos]; simp [Ewald.St.fresh]; norm_num⟩
  have hm := made_of_ok he
  obtain ⟨t, t', E, fs, h⟩ := C73_on_grid (cube_ok one_pos) (s := fresh ![4, 4, 4]) four_le four_even hm.has hm.idx
    hm.inter (gridWaves_cube rfl rfl he) pair_inside pair_onGrid [0, 0]
  exact ⟨e, t, t', E, fs, he, h⟩

/-- The hypotheses of the other theorems are met too. -/
example := C73_charge (s := fresh ![4, 4, 4]) four_le pair_inside
example := C73_momentum_partial (s := (fresh ![4, 4, 4]).makeWaves (cube 1)) rfl four_le pair_inside
  (by
    intro a ha
    simp only [pair, List.mem_cons, List.not_mem_nil, or_false] at ha
    rcases ha with rfl | rfl <;> right <;> norm_num) [0, 0] rfl

example : Inside (cube 1) ((0 : Vec) + latComb (cube 1).bravais ![-1, 0, 1]) := by
  intro j
  rw [gen_lattice (cube_ok one_pos), cube_gen]
  fin_cases j <;> norm_num

example (atoms : List Atom) (ha : ∀ a ∈ atoms, Inside (stretched 0) a.r) :=
  C73_stress stretched_strained (s := fresh ![5, 6, 4]) (Inter.read_ok one_pos one_pos) rfl
    (by intro j; fin_cases j <;> simp [fresh])
    (by
      rw [stretched_zero]
      intro k h
      rw [cube_sq one_pos, one_pow, one_mul] at h
      rcases le_or_gt (k 0 * k 0 + k 1 * k 1 + k 2 * k 2) 0 with h1 | h1
      · have h5 : _ ≤ ((0 : ℤ) : ℝ) := Int.cast_le.2 h1
        rw [h] at h5; norm_num at h5
      · have h5 : ((1 : ℤ) : ℝ) ≤ _ := Int.cast_le.2 (show (1 : ℤ) ≤ _ from h1)
        rw [h] at h5; norm_num at h5) ha

/-! ## Violations -/

/-- Three grid points along an axis are accepted, but then the indices of the grid points of an atom
near the origin are out of range: one period is added to `-4`, and the result is negative. -/
theorem C73_range_violated : ∃ (box : Box) (s : St) (a : Atom), box.OK ∧ Inside box a.r ∧
    (∀ j, s.dim j = 3) ∧ s.assignCharges box [a] = .ub := by
  refine ⟨cube 1, fresh ![3, 3, 3], ⟨1, 0⟩, cube_ok one_pos, ?_, fun j => by fin_cases j <;> rfl, ?_⟩
  · exact inside_of fun j => ⟨le_refl _, by have := Real.pi_pos; positivity⟩
  · have hi : Inside (cube 1) (0 : Vec) := inside_of fun j => ⟨le_refl _, by have := Real.pi_pos; positivity⟩
    have hg : shiftGen ((cube 1).gen 0) = 0 := by
      funext j
      unfold shiftGen shift1
      rw [cube_gen]
      simp [show ¬ ((1 : ℝ) ≤ 0) by norm_num]
    unfold St.assignCharges
    have hdim : (if (fresh ![3, 3, 3]).hasWaves = true then fresh ![3, 3, 3] else
      (fresh ![3, 3, 3]).makeWaves (cube 1)).dim = ![3, 3, 3] := rfl
    simp only [hdim]
    rw [assignLoop, scaled_ok hi, ok_bind, hg]
    have hs : ∃ w l, stencil3 ![3, 3, 3] 0 = ((![-1, -1, -1] : IVec), w) :: l := by
      unfold stencil3 stencil
      simp [List.range_succ]
    obtain ⟨w, l, hs⟩ := hs
    rw [hs, spread, if_neg]
    · rfl
    · rw [mem_grid]
      intro h
      have := (h 0).1
      simp at this

theorem kPot_pos {x : ℝ} (hx : 0 < x) : 0 < (Inter.read 1 1 1).kPot x := by
  have he := (Inter.read_ok (r := 1) one_pos one_pos).eps
  unfold Inter.kPot
  positivity

theorem influence_nonneg {box : Box} (dim : Fin 3 → ℕ) (k : IVec) :
    0 ≤ influence box (Inter.read 1 1 1) dim k := by
  have hb : ∀ n m, 0 ≤ bfactor n m := by
    intro n m
    rw [bfactor_eq]
    split_ifs
    · exact le_refl _
    · exact div_nonneg zero_le_one (Complex.normSq_nonneg _)
  unfold influence
  simp only
  split_ifs with h
  · have : 0 < normSq (gridWave box dim k) := lt_trans (by norm_num) h
    have := (kPot_pos this).le
    have h0 := hb (dim 0) (k 0)
    have h1 := hb (dim 1) (k 1)
    have h2 := hb (dim 2) (k 2)
    positivity
  · exact le_refl _

theorem influence_pos : 0 < influence (cube 1) (Inter.read 1 1 1) ![4, 4, 4] ![1, 0, 0] := by
  have hm : (![1, 0, 0] : IVec) ∈ grid ![4, 4, 4] := by
    rw [mem_grid]; intro j; fin_cases j <;> simp
  have h := influence_common (box := cube 1) (i := Inter.read 1 1 1) four_even hm
  have hq : normSq ((cube 1).wave (sgn ![4, 4, 4] ![1, 0, 0])) = 1 := by
    rw [cube_sq one_pos]
    simp [sgn, signed]
  rw [hq, if_pos ⟨by intro j; fin_cases j <;> simp, by norm_num⟩] at h
  have hk := kPot_pos one_pos
  rcases (influence_nonneg (box := cube 1) ![4, 4, 4] ![1, 0, 0]).lt_or_eq with h1 | h1
  · exact h1
  · rw [← h1, zero_mul] at h
    linarith

/-- Position of a charge that moves along an axis. -/
noncomputable def along (x : ℝ) : Vec := ![x, 0, 0]

theorem along_inside {x : ℝ} (h : 0 ≤ x) (h' : x ≤ 2 * Real.pi) : Inside (cube 1) (along x) := by
  have hp := Real.pi_pos
  refine inside_of fun j => ?_
  fin_cases j
  · exact ⟨h, h'⟩
  · exact ⟨by simp [along], by simp [along]; positivity⟩
  · exact ⟨by simp [along], by simp [along]; positivity⟩

theorem shift_along {x : ℝ} (h : 0 ≤ x) (h' : x < 2 * Real.pi) :
    shiftGen ((cube 1).gen (along x)) = ![x / (2 * Real.pi), 0, 0] := by
  have hp := Real.pi_pos
  have h1 : ¬ (x / (2 * Real.pi) < 0) := not_lt.2 (by positivity)
  have h2 : ¬ (x / (2 * Real.pi) ≥ 1) := not_le.2 ((div_lt_one (by positivity)).2 h')
  funext j
  unfold shiftGen shift1
  simp only [cube_gen]
  fin_cases j
  · simp only [along]
    simp [h1, show ¬ (1 ≤ x / (2 * Real.pi)) from h2]
  · simp [along, show ¬ ((1 : ℝ) ≤ 0) by norm_num]
  · simp [along, show ¬ ((1 : ℝ) ≤ 0) by norm_num]

theorem W_start (k : ℤ) : W 4 0 k = root 4 k * denom 4 k := by
  have := W_grid (dim := 4) (by norm_num) (x := 0) (p := 0) (by norm_num) k
  rw [this]
  simp

theorem W_half (k : ℤ) : W 4 (1 / 8) k = 1 / 384 * (1 + 76 * root 4 k + 230 * root 4 k ^ 2 +
    76 * root 4 k ^ 3 + root 4 k ^ 4) := by
  rw [W_eq (by norm_num)]
  have hfl : ⌊(1 / 8 : ℝ) * (4 : ℕ)⌋ = 0 := by
    rw [Int.floor_eq_iff]; norm_num
  obtain ⟨e0, e1, e2, e3, e4⟩ := spline_unit (f := 1 / 2) (by norm_num) (by norm_num)
  norm_num at e0 e1 e2 e3 e4
  have hr : ∀ i : ℕ, i ≤ 4 → Complex.exp (-(2 * Real.pi * Complex.I *
      ((k * ((0 + i - 4 : ℤ) : ℂ) : ℂ) / (4 : ℕ)))) = root 4 k ^ (4 - i) := by
    intro i hi
    rw [← root_pow]
    congr 1
    push_cast [Nat.cast_sub hi]
    ring
  rw [hfl]
  simp only [List.range_succ, List.range_zero, List.nil_append, List.map_append, List.map_cons,
    List.map_nil, List.sum_append, List.sum_cons, List.sum_nil]
  rw [hr 0 (by norm_num), hr 1 (by norm_num), hr 2 (by norm_num), hr 3 (by norm_num), hr 4 (by norm_num)]
  norm_num
  rw [e0, e1, e2, e3, e4]
  push_cast
  ring

theorem root_four (k : ℤ) : root 4 k ^ 4 = 1 := by
  rw [← root_pow]
  have : 2 * (Real.pi : ℂ) * Complex.I * k * (4 : ℕ) / (4 : ℕ) = k * (2 * Real.pi * Complex.I) := by
    push_cast; ring
  rw [this, Complex.exp_int_mul_two_pi_mul_I]

/-- The self-interaction is larger half-way between grid points, for the waves that the grid
represents. -/
theorem W_lt {k : ℤ} (h : k = 1 ∨ k = 3) : Complex.normSq (W 4 0 k) < Complex.normSq (W 4 (1 / 8) k) := by
  have h2 : root 4 k ^ 2 = -1 := by
    have h4 := root_four k
    have hm : (root 4 k ^ 2 - 1) * (root 4 k ^ 2 + 1) = 0 := by linear_combination h4
    rcases mul_eq_zero.1 hm with h5 | h5
    · exfalso
      have h6 : Complex.exp (2 * Real.pi * Complex.I * k * (2 : ℕ) / (4 : ℕ)) = 1 := by
        rw [root_pow]; linear_combination h5
      obtain ⟨n, hn⟩ := Complex.exp_eq_one_iff.1 h6
      have h7 : (k : ℂ) = 2 * n := by
        refine mul_left_cancel₀ Complex.two_pi_I_ne_zero ?_
        push_cast at hn
        linear_combination 2 * hn
      have h8 : k = 2 * n := by exact_mod_cast h7
      omega
    · linear_combination h5
  have e1 : W 4 0 k = -(10 / 24) * (1 + root 4 k) := by
    rw [W_start, denom_eq]
    linear_combination (1 / 24 * (11 + 11 * root 4 k + root 4 k ^ 2) - 1 / 24) * h2
  have e2 : W 4 (1 / 8) k = ((-(228 / 384) : ℝ) : ℂ) := by
    rw [W_half]
    push_cast
    linear_combination (1 / 384 * (230 + 76 * root 4 k + root 4 k ^ 2 - 1)) * h2
  have e3 : Complex.normSq (1 + root 4 k) = 2 := by
    set z := root 4 k
    have hre : z.re = 0 ∧ z.im ^ 2 = 1 := by
      have a := congrArg Complex.re h2
      have b := congrArg Complex.im h2
      simp only [sq, Complex.mul_re, Complex.mul_im, Complex.neg_re, Complex.one_re, Complex.neg_im,
        Complex.one_im] at a b
      have hz : z.re * z.im = 0 := by linarith
      rcases mul_eq_zero.1 hz with hz | hz
      · refine ⟨hz, ?_⟩
        rw [hz] at a; nlinarith
      · rw [hz] at a; nlinarith
    rw [Complex.normSq_apply]
    simp only [Complex.add_re, Complex.add_im, Complex.one_re, Complex.one_im, hre.1]
    nlinarith [hre.2]
  rw [e1, e2, map_mul, e3, Complex.normSq_ofReal]
  have : Complex.normSq (-(10 / 24) : ℂ) = (10 / 24) ^ 2 := by
    have e : (-(10 / 24) : ℂ) = ((-(10 / 24) : ℝ) : ℂ) := by push_cast; rfl
    rw [e, Complex.normSq_ofReal]; norm_num
  rw [this]
  norm_num

/-- The forces are not the derivative of the energy: the force on a single charge is zero
everywhere, but its energy depends on where it is between grid points. -/
theorem C73_work_violated : ∃ (box : Box) (s : St) (r : ℝ → Vec) (t1 t2 : St) (E1 E2 : ℝ), box.OK ∧
    (∀ j, Even (s.dim j) ∧ 4 ≤ s.dim j) ∧ s.hasWaves = true ∧
    (∀ x ∈ Set.Icc (0 : ℝ) (Real.pi / 4), s.addForces box [⟨1, r x⟩] [0] = .ok (s, [0])) ∧
    s.computeEnergy box [⟨1, r 0⟩] = .ok t1 ∧ t1.kSpaceEnergy = some E1 ∧
    s.computeEnergy box [⟨1, r (Real.pi / 4)⟩] = .ok t2 ∧ t2.kSpaceEnergy = some E2 ∧ E1 < E2 := by
  have hp := Real.pi_pos
  have i0 : Inside (cube 1) (along 0) := along_inside (le_refl _) (by positivity)
  have i1 : Inside (cube 1) (along (Real.pi / 4)) := along_inside (by positivity) (by linarith)
  refine ⟨cube 1, (fresh ![4, 4, 4]).makeWaves (cube 1), along, _, _, _, _, cube_ok one_pos,
    fun j => ⟨four_even j, four_le j⟩, rfl, ?_,
    computeEnergy_has (s := (fresh ![4, 4, 4]).makeWaves (cube 1)) rfl four_le (by simpa using i0), rfl,
    computeEnergy_has (s := (fresh ![4, 4, 4]).makeWaves (cube 1)) rfl four_le (by simpa using i1), rfl, ?_⟩
  · intro x hx
    exact C73_self rfl four_le (along_inside hx.1 (by linarith [hx.2])) 0
  · have hself : ∀ r r' : Vec, selfEnergy (Inter.read 1 1 1) [⟨1, r⟩] = selfEnergy (Inter.read 1 1 1) [⟨1, r'⟩] := by
      intro r r'; simp [selfEnergy]
    have hd : ∀ {x : ℝ}, 0 ≤ x → x < 2 * Real.pi → ∀ k, density (cube 1) ![4, 4, 4] [⟨1, along x⟩] k =
        W 4 (x / (2 * Real.pi)) (k 0) * (W 4 0 (k 1) * W 4 0 (k 2)) := by
      intro x h0 h1 k
      unfold density
      rw [List.map_cons, List.map_nil, List.sum_singleton, shift_along h0 h1]
      simp [mul_assoc]
    have h8 : Real.pi / 4 / (2 * Real.pi) = 1 / 8 := by field_simp; norm_num
    have d0 := hd (le_refl 0) (by positivity)
    have d1 := hd (x := Real.pi / 4) (by positivity) (by linarith)
    rw [zero_div] at d0
    rw [h8] at d1
    have hv := (cube_ok one_pos).vol
    change (∑ k ∈ grid ![4, 4, 4], influence (cube 1) (Inter.read 1 1 1) ![4, 4, 4] k *
        Complex.normSq (density (cube 1) ![4, 4, 4] [⟨1, along 0⟩] k)) / (2 * (cube 1).volume) -
          selfEnergy (Inter.read 1 1 1) [⟨1, along 0⟩] <
      (∑ k ∈ grid ![4, 4, 4], influence (cube 1) (Inter.read 1 1 1) ![4, 4, 4] k *
        Complex.normSq (density (cube 1) ![4, 4, 4] [⟨1, along (Real.pi / 4)⟩] k)) / (2 * (cube 1).volume) -
          selfEnergy (Inter.read 1 1 1) [⟨1, along (Real.pi / 4)⟩]
    rw [hself (along 0) (along (Real.pi / 4))]
    refine sub_lt_sub_right (div_lt_div_of_pos_right ?_ (by positivity)) _
    have hle : ∀ k ∈ grid ![4, 4, 4], influence (cube 1) (Inter.read 1 1 1) ![4, 4, 4] k *
        Complex.normSq (density (cube 1) ![4, 4, 4] [⟨1, along 0⟩] k) ≤
        influence (cube 1) (Inter.read 1 1 1) ![4, 4, 4] k *
        Complex.normSq (density (cube 1) ![4, 4, 4] [⟨1, along (Real.pi / 4)⟩] k) := by
      intro k hk
      rw [mem_grid] at hk
      have hk0 := hk 0
      simp only [Matrix.cons_val_zero, Nat.cast_ofNat] at hk0
      rw [d0, d1, map_mul, map_mul _ (W 4 (1 / 8) _)]
      by_cases h2 : k 0 = 2
      · have hz : influence (cube 1) (Inter.read 1 1 1) ![4, 4, 4] k = 0 := by
          unfold influence
          simp [bfactor_eq, h2]
        rw [hz, zero_mul, zero_mul]
      · refine mul_le_mul_of_nonneg_left (mul_le_mul_of_nonneg_right ?_ (Complex.normSq_nonneg _))
          (influence_nonneg _ _)
        have h3 : k 0 = 0 ∨ k 0 = 1 ∨ k 0 = 3 := by omega
        rcases h3 with h3 | h3
        · rw [h3, W_zero (by norm_num), W_zero (by norm_num)]
        · exact (W_lt h3).le
    have hm : (![1, 0, 0] : IVec) ∈ grid ![4, 4, 4] := by
      rw [mem_grid]; intro j; fin_cases j <;> simp
    refine Finset.sum_lt_sum hle ⟨![1, 0, 0], hm, ?_⟩
    rw [d0, d1]
    refine mul_lt_mul_of_pos_left ?_ influence_pos
    simp only [Matrix.cons_val_zero, Matrix.cons_val_one, Matrix.cons_val_two, Matrix.tail_cons,
      Matrix.head_cons]
    rw [W_zero (by norm_num), mul_one, mul_one, mul_one]
    exact W_lt (.inl rfl)

/-- The waves that a grid represents can be listed. -/
theorem gridWaves_exists (box : Box) (i : Inter) (dim : Fin 3 → ℕ) : ∃ l, GridWaves box i dim l := by
  classical
  refine ⟨(((Fintype.piFinset fun j => Finset.Icc (-(dim j : ℤ)) (dim j)).filter fun k : IVec =>
    Half k ∧ (∀ j, 2 * |k j| < (dim j : ℤ)) ∧ normSq (box.wave k) > 1 / 10 ^ 10).toList).map (box.record i), ?_, ?_⟩
  · rw [List.map_map]
    have : Wave.k ∘ box.record i = id := rfl
    rw [this, List.map_id]
    exact Finset.nodup_toList _
  · intro w
    simp only [List.mem_map, Finset.mem_toList, Finset.mem_filter, Fintype.mem_piFinset, Finset.mem_Icc]
    constructor
    · rintro ⟨k, ⟨-, h1, h2, h3⟩, rfl⟩
      exact ⟨h1, h2, h3, rfl⟩
    · rintro ⟨h1, h2, h3, h4⟩
      refine ⟨w.k, ⟨fun j => ?_, h1, h2, h3⟩, h4.symm⟩
      have h5 : |w.k j| ≤ dim j := by have := h2 j; have := abs_nonneg (w.k j); omega
      exact abs_le.1 h5

/-- With an odd grid dimension the energy of charges at grid points is not that of Ewald summation:
integer division in `bfactor` sets the influence function to zero for the index `(N - 1) / 2`, but not
for the opposite one, `(N + 1) / 2`. -/
theorem C73_odd_violated : ∃ (box : Box) (s : St) (e : Ewald.St) (a : Atom) (t : St) (t' : Ewald.St)
    (E E' : ℝ), box.OK ∧ (∀ j, 4 ≤ s.dim j) ∧ Odd (s.dim 0) ∧ e.hasWaves = true ∧ e.inter = s.inter ∧
    GridWaves box s.inter s.dim e.waves ∧ Inside box a.r ∧ OnGrid box s.dim a.r ∧
    (s.makeWaves box).computeEnergy box [a] = .ok t ∧ t.kSpaceEnergy = some E ∧
    e.computeEnergy box [a] = .ok t' ∧ t'.kSpaceEnergy = some E' ∧ E < E' := by
  classical
  obtain ⟨l, hl⟩ := gridWaves_exists (cube 1) (Inter.read 1 1 1) ![5, 4, 4]
  have hd : ∀ j, 4 ≤ (![5, 4, 4] : Fin 3 → ℕ) j := by intro j; fin_cases j <;> simp
  have hi : ∀ a ∈ [(⟨1, 0⟩ : Atom)], Inside (cube 1) a.r := by
    intro a ha
    rw [List.mem_singleton] at ha
    subst ha
    exact inside_of fun j => ⟨le_refl _, by have := Real.pi_pos; positivity⟩
  have hg : ∀ a ∈ [(⟨1, 0⟩ : Atom)], OnGrid (cube 1) ![5, 4, 4] a.r := by
    intro a ha
    rw [List.mem_singleton] at ha
    subst ha
    exact fun j => ⟨0, by rw [cube_gen]; simp⟩
  refine ⟨cube 1, fresh ![5, 4, 4],
    { Ewald.St.fresh (Inter.read 1 1 1) 1 with waves := l, hasWaves := true }, ⟨1, 0⟩, _, _, _, _,
    cube_ok one_pos, hd, ⟨2, rfl⟩, rfl, rfl, hl, hi _ (by simp), hg _ (by simp),
    computeEnergy_has (s := (fresh ![5, 4, 4]).makeWaves (cube 1)) rfl hd hi, rfl,
    Ewald.computeEnergy_has (cube_ok one_pos) rfl _, rfl, ?_⟩
  have hv := (cube_ok one_pos).vol
  have hf : ∀ q : Vec, Complex.normSq (factor [(⟨1, 0⟩ : Atom)] q) = 1 := by
    intro q; simp [factor, dot]
  have hw : 2 * waveSum (cube 1) l [⟨1, 0⟩] = ∑ k ∈ grid ![5, 4, 4],
      if (∀ j, 2 * k j ≠ ((![5, 4, 4] : Fin 3 → ℕ) j : ℤ)) ∧
        normSq ((cube 1).wave (sgn ![5, 4, 4] k)) > 1 / 10 ^ 10 then
        (Inter.read 1 1 1).kPot (normSq ((cube 1).wave (sgn ![5, 4, 4] k))) else 0 := by
    have h3 := sum_grid hl (fun m => (Inter.read 1 1 1).kPot (normSq ((cube 1).wave m)))
      (fun k => by simp only [wave_neg, normSq_neg'])
    refine Eq.trans ?_ h3.symm
    congr 1
    unfold waveSum
    congr 1
    refine List.map_congr_left fun w hw => ?_
    have := ((hl.mem w).1 hw).2.2.2
    have hg : w.g = (Inter.read 1 1 1).kPot (normSq ((cube 1).wave w.k)) := congrArg Wave.g this
    rw [hg, hf, one_mul]
  change (∑ k ∈ grid ![5, 4, 4], influence (cube 1) (Inter.read 1 1 1) ![5, 4, 4] k *
        Complex.normSq (density (cube 1) ![5, 4, 4] [⟨1, 0⟩] k)) / (2 * (cube 1).volume) -
          selfEnergy (Inter.read 1 1 1) [⟨1, 0⟩] <
      waveSum (cube 1) l [⟨1, 0⟩] / (cube 1).volume - selfEnergy (Inter.read 1 1 1) [⟨1, 0⟩]
  rw [← mul_div_mul_left (waveSum _ _ _) _ two_ne_zero, hw]
  refine sub_lt_sub_right (div_lt_div_of_pos_right ?_ (by positivity)) _
  have hD : ∀ k ∈ grid ![5, 4, 4], influence (cube 1) (Inter.read 1 1 1) ![5, 4, 4] k *
      Complex.normSq (density (cube 1) ![5, 4, 4] [⟨1, 0⟩] k) =
      if (∀ j, k j ≠ (((![5, 4, 4] : Fin 3 → ℕ) j / 2 : ℕ) : ℤ)) ∧
        normSq ((cube 1).wave (sgn ![5, 4, 4] k)) > 1 / 10 ^ 10 then
        (Inter.read 1 1 1).kPot (normSq ((cube 1).wave (sgn ![5, 4, 4] k))) else 0 := by
    intro k hk
    rw [density_grid (cube_ok one_pos) hd hi hg, map_mul, Complex.normSq_conj, hf, mul_one,
      influence_common' hk]
  rw [Finset.sum_congr rfl hD]
  have hm : (![2, 0, 0] : IVec) ∈ grid ![5, 4, 4] := by
    rw [mem_grid]; intro j; fin_cases j <;> simp
  have hq : normSq ((cube 1).wave (sgn ![5, 4, 4] ![2, 0, 0])) = 4 := by
    rw [cube_sq one_pos]
    simp [sgn, signed]
  refine Finset.sum_lt_sum (fun k _ => ?_) ⟨![2, 0, 0], hm, ?_⟩
  · by_cases h1 : (∀ j, k j ≠ (((![5, 4, 4] : Fin 3 → ℕ) j / 2 : ℕ) : ℤ)) ∧
        normSq ((cube 1).wave (sgn ![5, 4, 4] k)) > 1 / 10 ^ 10
    · rw [if_pos h1, if_pos ⟨fun j => by have := h1.1 j; omega, h1.2⟩]
    · rw [if_neg h1]
      split_ifs with h2
      · exact (kPot_pos (lt_trans (by norm_num) h2.2)).le
      · exact le_refl _
  · rw [if_neg (fun h => h.1 0 rfl), if_pos ⟨by intro j; fin_cases j <;> simp, by rw [hq]; norm_num⟩, hq]
    exact kPot_pos (by norm_num)

end Verif.Spme
