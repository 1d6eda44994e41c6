import Verif.Spme.Stress
import Verif.Ewald.Props

/-!
# C73: smooth particle mesh Ewald summation
-/

set_option autoImplicit false

namespace Verif.Spme

open Verif.Boundary Verif.Cpp Verif.Cpp.Out Verif.Ewald ComplexConjugate Filter Topology

/-! ## The spline -/

/-- `basisSpline` is the cardinal B-spline of order 5: it satisfies the recursion for B-splines that
starts from the hat function.  It is not negative, zero outside `(0, 5)`, and the weights of the five
grid points that a charge is assigned to add up to one. -/
theorem C73_spline :
    (∀ x, basisSpline x = cardinal 3 x) ∧ (∀ x, 0 ≤ basisSpline x) ∧
    (∀ x, x ≤ 0 ∨ 5 ≤ x → basisSpline x = 0) ∧
    ∀ (dim : ℕ) (x : ℝ), ((stencil dim x).map Prod.snd).sum = 1 := by
  refine ⟨basisSpline_eq, basisSpline_nonneg, fun x h => ?_, fun dim x => ?_⟩
  · rw [basisSpline_eq]
    rcases h with h | h
    · exact (cardinal_support 3 x).1 h
    · exact (cardinal_support 3 x).2 (by norm_num; exact h)
  · have h := spline_sum (Int.fract_nonneg (x * dim)) (Int.fract_lt_one (x * dim))
    have e : ∀ i : ℕ, x * dim - ((⌊x * dim⌋ + i - (5 - 1) : ℤ) : ℝ) = Int.fract (x * dim) + (4 - i) := by
      intro i; push_cast; rw [Int.fract]; ring
    unfold stencil
    simp only [List.map_map, Function.comp_def, e]
    simp only [List.range_succ, List.range_zero, List.nil_append, List.map_append, List.map_cons,
      List.map_nil, List.sum_append, List.sum_cons, List.sum_nil]
    norm_num
    linarith

/-! ## Safety and charge -/

/-- With four or more grid points along each axis, and no atom farther than one cell outside the
primary cell, no access is out of range, and nothing is thrown. -/
theorem C73_safe {box : Box} {s : St} (hd : ∀ i, 4 ≤ s.dim i) {atoms : List Atom}
    (h : ∀ a ∈ atoms, Inside box a.r) (forces : List Vec) :
    (∃ x, s.assignCharges box atoms = .ok x) ∧ (∃ x, s.addForces box atoms forces = .ok x) ∧
    (∃ x, s.computeEnergy box atoms = .ok x) ∧ ∃ x, s.computeStress box atoms = .ok x := by
  have hs : ∃ t : St, t.hasWaves = true ∧ t.dim = s.dim ∧ s.assignCharges box atoms = t.assignCharges box atoms := by
    by_cases hw : s.hasWaves = true
    · exact ⟨s, hw, rfl, rfl⟩
    · exact ⟨s.makeWaves box, rfl, rfl, makeWaves_first (by simpa using hw) atoms⟩
  obtain ⟨t, ht, hdim, he⟩ := hs
  have hd' : ∀ i, 4 ≤ t.dim i := by rw [hdim]; exact hd
  refine ⟨?_, ?_, ?_, ?_⟩
  · obtain ⟨rho, h1, -⟩ := assignCharges_has ht hd' h
    exact ⟨_, he.trans h1⟩
  · have := addForces_has ht hd' h forces
    unfold St.addForces at this ⊢
    rw [he]; exact ⟨_, this⟩
  · have := computeEnergy_has ht hd' h
    unfold St.computeEnergy at this ⊢
    rw [he]; exact ⟨_, this⟩
  · have := computeStress_has ht hd' h
    unfold St.computeStress at this ⊢
    rw [he]; exact ⟨_, this⟩

/-- The charge on the grid is the charge of the atoms. -/
theorem C73_charge {box : Box} {s : St} (hd : ∀ i, 4 ≤ s.dim i) {atoms : List Atom}
    (h : ∀ a ∈ atoms, Inside box a.r) :
    ∃ t rho, s.assignCharges box atoms = .ok (t, rho) ∧
      ∑ n ∈ grid s.dim, rho n = (atoms.map fun a => a.q).sum := by
  obtain ⟨rho, h1, h2, -⟩ := assign_ok hd h
  refine ⟨if s.hasWaves then s else s.makeWaves box, rho, ?_, ?_⟩
  · have hdim : (if s.hasWaves = true then s else s.makeWaves box).dim = s.dim := by
      split_ifs <;> rfl
    unfold St.assignCharges
    simp only [hdim]
    rw [h1, ok_bind]
  · have h3 := h2 0
    have e1 : forward s.dim rho 0 = ((∑ n ∈ grid s.dim, rho n : ℝ) : ℂ) := by
      unfold forward phase
      push_cast
      refine Finset.sum_congr rfl fun n _ => ?_
      simp
    have e2 : density box s.dim atoms 0 = (((atoms.map fun a => a.q).sum : ℝ) : ℂ) := by
      unfold density
      have : ∀ (a : Atom) j, W (s.dim j) (shiftGen (box.gen a.r) j) ((0 : IVec) j) = 1 := by
        intro a j; exact W_zero (by have := hd j; omega) _
      simp only [this]
      clear h h1 h2 h3
      induction atoms with
      | nil => simp
      | cons a l ih => simp only [List.map_cons, List.sum_cons, ih]; push_cast; ring
    rw [e1, e2] at h3
    exact_mod_cast h3

/-! ## Charges at grid points -/

/-- With even grid dimensions, and every atom at a grid point, the energy and the forces are exactly
those that Ewald summation gives for the wavevectors that the grid represents: those with indices
less than half the grid dimension, and `qSq > 1.0E-10`. -/
theorem C73_on_grid {box : Box} (hb : box.OK) {s : St} (hd : ∀ j, 4 ≤ s.dim j) (he : ∀ j, Even (s.dim j))
    {e : Ewald.St} (hw : e.hasWaves = true) (hx : e.Indexed) (hi : e.inter = s.inter)
    (hl : GridWaves box s.inter s.dim e.waves) {atoms : List Atom}
    (ha : ∀ a ∈ atoms, Inside box a.r) (hg : ∀ a ∈ atoms, OnGrid box s.dim a.r) (forces : List Vec) :
    ∃ (t : St) (t' : Ewald.St) (E : ℝ) (fs : List Vec),
      (s.makeWaves box).computeEnergy box atoms = .ok t ∧ t.kSpaceEnergy = some E ∧
      e.computeEnergy box atoms = .ok t' ∧ t'.kSpaceEnergy = some E ∧
      (s.makeWaves box).addForces box atoms forces = .ok (s.makeWaves box, fs) ∧
      e.addForces box atoms forces = .ok (e, fs) := by
  refine ⟨_, _, _, _, computeEnergy_has (s := s.makeWaves box) rfl hd ha, rfl, Ewald.computeEnergy_has hb hw atoms, ?_, ?_,
    Ewald.addForces_has hb hw hx atoms forces⟩
  · have h1 := energy_grid hb hd he hl ha hg
    simp only [Option.some.injEq]
    rw [show ∑ k ∈ grid (s.makeWaves box).dim, (s.makeWaves box).g k *
      Complex.normSq (density box (s.makeWaves box).dim atoms k) = 2 * waveSum box e.waves atoms from h1,
      mul_div_mul_left _ _ two_ne_zero, hi]
    rfl
  · rw [addForces_has (s := s.makeWaves box) rfl hd ha]
    congr 2
    refine List.map_congr_left fun p hp => ?_
    rw [force_grid hb hd he hl ha hg (List.of_mem_zip hp).1]

/-! ## Forces -/

/-- The forces add up to zero, but for atoms of a charge so small that they get no force. -/
theorem C73_momentum_partial {box : Box} {s : St} (hs : s.hasWaves = true) (hd : ∀ i, 4 ≤ s.dim i)
    {atoms : List Atom} (h : ∀ a ∈ atoms, Inside box a.r)
    (ha : ∀ a ∈ atoms, a.q = 0 ∨ |a.q| > 1 / 10 ^ 10) (forces : List Vec)
    (hl : forces.length = atoms.length) :
    ∃ fs, s.addForces box atoms forces = .ok (s, fs) ∧ fs.sum = forces.sum := by
  refine ⟨_, addForces_has hs hd h forces, ?_⟩
  have key : ∀ (l : List Atom) (fs : List Vec), (∀ a ∈ l, a.q = 0 ∨ |a.q| > 1 / 10 ^ 10) →
      fs.length = l.length → ((l.zip fs).map fun p =>
        if |p.1.q| > 1 / 10 ^ 10 then p.2 + spForce box s atoms p.1 else p.2).sum =
        fs.sum + (l.map fun a => spForce box s atoms a).sum := by
    intro l
    induction l with
    | nil => intro fs _ hfs; simp only [List.length_nil, List.length_eq_zero_iff] at hfs; simp [hfs]
    | cons a l ih =>
      intro fs hq hfs
      cases fs with
      | nil => simp at hfs
      | cons f fs =>
        rw [List.zip_cons_cons, List.map_cons, List.sum_cons,
          ih fs (fun x hx => hq x (by simp [hx])) (by simpa using hfs), List.sum_cons, List.map_cons,
          List.sum_cons]
        rcases hq a (by simp) with h0 | h0
        · have hz : ¬ (|a.q| > 1 / 10 ^ 10) := by rw [h0]; norm_num
          have h1 : spForce box s atoms a = 0 := by unfold spForce; funext c; simp [h0]
          simp only
          rw [if_neg hz, h1]; abel
        · simp only
          rw [if_pos h0]; abel
  rw [key atoms forces ha hl, spForce_sum, add_zero]

/-- An atom exerts no force on itself. -/
theorem C73_self {box : Box} {s : St} (hs : s.hasWaves = true) (hd : ∀ i, 4 ≤ s.dim i) {a : Atom}
    (h : Inside box a.r) (v : Vec) : s.addForces box [a] [v] = .ok (s, [v]) := by
  rw [addForces_has hs hd (by simpa using h)]
  have : spForce box s [a] a = 0 := by
    have := spForce_sum box s [a]
    simpa using this
  simp [this]

/-! ## Periodicity and translations -/

theorem gen_lattice {box : Box} (hb : box.OK) (r : Vec) (n : IVec) (j : Fin 3) :
    box.gen (r + latComb box.bravais n) j = box.gen r j + n j := by
  have hp := Real.pi_pos
  have g := hb.gen (r + latComb box.bravais n) j
  have g' := hb.gen r j
  have e : dot (box.reciprocal j) (r + latComb box.bravais n) = dot (box.reciprocal j) r +
      (n 0 * dot (box.reciprocal j) (box.bravais 0) + n 1 * dot (box.reciprocal j) (box.bravais 1) +
        n 2 * dot (box.reciprocal j) (box.bravais 2)) := by
    simp only [latComb, dot, Pi.add_apply, Pi.smul_apply, smul_eq_mul]; ring
  have h : dot (box.reciprocal j) (r + latComb box.bravais n) = dot (box.reciprocal j) r + n j * (2 * Real.pi) := by
    rw [e, hb.recip, hb.recip, hb.recip]
    fin_cases j <;> simp
  rw [h, ← g'] at g
  have h2 : (2 * Real.pi) * box.gen (r + latComb box.bravais n) j = (2 * Real.pi) * (box.gen r j + n j) := by
    rw [g]; ring
  exact mul_left_cancel₀ (by positivity) h2

/-- Positions that differ by a lattice vector are the same on the grid. -/
theorem shiftGen_lattice {box : Box} (hb : box.OK) {r : Vec} {n : IVec} (h : Inside box r)
    (h' : Inside box (r + latComb box.bravais n)) :
    shiftGen (box.gen (r + latComb box.bravais n)) = shiftGen (box.gen r) := by
  funext j
  obtain ⟨⟨a1, a2⟩, m, hm⟩ := shiftGen_range h j
  obtain ⟨⟨b1, b2⟩, m', hm'⟩ := shiftGen_range h' j
  rw [gen_lattice hb] at hm'
  have e : shiftGen (box.gen (r + latComb box.bravais n)) j - shiftGen (box.gen r) j = ((n j + m' - m : ℤ) : ℝ) := by
    rw [hm, hm']; push_cast; ring
  have h1 : ((n j + m' - m : ℤ) : ℝ) < 1 := by rw [← e]; linarith
  have h2 : (-1 : ℝ) < ((n j + m' - m : ℤ) : ℝ) := by rw [← e]; linarith
  have h3 : n j + m' - m = 0 := by
    have : n j + m' - m < 1 := by exact_mod_cast h1
    have : -1 < n j + m' - m := by exact_mod_cast h2
    omega
  rw [h3] at e
  push_cast at e
  linarith

theorem density_congr {box : Box} {dim : Fin 3 → ℕ} {l l' : List Atom} {a : Atom} {r : Vec}
    (h : shiftGen (box.gen r) = shiftGen (box.gen a.r)) :
    density box dim (l ++ ⟨a.q, r⟩ :: l') = density box dim (l ++ a :: l') := by
  funext k
  unfold density
  simp only [List.map_append, List.map_cons, h]

/-- Moving one atom by a lattice vector changes neither the energy nor any force. -/
theorem C73_periodic {box : Box} (hb : box.OK) {s : St} (hs : s.hasWaves = true) (hd : ∀ i, 4 ≤ s.dim i)
    {l l' : List Atom} {a : Atom} {n : IVec} (h : ∀ x ∈ l ++ a :: l', Inside box x.r)
    (h' : Inside box (a.r + latComb box.bravais n)) (forces : List Vec) :
    s.computeEnergy box (l ++ ⟨a.q, a.r + latComb box.bravais n⟩ :: l') =
      s.computeEnergy box (l ++ a :: l') ∧
    s.addForces box (l ++ ⟨a.q, a.r + latComb box.bravais n⟩ :: l') forces =
      s.addForces box (l ++ a :: l') forces := by
  have ha := h a (by simp)
  have hg := shiftGen_lattice hb ha h'
  have hD := density_congr (dim := s.dim) (l := l) (l' := l') (a := a) hg
  have h2 : ∀ x ∈ l ++ ⟨a.q, a.r + latComb box.bravais n⟩ :: l', Inside box x.r := by
    intro x hx
    rw [List.mem_append, List.mem_cons] at hx
    rcases hx with hx | rfl | hx
    · exact h x (by simp [hx])
    · exact h'
    · exact h x (by simp [hx])
  have hself : selfEnergy s.inter (l ++ ⟨a.q, a.r + latComb box.bravais n⟩ :: l') =
      selfEnergy s.inter (l ++ a :: l') := by
    unfold selfEnergy; simp
  constructor
  · rw [computeEnergy_has hs hd h, computeEnergy_has hs hd h2, hD, hself]
  · rw [addForces_has hs hd h, addForces_has hs hd h2]
    congr 2
    have hf : ∀ x : Atom, spForce box s (l ++ ⟨a.q, a.r + latComb box.bravais n⟩ :: l') x =
        spForce box s (l ++ a :: l') x := by
      intro x; unfold spForce; rw [hD]
    simp only [hf]
    have hf2 : spForce box s (l ++ a :: l') ⟨a.q, a.r + latComb box.bravais n⟩ =
        spForce box s (l ++ a :: l') a := by
      unfold spForce shape; simp only [hg]
    clear hD hf hself h h2
    suffices H : ∀ L : List Atom, spForce box s L ⟨a.q, a.r + latComb box.bravais n⟩ = spForce box s L a →
        ((l ++ ⟨a.q, a.r + latComb box.bravais n⟩ :: l').zip forces).map (fun p =>
          if |p.1.q| > 1 / 10 ^ 10 then p.2 + spForce box s L p.1 else p.2) =
        ((l ++ a :: l').zip forces).map (fun p =>
          if |p.1.q| > 1 / 10 ^ 10 then p.2 + spForce box s L p.1 else p.2) from H _ hf2
    clear hf2
    intro L hf2
    induction l generalizing forces with
    | nil => cases forces with
      | nil => simp
      | cons f fs => simp [hf2]
    | cons x l ih => cases forces with
      | nil => simp
      | cons f fs => simpa using ih fs

theorem W_shift {dim : ℕ} (hd : dim ≠ 0) {x x' : ℝ} {p : ℤ} (h : x' * dim = x * dim + p) (k : ℤ) :
    W dim x' k = Complex.exp (-(2 * Real.pi * Complex.I * ((k * p : ℂ) / dim))) * W dim x k := by
  rw [W_eq hd, W_eq hd, ← sum_mul_left]
  congr 1
  refine List.map_congr_left fun i _ => ?_
  rw [h, Int.floor_add_intCast]
  have e1 : x * dim + (p : ℝ) - ((⌊x * dim⌋ + p + i - 4 : ℤ) : ℝ) = x * dim - ((⌊x * dim⌋ + i - 4 : ℤ) : ℝ) := by
    push_cast; ring
  rw [e1, mul_left_comm, ← Complex.exp_add]
  congr 2
  push_cast; ring

/-- Moving all atoms by one vector between grid points changes neither the energy nor any force. -/
theorem C73_translate {box : Box} (hb : box.OK) {s : St} (hs : s.hasWaves = true) (hd : ∀ i, 4 ≤ s.dim i)
    {atoms : List Atom} {v : Vec} (hv : OnGrid box s.dim v) (h : ∀ a ∈ atoms, Inside box a.r)
    (h' : ∀ a ∈ atoms, Inside box (a.r + v)) (forces : List Vec) :
    s.computeEnergy box (atoms.map fun a => ⟨a.q, a.r + v⟩) = s.computeEnergy box atoms ∧
    s.addForces box (atoms.map fun a => ⟨a.q, a.r + v⟩) forces = s.addForces box atoms forces := by
  have hd' : ∀ j, s.dim j ≠ 0 := fun j => by have := hd j; omega
  choose p hp using hv
  have hgen : ∀ (r : Vec) j, box.gen (r + v) j = box.gen r j + box.gen v j := by
    intro r j
    have hpi := Real.pi_pos
    have e : 2 * Real.pi * box.gen (r + v) j = 2 * Real.pi * (box.gen r j + box.gen v j) := by
      rw [mul_add, hb.gen, hb.gen, hb.gen]
      simp only [dot, Pi.add_apply]; ring
    exact mul_left_cancel₀ (by positivity) e
  set u : IVec → ℂ := fun k => Complex.exp (-phase s.dim k p) with hu
  have hun : ∀ k, u k * conj (u k) = 1 := by
    intro k
    rw [hu]
    simp only [conj_phase]
    rw [← Complex.exp_add, neg_add_cancel, Complex.exp_zero]
  have hW : ∀ (r : Vec), Inside box r → Inside box (r + v) → ∀ k, shape box s.dim (r + v) k =
      u k * shape box s.dim r k := by
    intro r h1 h2 k
    have key : ∀ j, W (s.dim j) (shiftGen (box.gen (r + v)) j) (k j) =
        Complex.exp (-(2 * Real.pi * Complex.I * ((k j * p j : ℂ) / s.dim j))) *
          W (s.dim j) (shiftGen (box.gen r) j) (k j) := by
      intro j
      obtain ⟨-, m, hm⟩ := shiftGen_range h1 j
      obtain ⟨-, m', hm'⟩ := shiftGen_range h2 j
      have e : shiftGen (box.gen (r + v)) j * s.dim j = shiftGen (box.gen r) j * s.dim j +
          ((p j + (m' - m) * s.dim j : ℤ) : ℝ) := by
        rw [hm, hm', hgen, add_mul, add_mul, hp j]
        push_cast; ring
      rw [W_shift (hd' j) e, exp_wrap (hd' j)]
    unfold shape
    rw [key 0, key 1, key 2, hu]
    simp only [exp_phase]
    ring
  have hD : ∀ k, density box s.dim (atoms.map fun a => ⟨a.q, a.r + v⟩) k = u k * density box s.dim atoms k := by
    intro k
    rw [density_eq, density_eq, ← sum_mul_left, List.map_map]
    congr 1
    refine List.map_congr_left fun a ha => ?_
    simp only [Function.comp_apply]
    rw [hW a.r (h a ha) (h' a ha)]
    ring
  have hn : ∀ k, Complex.normSq (u k) = 1 := by
    intro k
    have := hun k
    rw [Complex.mul_conj] at this
    exact_mod_cast this
  have h2 : ∀ x ∈ atoms.map fun a => (⟨a.q, a.r + v⟩ : Atom), Inside box x.r := by
    intro x hx
    obtain ⟨a, ha, rfl⟩ := List.mem_map.1 hx
    exact h' a ha
  constructor
  · rw [computeEnergy_has hs hd h, computeEnergy_has hs hd h2]
    have hself : selfEnergy s.inter (atoms.map fun a => (⟨a.q, a.r + v⟩ : Atom)) = selfEnergy s.inter atoms := by
      unfold selfEnergy; simp [List.map_map, Function.comp_def]
    simp only [hD, map_mul, hn, one_mul, hself]
  · rw [addForces_has hs hd h, addForces_has hs hd h2]
    congr 2
    have hf : ∀ a ∈ atoms, spForce box s (atoms.map fun a => ⟨a.q, a.r + v⟩) ⟨a.q, a.r + v⟩ =
        spForce box s atoms a := by
      intro a ha
      unfold spForce
      funext c
      congr 1
      refine Finset.sum_congr rfl fun k _ => ?_
      congr 2
      rw [hD, hW a.r (h a ha) (h' a ha), map_mul, mul_mul_mul_comm, hun, one_mul]
    rw [List.zip_map_left, List.map_map]
    refine List.map_congr_left fun q hq => ?_
    simp only [Function.comp_apply, Prod.map]
    rw [hf q.1 (List.of_mem_zip hq).1]
    rfl

/-! ## Stress -/

/-- The stress is minus the derivative of the energy with respect to strain, per volume, if the atoms
move with the box and no wavevector of the grid has `qSq = 1.0E-10`. -/
theorem C73_stress {B : ℝ → Box} {e : Fin 3 → Fin 3 → ℝ} (h : Strained B e) {s : St}
    (hi : s.inter.OK) (hs : s.hasWaves = false) (hd : ∀ i, 4 ≤ s.dim i)
    (hne : ∀ k : IVec, normSq ((B 0).wave k) ≠ 1 / 10 ^ 10) {atoms : List Atom}
    (ha : ∀ a ∈ atoms, Inside (B 0) a.r) :
    ∃ (E : ℝ → ℝ) (t : St) (P : Fin 3 → Fin 3 → ℝ),
      (∀ᶠ x in 𝓝 (0 : ℝ), ∃ s',
        s.computeEnergy (B x) (atoms.map fun a => ⟨a.q, strain e x a.r⟩) = .ok s' ∧
        s'.kSpaceEnergy = some (E x)) ∧
      s.computeStress (B 0) atoms = .ok t ∧ t.kSpaceStress = some P ∧
      HasDerivAt E (-((B 0).volume * ∑ i, ∑ j, e i j * P i j)) 0 := by
  have hstress : s.computeStress (B 0) atoms = (s.makeWaves (B 0)).computeStress (B 0) atoms := by
    unfold St.computeStress; rw [makeWaves_first hs]
  refine ⟨fun x => (∑ k ∈ grid s.dim, influence (B x) s.inter s.dim k *
      Complex.normSq (density (B 0) s.dim atoms k)) / (2 * (B x).volume) - selfEnergy s.inter atoms,
    _, _, ?_, hstress.trans (computeStress_has (s := s.makeWaves (B 0)) rfl hd ha), rfl, ?_⟩
  · filter_upwards [h.gen] with x hx
    have h2 : ∀ y ∈ atoms.map fun a => (⟨a.q, strain e x a.r⟩ : Atom), Inside (B x) y.r := by
      intro y hy
      obtain ⟨a, ha', rfl⟩ := List.mem_map.1 hy
      intro i
      simp only [hx]
      exact ha a ha' i
    have hen : s.computeEnergy (B x) (atoms.map fun a => ⟨a.q, strain e x a.r⟩) =
        (s.makeWaves (B x)).computeEnergy (B x) (atoms.map fun a => ⟨a.q, strain e x a.r⟩) := by
      unfold St.computeEnergy; rw [makeWaves_first hs]
    refine ⟨_, hen.trans (computeEnergy_has (s := s.makeWaves (B x)) rfl hd h2), ?_⟩
    have hD : density (B x) s.dim (atoms.map fun a => ⟨a.q, strain e x a.r⟩) = density (B 0) s.dim atoms := by
      funext k
      unfold density
      simp only [List.map_map, Function.comp_def, hx]
    have hself : selfEnergy s.inter (atoms.map fun a => (⟨a.q, strain e x a.r⟩ : Atom)) =
        selfEnergy s.inter atoms := by
      unfold selfEnergy; simp [List.map_map, Function.comp_def]
    simp only [St.makeWaves, hD, hself]
  · exact (strain_energy h hi (fun k _ => by rw [gridWave_eq]; exact hne _) _).sub_const _

/-- The stress is symmetric. -/
theorem C73_stress_symm {box : Box} {s : St} (hs : s.hasWaves = true) (hd : ∀ i, 4 ≤ s.dim i)
    {atoms : List Atom} (h : ∀ a ∈ atoms, Inside box a.r) :
    ∃ t P, s.computeStress box atoms = .ok t ∧ t.kSpaceStress = some P ∧ ∀ i j, P i j = P j i := by
  refine ⟨_, _, computeStress_has hs hd h, rfl, fun i j => ?_⟩
  congr 1
  refine Finset.sum_congr rfl fun k _ => ?_
  unfold waveStress delta
  simp only [eq_comm (a := i), mul_comm (_ : ℝ) (_ : ℝ)]

end Verif.Spme
