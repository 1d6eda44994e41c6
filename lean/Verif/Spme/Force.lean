import Verif.Spme.Grid
import Verif.Ewald.Energy

/-!
# Energy and forces from the grid
-/

set_option autoImplicit false

namespace Verif.Spme

open Verif.Boundary Verif.Cpp Verif.Cpp.Out Verif.Ewald ComplexConjugate

/-- Fourier transform of the weights of one atom. -/
noncomputable def shape (box : Box) (dim : Fin 3 → ℕ) (r : Vec) (k : IVec) : ℂ :=
  W (dim 0) (shiftGen (box.gen r) 0) (k 0) * W (dim 1) (shiftGen (box.gen r) 1) (k 1) *
    W (dim 2) (shiftGen (box.gen r) 2) (k 2)

theorem density_eq (box : Box) (dim : Fin 3 → ℕ) (atoms : List Atom) (k : IVec) :
    density box dim atoms k = (atoms.map fun a => (a.q : ℂ) * shape box dim a.r k).sum := rfl

theorem conj_phase (dim : Fin 3 → ℕ) (k n : IVec) :
    conj (Complex.exp (-phase dim k n)) = Complex.exp (phase dim k n) := by
  rw [← Complex.exp_conj]
  congr 1
  simp only [phase, map_neg, map_mul, map_add, map_div₀, Complex.conj_I, Complex.conj_ofReal,
    map_ofNat, map_intCast, map_natCast]
  ring

theorem conj_listSum {α : Type} (l : List α) (f : α → ℂ) :
    conj (l.map f).sum = (l.map fun a => conj (f a)).sum := by
  induction l with
  | nil => simp
  | cons a l ih => simp [ih]

theorem re_listSum {α : Type} (l : List α) (f : α → ℂ) :
    (l.map f).sum.re = (l.map fun a => (f a).re).sum := by
  induction l with
  | nil => simp
  | cons a l ih => simp [ih]

theorem im_listSum {α : Type} (l : List α) (f : α → ℂ) :
    (l.map f).sum.im = (l.map fun a => (f a).im).sum := by
  induction l with
  | nil => simp
  | cons a l ih => simp [ih]

theorem listSum_finset {α β : Type} (l : List α) (s : Finset β) (f : α → β → ℂ) :
    (l.map fun a => ∑ b ∈ s, f a b).sum = ∑ b ∈ s, (l.map fun a => f a b).sum := by
  induction l with
  | nil => simp
  | cons a l ih => simp [ih, Finset.sum_add_distrib]

theorem listSum_finset_real {α β : Type} (l : List α) (s : Finset β) (f : α → β → ℝ) :
    (l.map fun a => ∑ b ∈ s, f a b).sum = ∑ b ∈ s, (l.map fun a => f a b).sum := by
  induction l with
  | nil => simp
  | cons a l ih => simp [ih, Finset.sum_add_distrib]

/-- The field at an atom. -/
theorem field_interp (box : Box) (s : St) (D : IVec → ℂ) (c : Fin 3) (r : Vec) :
    ((stencil3 s.dim (shiftGen (box.gen r))).map fun p => p.2 * (field box s D c p.1).re).sum =
      -(∑ k ∈ grid s.dim, s.vec k c * s.g k * (D k * conj (shape box s.dim r k)).im) / box.volume := by
  have h1 : ((stencil3 s.dim (shiftGen (box.gen r))).map fun p => p.2 * (field box s D c p.1).re).sum =
      ((stencil3 s.dim (shiftGen (box.gen r))).map fun p => (p.2 : ℂ) * field box s D c p.1).sum.re := by
    rw [re_listSum]
    congr 1
    refine List.map_congr_left fun p _ => ?_
    simp
  have h2 : ((stencil3 s.dim (shiftGen (box.gen r))).map fun p => (p.2 : ℂ) * field box s D c p.1).sum =
      ∑ k ∈ grid s.dim, Complex.I / box.volume * (s.vec k c : ℂ) * D k * (s.g k : ℂ) *
        conj (shape box s.dim r k) := by
    unfold field backward
    simp only [Finset.mul_sum]
    rw [listSum_finset]
    refine Finset.sum_congr rfl fun k _ => ?_
    rw [show shape box s.dim r k = ((stencil3 s.dim (shiftGen (box.gen r))).map fun p =>
      (p.2 : ℂ) * Complex.exp (-phase s.dim k p.1)).sum from (stencil3_phase _ _ _).symm, conj_listSum,
      ← sum_mul_left]
    congr 1
    refine List.map_congr_left fun p _ => ?_
    rw [map_mul, conj_phase, Complex.conj_ofReal]
    ring
  rw [h1, h2, Complex.re_sum, neg_div, Finset.sum_div, ← Finset.sum_neg_distrib]
  refine Finset.sum_congr rfl fun k _ => ?_
  have e : Complex.I / box.volume * (s.vec k c : ℂ) * D k * (s.g k : ℂ) * conj (shape box s.dim r k) =
      ((s.vec k c * s.g k / box.volume : ℝ) : ℂ) * (Complex.I * (D k * conj (shape box s.dim r k))) := by
    push_cast; ring
  rw [e, Complex.re_ofReal_mul, Complex.I_mul_re]
  ring

/-- The force that the code adds to an atom. -/
noncomputable def spForce (box : Box) (s : St) (atoms : List Atom) (a : Atom) : Vec := fun c =>
  a.q / box.volume * ∑ k ∈ grid s.dim, s.vec k c * s.g k *
    (density box s.dim atoms k * conj (shape box s.dim a.r k)).im

theorem assignCharges_has {box : Box} {s : St} (hs : s.hasWaves = true) (hd : ∀ i, 4 ≤ s.dim i)
    {atoms : List Atom} (h : ∀ a ∈ atoms, Inside box a.r) :
    ∃ rho, s.assignCharges box atoms = .ok (s, rho) ∧ forward s.dim rho = density box s.dim atoms := by
  obtain ⟨rho, h1, h2, -⟩ := assign_ok hd h
  refine ⟨rho, ?_, funext h2⟩
  unfold St.assignCharges
  simp only [hs, if_true]
  rw [h1, ok_bind]

theorem forceLoop_ok {box : Box} {s : St} (hd : ∀ i, 4 ≤ s.dim i) (atoms : List Atom) :
    ∀ l : List (Atom × Vec), (∀ p ∈ l, Inside box p.1.r) →
      forceLoop box s.dim (field box s (density box s.dim atoms)) l = .ok (l.map fun p =>
        if |p.1.q| > 1 / 10 ^ 10 then p.2 + spForce box s atoms p.1 else p.2)
  | [], _ => rfl
  | (a, v) :: l, h => by
    have ha := h (a, v) (by simp)
    rw [forceLoop]
    have h1 : atomForce box s.dim (field box s (density box s.dim atoms)) a v =
        .ok (if |a.q| > 1 / 10 ^ 10 then v + spForce box s atoms a else v) := by
      unfold atomForce
      split_ifs with hq
      · rw [scaled_ok ha, ok_bind, interp_ok _ _ _ _ (fun p hp =>
          stencil3_mem hd (fun i => (shiftGen_range ha i).1) hp), ok_bind]
        congr 2
        funext c
        simp only [Pi.smul_apply, Pi.zero_apply, zero_add, smul_eq_mul, field_interp, spForce]
        ring
      · rfl
    rw [h1, ok_bind, forceLoop_ok hd atoms l (fun p hp => h p (by simp [hp])), ok_bind]
    rfl

theorem addForces_has {box : Box} {s : St} (hs : s.hasWaves = true) (hd : ∀ i, 4 ≤ s.dim i)
    {atoms : List Atom} (h : ∀ a ∈ atoms, Inside box a.r) (forces : List Vec) :
    s.addForces box atoms forces = .ok (s, (atoms.zip forces).map fun p =>
      if |p.1.q| > 1 / 10 ^ 10 then p.2 + spForce box s atoms p.1 else p.2) := by
  obtain ⟨rho, h1, h2⟩ := assignCharges_has hs hd h
  unfold St.addForces
  rw [h1, ok_bind]
  simp only [h2]
  rw [forceLoop_ok hd atoms _ (fun p hp => h p.1 (List.of_mem_zip hp).1), ok_bind]

theorem computeEnergy_has {box : Box} {s : St} (hs : s.hasWaves = true) (hd : ∀ i, 4 ≤ s.dim i)
    {atoms : List Atom} (h : ∀ a ∈ atoms, Inside box a.r) :
    s.computeEnergy box atoms = .ok { s with
      kSpaceEnergy := some ((∑ k ∈ grid s.dim, s.g k * Complex.normSq (density box s.dim atoms k)) /
        (2 * box.volume) - selfEnergy s.inter atoms) } := by
  obtain ⟨rho, h1, h2⟩ := assignCharges_has hs hd h
  unfold St.computeEnergy
  rw [h1, ok_bind]
  simp only [h2]
  congr 4
  unfold selfEnergy
  congr 1
  have : ∀ (l : List Atom) (x : ℝ), l.foldl (fun e a => e + a.q * a.q) x =
      x + (l.map fun a => a.q * a.q).sum := by
    intro l
    induction l with
    | nil => simp
    | cons a l ih => intro x; simp [ih, add_assoc]
  rw [this, zero_add]

/-- The forces add up to zero. -/
theorem spForce_sum (box : Box) (s : St) (atoms : List Atom) :
    (atoms.map fun a => spForce box s atoms a).sum = 0 := by
  funext c
  have h1 : ∀ l : List Atom, (l.map fun a => spForce box s atoms a).sum c =
      (l.map fun a => spForce box s atoms a c).sum := by
    intro l
    induction l with
    | nil => rfl
    | cons a l ih => simp [ih]
  rw [h1]
  unfold spForce
  simp only [Finset.mul_sum]
  rw [listSum_finset_real]
  refine Finset.sum_eq_zero fun k _ => ?_
  have e : (atoms.map fun a => a.q / box.volume * (s.vec k c * s.g k *
      (density box s.dim atoms k * conj (shape box s.dim a.r k)).im)).sum =
      s.vec k c * s.g k / box.volume * (density box s.dim atoms k *
        conj (density box s.dim atoms k)).im := by
    rw [density_eq box s.dim atoms k, conj_listSum, ← sum_mul_left, im_listSum, ← List.sum_map_mul_left,
      ← density_eq]
    congr 1
    refine List.map_congr_left fun a _ => ?_
    rw [map_mul, Complex.conj_ofReal]
    have : density box s.dim atoms k * ((a.q : ℂ) * conj (shape box s.dim a.r k)) =
      (a.q : ℂ) * (density box s.dim atoms k * conj (shape box s.dim a.r k)) := by ring
    rw [this, Complex.im_ofReal_mul]
    ring
  rw [e, Complex.mul_conj, Complex.ofReal_im, mul_zero]

end Verif.Spme
