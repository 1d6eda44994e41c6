import Verif.Spme.Force
import Verif.Ewald.Force

/-!
# Charges at grid points
-/

set_option autoImplicit false

namespace Verif.Spme

open Verif.Boundary Verif.Cpp Verif.Cpp.Out Verif.Ewald ComplexConjugate

/-- The denominator in `bfactor`. -/
noncomputable def denom (dim : ℕ) (m : ℤ) : ℂ := ∑ k ∈ Finset.range 4,
  (basisSpline (k + 1) : ℂ) * Complex.exp (2 * Real.pi * Complex.I * m * k / dim)

/-- Root of unity of a wave. -/
noncomputable def root (dim : ℕ) (m : ℤ) : ℂ := Complex.exp (2 * Real.pi * Complex.I * m / dim)

theorem root_pow (dim : ℕ) (m : ℤ) (j : ℕ) :
    Complex.exp (2 * Real.pi * Complex.I * m * j / dim) = root dim m ^ j := by
  unfold root
  rw [← Complex.exp_nat_mul]
  congr 1; ring

theorem denom_eq (dim : ℕ) (m : ℤ) : denom dim m =
    1 / 24 * ((1 + root dim m) * (1 + 10 * root dim m + root dim m ^ 2)) := by
  obtain ⟨-, h1, h2, h3, h4⟩ := spline_int
  unfold denom
  simp only [root_pow, Finset.sum_range_succ, Finset.sum_range_zero]
  norm_num
  norm_num at h1 h2 h3 h4
  rw [h1, h2, h3, h4]
  push_cast
  ring

theorem root_norm (dim : ℕ) (m : ℤ) : ‖root dim m‖ = 1 := by
  unfold root
  have : 2 * (Real.pi : ℂ) * Complex.I * m / dim = ((2 * Real.pi * m / dim : ℝ) : ℂ) * Complex.I := by
    push_cast; ring
  rw [this, Complex.norm_exp_ofReal_mul_I]

theorem root_ne {dim : ℕ} {m : ℤ} (h0 : 0 ≤ m) (h1 : m < dim) (hm : 2 * m ≠ dim) :
    root dim m ≠ -1 := by
  intro h
  have hd : (dim : ℂ) ≠ 0 := by
    have : dim ≠ 0 := by omega
    exact_mod_cast this
  have h2 : Complex.exp (2 * Real.pi * Complex.I * m * (2 : ℕ) / dim) = 1 := by
    rw [root_pow, h]; norm_num
  obtain ⟨n, hn⟩ := Complex.exp_eq_one_iff.1 h2
  have hpi : (2 * Real.pi * Complex.I : ℂ) ≠ 0 := Complex.two_pi_I_ne_zero
  have h3 : (m : ℂ) * 2 / dim = n := by
    have : (2 * Real.pi * Complex.I : ℂ) * ((m : ℂ) * 2 / dim) = (2 * Real.pi * Complex.I : ℂ) * n := by
      rw [mul_comm _ (n : ℂ), ← hn]; push_cast; ring
    exact mul_left_cancel₀ hpi this
  rw [div_eq_iff hd] at h3
  have h4 : m * 2 = n * dim := by exact_mod_cast h3
  have hdp : (0 : ℤ) < dim := by omega
  have h5 : 0 ≤ n := by
    by_contra hneg
    have : n * dim < 0 := mul_neg_of_neg_of_pos (by omega) hdp
    omega
  have h6 : n < 2 := by
    by_contra hge
    have : 2 * (dim : ℤ) ≤ n * dim := mul_le_mul_of_nonneg_right (by omega) hdp.le
    omega
  have h7 : n = 0 ∨ n = 1 := by omega
  rcases h7 with rfl | rfl
  · have : m = 0 := by omega
    subst this
    rw [root] at h
    simp at h
    norm_num at h
  · omega

theorem denom_ne {dim : ℕ} {m : ℤ} (h0 : 0 ≤ m) (h1 : m < dim) (hm : 2 * m ≠ dim) :
    denom dim m ≠ 0 := by
  rw [denom_eq]
  refine mul_ne_zero (by norm_num) (mul_ne_zero ?_ ?_)
  · intro h
    exact root_ne h0 h1 hm (by rw [← add_eq_zero_iff_eq_neg, add_comm]; exact h)
  · intro h
    have e : 10 * root dim m = -(1 + root dim m ^ 2) := by linear_combination h
    have h1 : ‖10 * root dim m‖ = 10 := by rw [norm_mul, root_norm]; norm_num
    have h2 : ‖-(1 + root dim m ^ 2)‖ ≤ 2 := by
      rw [norm_neg]
      refine (norm_add_le _ _).trans ?_
      rw [norm_pow, root_norm]; norm_num
    rw [← e, h1] at h2
    norm_num at h2

theorem bfactor_eq (dim : ℕ) (m : ℤ) : bfactor dim m =
    if m = (dim / 2 : ℕ) then 0 else 1 / Complex.normSq (denom dim m) := by
  unfold bfactor
  split_ifs with h
  · rfl
  · simp only
    rw [map_div₀]
    congr 1
    have : (2 : ℂ) * Real.pi * Complex.I * 4 * m / dim = ((2 * Real.pi * 4 * m / dim : ℝ) : ℂ) * Complex.I := by
      push_cast; ring
    rw [Complex.normSq_eq_norm_sq, this, Complex.norm_exp_ofReal_mul_I, one_pow]

/-- The transform of the weights of a charge at a grid point. -/
theorem W_grid {dim : ℕ} (hd : dim ≠ 0) {x : ℝ} {p : ℤ} (hp : x * dim = p) (k : ℤ) :
    W dim x k = Complex.exp (-(2 * Real.pi * Complex.I * ((k * p : ℂ) / dim))) *
      (root dim k * denom dim k) := by
  obtain ⟨h0, h1, h2, h3, h4⟩ := spline_int
  rw [W_eq hd]
  have he : ∀ i : ℕ, Complex.exp (-(2 * Real.pi * Complex.I * ((k * ((p + i - 4 : ℤ) : ℂ) : ℂ) / dim))) * root dim k ^ i =
      Complex.exp (-(2 * Real.pi * Complex.I * ((k * p : ℂ) / dim))) * root dim k ^ 4 := by
    intro i
    rw [← root_pow, ← root_pow, ← Complex.exp_add, ← Complex.exp_add]
    congr 1; push_cast; ring
  have hr : root dim k ≠ 0 := Complex.exp_ne_zero _
  have he' : ∀ i : ℕ, Complex.exp (-(2 * Real.pi * Complex.I * ((k * ((p + i - 4 : ℤ) : ℂ) : ℂ) / dim))) =
      Complex.exp (-(2 * Real.pi * Complex.I * ((k * p : ℂ) / dim))) * root dim k ^ 4 / root dim k ^ i := by
    intro i
    rw [eq_div_iff (pow_ne_zero _ hr), he]
  simp only [hp, Int.floor_intCast, he']
  rw [denom_eq]
  have hs : ∀ i : ℕ, (p : ℝ) - ((p + i - 4 : ℤ) : ℝ) = 4 - i := by intro i; push_cast; ring
  simp only [hs]
  simp only [List.range_succ, List.range_zero, List.nil_append, List.map_append, List.map_cons,
    List.map_nil, List.sum_append, List.sum_cons, List.sum_nil]
  norm_num
  norm_num at h0 h1 h2 h3 h4
  rw [h0, h1, h2, h3, h4]
  push_cast
  field_simp
  ring

/-- An atom at a grid point. -/
def OnGrid (box : Box) (dim : Fin 3 → ℕ) (r : Vec) : Prop := ∀ j, ∃ p : ℤ, box.gen r j * dim j = p

/-- Signed indices of a grid position. -/
def sgn (dim : Fin 3 → ℕ) (k : IVec) : IVec := fun j => signed (dim j) (k j)

theorem signed_eq (dim : ℕ) (k : ℤ) : ∃ m : ℤ, signed dim k = k + m * dim := by
  unfold signed
  split_ifs
  · exact ⟨0, by ring⟩
  · exact ⟨-1, by ring⟩

theorem gridWave_eq (box : Box) (dim : Fin 3 → ℕ) (k : IVec) : gridWave box dim k = box.wave (sgn dim k) := by
  unfold gridWave Box.wave latComb sgn
  simp only
  abel

/-- Product of the factors that are common to all atoms. -/
noncomputable def common (dim : Fin 3 → ℕ) (k : IVec) : ℂ :=
  (root (dim 0) (k 0) * denom (dim 0) (k 0)) * (root (dim 1) (k 1) * denom (dim 1) (k 1)) *
    (root (dim 2) (k 2) * denom (dim 2) (k 2))

theorem normSq_root (dim : ℕ) (k : ℤ) : Complex.normSq (root dim k) = 1 := by
  rw [Complex.normSq_eq_norm_sq, root_norm, one_pow]

theorem exp_grid {dim : ℕ} (hd : dim ≠ 0) {g x : ℝ} {p m : ℤ} (hx : x = g + m) (hp : g * dim = p) (k : ℤ) :
    ∃ p' : ℤ, x * dim = p' ∧ Complex.exp (-(2 * Real.pi * Complex.I * ((k * p' : ℂ) / dim))) =
      Complex.exp (-(((g * (signed dim k : ℝ) * (2 * Real.pi) : ℝ) : ℂ) * Complex.I)) := by
  have hd' : (dim : ℂ) ≠ 0 := by exact_mod_cast hd
  refine ⟨p + m * dim, by rw [hx, add_mul, hp]; push_cast; ring, ?_⟩
  rw [exp_wrap hd]
  obtain ⟨n, hn⟩ := signed_eq dim k
  rw [← exp_wave_wrap hd k p n, ← hn]
  congr 1
  have : (p : ℂ) = (g : ℂ) * dim := by
    have := congrArg (fun x : ℝ => (x : ℂ)) hp
    push_cast at this
    exact this.symm
  rw [this]
  push_cast
  field_simp

/-- The transform of the weights of an atom at a grid point is a plane wave, but for a factor that
does not depend on the atom. -/
theorem shape_grid {box : Box} (hb : box.OK) {dim : Fin 3 → ℕ} (hd : ∀ i, 4 ≤ dim i) {r : Vec}
    (hi : Inside box r) (hg : OnGrid box dim r) (k : IVec) :
    shape box dim r k = common dim k *
      conj (Complex.exp ((dot (box.wave (sgn dim k)) r : ℝ) * Complex.I)) := by
  have hd' : ∀ j, dim j ≠ 0 := fun j => by have := hd j; omega
  have h : ∀ j, W (dim j) (shiftGen (box.gen r) j) (k j) =
      Complex.exp (-(((box.gen r j * (signed (dim j) (k j) : ℝ) * (2 * Real.pi) : ℝ) : ℂ) * Complex.I)) *
        (root (dim j) (k j) * denom (dim j) (k j)) := by
    intro j
    obtain ⟨p, hp⟩ := hg j
    obtain ⟨-, m, hm⟩ := shiftGen_range hi j
    obtain ⟨p', h1, h2⟩ := exp_grid (hd' j) hm hp (k j)
    rw [W_grid (hd' j) h1, h2]
  unfold shape
  rw [h 0, h 1, h 2, ← phase_eq hb, ← Complex.exp_conj]
  simp only [map_mul, Complex.conj_ofReal, Complex.conj_I]
  have e : ((((box.gen r 0 * (sgn dim k 0 : ℝ) + box.gen r 1 * (sgn dim k 1 : ℝ) +
      box.gen r 2 * (sgn dim k 2 : ℝ)) * (2 * Real.pi) : ℝ)) : ℂ) * -Complex.I =
      -(((box.gen r 0 * (signed (dim 0) (k 0) : ℝ) * (2 * Real.pi) : ℝ) : ℂ) * Complex.I) +
      -(((box.gen r 1 * (signed (dim 1) (k 1) : ℝ) * (2 * Real.pi) : ℝ) : ℂ) * Complex.I) +
      -(((box.gen r 2 * (signed (dim 2) (k 2) : ℝ) * (2 * Real.pi) : ℝ) : ℂ) * Complex.I) := by
    unfold sgn; push_cast; ring
  rw [e, Complex.exp_add, Complex.exp_add]
  unfold common
  ring

theorem density_grid {box : Box} (hb : box.OK) {dim : Fin 3 → ℕ} (hd : ∀ i, 4 ≤ dim i) {atoms : List Atom}
    (hi : ∀ a ∈ atoms, Inside box a.r) (hg : ∀ a ∈ atoms, OnGrid box dim a.r) (k : IVec) :
    density box dim atoms k = common dim k * conj (factor atoms (box.wave (sgn dim k))) := by
  rw [density_eq]
  unfold factor
  rw [conj_listSum, ← sum_mul_left]
  congr 1
  refine List.map_congr_left fun a ha => ?_
  rw [shape_grid hb hd (hi a ha) (hg a ha), map_mul, Complex.conj_ofReal]
  ring

/-- The influence function undoes the factor, except where it is set to zero. -/
theorem influence_common' {box : Box} {i : Inter} {dim : Fin 3 → ℕ} {k : IVec}
    (hk : k ∈ grid dim) : influence box i dim k * Complex.normSq (common dim k) =
      open Classical in
      if (∀ j, k j ≠ (dim j / 2 : ℕ)) ∧ normSq (box.wave (sgn dim k)) > 1 / 10 ^ 10 then
        i.kPot (normSq (box.wave (sgn dim k))) else 0 := by
  rw [mem_grid] at hk
  unfold influence
  rw [gridWave_eq]
  simp only [bfactor_eq]
  by_cases hq : normSq (box.wave (sgn dim k)) > 1 / 10 ^ 10
  · simp only [if_pos hq]
    by_cases ha : ∀ j, k j ≠ (dim j / 2 : ℕ)
    · rw [if_neg (ha 0), if_neg (ha 1), if_neg (ha 2), if_pos ⟨ha, hq⟩]
      have hn : ∀ j, Complex.normSq (denom (dim j) (k j)) ≠ 0 := fun j =>
        Complex.normSq_eq_zero.not.2 (denom_ne (hk j).1 (hk j).2 (by have := ha j; omega))
      have n0 := hn 0
      have n1 := hn 1
      have n2 := hn 2
      simp only [common, map_mul, normSq_root]
      field_simp
    · have hz : ∀ x : ℝ, (open Classical in if (∀ j, k j ≠ (dim j / 2 : ℕ)) ∧
          normSq (box.wave (sgn dim k)) > 1 / 10 ^ 10 then x else 0) = 0 :=
        fun x => if_neg (fun h => ha h.1)
      rw [hz]
      push Not at ha
      obtain ⟨j, hj⟩ := ha
      have h3 : k 0 = (dim 0 / 2 : ℕ) ∨ k 1 = (dim 1 / 2 : ℕ) ∨ k 2 = (dim 2 / 2 : ℕ) := by
        fin_cases j
        · exact .inl hj
        · exact .inr (.inl hj)
        · exact .inr (.inr hj)
      rcases h3 with h | h | h <;> rw [if_pos h] <;> ring
  · have hz : ∀ x : ℝ, (open Classical in if (∀ j, k j ≠ (dim j / 2 : ℕ)) ∧
        normSq (box.wave (sgn dim k)) > 1 / 10 ^ 10 then x else 0) = 0 :=
      fun x => if_neg (fun h => hq h.2)
    rw [hz]
    simp only [if_neg hq, zero_mul]

theorem influence_common {box : Box} {i : Inter} {dim : Fin 3 → ℕ} (he : ∀ j, Even (dim j)) {k : IVec}
    (hk : k ∈ grid dim) : influence box i dim k * Complex.normSq (common dim k) =
      open Classical in
      if (∀ j, 2 * k j ≠ dim j) ∧ normSq (box.wave (sgn dim k)) > 1 / 10 ^ 10 then
        i.kPot (normSq (box.wave (sgn dim k))) else 0 := by
  have h2 : ∀ j, (k j ≠ (dim j / 2 : ℕ)) ↔ 2 * k j ≠ dim j := by
    intro j
    obtain ⟨n, hn⟩ := he j
    rw [hn]; push_cast; omega
  rw [influence_common' hk]
  simp only [h2]

/-- A list of the waves that a grid of even dimensions represents, one of each two opposite ones. -/
structure GridWaves (box : Box) (i : Inter) (dim : Fin 3 → ℕ) (l : List Wave) : Prop where
  nodup : (l.map Wave.k).Nodup
  mem : ∀ w, w ∈ l ↔ Half w.k ∧ (∀ j, 2 * |w.k j| < dim j) ∧
    normSq (box.wave w.k) > 1 / 10 ^ 10 ∧ w = box.record i w.k

theorem sum_grid {box : Box} {i : Inter} {dim : Fin 3 → ℕ} {l : List Wave} (hl : GridWaves box i dim l)
    (F : IVec → ℝ) (hF : ∀ k, F (-k) = F k) :
    ∑ k ∈ grid dim, (open Classical in
      if (∀ j, 2 * k j ≠ dim j) ∧ normSq (box.wave (sgn dim k)) > 1 / 10 ^ 10 then F (sgn dim k) else 0) =
      2 * (l.map fun w => F w.k).sum := by
  classical
  set T : Finset IVec := (l.map Wave.k).toFinset with hT
  have hmem : ∀ k, k ∈ T ↔ Half k ∧ (∀ j, 2 * |k j| < dim j) ∧ normSq (box.wave k) > 1 / 10 ^ 10 := by
    intro k
    rw [hT, List.mem_toFinset, List.mem_map]
    constructor
    · rintro ⟨w, hw, rfl⟩
      obtain ⟨a, b, c, -⟩ := (hl.mem w).1 hw
      exact ⟨a, b, c⟩
    · rintro ⟨a, b, c⟩; exact ⟨box.record i k, (hl.mem _).2 ⟨a, b, c, rfl⟩, rfl⟩
  have hdis : Disjoint T (T.image fun k => -k) := by
    rw [Finset.disjoint_left]
    intro k h1 h2
    obtain ⟨k', h3, rfl⟩ := Finset.mem_image.1 h2
    exact half_not _ ((hmem _).1 h3).1 ((hmem _).1 h1).1
  rw [← Finset.sum_filter]
  have him : ((grid dim).filter fun k : IVec => (∀ j, 2 * k j ≠ (dim j : ℤ)) ∧
      normSq (box.wave (sgn dim k)) > 1 / 10 ^ 10).image (sgn dim) = T ∪ T.image fun k => -k := by
    ext m
    simp only [Finset.mem_image, Finset.mem_filter, Finset.mem_union, mem_grid, hmem]
    constructor
    · rintro ⟨k, ⟨hk, hk2, hq⟩, rfl⟩
      have hb : ∀ j, 2 * |sgn dim k j| < dim j := by
        intro j
        have h1 := hk j
        have h2 := hk2 j
        unfold sgn signed
        split_ifs with h3
        · rw [abs_of_nonneg h1.1]; omega
        · rw [abs_of_neg (by omega)]; omega
      have hne : sgn dim k ≠ 0 := by
        intro h
        rw [h] at hq
        simp [Box.wave, latComb, normSq] at hq
        norm_num at hq
      rcases (half_or _).1 hne with h | h
      · exact .inl ⟨h, hb, hq⟩
      · refine .inr ⟨-sgn dim k, ⟨h, fun j => ?_, ?_⟩, neg_neg _⟩
        · rw [Pi.neg_apply, abs_neg]; exact hb j
        · rw [wave_neg, normSq_neg']; exact hq
    · intro h
      have h1 : (∀ j, 2 * |m j| < dim j) ∧ normSq (box.wave m) > 1 / 10 ^ 10 := by
        rcases h with h | ⟨k, h, rfl⟩
        · exact h.2
        · refine ⟨fun j => ?_, ?_⟩
          · rw [Pi.neg_apply, abs_neg]; exact h.2.1 j
          · rw [wave_neg, normSq_neg']; exact h.2.2
      have hs : sgn dim (fun j => if m j < 0 then m j + dim j else m j) = m := by
        funext j
        have := h1.1 j
        have h2 := abs_lt.1 (show |m j| < dim j by have := abs_nonneg (m j); omega)
        unfold sgn signed
        rcases abs_cases (m j) with ⟨e, h3⟩ | ⟨e, h3⟩ <;> rw [e] at this <;> simp only <;>
          split_ifs <;> omega
      refine ⟨fun j => if m j < 0 then m j + dim j else m j, ⟨fun j => ?_, fun j => ?_, ?_⟩, hs⟩
      · have := h1.1 j
        rcases abs_cases (m j) with ⟨e, h3⟩ | ⟨e, h3⟩ <;> rw [e] at this <;> simp only <;>
          split_ifs <;> omega
      · have := h1.1 j
        rcases abs_cases (m j) with ⟨e, h3⟩ | ⟨e, h3⟩ <;> rw [e] at this <;> simp only <;>
          split_ifs <;> omega
      · rw [hs]; exact h1.2
  have hinj : Set.InjOn (sgn dim) ((grid dim).filter fun k : IVec => (∀ j, 2 * k j ≠ (dim j : ℤ)) ∧
      normSq (box.wave (sgn dim k)) > 1 / 10 ^ 10) := by
    intro k hk k' hk' h
    simp only [Finset.coe_filter, Set.mem_ofPred_eq, mem_grid] at hk hk'
    funext j
    have := congrFun h j
    have h1 := hk.1 j
    have h2 := hk'.1 j
    unfold sgn signed at this
    split_ifs at this <;> omega
  rw [← Finset.sum_image hinj, him, Finset.sum_union hdis,
    Finset.sum_image (fun x _ y _ h => neg_injective h)]
  simp only [hF]
  rw [← two_mul, hT, List.sum_toFinset _ hl.nodup, List.map_map]
  rfl

/-- Energy of charges at grid points. -/
theorem energy_grid {box : Box} (hb : box.OK) {s : St} (hd : ∀ j, 4 ≤ s.dim j) (he : ∀ j, Even (s.dim j))
    {l : List Wave} (hl : GridWaves box s.inter s.dim l) {atoms : List Atom}
    (hi : ∀ a ∈ atoms, Inside box a.r) (hg : ∀ a ∈ atoms, OnGrid box s.dim a.r) :
    ∑ k ∈ grid s.dim, (s.makeWaves box).g k * Complex.normSq (density box s.dim atoms k) =
      2 * waveSum box l atoms := by
  classical
  have h1 : ∀ k ∈ grid s.dim, (s.makeWaves box).g k * Complex.normSq (density box s.dim atoms k) =
      if (∀ j, 2 * k j ≠ s.dim j) ∧ normSq (box.wave (sgn s.dim k)) > 1 / 10 ^ 10 then
        (fun m => s.inter.kPot (normSq (box.wave m)) * Complex.normSq (factor atoms (box.wave m)))
          (sgn s.dim k) else 0 := by
    intro k hk
    have h2 := influence_common (box := box) (i := s.inter) he hk
    rw [density_grid hb hd hi hg, map_mul, Complex.normSq_conj, ← mul_assoc]
    change influence box s.inter s.dim k * _ * _ = _
    rw [h2]
    split_ifs
    · rfl
    · rw [zero_mul]
  rw [Finset.sum_congr rfl h1]
  have h3 := sum_grid hl (fun m => s.inter.kPot (normSq (box.wave m)) *
    Complex.normSq (factor atoms (box.wave m)))
    (fun k => by simp only [wave_neg, normSq_neg', normSq_factor_neg])
  refine h3.trans ?_
  congr 2
  refine List.map_congr_left fun w hw => ?_
  have := ((hl.mem w).1 hw).2.2.2
  have hg : w.g = s.inter.kPot (normSq (box.wave w.k)) := congrArg Wave.g this
  rw [hg, mul_comm]

/-- Forces on charges at grid points. -/
theorem force_grid {box : Box} (hb : box.OK) {s : St} (hd : ∀ j, 4 ≤ s.dim j) (he : ∀ j, Even (s.dim j))
    {l : List Wave} (hl : GridWaves box s.inter s.dim l) {atoms : List Atom}
    (hi : ∀ a ∈ atoms, Inside box a.r) (hg : ∀ a ∈ atoms, OnGrid box s.dim a.r) {a : Atom}
    (ha : a ∈ atoms) : spForce box (s.makeWaves box) atoms a = kForce box l atoms a := by
  classical
  funext c
  set F : IVec → ℝ := fun m => s.inter.kPot (normSq (box.wave m)) *
    (Real.cos (dot (box.wave m) a.r) * (factor atoms (box.wave m)).im -
      Real.sin (dot (box.wave m) a.r) * (factor atoms (box.wave m)).re) * box.wave m c with hF
  have hFn : ∀ k, F (-k) = F k := by
    intro k
    simp only [hF, wave_neg, normSq_neg', factor_neg, Complex.conj_re, Complex.conj_im, Pi.neg_apply]
    have : dot (-box.wave k) a.r = -dot (box.wave k) a.r := by simp [dot]; ring
    rw [this, Real.cos_neg, Real.sin_neg]
    ring
  have h1 : ∀ k ∈ grid s.dim, (s.makeWaves box).vec k c * (s.makeWaves box).g k *
      (density box s.dim atoms k * conj (shape box s.dim a.r k)).im =
      -(if (∀ j, 2 * k j ≠ s.dim j) ∧ normSq (box.wave (sgn s.dim k)) > 1 / 10 ^ 10 then
        F (sgn s.dim k) else 0) := by
    intro k hk
    have h2 := influence_common (box := box) (i := s.inter) he hk
    rw [density_grid hb hd hi hg, shape_grid hb hd (hi a ha) (hg a ha)]
    have e : common s.dim k * conj (factor atoms (box.wave (sgn s.dim k))) *
        conj (common s.dim k * conj (Complex.exp ((dot (box.wave (sgn s.dim k)) a.r : ℝ) * Complex.I))) =
        ((Complex.normSq (common s.dim k) : ℝ) : ℂ) * (conj (factor atoms (box.wave (sgn s.dim k))) *
          Complex.exp ((dot (box.wave (sgn s.dim k)) a.r : ℝ) * Complex.I)) := by
      rw [map_mul, Complex.conj_conj, ← Complex.mul_conj]; ring
    rw [e, Complex.im_ofReal_mul]
    change gridWave box s.dim k c * influence box s.inter s.dim k * _ = _
    rw [gridWave_eq, show ∀ x y z w : ℝ, x * y * (z * w) = (y * z) * (x * w) from fun _ _ _ _ => by ring, h2]
    split_ifs
    · rw [Complex.mul_im, Complex.exp_ofReal_mul_I_re, Complex.exp_ofReal_mul_I_im, Complex.conj_re,
        Complex.conj_im]
      simp only [hF]
      ring
    · ring
  have h3 := sum_grid hl F hFn
  have h4 : kForce box l atoms a c = -(2 * a.q / box.volume * (l.map fun w => F w.k).sum) := by
    have e1 : ∀ ws : List Wave, (ws.map fun w => (-2 * a.q / box.volume * amp box atoms a.r w) •
        box.wave w.k).sum c = (ws.map fun w => -2 * a.q / box.volume * amp box atoms a.r w * box.wave w.k c).sum := by
      intro ws
      induction ws with
      | nil => rfl
      | cons w ws ih => simp only [List.map_cons, List.sum_cons, Pi.add_apply, ih, Pi.smul_apply, smul_eq_mul]
    unfold kForce
    rw [e1, neg_mul_eq_neg_mul, ← List.sum_map_mul_left]
    congr 1
    refine List.map_congr_left fun w hw => ?_
    have hwg : w.g = s.inter.kPot (normSq (box.wave w.k)) := congrArg Wave.g ((hl.mem w).1 hw).2.2.2
    simp only [amp, hF, hwg]
    ring
  rw [h4]
  unfold spForce
  change a.q / box.volume * ∑ k ∈ grid s.dim, (s.makeWaves box).vec k c * (s.makeWaves box).g k *
      (density box s.dim atoms k * conj (shape box s.dim a.r k)).im = _
  rw [Finset.sum_congr rfl h1, Finset.sum_neg_distrib, h3]
  ring

end Verif.Spme
