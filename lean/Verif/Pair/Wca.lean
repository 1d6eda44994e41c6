import Verif.Pair.LJ

/-! # WCA interaction, and witnesses of the failures of the tables -/

set_option autoImplicit false

namespace Verif.Pair

open Verif.Boundary

/-- `2^(1/6)`. -/
noncomputable def root6 : ℝ := (2 : ℝ) ^ ((1 : ℝ) / 6)

theorem root6_pos : 0 < root6 := Real.rpow_pos_of_pos (by norm_num) _

theorem root6_pow : root6 ^ 6 = 2 := by
  unfold root6
  rw [← Real.rpow_natCast, ← Real.rpow_mul (by norm_num)]
  norm_num

/-- Histories of a `WcaPair`. `setSigma`, which the class inherits, is not included, see
`C28_wca_setSigma_attractive`. -/
inductive LJ.UsedWca (p : Prop) : LJ → Prop
  | read {s s' t : LJ} {n : ℤ} {eps sig : Tab} (h1 : s.setNAtomType n = .ok s')
      (hs : Sym n eps ∧ Sym n sig) (h2 : s'.readWca eps sig = .ok t) : UsedWca p t
  | reread {s t : LJ} {eps sig : Tab} (h : UsedWca p s)
      (hs : Sym s.n eps ∧ Sym s.n sig) (h2 : s.readWca eps sig = .ok t) : UsedWca p t
  | setEpsilon {s t : LJ} {i j : ℤ} {x : ℝ} (h : UsedWca p s) (h2 : s.setEpsilon i j x = .ok t) :
      UsedWca p t
  | set {s t : LJ} {name : String} {i j : ℤ} {x : ℝ} (h : UsedWca p s) (hp : i = j ∨ p)
      (h2 : s.setWca name i j x = .ok t) : UsedWca p t
  | assign {s : LJ} (old : LJ) (h : UsedWca p s) : UsedWca p (old.assign s)

/-- Reading WCA parameters is reading Lennard-Jones parameters with the cutoff at the minimum. -/
theorem readWca_eq (s : LJ) (eps sig : Tab) :
    s.readWca eps sig = s.read eps sig (fun i j => sig i j * root6) := by
  unfold LJ.readWca LJ.read
  split_ifs
  · rfl
  · have : fill s.n (fun i j => fill s.n sig s.sigma i j * (2 : ℝ) ^ ((1 : ℝ) / 6)) s.cutoff =
        fill s.n (fun i j => sig i j * root6) s.cutoff := by
      funext i j
      unfold fill root6
      by_cases h : In s.n i j
      · simp only [if_pos h]
      · simp only [if_neg h]
    simp only [this]

theorem setWca_eq {s t : LJ} {name : String} {i j : ℤ} {x : ℝ} (h : s.setWca name i j x = .ok t) :
    s.set name i j x = .ok t ∧ name = "epsilon" := by
  unfold LJ.setWca at h
  unfold LJ.set
  split_ifs at h with h1 h2
  exact ⟨by rw [if_pos h1, if_pos h2]; exact h, h1⟩

theorem Sym.mul {n : ℤ} {t : Tab} (h : Sym n t) (c : ℝ) : Sym n fun i j => t i j * c := by
  intro i j hij; simp only [h i j hij]

/-- A history of a `WcaPair` is one of an `LJPair`. -/
theorem LJ.UsedWca.used {p : Prop} {s : LJ} (h : s.UsedWca p) : s.Used p := by
  induction h with
  | read h1 hs h2 => rw [readWca_eq] at h2; exact .read h1 ⟨hs.1, hs.2, hs.2.mul _⟩ h2
  | reread h hs h2 ih => rw [readWca_eq] at h2; exact .reread ih ⟨hs.1, hs.2, hs.2.mul _⟩ h2
  | setEpsilon h h2 ih => exact .setEpsilon ih h2
  | set h hp h2 ih => exact .set ih hp (setWca_eq h2).1
  | assign old h ih => exact .assign old ih

/-- The cutoff is at the minimum of the potential after any history without `setSigma`. -/
theorem LJ.UsedWca.cutoff {p : Prop} {s : LJ} (h : s.UsedWca p) {i j : ℤ} (hij : In s.n i j) :
    s.cutoff i j = s.sigma i j * root6 := by
  have hread : ∀ {s t : LJ} {eps sig : Tab}, s.readWca eps sig = .ok t → ∀ i j, In t.n i j →
      t.cutoff i j = t.sigma i j * root6 := by
    intro s t eps sig h i j hij
    unfold LJ.readWca at h
    split_ifs at h
    simp only [Except.ok.injEq] at h
    subst h
    have hij' : In s.n i j := hij
    simp only [fill_in hij']; rfl
  induction h generalizing i j with
  | read h1 hs h2 => exact hread h2 i j hij
  | reread h hs h2 ih => exact hread h2 i j hij
  | setEpsilon h h2 ih => obtain ⟨_, rfl⟩ := LJ.setEpsilon_eq h2; exact ih hij
  | set h hp h2 ih =>
    obtain ⟨h3, hn⟩ := setWca_eq h2
    rcases LJ.set_eq h3 with ⟨_, rfl⟩ | ⟨h4, _⟩
    · exact ih hij
    · rw [hn] at h4; exact absurd h4 (by decide)
  | @assign s old h ih =>
    obtain ⟨h1, h2, h3, h4, _⟩ := assign_apply (old := old) (s := s) hij
    rw [h2, h4]; exact ih hij

theorem ljU_min (e σ : ℝ) (hσ : σ ≠ 0) : ljU e σ (σ * root6) = -e := by
  unfold ljU
  have h : σ / (σ * root6) = 1 / root6 := by
    rw [div_mul_eq_div_div, div_self hσ]
  rw [h, show (12 : ℕ) = 6 * 2 from rfl, pow_mul, div_pow, root6_pow]
  norm_num
  ring

/-- Energy of a `WcaPair`: Lennard-Jones plus `epsilon` below `2^(1/6) sigma`, zero beyond, never
negative for non-negative `epsilon`, and independent of the order of the types. The restriction on
`set` is needed, as for `LJPair`. -/
theorem C28_wca_energy_partial {s : LJ} (h : s.UsedWca False) {i j : ℤ} (hij : In s.n i j)
    (hs : 0 < s.sigma i j) :
    (∀ r, 0.6 * s.sigma i j ^ 2 ≤ r ^ 2 → r ^ 2 < (s.sigma i j * root6) ^ 2 →
      s.energy (r * r) i j = ljU (s.epsilon i j) (s.sigma i j) r + s.epsilon i j) ∧
    (∀ r, (s.sigma i j * root6) ^ 2 ≤ r ^ 2 → s.energy (r * r) i j = 0) ∧
    (0 ≤ s.epsilon i j → ∀ rsq, 0 ≤ s.energy rsq i j) ∧
    ∀ rsq, s.energy rsq j i = s.energy rsq i j := by
  obtain ⟨h1, h2, h3⟩ := C28_lj_energy_partial h.used hij
  rw [h.cutoff hij] at h1 h2
  refine ⟨fun r ha hb => ?_, h2, fun he rsq => ?_, h3⟩
  · rw [h1 r ha hb, ljU_min _ _ hs.ne']; ring
  · unfold LJ.energy
    rw [h.used.shift i j hij, h.used.ok.sq i j hij, h.used.ok.cutSq i j hij, shiftOf_eq,
      h.cutoff hij, ljU_min _ _ hs.ne']
    have key : ∀ x : ℝ, 0 ≤ 4 * s.epsilon i j * (x * x * x * (x * x * x) - x * x * x) + - -s.epsilon i j := by
      intro x
      have : 4 * s.epsilon i j * (x * x * x * (x * x * x) - x * x * x) + - -s.epsilon i j =
          s.epsilon i j * (2 * (x * x * x) - 1) ^ 2 := by ring
      rw [this]
      exact mul_nonneg he (sq_nonneg _)
    by_cases hq : rsq < s.sigma i j * root6 * (s.sigma i j * root6)
    · rw [if_pos hq]; exact key _
    · rw [if_neg hq]

theorem ljF_min (e σ : ℝ) (hσ : σ ≠ 0) : ljF e σ (σ * root6) = 0 := by
  unfold ljF
  have h : σ / (σ * root6) = 1 / root6 := by
    rw [div_mul_eq_div_div, div_self hσ]
  rw [h, show (12 : ℕ) = 6 * 2 from rfl, pow_mul, div_pow, root6_pow]
  norm_num

theorem hasDerivAt_glue {f g : ℝ → ℝ} {c d : ℝ} (hf : HasDerivAt f d c) (hg : HasDerivAt g d c)
    (h : f c = g c) : HasDerivAt (fun x => if x < c then f x else g x) d c := by
  have h1 : HasDerivWithinAt (fun x => if x < c then f x else g x) d (Set.Iic c) c := by
    refine hf.hasDerivWithinAt.congr ?_ ?_
    · intro x hx
      rcases lt_or_eq_of_le (Set.mem_Iic.1 hx) with h2 | h2
      · simp only [if_pos h2]
      · subst h2; simp only [lt_irrefl, if_false]; exact h.symm
    · simp only [lt_irrefl, if_false]; exact h.symm
  have h2 : HasDerivWithinAt (fun x => if x < c then f x else g x) d (Set.Ici c) c := by
    refine hg.hasDerivWithinAt.congr ?_ ?_
    · intro x hx
      simp only [if_neg (not_lt.2 (Set.mem_Ici.1 hx))]
    · simp only [lt_irrefl, if_false]
  have h3 := h1.union h2
  rw [Set.Iic_union_Ici] at h3
  exact h3.hasDerivAt Filter.univ_mem

/-- The force of a `WcaPair` is minus the gradient of the energy at every distance outside of the
core, the cutoff included. -/
theorem C27_wca {s : LJ} (h : s.UsedWca False) {i j : ℤ} (hij : In s.n i j) (hs : 0 < s.sigma i j)
    {rsq : ℝ} (h1 : 0.6 * s.sigma i j ^ 2 < rsq) :
    Conservative (fun q => s.energy q i j)
      (cutForce (s.cutoffSq i j) (fun q => s.forceOverR q i j)) rsq := by
  have hu : s.Used True := by
    have : ∀ {s : LJ}, s.UsedWca False → s.UsedWca True := by
      intro s h
      induction h with
      | read h1 hs h2 => exact .read h1 hs h2
      | reread h hs h2 ih => exact .reread ih hs h2
      | setEpsilon h h2 ih => exact .setEpsilon ih h2
      | set h hp h2 ih => exact .set ih (Or.inr trivial) h2
      | assign old h ih => exact .assign old ih
    exact (this h).used
  have h0 : 0 < rsq := lt_of_le_of_lt (by positivity) h1
  have e1 : s.sigmaSq i j = s.sigma i j ^ 2 := by rw [hu.ok.sq i j hij]; ring
  have e2 : s.cutoffSq i j = s.cutoff i j ^ 2 := by rw [hu.ok.cutSq i j hij]; ring
  rcases lt_trichotomy rsq (s.cutoff i j ^ 2) with h2 | h2 | h2
  · have hc := C27_lj hu hij h0 h1 h2
    have e : cutForce (s.cutoffSq i j) (fun q => s.forceOverR q i j) rsq = s.forceOverR rsq i j := by
      unfold cutForce; rw [if_pos (by rw [e2]; exact h2)]
    constructor
    · rintro r rfl
      rw [e]
      exact hc.radial r rfl
    · rintro x v rfl
      rw [e]
      exact hc.vector x v rfl
  · refine conservative_of ?_
    have hz : cutForce (s.cutoffSq i j) (fun q => s.forceOverR q i j) rsq = 0 :=
      (C27_lj_beyond hu hij h2.ge).2.1
    rw [hz]
    have hF : s.forceOverR rsq i j = 0 := by
      have := (C28_lj_force hu hij (s.cutoff i j)).1
      rw [h.cutoff hij, ljF_min _ _ hs.ne', ← h.cutoff hij] at this
      rw [h2, pow_two]; exact this
    have hd := hasDerivAt_lj (s.sigmaSq i j) (s.epsilon i j) (s.ljShift i j) rsq h0.ne'
    have hd0 : 48 * s.epsilon i j * (s.sigmaSq i j * (1 / rsq) * (s.sigmaSq i j * (1 / rsq)) *
        (s.sigmaSq i j * (1 / rsq)) - 0.5) * (s.sigmaSq i j * (1 / rsq) * (s.sigmaSq i j * (1 / rsq)) *
        (s.sigmaSq i j * (1 / rsq))) * (1 / rsq) = 0 := by
      unfold LJ.forceOverR at hF
      rw [hu.ok.e48 i j hij] at hF
      exact hF
    rw [hd0] at hd
    have hg := hasDerivAt_glue hd (g := fun _ => 0) (by simpa using hasDerivAt_const rsq (0 : ℝ)) (by
      beta_reduce
      rw [h.used.shift i j hij, e2, ← h2]
      unfold shiftOf
      ring)
    refine hg.congr_of_eventuallyEq ?_
    filter_upwards [Ioi_mem_nhds h1] with t ht
    unfold LJ.energy
    rw [e2, ← h2, e1, if_neg (c := t < 0.6 * s.sigma i j ^ 2) (not_lt.2 (le_of_lt ht))]
  · exact (C27_lj_beyond hu hij h2.le).2.2 h2

/-! ## Witnesses -/

/-- All values zero. -/
def zeroLJ : LJ :=
  { epsilon := fun _ _ => 0, sigma := fun _ _ => 0, sigmaSq := fun _ _ => 0, cutoff := fun _ _ => 0
    cutoffSq := fun _ _ => 0, ljShift := fun _ _ => 0, eps48 := fun _ _ => 0, maxCut := 0, n := 0
    init := false }

/-- Two types with `epsilon = sigma = 1`, and cutoff 2. -/
noncomputable def ljEx : LJ :=
  { epsilon := fill 2 (fun _ _ => 1) fun _ _ => 0, sigma := fill 2 (fun _ _ => 1) fun _ _ => 0
    cutoff := fill 2 (fun _ _ => 2) fun _ _ => 0
    sigmaSq := fill 2 (fun _ _ => 1) fun _ _ => 0
    cutoffSq := fill 2 (fun _ _ => 4) fun _ _ => 0
    ljShift := fill 2 (fun _ _ => shiftOf 1 1 4) fun _ _ => 0
    eps48 := fill 2 (fun _ _ => 48) fun _ _ => 0
    maxCut := maxOver 2 (fill 2 (fun _ _ => 2) fun _ _ => 0), n := 2, init := true }

theorem fill_congr {n : ℤ} {a b t : Tab} (h : ∀ i j, In n i j → a i j = b i j) :
    fill n a t = fill n b t := by
  funext i j; unfold fill; split_ifs with h1
  · exact h i j h1
  · rfl

theorem ljEx_used (p : Prop) : ljEx.Used p := by
  refine .read (s := zeroLJ) (n := 2) (eps := fun _ _ => 1) (sig := fun _ _ => 1) (cut := fun _ _ => 2)
    rfl ⟨fun _ _ _ => rfl, fun _ _ _ => rfl, fun _ _ _ => rfl⟩ ?_
  unfold LJ.read ljEx
  rw [if_neg (by simp)]
  simp only [zeroLJ, Except.ok.injEq, LJ.mk.injEq, true_and, and_true]
  refine ⟨fill_congr fun i j h => ?_, fill_congr fun i j h => ?_, fill_congr fun i j h => ?_,
    fill_congr fun i j h => ?_⟩ <;> simp only [fill_in h] <;> norm_num

theorem in2 {i j : ℤ} (hi : i = 0 ∨ i = 1) (hj : j = 0 ∨ j = 1) : In 2 i j := by unfold In; omega

/-- Hypotheses of the theorems above are met: energy at distance 1 with cutoff 2. -/
example : ljEx.energy 1 0 1 = 63 / 1024 := by
  have h : In 2 0 1 := in2 (.inl rfl) (.inr rfl)
  unfold LJ.energy ljEx shiftOf
  simp only [fill_in h]
  norm_num

/-- After `setSigma` for two different types the energy depends on the order of the types: the
shift of one of the two orders is not updated. -/
theorem C28_lj_setSigma_order : ∃ s t : LJ, s.Used False ∧ s.setSigma 0 1 (1 / 2) = .ok t ∧
    t.energy 1 0 1 ≠ t.energy 1 1 0 := by
  obtain ⟨t, ht⟩ : ∃ t, ljEx.setSigma 0 1 (1 / 2) = .ok t := by
    unfold LJ.setSigma guard; simp [ljEx, Except.bind]
  refine ⟨ljEx, t, ljEx_used _, ht, ?_⟩
  obtain ⟨_, rfl⟩ := LJ.setSigma_eq ht
  have h01 : In 2 0 1 := in2 (.inl rfl) (.inr rfl)
  have h10 : In 2 1 0 := in2 (.inr rfl) (.inl rfl)
  unfold LJ.energy
  simp only [ljEx, put_apply, upd_apply, fill_in h01, fill_in h10, shiftOf]
  norm_num

/-- The same after `set("epsilon", ...)`. -/
theorem C28_lj_set_order : ∃ s t : LJ, s.Used False ∧ s.set "epsilon" 0 1 2 = .ok t ∧
    t.energy 1 0 1 ≠ t.energy 1 1 0 := by
  obtain ⟨t, ht⟩ : ∃ t, ljEx.set "epsilon" 0 1 2 = .ok t := by
    unfold LJ.set; rw [if_pos rfl, if_pos (by unfold In maxType; omega)]; exact ⟨_, rfl⟩
  refine ⟨ljEx, t, ljEx_used _, ht, ?_⟩
  have h01 : In 2 0 1 := in2 (.inl rfl) (.inr rfl)
  have h10 : In 2 1 0 := in2 (.inr rfl) (.inl rfl)
  rcases LJ.set_eq ht with ⟨_, rfl⟩ | ⟨h, _⟩
  · unfold LJ.energy
    simp only [ljEx, put_apply, upd_apply, fill_in h01, fill_in h10, shiftOf]
    norm_num
  · exact absurd h (by decide)

/-- The energy is not continuous at the cutoff after such a change: just below the cutoff it
tends to a value that is not zero. -/
theorem C27_lj_jump_after_setSigma : ∃ s t : LJ, s.Used False ∧ s.setSigma 0 1 (1 / 2) = .ok t ∧
    ¬ Continuous fun q => t.energy q 1 0 := by
  obtain ⟨t, ht⟩ : ∃ t, ljEx.setSigma 0 1 (1 / 2) = .ok t := by
    unfold LJ.setSigma guard; simp [ljEx, Except.bind]
  refine ⟨ljEx, t, ljEx_used _, ht, fun hc => ?_⟩
  have ht' := (LJ.setSigma_eq ht).2
  have h01 : In 2 0 1 := in2 (.inl rfl) (.inr rfl)
  have h10 : In 2 1 0 := in2 (.inr rfl) (.inl rfl)
  -- the formula below the cutoff, everywhere
  let g : ℝ → ℝ := fun q => 4 * 1 * ((1 / 4) / q * ((1 / 4) / q) * ((1 / 4) / q) *
    ((1 / 4) / q * ((1 / 4) / q) * ((1 / 4) / q)) - (1 / 4) / q * ((1 / 4) / q) * ((1 / 4) / q)) + 63 / 1024
  have hg : ContinuousAt g 4 := by
    have h1 : ContinuousAt (fun q : ℝ => (1 / 4) / q) 4 := continuousAt_const.div continuousAt_id (by norm_num)
    have h3 := (h1.mul h1).mul h1
    exact (((h3.mul h3).sub h3).const_mul (4 * 1)).add_const _
  have hc4 : t.cutoffSq 1 0 = 4 := by rw [ht']; simp only [ljEx, fill_in h10]
  have hs4 : t.sigmaSq 1 0 = 1 / 4 := by
    rw [ht']; simp only [ljEx, put_apply, fill_in h10]; norm_num
  have he4 : t.epsilon 1 0 = 1 := by rw [ht']; simp only [ljEx, fill_in h10]
  have hl4 : t.ljShift 1 0 = 63 / 1024 := by
    rw [ht']; simp only [ljEx, upd_apply, fill_in h10, shiftOf]; norm_num
  set E := fun q => t.energy q 1 0 with hE
  have hE4 : E 4 = 0 := by
    rw [hE]; unfold LJ.energy
    simp only [hc4]; norm_num
  have heq : ∀ q, 1 < q → q < 4 → E q = g q := by
    intro q h1 h4
    rw [hE]; unfold LJ.energy
    simp only [hc4, hs4, he4, hl4]
    rw [if_pos h4, if_neg (by norm_num; linarith)]
  have hne : (nhdsWithin (4 : ℝ) (Set.Iio 4)).NeBot := inferInstance
  have t1 : Filter.Tendsto E (nhdsWithin 4 (Set.Iio 4)) (nhds 0) := by
    have := hc.continuousAt (x := (4 : ℝ))
    rw [ContinuousAt] at this
    simp only [hE4] at this
    exact this.mono_left nhdsWithin_le_nhds
  have t2 : Filter.Tendsto E (nhdsWithin 4 (Set.Iio 4)) (nhds (g 4)) := by
    have h3 : Filter.Tendsto g (nhdsWithin 4 (Set.Iio 4)) (nhds (g 4)) := hg.mono_left nhdsWithin_le_nhds
    refine h3.congr' ?_
    have : Set.Ioo (1 : ℝ) 4 ∈ nhdsWithin (4 : ℝ) (Set.Iio 4) := Ioo_mem_nhdsLT (by norm_num)
    filter_upwards [this] with q hq using (heq q hq.1 hq.2).symm
  have h5 := tendsto_nhds_unique t1 t2
  simp only [g] at h5
  norm_num at h5

/-- Two types with `epsilon = sigma = 1` in a `WcaPair`. -/
noncomputable def wcaEx : LJ := (zeroLJ.setNAtomType 2).toOption.get rfl

theorem wcaEx_read : ∃ s, wcaEx.readWca (fun _ _ => 1) (fun _ _ => 1) = .ok s ∧ s.UsedWca False ∧
    s.n = 2 ∧ s.init = true ∧ (∀ i j, In 2 i j → s.epsilon i j = 1 ∧ s.sigma i j = 1) := by
  obtain ⟨s, hs⟩ : ∃ s, wcaEx.readWca (fun _ _ => 1) (fun _ _ => 1) = .ok s := by
    unfold LJ.readWca; rw [if_neg (by show ¬ (2 : ℤ) ≤ 0; omega)]; exact ⟨_, rfl⟩
  have hu : s.UsedWca False := .read (s := zeroLJ) (s' := wcaEx) (n := 2) rfl
    ⟨fun _ _ _ => rfl, fun _ _ _ => rfl⟩ hs
  refine ⟨s, hs, hu, ?_⟩
  unfold LJ.readWca at hs
  rw [if_neg (by show ¬ (2 : ℤ) ≤ 0; omega)] at hs
  simp only [Except.ok.injEq] at hs
  subst hs
  have h2 : wcaEx.n = 2 := rfl
  refine ⟨h2, rfl, fun i j hij => ?_⟩
  rw [h2]
  simp only [fill_in hij, and_self]

/-- After `setSigma` of the base class the cutoff of a `WcaPair` is not at the minimum of the
potential any more, and the potential has an attractive part: the energy is negative. -/
theorem C28_wca_setSigma_attractive : ∃ s t : LJ, s.UsedWca False ∧
    s.setSigma 0 0 (1 / 2) = .ok t ∧ t.cutoff 0 0 ≠ t.sigma 0 0 * root6 ∧
    ∃ r, 0 < r ∧ r ^ 2 < t.cutoff 0 0 ^ 2 ∧ t.energy (r * r) 0 0 < 0 := by
  obtain ⟨s, _, hu, hn, hi, hv⟩ := wcaEx_read
  have h00 : In 2 0 0 := in2 (.inl rfl) (.inl rfl)
  obtain ⟨t, ht⟩ : ∃ t, s.setSigma 0 0 (1 / 2) = .ok t := by
    unfold LJ.setSigma guard; rw [hn, hi]; simp [Except.bind]
  have hUsed : s.Used False := hu.used
  have htu : t.Used False := .setSigma hUsed (.inl rfl) ht
  have hc : s.cutoff 0 0 = root6 := by rw [hu.cutoff (hn ▸ h00), (hv _ _ h00).2, one_mul]
  have r1 : (1 : ℝ) < root6 := by
    unfold root6
    exact Real.one_lt_rpow (by norm_num) (by norm_num)
  have ht' := (LJ.setSigma_eq ht).2
  have hts : t.sigma 0 0 = 1 / 2 := by rw [ht']; simp [put_apply]
  have hte : t.epsilon 0 0 = 1 := by rw [ht']; exact (hv _ _ h00).1
  have htc : t.cutoff 0 0 = root6 := by rw [ht']; exact hc
  have htn : t.n = 2 := by rw [ht']; exact hn
  refine ⟨s, t, hu, ht, ?_, 1 / 2 * root6, by positivity, ?_, ?_⟩
  · rw [htc, hts]; nlinarith
  · rw [htc]; nlinarith
  · have := (C28_lj_energy_partial htu (i := 0) (j := 0) (htn ▸ h00)).1 (1 / 2 * root6)
      (by rw [hts]; nlinarith) (by rw [htc]; nlinarith)
    rw [this, hte, hts, htc, ljU_min _ _ (by norm_num)]
    have h6 : ljU 1 (1 / 2) root6 = 4 * ((1 / 2) ^ 12 / 4 - (1 / 2) ^ 6 / 2) := by
      have h12 : root6 ^ 12 = 4 := by
        rw [show (12 : ℕ) = 6 * 2 from rfl, pow_mul, root6_pow]; norm_num
      unfold ljU
      rw [div_pow (1 / 2) root6 12, div_pow (1 / 2) root6 6, h12, root6_pow]
      ring
    rw [h6]; norm_num

end Verif.Pair
