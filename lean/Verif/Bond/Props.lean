import Verif.Bond.Model
import Verif.Pair.Dpd
import Mathlib.Analysis.SpecialFunctions.Log.Deriv

/-! # Bond interactions: theorems -/

set_option autoImplicit false

namespace Verif.Bond

open Verif.Pair Verif.Boundary

theorem upd1_same (t : ℤ → ℝ) (i : ℤ) (x : ℝ) : upd1 t i x i = x := by simp [upd1]

theorem upd1_ne {t : ℤ → ℝ} {i k : ℤ} {x : ℝ} (h : k ≠ i) : upd1 t i x k = t k := by simp [upd1, h]

theorem fill1_in {n i : ℤ} (h : 0 ≤ i ∧ i < n) (a t : ℤ → ℝ) : fill1 n a t i = a i := by
  simp [fill1, h]

/-! ## Harmonic bonds -/

/-- Energy and force of harmonic bonds: the formula, the minimum, and the gradient. -/
theorem C29_harmonic (s : Harm) (type : ℤ) :
    (∀ r, 0 ≤ r → s.energy (r * r) type = s.kappa type / 2 * (r - s.length type) ^ 2) ∧
    (∀ r, 0 < r → s.forceOverR (r * r) type = -(s.kappa type * (r - s.length type)) / r) ∧
    ∀ rsq, 0 < rsq → Conservative (fun q => s.energy q type) (fun q => s.forceOverR q type) rsq := by
  refine ⟨fun r hr => ?_, fun r hr => ?_, fun rsq h0 => conservative_of ?_⟩
  · unfold Harm.energy; rw [Real.sqrt_mul_self hr]; ring
  · unfold Harm.forceOverR; rw [Real.sqrt_mul_self hr.le]; ring
  · have hq := Real.sqrt_pos.2 h0
    have h1 := (Real.hasDerivAt_sqrt h0.ne').sub_const (s.length type)
    refine ((h1.const_mul (0.5 * s.kappa type)).mul h1).congr_deriv ?_
    unfold Harm.forceOverR
    field_simp
    ring

/-- Values that were set are the ones used. -/
theorem C29_harmonic_set {s t : Harm} {name : String} {i k : ℤ} {x : ℝ} (h : s.set name i x = .ok t) :
    t.n = s.n ∧
    (name = "kappa" ∧ t.kappa i = x ∧ t.length = s.length ∧ (k ≠ i → t.kappa k = s.kappa k) ∨
     name = "length" ∧ t.length i = x ∧ t.kappa = s.kappa ∧ (k ≠ i → t.length k = s.length k)) := by
  unfold Harm.set at h
  split_ifs at h with h1 h2 h3 h4
  · simp only [Except.ok.injEq] at h
    subst h
    exact ⟨rfl, .inl ⟨h1, upd1_same _ _ _, rfl, fun hk => upd1_ne hk⟩⟩
  · simp only [Except.ok.injEq] at h
    subst h
    exact ⟨rfl, .inr ⟨h3, upd1_same _ _ _, rfl, fun hk => upd1_ne hk⟩⟩

/-- Bonds of zero length, at every length. -/
theorem C29_harmonic0 (s : Harm0) (type : ℤ) :
    (∀ r, s.energy (r * r) type = s.kappa type / 2 * r ^ 2) ∧
    ∀ rsq, Conservative (fun q => s.energy q type) (fun q => s.forceOverR q type) rsq := by
  refine ⟨fun r => by unfold Harm0.energy; ring, fun rsq => conservative_of ?_⟩
  refine ((hasDerivAt_id rsq).const_mul (0.5 * s.kappa type)).congr_deriv ?_
  unfold Harm0.forceOverR
  ring

/-! ## FENE bonds -/

/-- Ratio of the crossover length to the maximal length: the positive root of
`u^2 + (kappa r0 / F) u = 1`. -/
noncomputable def crossover (kappa r0 F : ℝ) : ℝ :=
  Real.sqrt (1 + (kappa * r0 / (2 * F)) ^ 2) - kappa * r0 / (2 * F)

/-- FENE energy at distance `r`, with the force capped at `F`. -/
noncomputable def feneU (kappa r0 F r : ℝ) : ℝ :=
  let u := crossover kappa r0 F
  if r < r0 * u then -(kappa * r0 ^ 2 / 2) * Real.log (1 - (r / r0) ^ 2)
  else -(kappa * r0 ^ 2 / 2) * Real.log (1 - u ^ 2) + F * (r - r0 * u)

/-- Attractive force at distance `r`. -/
noncomputable def feneF (kappa r0 F r : ℝ) : ℝ :=
  if r < r0 * crossover kappa r0 F then kappa * r / (1 - (r / r0) ^ 2) else F

theorem crossover_spec {kappa r0 F : ℝ} (hk : 0 < kappa) (hr : 0 < r0) (hF : 0 < F) :
    0 < crossover kappa r0 F ∧ crossover kappa r0 F < 1 ∧
    kappa * (r0 * crossover kappa r0 F) = F * (1 - crossover kappa r0 F ^ 2) := by
  have hy : 0 < kappa * r0 / (2 * F) := by positivity
  unfold crossover
  set y := kappa * r0 / (2 * F) with hyd
  have h1 : Real.sqrt (1 + y ^ 2) ^ 2 = 1 + y ^ 2 := Real.sq_sqrt (by positivity)
  have h2 : y < Real.sqrt (1 + y ^ 2) := Real.lt_sqrt_of_sq_lt (by linarith)
  have h3 : Real.sqrt (1 + y ^ 2) < 1 + y := by
    rw [Real.sqrt_lt' (by positivity)]; nlinarith
  refine ⟨by linarith, by linarith, ?_⟩
  have e : kappa * r0 = 2 * F * y := by rw [hyd]; field_simp
  have : kappa * (r0 * (Real.sqrt (1 + y ^ 2) - y)) = kappa * r0 * (Real.sqrt (1 + y ^ 2) - y) := by ring
  rw [this, e]
  linear_combination F * h1

/-- Derived values of a type are those of its parameters. -/
structure Fene.Derived (s : Fene) (i : ℤ) : Prop where
  r0Sq : s.r0Sq i = s.r0 i ^ 2
  r0SqInv : s.r0SqInv i = 1 / s.r0 i ^ 2
  ce : s.ce i = -(s.kappa i * s.r0 i ^ 2 / 2)
  rl : s.rl i = s.r0 i * crossover (s.kappa i) (s.r0 i) s.forceCutoff
  rlSq : s.rlSq i = s.rl i ^ 2
  cut : s.energyCutoff i = s.ce i * Real.log (1 - s.rlSq i * s.r0SqInv i)

theorem Fene.derive_same (s : Fene) (i : ℤ) : (s.derive i).Derived i := by
  unfold Fene.derive
  constructor <;> simp only [upd1_same]
  · ring
  · rw [pow_two]
  · ring
  · unfold crossover
    have e : 0.5 * s.kappa i * s.r0 i / s.forceCutoff = s.kappa i * s.r0 i / (2 * s.forceCutoff) := by
      rw [mul_comm (2 : ℝ), ← div_div]; ring
    rw [e, pow_two]
  · ring

theorem Fene.derive_keeps (s : Fene) (i : ℤ) : (s.derive i).kappa = s.kappa ∧ (s.derive i).r0 = s.r0 ∧
    (s.derive i).forceCutoff = s.forceCutoff ∧ (s.derive i).n = s.n := ⟨rfl, rfl, rfl, rfl⟩

theorem Fene.derive_other {s : Fene} {i k : ℤ} (h : s.Derived k) (hk : k ≠ i) : (s.derive i).Derived k := by
  obtain ⟨h1, h2, h3, h4, h5, h6⟩ := h
  unfold Fene.derive
  constructor <;> simp only [upd1_ne hk] <;> assumption

/-- Changing the parameters of another type. -/
theorem Fene.Derived.other {s t : Fene} {k : ℤ} (h : s.Derived k) (h1 : t.kappa k = s.kappa k)
    (h2 : t.r0 k = s.r0 k) (h3 : t.forceCutoff = s.forceCutoff) (h4 : t.r0Sq k = s.r0Sq k)
    (h5 : t.r0SqInv k = s.r0SqInv k) (h6 : t.ce k = s.ce k) (h7 : t.rl k = s.rl k)
    (h8 : t.rlSq k = s.rlSq k) (h9 : t.energyCutoff k = s.energyCutoff k) : t.Derived k := by
  obtain ⟨a1, a2, a3, a4, a5, a6⟩ := h
  constructor
  · rw [h4, h2]; exact a1
  · rw [h5, h2]; exact a2
  · rw [h6, h1, h2]; exact a3
  · rw [h7, h1, h2, h3]; exact a4
  · rw [h8, h7]; exact a5
  · rw [h9, h6, h8, h5]; exact a6

theorem Fene.foldl_derive (m : ℕ) (s : Fene) :
    let t := (List.range m).foldl (fun (s : Fene) (i : ℕ) => s.derive (i : ℤ)) s
    t.kappa = s.kappa ∧ t.r0 = s.r0 ∧ t.forceCutoff = s.forceCutoff ∧ t.n = s.n ∧
    ∀ i : ℤ, 0 ≤ i → i < m → t.Derived i := by
  induction m with
  | zero => exact ⟨rfl, rfl, rfl, rfl, fun i h1 h2 => by omega⟩
  | succ m ih =>
    intro t
    simp only [List.range_succ, List.foldl_append, List.foldl_cons, List.foldl_nil, t] at ih ⊢
    obtain ⟨h1, h2, h3, h4, h5⟩ := ih
    refine ⟨h1, h2, h3, h4, fun i hi hm => ?_⟩
    by_cases h : i = m
    · rw [h]; exact Fene.derive_same _ _
    · exact Fene.derive_other (h5 i hi (by push_cast at hm; omega)) h

/-- Histories of a `FeneBond`: parameters read, then modified, or assigned. -/
inductive Fene.Used : Fene → Prop
  | read {s t : Fene} {kappa r0 : ℤ → ℝ} {F : ℝ} (h : s.read kappa r0 F = .ok t) : Used t
  | set {s t : Fene} {name : String} {i : ℤ} {x : ℝ} (h : Used s) (h2 : s.set name i x = .ok t) : Used t
  | assign {s : Fene} (old : Fene) (h : Used s) : Used (old.assign s)

theorem Fene.Used.derived {s : Fene} (h : s.Used) {i : ℤ} (hi : 0 ≤ i ∧ i < s.n) : s.Derived i := by
  induction h generalizing i with
  | @read s t kappa r0 F h =>
    unfold Fene.read at h
    split_ifs at h with hn
    simp only [Except.ok.injEq] at h
    subst h
    obtain ⟨_, _, _, h4, h5⟩ := Fene.foldl_derive s.n.toNat
      { s with kappa := fill1 s.n kappa s.kappa, r0 := fill1 s.n r0 s.r0, forceCutoff := F }
    refine h5 i hi.1 ?_
    rw [h4] at hi
    have := hi.2
    simp only at this
    omega
  | @set s t name j x h h2 ih =>
    unfold Fene.set at h2
    split_ifs at h2 with h1 h3 h4 h5
    all_goals
      simp only [Except.ok.injEq] at h2
      subst h2
      by_cases hij : i = j
      · subst hij; exact Fene.derive_same _ _
      · have hd := ih hi
        refine Fene.derive_other ?_ hij
        refine hd.other ?_ ?_ rfl rfl rfl rfl rfl rfl rfl
        · first | exact upd1_ne hij | rfl
        · first | exact upd1_ne hij | rfl
  | @assign s old h ih =>
    have hi' : 0 ≤ i ∧ i < s.n := hi
    exact (ih hi').other (fill1_in hi' _ _) (fill1_in hi' _ _) rfl (fill1_in hi' _ _) (fill1_in hi' _ _)
      (fill1_in hi' _ _) (fill1_in hi' _ _) (fill1_in hi' _ _) (fill1_in hi' _ _)

/-- After any history, energy and force of a FENE bond are those of the current parameters. -/
theorem C29_fene_values {s : Fene} (h : s.Used) {i : ℤ} (hi : 0 ≤ i ∧ i < s.n) (hk : 0 < s.kappa i)
    (hr0 : 0 < s.r0 i) (hF : 0 < s.forceCutoff) {r : ℝ} (hr : 0 < r) :
    s.energy (r * r) i = feneU (s.kappa i) (s.r0 i) s.forceCutoff r ∧
    s.forceOverR (r * r) i * r = - feneF (s.kappa i) (s.r0 i) s.forceCutoff r := by
  obtain ⟨a1, a2, a3, a4, a5, a6⟩ := h.derived hi
  obtain ⟨u0, u1, u2⟩ := crossover_spec hk hr0 hF
  have hiff : r * r < s.rlSq i ↔ r < s.r0 i * crossover (s.kappa i) (s.r0 i) s.forceCutoff := by
    rw [a5, a4, pow_two]
    exact (mul_self_lt_mul_self_iff hr.le (by positivity)).symm
  constructor
  · unfold Fene.energy feneU
    by_cases hc : r < s.r0 i * crossover (s.kappa i) (s.r0 i) s.forceCutoff
    · simp only [if_pos hc, if_pos (hiff.2 hc)]
      rw [a3, a2, div_pow]
      congr 3
      ring
    · simp only [if_neg hc, if_neg (mt hiff.1 hc)]
      rw [a6, a5, a4, a3, a2, Real.sqrt_mul_self hr.le]
      congr 4
      rw [mul_pow]
      field_simp
  · unfold Fene.forceOverR feneF
    by_cases hc : r < s.r0 i * crossover (s.kappa i) (s.r0 i) s.forceCutoff
    · simp only [if_pos hc, if_pos (hiff.2 hc)]
      rw [a2, div_pow]
      have : r * r * (1 / s.r0 i ^ 2) = r ^ 2 / s.r0 i ^ 2 := by ring
      rw [this]
      ring
    · simp only [if_neg hc, if_neg (mt hiff.1 hc)]
      rw [Real.sqrt_mul_self hr.le]
      field_simp

/-- The force of a FENE bond is minus the gradient of the energy at every length, at the crossover
too, where both are therefore continuous. -/
theorem C29_fene {s : Fene} (h : s.Used) {i : ℤ} (hi : 0 ≤ i ∧ i < s.n) (hk : 0 < s.kappa i)
    (hr0 : 0 < s.r0 i) (hF : 0 < s.forceCutoff) {rsq : ℝ} (h0 : 0 ≤ rsq) :
    Conservative (fun q => s.energy q i) (fun q => s.forceOverR q i) rsq := by
  obtain ⟨a1, a2, a3, a4, a5, a6⟩ := h.derived hi
  obtain ⟨u0, u1, u2⟩ := crossover_spec hk hr0 hF
  set u := crossover (s.kappa i) (s.r0 i) s.forceCutoff with hu
  have hrl : 0 < s.rl i := by rw [a4]; positivity
  have hrl2 : s.rlSq i < s.r0 i ^ 2 := by
    rw [a5, a4, mul_pow]
    have : u ^ 2 < 1 := by nlinarith
    have := mul_lt_mul_of_pos_left this (pow_pos hr0 2)
    linarith
  -- derivative of the inner branch
  have hin : ∀ q, q < s.r0 i ^ 2 → HasDerivAt (fun t => s.ce i * Real.log (1 - t * s.r0SqInv i))
      (-(-s.kappa i / (1 - q * s.r0SqInv i) / 2)) q := by
    intro q hq
    have hg : 0 < 1 - q * s.r0SqInv i := by
      rw [a2, mul_one_div, sub_pos, div_lt_one (by positivity)]; exact hq
    have h1 : HasDerivAt (fun t : ℝ => 1 - t * s.r0SqInv i) (-s.r0SqInv i) q := by
      refine (((hasDerivAt_id q).mul_const (s.r0SqInv i)).const_sub 1).congr_deriv ?_
      ring
    refine ((h1.log hg.ne').const_mul (s.ce i)).congr_deriv ?_
    rw [a3]
    have e : s.r0SqInv i * s.r0 i ^ 2 = 1 := by rw [a2]; field_simp
    generalize 1 - q * s.r0SqInv i = g
    linear_combination (s.kappa i / g / 2) * e
  -- derivative of the outer branch
  have hout : ∀ q, 0 < q → HasDerivAt
      (fun t => s.energyCutoff i + s.forceCutoff * (Real.sqrt t - s.rl i))
      (-(-s.forceCutoff / Real.sqrt q / 2)) q := by
    intro q hq
    have hs := Real.sqrt_pos.2 hq
    refine ((((Real.hasDerivAt_sqrt hq.ne').sub_const (s.rl i)).const_mul s.forceCutoff).const_add
      (s.energyCutoff i)).congr_deriv ?_
    field_simp
  refine conservative_of ?_
  rcases lt_trichotomy rsq (s.rlSq i) with hc | hc | hc
  · have hev : (fun q => s.energy q i) =ᶠ[nhds rsq] fun t => s.ce i * Real.log (1 - t * s.r0SqInv i) := by
      filter_upwards [Iio_mem_nhds hc] with t ht
      unfold Fene.energy; rw [if_pos (Set.mem_Iio.1 ht)]
    refine ((hin rsq (hc.trans hrl2)).congr_of_eventuallyEq hev).congr_deriv ?_
    unfold Fene.forceOverR; rw [if_pos hc]
  · have hq : 0 < rsq := by rw [hc, a5]; positivity
    have e : Real.sqrt rsq = s.rl i := by rw [hc, a5, Real.sqrt_sq hrl.le]
    have h1 := hin rsq (hc ▸ hrl2)
    have h2 := hout rsq hq
    have heq : -s.kappa i / (1 - rsq * s.r0SqInv i) = -s.forceCutoff / Real.sqrt rsq := by
      have e1 : 1 - rsq * s.r0SqInv i = 1 - u ^ 2 := by
        rw [hc, a5, a4, a2, mul_pow]; field_simp
      have hu2 : (0 : ℝ) < 1 - u ^ 2 := by nlinarith
      rw [e1, e, a4, div_eq_div_iff hu2.ne' (by positivity)]
      linear_combination -u2
    rw [heq] at h1
    have hg := hasDerivAt_glue h1 h2 (by beta_reduce; rw [e, a6, hc]; ring)
    refine (hg.congr_deriv ?_).congr_of_eventuallyEq ?_
    · unfold Fene.forceOverR; rw [if_neg hc.not_lt]
    · filter_upwards with t
      unfold Fene.energy; rw [hc]
  · have hq : 0 < rsq := lt_of_le_of_lt (by rw [a5]; positivity) hc
    have hev : (fun q => s.energy q i) =ᶠ[nhds rsq] fun t =>
        s.energyCutoff i + s.forceCutoff * (Real.sqrt t - s.rl i) := by
      filter_upwards [Ioi_mem_nhds hc] with t ht
      unfold Fene.energy; rw [if_neg (not_lt.2 (le_of_lt ht))]
    refine ((hout rsq hq).congr_of_eventuallyEq hev).congr_deriv ?_
    unfold Fene.forceOverR; rw [if_neg (not_lt.2 hc.le)]

/-- The tension of a FENE bond is never larger than the force cutoff, and the logarithm is never
taken of a number that is not positive. -/
theorem C29_fene_capped {s : Fene} (h : s.Used) {i : ℤ} (hi : 0 ≤ i ∧ i < s.n) (hk : 0 < s.kappa i)
    (hr0 : 0 < s.r0 i) (hF : 0 < s.forceCutoff) {r : ℝ} (hr : 0 < r) :
    -s.forceCutoff ≤ s.forceOverR (r * r) i * r ∧ s.forceOverR (r * r) i * r < 0 ∧
    (r * r < s.rlSq i → 0 < 1 - r * r * s.r0SqInv i) := by
  have hv := (C29_fene_values h hi hk hr0 hF hr).2
  obtain ⟨a1, a2, a3, a4, a5, a6⟩ := h.derived hi
  obtain ⟨u0, u1, u2⟩ := crossover_spec hk hr0 hF
  set u := crossover (s.kappa i) (s.r0 i) s.forceCutoff with hu
  have key : r < s.r0 i * u → 0 < 1 - (r / s.r0 i) ^ 2 ∧ 1 - u ^ 2 ≤ 1 - (r / s.r0 i) ^ 2 := by
    intro hc
    have h1 : r / s.r0 i < u := by rw [div_lt_iff₀ hr0]; linarith
    have h2 : 0 < r / s.r0 i := by positivity
    constructor <;> nlinarith
  refine ⟨?_, ?_, fun hc => ?_⟩
  · rw [hv]
    unfold feneF
    split_ifs with hc
    · obtain ⟨k1, k2⟩ := key hc
      rw [neg_le_neg_iff, div_le_iff₀ k1]
      have : s.kappa i * r ≤ s.kappa i * (s.r0 i * u) := by
        exact mul_le_mul_of_nonneg_left hc.le hk.le
      nlinarith
    · exact le_rfl
  · rw [hv]
    unfold feneF
    split_ifs with hc
    · have := (key hc).1
      have : 0 < s.kappa i * r / (1 - (r / s.r0 i) ^ 2) := by positivity
      linarith
    · linarith
  · have hc' : r < s.r0 i * u := by
      rw [a5, a4, pow_two] at hc
      exact (mul_self_lt_mul_self_iff hr.le (by positivity)).2 hc
    have := (key hc').1
    rw [a2]
    have e : r * r * (1 / s.r0 i ^ 2) = (r / s.r0 i) ^ 2 := by rw [div_pow]; ring
    rw [e]; exact this

/-! ### A concrete bond, and the copy constructor -/

/-- Memory with value zero and one type. -/
def feneZero : Fene :=
  { kappa := fun _ => 0, r0 := fun _ => 0, r0Sq := fun _ => 0, r0SqInv := fun _ => 0, ce := fun _ => 0
    rlSq := fun _ => 0, rl := fun _ => 0, energyCutoff := fun _ => 0, forceCutoff := 0, n := 1 }

/-- One type with `kappa = 30`, `r0 = 3/2`, force cutoff 75. -/
theorem feneEx : ∃ s : Fene, s.Used ∧ s.n = 1 ∧ s.kappa 0 = 30 ∧ s.r0 0 = 3 / 2 ∧ s.forceCutoff = 75 := by
  obtain ⟨t, ht⟩ : ∃ t, feneZero.read (fun _ => 30) (fun _ => 3 / 2) 75 = .ok t := by
    unfold Fene.read; rw [if_pos (by show (1 : ℤ) > 0; omega)]; exact ⟨_, rfl⟩
  refine ⟨t, .read ht, ?_⟩
  unfold Fene.read at ht
  rw [if_pos (by show (1 : ℤ) > 0; omega)] at ht
  simp only [Except.ok.injEq] at ht
  subst ht
  obtain ⟨h1, h2, h3, h4, _⟩ := Fene.foldl_derive feneZero.n.toNat
    { feneZero with kappa := fill1 feneZero.n (fun _ => 30) feneZero.kappa, r0 := fill1 feneZero.n (fun _ => 3 / 2) feneZero.r0, forceCutoff := 75 }
  rw [h1, h2, h3, h4]
  refine ⟨rfl, ?_, ?_, rfl⟩
  · exact fill1_in (n := 1) (i := 0) (by omega) (fun _ => 30) (fun _ => 0)
  · exact fill1_in (n := 1) (i := 0) (by omega) (fun _ => 3 / 2) (fun _ => 0)

/-- Here the crossover is at `u = (sqrt(109) - 3)/10`, about `0.744`. -/
example : ∃ s : Fene, s.Used ∧ s.rl 0 = 3 / 2 * (Real.sqrt (1 + (3 / 10) ^ 2) - 3 / 10) := by
  obtain ⟨s, hu, hn, hk, hr, hF⟩ := feneEx
  refine ⟨s, hu, ?_⟩
  rw [(hu.derived (i := 0) (by rw [hn]; omega)).rl, hk, hr, hF]
  unfold crossover
  norm_num

/-- The copy constructor does not copy the force cutoff: the copy has the energy of the original
inside of the crossover, and beyond it whatever the memory of the copy contained. -/
theorem C29_fene_copy_wrong : ∃ s junk : Fene, s.Used ∧ 0 < s.kappa 0 ∧ 0 < s.r0 0 ∧
    0 < s.forceCutoff ∧ (junk.copy s).forceOverR (4 * s.rlSq 0) 0 = 0 ∧
    s.forceOverR (4 * s.rlSq 0) 0 ≠ 0 := by
  obtain ⟨s, hu, hn, hk, hr, hF⟩ := feneEx
  have hi : (0 : ℤ) ≤ 0 ∧ (0 : ℤ) < s.n := by rw [hn]; omega
  obtain ⟨a1, a2, a3, a4, a5, a6⟩ := hu.derived hi
  obtain ⟨u0, u1, u2⟩ := crossover_spec (kappa := s.kappa 0) (r0 := s.r0 0) (F := s.forceCutoff)
    (by rw [hk]; norm_num) (by rw [hr]; norm_num) (by rw [hF]; norm_num)
  have hrl : 0 < s.rl 0 := by rw [a4]; exact mul_pos (by rw [hr]; norm_num) u0
  have hsq : 0 < s.rlSq 0 := by rw [a5]; positivity
  refine ⟨s, feneZero, hu, by rw [hk]; norm_num, by rw [hr]; norm_num, by rw [hF]; norm_num, ?_, ?_⟩
  · unfold Fene.forceOverR
    have e : (feneZero.copy s).rlSq 0 = s.rlSq 0 := fill1_in hi _ _
    rw [e, if_neg (by linarith)]
    show -(0 : ℝ) / _ = 0
    simp
  · unfold Fene.forceOverR
    rw [if_neg (by linarith), hF]
    have := Real.sqrt_pos.2 (by positivity : 0 < 4 * s.rlSq 0)
    exact (div_neg_of_neg_of_pos (by norm_num) this).ne

/-! ## Composite bonds -/

/-- The force of a composite bond is minus the gradient of the energy wherever this holds for the
bond and for the pair interaction without a test of the cutoff. -/
theorem C29_composite {be bf pe pf : ℝ → ℝ} {rsq : ℝ} (hb : Conservative be bf rsq)
    (hp : Conservative pe pf rsq) :
    Conservative (compositeEnergy be pe) (compositeForce bf pf) rsq := hb.add hp

/-- A composite of a harmonic bond and a DPD pair is right at every length. -/
theorem C29_composite_dpd (b : Harm) (type : ℤ) {s : Dpd} (h : s.Used) {i j : ℤ} (hij : In s.n i j)
    (hs : 0 < s.sigma i j) {rsq : ℝ} (h0 : 0 < rsq) :
    Conservative (compositeEnergy (fun q => b.energy q type) (fun q => s.energy q i j))
      (compositeForce (fun q => b.forceOverR q type) (fun q => s.forceOverR q i j)) rsq :=
  C29_composite ((C29_harmonic b type).2.2 rsq h0) (C27_dpd h hij hs h0)

/-- With a Lennard-Jones or WCA pair it is right inside of the cutoff, and wrong beyond it
whenever the Lennard-Jones force is not zero: the pair force is added without test. -/
theorem C29_composite_lj_partial (b : Harm) (type : ℤ) {s : LJ} (h : s.Used True) {i j : ℤ}
    (hij : In s.n i j) {rsq : ℝ} (h0 : 0 < rsq) :
    (0.6 * s.sigma i j ^ 2 < rsq → rsq < s.cutoff i j ^ 2 →
      Conservative (compositeEnergy (fun q => b.energy q type) (fun q => s.energy q i j))
        (compositeForce (fun q => b.forceOverR q type) (fun q => s.forceOverR q i j)) rsq) ∧
    (s.cutoff i j ^ 2 < rsq → s.forceOverR rsq i j ≠ 0 →
      ¬ Conservative (compositeEnergy (fun q => b.energy q type) (fun q => s.energy q i j))
        (compositeForce (fun q => b.forceOverR q type) (fun q => s.forceOverR q i j)) rsq) := by
  have hb := (C29_harmonic b type).2.2 rsq h0
  refine ⟨fun h1 h2 => C29_composite hb (C27_lj h hij h0 h1 h2), fun h1 h2 hc => h2 ?_⟩
  have hp := (C27_lj_beyond h hij h1.le).2.2 h1
  have hf := (C27_lj_beyond h hij h1.le).2.1
  have hr : 0 < Real.sqrt rsq := Real.sqrt_pos.2 h0
  have hrr : Real.sqrt rsq * Real.sqrt rsq = rsq := Real.mul_self_sqrt h0.le
  have d1 := hc.radial _ hrr
  have d2 := (hb.add hp).radial _ hrr
  have := d1.unique d2
  rw [hrr] at this
  unfold compositeForce at this
  rw [hf] at this
  have h3 : s.forceOverR rsq i j * Real.sqrt rsq = 0 := by linarith
  rcases mul_eq_zero.1 h3 with h4 | h4
  · exact h4
  · exact absurd h4 hr.ne'

/-- Such a length: cutoff 2, length 3. -/
example : ljEx.Used True ∧ In ljEx.n 0 1 ∧ ljEx.cutoff 0 1 ^ 2 < 9 ∧ ljEx.forceOverR 9 0 1 ≠ 0 := by
  have h : In 2 0 1 := in2 (.inl rfl) (.inr rfl)
  refine ⟨ljEx_used _, h, ?_, ?_⟩
  · simp only [ljEx, fill_in h]; norm_num
  · unfold LJ.forceOverR; simp only [ljEx, fill_in h]; norm_num

end Verif.Bond
