import Verif.Pair.Wca
import Mathlib.Analysis.SpecialFunctions.Sqrt

/-! # DPD and compensated pair interactions: theorems -/

set_option autoImplicit false

namespace Verif.Pair

open Verif.Boundary

/-! ## Specification -/

/-- Soft repulsion: `(epsilon/2) (1 - r/sigma)^2` below `sigma`. -/
noncomputable def dpdU (eps sigma r : ℝ) : ℝ := if r < sigma then eps / 2 * (1 - r / sigma) ^ 2 else 0

/-- Its force divided by distance. -/
noncomputable def dpdF (eps sigma r : ℝ) : ℝ := if r < sigma then eps / (sigma * r) * (1 - r / sigma) else 0

/-! ## Histories -/

/-- Histories of a `DpdPair` without `set`, see `C28_dpd_set_stale`. -/
inductive Dpd.Used : Dpd → Prop
  | read {s s' t : Dpd} {n : ℤ} {eps sig : Tab} (h1 : s.setNAtomType n = .ok s')
      (hs : Sym n eps ∧ Sym n sig) (h2 : s'.read eps sig = .ok t) : Used t
  | reread {s t : Dpd} {eps sig : Tab} (h : Used s)
      (hs : Sym s.n eps ∧ Sym s.n sig) (h2 : s.read eps sig = .ok t) : Used t
  | setEpsilon {s t : Dpd} {i j : ℤ} {x : ℝ} (h : Used s) (h2 : s.setEpsilon i j x = .ok t) : Used t
  | setSigma {s t : Dpd} {i j : ℤ} {x : ℝ} (h : Used s) (h2 : s.setSigma i j x = .ok t) : Used t

structure Dpd.OK (s : Dpd) : Prop where
  n : 0 < s.n ∧ s.n ≤ maxType
  symE : Sym s.n s.epsilon
  symS : Sym s.n s.sigma
  sq : ∀ i j, In s.n i j → s.sigmaSq i j = s.sigma i j * s.sigma i j
  cf : ∀ i j, In s.n i j → s.cf i j = s.epsilon i j / s.sigmaSq i j
  ce : ∀ i j, In s.n i j → s.ce i j = 0.5 * s.cf i j

theorem Dpd.read_ok {s t : Dpd} {eps sig : Tab} (hn : s.n ≤ maxType) (hs : Sym s.n eps ∧ Sym s.n sig)
    (h : s.read eps sig = .ok t) : t.OK ∧ t.maxCut = maxOver t.n t.sigma := by
  unfold Dpd.read at h
  split_ifs at h with h0
  simp only [Except.ok.injEq] at h
  subst h
  have hsym : ∀ (a u : Tab), Sym s.n a → Sym s.n (fill s.n a u) := by
    intro a u ha i j hij
    rw [fill_in hij, fill_in hij.symm]; exact ha i j hij
  refine ⟨⟨⟨not_le.1 h0, hn⟩, hsym _ _ hs.1, hsym _ _ hs.2, ?_, ?_, ?_⟩, rfl⟩
  · intro i j hij; simp only [fill_in hij]
  · intro i j hij; simp only [fill_in hij]
  · intro i j hij; simp only [fill_in hij]

theorem Dpd.setEpsilon_eq {s t : Dpd} {i j : ℤ} {x : ℝ} (h : s.setEpsilon i j x = .ok t) :
    In s.n i j ∧ t = { s with epsilon := put s.epsilon i j x, cf := put s.cf i j (x / s.sigmaSq i j)
                              ce := put s.ce i j (0.5 * (x / s.sigmaSq i j)) } := by
  unfold Dpd.setEpsilon at h
  cases hg : guard s.init s.n i j with
  | error e => rw [hg] at h; cases h
  | ok u =>
    rw [hg] at h
    refine ⟨guard_ok hg, ?_⟩
    simp only [Except.bind, upd_same, Except.ok.injEq] at h
    rw [← h]
    by_cases hij : j = i
    · subst hij
      simp only [ne_eq, not_true, if_false, put, upd_twice]
    · simp only [ne_eq, hij, not_false_eq_true, if_true, put]

theorem Dpd.setSigma_eq {s t : Dpd} {i j : ℤ} {x : ℝ} (h : s.setSigma i j x = .ok t) :
    In s.n i j ∧ t = { s with sigma := put s.sigma i j x, sigmaSq := put s.sigmaSq i j (x * x)
                              cf := put s.cf i j (s.epsilon i j / (x * x))
                              ce := put s.ce i j (0.5 * (s.epsilon i j / (x * x))) } := by
  unfold Dpd.setSigma at h
  cases hg : guard s.init s.n i j with
  | error e => rw [hg] at h; cases h
  | ok u =>
    rw [hg] at h
    refine ⟨guard_ok hg, ?_⟩
    simp only [Except.bind, upd_same, Except.ok.injEq] at h
    rw [← h]
    by_cases hij : j = i
    · subst hij
      simp only [ne_eq, not_true, if_false, put, upd_twice]
    · simp only [ne_eq, hij, not_false_eq_true, if_true, put]

theorem Dpd.setN_ok {s s' : Dpd} {n : ℤ} (h : s.setNAtomType n = .ok s') : s'.n = n ∧ s'.n ≤ maxType := by
  unfold Dpd.setNAtomType at h
  split_ifs at h
  simp only [Except.ok.injEq] at h
  subst h
  exact ⟨rfl, by simp only; omega⟩

theorem Dpd.OK.sigmaSq_symm {s : Dpd} (h : s.OK) {i j : ℤ} (hij : In s.n i j) :
    s.sigmaSq i j = s.sigmaSq j i := by
  rw [h.sq i j hij, h.sq j i hij.symm, h.symS i j hij]

theorem Dpd.Used.ok {s : Dpd} (h : s.Used) : s.OK := by
  induction h with
  | read h1 hs h2 =>
    obtain ⟨e, h3⟩ := Dpd.setN_ok h1
    rw [← e] at hs
    exact (Dpd.read_ok h3 hs h2).1
  | reread h hs h2 ih => exact (Dpd.read_ok ih.n.2 hs h2).1
  | @setEpsilon s t i j x h h2 ih =>
    obtain ⟨hij, rfl⟩ := Dpd.setEpsilon_eq h2
    refine ⟨ih.n, sym_put ih.symE _ _ _, ih.symS, ih.sq, ?_, ?_⟩
    · intro k l hkl
      simp only [put_apply]
      split_ifs with hc
      · rcases hc with ⟨rfl, rfl⟩ | ⟨rfl, rfl⟩
        · rfl
        · rw [ih.sigmaSq_symm hij]
      · exact ih.cf k l hkl
    · intro k l hkl
      simp only [put_apply]
      split_ifs
      · rfl
      · exact ih.ce k l hkl
  | @setSigma s t i j x h h2 ih =>
    obtain ⟨hij, rfl⟩ := Dpd.setSigma_eq h2
    refine ⟨ih.n, ih.symE, sym_put ih.symS _ _ _, ?_, ?_, ?_⟩
    · intro k l hkl
      simp only [put_apply]
      split_ifs
      · rfl
      · exact ih.sq k l hkl
    · intro k l hkl
      simp only [put_apply]
      split_ifs with hc
      · rcases hc with ⟨rfl, rfl⟩ | ⟨rfl, rfl⟩
        · rfl
        · rw [ih.symE _ _ hij]
      · exact ih.cf k l hkl
    · intro k l hkl
      simp only [put_apply]
      split_ifs
      · rfl
      · exact ih.ce k l hkl

/-- After any history without `set`, energy and force are those of the current parameters and do
not depend on the order of the types. -/
theorem C28_dpd_partial {s : Dpd} (h : s.Used) {i j : ℤ} (hij : In s.n i j) (hs : 0 < s.sigma i j) :
    (∀ r, 0 ≤ r → s.energy (r * r) i j = dpdU (s.epsilon i j) (s.sigma i j) r) ∧
    (∀ r, 0 < r → s.forceOverR (r * r) i j = dpdF (s.epsilon i j) (s.sigma i j) r) ∧
    (∀ rsq, s.energy rsq j i = s.energy rsq i j ∧ s.forceOverR rsq j i = s.forceOverR rsq i j) := by
  have ok := h.ok
  have hiff : ∀ r, 0 ≤ r → (r * r < s.sigmaSq i j ↔ r < s.sigma i j) := by
    intro r hr
    rw [ok.sq i j hij]
    exact (mul_self_lt_mul_self_iff hr hs.le).symm
  refine ⟨fun r hr => ?_, fun r hr => ?_, fun rsq => ?_⟩
  · unfold Dpd.energy dpdU
    rw [Real.sqrt_mul_self hr]
    by_cases hc : r < s.sigma i j
    · rw [if_pos ((hiff r hr).2 hc), if_pos hc, ok.ce i j hij, ok.cf i j hij, ok.sq i j hij]
      field_simp
      ring
    · rw [if_neg (mt (hiff r hr).1 hc), if_neg hc]
  · unfold Dpd.forceOverR dpdF
    rw [Real.sqrt_mul_self hr.le]
    by_cases hc : r < s.sigma i j
    · rw [if_pos ((hiff r hr.le).2 hc), if_pos hc, ok.cf i j hij, ok.sq i j hij]
      field_simp
    · rw [if_neg (mt (hiff r hr.le).1 hc), if_neg hc]
  · unfold Dpd.energy Dpd.forceOverR
    rw [ok.ce i j hij, ok.ce j i hij.symm, ok.cf i j hij, ok.cf j i hij.symm, ok.sigmaSq_symm hij,
      ok.symE i j hij, ok.symS i j hij]
    exact ⟨rfl, rfl⟩

theorem hasDerivAt_dpd {s : Dpd} (ok : s.OK) {i j : ℤ} (hij : In s.n i j) {q : ℝ} (h0 : 0 < q) :
    HasDerivAt (fun t => s.ce i j * (Real.sqrt t - s.sigma i j) * (Real.sqrt t - s.sigma i j))
      (-(s.cf i j * (s.sigma i j / Real.sqrt q - 1) / 2)) q := by
  have hq := Real.sqrt_pos.2 h0
  have h1 := (Real.hasDerivAt_sqrt h0.ne').sub_const (s.sigma i j)
  refine ((h1.const_mul (s.ce i j)).mul h1).congr_deriv ?_
  rw [ok.ce i j hij]
  field_simp
  ring

/-- The force of a `DpdPair` is minus the gradient of the energy at every distance. -/
theorem C27_dpd {s : Dpd} (h : s.Used) {i j : ℤ} (hij : In s.n i j) (hs : 0 < s.sigma i j)
    {rsq : ℝ} (h0 : 0 < rsq) :
    Conservative (fun q => s.energy q i j) (fun q => s.forceOverR q i j) rsq := by
  have ok := h.ok
  refine conservative_of ?_
  rcases lt_trichotomy rsq (s.sigmaSq i j) with h2 | h2 | h2
  · have hev : (fun q => s.energy q i j) =ᶠ[nhds rsq] fun t =>
        s.ce i j * (Real.sqrt t - s.sigma i j) * (Real.sqrt t - s.sigma i j) := by
      filter_upwards [Iio_mem_nhds h2] with t ht
      unfold Dpd.energy; rw [if_pos (Set.mem_Iio.1 ht)]
    refine ((hasDerivAt_dpd ok hij h0).congr_of_eventuallyEq hev).congr_deriv ?_
    unfold Dpd.forceOverR; rw [if_pos h2]
  · have e : Real.sqrt rsq = s.sigma i j := by
      rw [h2, ok.sq i j hij, Real.sqrt_mul_self hs.le]
    have hd := hasDerivAt_dpd ok hij h0
    rw [e, div_self hs.ne'] at hd
    have hd0 : HasDerivAt (fun _ : ℝ => (0 : ℝ)) (-(s.cf i j * (1 - 1) / 2)) rsq := by
      refine (hasDerivAt_const rsq (0 : ℝ)).congr_deriv ?_
      ring
    have hg := hasDerivAt_glue hd hd0 (by beta_reduce; rw [e]; ring)
    refine (hg.congr_deriv ?_).congr_of_eventuallyEq ?_
    · unfold Dpd.forceOverR; rw [if_neg h2.not_lt]; ring
    · filter_upwards with t
      unfold Dpd.energy; rw [h2]
  · have hev : (fun q => s.energy q i j) =ᶠ[nhds rsq] fun _ => (0 : ℝ) := by
      filter_upwards [Ioi_mem_nhds h2] with t ht
      unfold Dpd.energy; rw [if_neg (not_lt.2 (le_of_lt ht))]
    refine ((hasDerivAt_const rsq (0 : ℝ)).congr_of_eventuallyEq hev).congr_deriv ?_
    unfold Dpd.forceOverR; rw [if_neg (not_lt.2 h2.le)]; ring

/-! ## Witnesses -/

/-- Two types with `epsilon = sigma = 1`. -/
noncomputable def dpdEx : Dpd :=
  { epsilon := fill 2 (fun _ _ => 1) fun _ _ => 0, sigma := fill 2 (fun _ _ => 1) fun _ _ => 0
    sigmaSq := fill 2 (fun _ _ => 1) fun _ _ => 0
    cf := fill 2 (fun _ _ => 1) fun _ _ => 0
    ce := fill 2 (fun _ _ => 1 / 2) fun _ _ => 0
    maxCut := maxOver 2 (fill 2 (fun _ _ => 1) fun _ _ => 0), n := 2, init := true }

/-- All values zero. -/
def zeroDpd : Dpd :=
  { epsilon := fun _ _ => 0, sigma := fun _ _ => 0, sigmaSq := fun _ _ => 0, ce := fun _ _ => 0
    cf := fun _ _ => 0, maxCut := 0, n := 0, init := false }

theorem dpdEx_used : dpdEx.Used := by
  refine .read (s := zeroDpd) (n := 2) (eps := fun _ _ => 1) (sig := fun _ _ => 1)
    rfl ⟨fun _ _ _ => rfl, fun _ _ _ => rfl⟩ ?_
  unfold Dpd.read dpdEx
  rw [if_neg (by simp)]
  simp only [zeroDpd, Except.ok.injEq, Dpd.mk.injEq, true_and, and_true]
  refine ⟨fill_congr fun i j h => ?_, fill_congr fun i j h => ?_, fill_congr fun i j h => ?_⟩ <;>
    simp only [fill_in h] <;> norm_num

example : dpdEx.energy ((1 / 2) * (1 / 2)) 0 1 = 1 / 8 := by
  have h : In 2 0 1 := in2 (.inl rfl) (.inr rfl)
  rw [(C28_dpd_partial dpdEx_used h (by simp only [dpdEx, fill_in h]; norm_num)).1 _ (by norm_num)]
  simp only [dpdEx, fill_in h, dpdU]
  norm_num

/-- `set` changes the public parameter but none of the derived values: the energy is not the one
of the current parameters, and the force is not minus its gradient. -/
theorem C28_dpd_set_stale : ∃ s t : Dpd, s.Used ∧ s.set "sigma" 0 0 2 = .ok t ∧ t.sigma 0 0 = 2 ∧
    t.epsilon 0 0 = 1 ∧ t.energy ((3 / 2) * (3 / 2)) 0 0 = 0 ∧ dpdU 1 2 (3 / 2) = 1 / 32 ∧
    ∃ t' : Dpd, s.set "epsilon" 0 0 3 = .ok t' ∧ t'.epsilon 0 0 = 3 ∧
      t'.energy ((1 / 2) * (1 / 2)) 0 0 = s.energy ((1 / 2) * (1 / 2)) 0 0 ∧
      s.energy ((1 / 2) * (1 / 2)) 0 0 = 1 / 8 := by
  have h : In 2 0 0 := in2 (.inl rfl) (.inl rfl)
  have hm : In maxType 0 0 := by unfold In maxType; omega
  refine ⟨dpdEx, { dpdEx with sigma := upd (upd dpdEx.sigma 0 0 2) 0 0 2 }, dpdEx_used, ?_, ?_, ?_, ?_, ?_,
    { dpdEx with epsilon := upd (upd dpdEx.epsilon 0 0 3) 0 0 3 }, ?_, ?_, rfl, ?_⟩
  · unfold Dpd.set; rw [if_neg (by decide), if_pos rfl, if_pos hm]
  · simp only [upd_same]
  · simp only [dpdEx, fill_in h]
  · unfold Dpd.energy
    rw [if_neg]
    simp only [dpdEx, fill_in h]; norm_num
  · unfold dpdU; norm_num
  · unfold Dpd.set; rw [if_pos rfl, if_pos hm]
  · simp only [upd_same]
  · rw [(C28_dpd_partial dpdEx_used h (by simp only [dpdEx, fill_in h]; norm_num)).1 _ (by norm_num)]
    simp only [dpdEx, fill_in h, dpdU]
    norm_num

/-- `setSigma` does not update the maximum cutoff: the cutoff of a pair of types may be larger
than `maxPairCutoff()`, which sizes the cells of cell lists. -/
theorem C28_dpd_maxCutoff_stale : ∃ s t : Dpd, s.Used ∧ s.setSigma 0 0 2 = .ok t ∧
    t.maxCut < t.sigma 0 0 ∧ 0 < t.energy ((3 / 2) * (3 / 2)) 0 0 ∧ t.maxCut < 3 / 2 := by
  have h : In 2 0 0 := in2 (.inl rfl) (.inl rfl)
  obtain ⟨t, ht⟩ : ∃ t, dpdEx.setSigma 0 0 2 = .ok t := by
    unfold Dpd.setSigma guard; simp [dpdEx, Except.bind]
  have hu : t.Used := .setSigma dpdEx_used ht
  have ht' := (Dpd.setSigma_eq ht).2
  have hts : t.sigma 0 0 = 2 := by rw [ht']; simp [put_apply]
  have hte : t.epsilon 0 0 = 1 := by rw [ht']; simp only [dpdEx, fill_in h]
  have htn : t.n = 2 := by rw [ht']; rfl
  have hm : t.maxCut ≤ 1 := by
    have e : t.maxCut = maxOver 2 (fill 2 (fun _ _ => 1) fun _ _ => 0) := by rw [ht']; rfl
    rw [e]
    rcases foldl_max_mem (pairsOf 2) (fill 2 (fun _ _ => 1) fun _ _ => 0) 0 with h1 | ⟨p, hp, h1⟩
    · unfold maxOver; rw [h1]; norm_num
    · unfold maxOver; rw [h1, fill_in (mem_pairsOf.1 hp)]
  refine ⟨dpdEx, t, dpdEx_used, ht, by rw [hts]; linarith, ?_, by linarith⟩
  rw [(C28_dpd_partial hu (i := 0) (j := 0) (htn ▸ h) (by rw [hts]; norm_num)).1 _ (by norm_num), hts, hte]
  unfold dpdU
  norm_num

/-! ## Compensated pair interaction -/

/-- A locally constant change of the functions keeps `Conservative`. -/
theorem Conservative.congr {E F E' F' : ℝ → ℝ} {s : ℝ} (h : Conservative E F s)
    (hE : E' =ᶠ[nhds s] E) (hF : F' s = F s) : Conservative E' F' s := by
  constructor
  · rintro r rfl
    have hc : Continuous fun r : ℝ => r * r := continuous_id.mul continuous_id
    have := hc.continuousAt.tendsto.eventually hE
    rw [hF]
    exact (h.radial r rfl).congr_of_eventuallyEq this
  · rintro x v rfl
    have hc : ContinuousAt (fun t : ℝ => normSq fun i => x i + t * v i) 0 :=
      (hasDerivAt_line x v).continuousAt
    have e : (normSq fun i => x i + 0 * v i) = normSq x := by
      congr 1; funext i; ring
    have hE' : E' =ᶠ[nhds (normSq fun i => x i + 0 * v i)] E := by rw [e]; exact hE
    have := hc.tendsto.eventually hE'
    rw [hF]
    exact (h.vector x v rfl).congr_of_eventuallyEq this

/-- Sums of interactions. -/
theorem Conservative.add {E F E' F' : ℝ → ℝ} {s : ℝ} (h : Conservative E F s) (h' : Conservative E' F' s) :
    Conservative (fun q => E q + E' q) (fun q => F q + F' q) s := by
  constructor
  · intro r hr
    refine ((h.radial r hr).add (h'.radial r hr)).congr_deriv ?_
    ring
  · intro x v hx
    refine ((h.vector x v hx).add (h'.vector x v hx)).congr_deriv ?_
    unfold dot; ring

/-- Composition with an outer function. -/
theorem Conservative.comp {E F : ℝ → ℝ} {s : ℝ} (h : Conservative E F s) {g g' : ℝ → ℝ}
    (hg : ∀ y, HasDerivAt g (g' y) y) :
    Conservative (fun q => g (E q)) (fun q => g' (E q) * F q) s := by
  constructor
  · intro r hr
    refine (HasDerivAt.comp (h := fun r => E (r * r)) r (hg _) (h.radial r hr)).congr_deriv ?_
    ring
  · rintro x v rfl
    have e : (normSq fun i => x i + 0 * v i) = normSq x := by
      congr 1; funext i; ring
    refine (HasDerivAt.comp (h := fun t : ℝ => E (normSq fun i => x i + t * v i)) 0 (hg _)
      (h.vector x v rfl)).congr_deriv ?_
    rw [e]; unfold dot; ring

theorem Conservative.zero (s : ℝ) : Conservative (fun _ => 0) (fun _ => 0) s :=
  conservative_of (by simpa using hasDerivAt_const s (0 : ℝ))

/-- The force of a compensated pair interaction is minus the gradient of its energy, if this holds
for the bare interaction (with a force that is zero beyond the cutoff) and for the link
potential, except at the maximal length of links. -/
theorem C27_compensated {pe pf le lf : ℝ → ℝ} {pc maxLink temp mu rsq : ℝ} (hT : temp ≠ 0)
    (hp : Conservative pe (cutForce pc pf) rsq) (hl : Conservative le lf rsq) (hne : rsq ≠ maxLink ^ 2) :
    Conservative (Comp.read pe pf pc le lf maxLink temp mu).energy
      (Comp.read pe pf pc le lf maxLink temp mu).forceOverR rsq := by
  set c := Comp.read pe pf pc le lf maxLink temp mu with hc
  have hml : c.maxLinkSq = maxLink ^ 2 := by rw [hc]; simp only [Comp.read]; ring
  rcases lt_or_gt_of_ne hne with h | h
  · -- links are possible
    have hg : ∀ y, HasDerivAt (fun y => c.activity * c.temp * Real.exp (-c.beta * y))
        (-(c.activity * Real.exp (-c.beta * y))) y := by
      intro y
      have h1 : HasDerivAt (fun y : ℝ => -c.beta * y) (-c.beta) y := by
        refine ((hasDerivAt_id y).const_mul (-c.beta)).congr_deriv ?_
        ring
      refine (h1.exp.const_mul (c.activity * c.temp)).congr_deriv ?_
      have : c.temp * c.beta = 1 := by
        rw [hc]; simp only [Comp.read]; field_simp
      linear_combination (-c.activity * Real.exp (-c.beta * y)) * this
    refine (hp.add (hl.comp hg)).congr ?_ ?_
    · filter_upwards [Iio_mem_nhds h] with t ht
      unfold Comp.energy
      rw [hml, if_pos (Set.mem_Iio.1 ht)]; rfl
    · unfold Comp.forceOverR
      rw [hml, if_pos h]
      unfold cutForce
      simp only [hc, Comp.read]
      ring
  · refine (hp.add (Conservative.zero rsq)).congr ?_ ?_
    · filter_upwards [Ioi_mem_nhds h] with t ht
      unfold Comp.energy
      rw [hml, if_neg (not_lt.2 (le_of_lt ht))]
      rfl
    · unfold Comp.forceOverR
      rw [hml, if_neg (not_lt.2 h.le)]
      unfold cutForce
      simp only [hc, Comp.read, sub_zero, add_zero]

end Verif.Pair
