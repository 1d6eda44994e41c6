import Verif.Boundary.Mono

/-!
# Facts shared by both boundary types

`Geo gen lengths bravais` collects what the neighbour structures need to know
about a boundary: scaled coordinates are linear, turn lattice translations into
integer translations, and `lengths i` times a scaled coordinate never exceeds
the Euclidean norm.  Both boundary classes satisfy it.
-/

namespace Verif.Boundary

/-- Interface used by the cell lists. -/
structure Geo (gen : Vec → Vec) (lengths : Vec) (bravais : Fin 3 → Vec) : Prop where
  pos : ∀ i, 0 < lengths i
  lin : ∀ r q k i, gen (r - q + latComb bravais k) i = gen r i - gen q i + (k i : ℝ)
  bound : ∀ v i, (lengths i * gen v i) ^ 2 ≤ normSq v

theorem geo_ortho {b : Ortho} (hb : b.Reach) : Geo b.toGen b.lengths b.bravais := by
  have ok := hb.ok
  constructor
  · exact ok.pos
  · intro r q k i
    have h := (ok.pos i).ne'
    have e : latComb b.bravais k i = k i * b.lengths i := by
      unfold latComb
      simp only [Pi.add_apply, Pi.smul_apply, smul_eq_mul, ok.bravais]
      fin_cases i <;> simp
    simp only [Ortho.toGen, Pi.add_apply, Pi.sub_apply, e, ok.inv]
    field_simp
  · intro v i
    have h := (ok.pos i).ne'
    simp only [Ortho.toGen, ok.inv]
    rw [show b.lengths i * (v i * (b.lengths i)⁻¹) = v i by field_simp]
    unfold normSq
    fin_cases i <;> simp <;> nlinarith [sq_nonneg (v 0), sq_nonneg (v 1), sq_nonneg (v 2)]

theorem geo_mono {b : Mono} (hb : b.Reach) : Geo b.toGen b.lengths b.bravais := by
  have ok := hb.ok
  have p0 := ok.pos 0
  have p1 := ok.pos 1
  have p2 := ok.pos 2
  constructor
  · intro i
    rw [ok.lengths]
    have hc : 0 < 1 + b.c3 * b.c3 := by nlinarith [mul_self_nonneg b.c3]
    have hsp : 0 < Real.sqrt (1 + b.c3 * b.c3) := Real.sqrt_pos.2 hc
    fin_cases i
    · exact p0
    · exact p1
    · exact div_pos p2 hsp
  · intro r q k i
    have := p0.ne'
    have := p1.ne'
    have := p2.ne'
    rw [ok.lat]
    fin_cases i
    · simp [Mono.toGen, ok.inv]; field_simp
    · simp [Mono.toGen, ok.inv]; field_simp
    · simp [Mono.toGen, ok.inv, ok.c3]; field_simp; ring
  · intro v i
    exact (C25_mono_lengths hb i).1 v

/-! ### Distances -/

/-- The distance function returns the squared length of some periodic image. -/
structure Dist (bravais : Fin 3 → Vec) (dsq : Vec → Vec → ℝ) : Prop where
  image : ∀ r1 r2, ∃ k, dsq r1 r2 = normSq (r1 - r2 + latComb bravais k)
  self : ∀ r, dsq r r = 0

/-- The distance function decides, for positions in the primary cell, whether
some periodic image is closer than `x`. -/
def ExactBelow (gen : Vec → Vec) (bravais : Fin 3 → Vec) (dsq : Vec → Vec → ℝ) (x : ℝ) : Prop :=
  ∀ r1 r2, InUnit (gen r1) → InUnit (gen r2) →
    (∃ k, normSq (r1 - r2 + latComb bravais k) < x ^ 2) → dsq r1 r2 < x ^ 2

theorem Ortho.OK.latComb_eq {b : Ortho} (ok : b.OK) (k : IVec) :
    latComb b.bravais k = latVec b.lengths k := by
  funext i
  unfold latComb latVec
  simp only [Pi.add_apply, Pi.smul_apply, smul_eq_mul, ok.bravais]
  fin_cases i <;> simp

theorem dist_ortho {b : Ortho} (hb : b.Reach) : Dist b.bravais b.distanceSq := by
  constructor
  · intro r1 r2
    obtain ⟨h1, h2⟩ := C24_ortho_separation hb r1 r2
    refine ⟨b.translate r1 r2, ?_⟩
    rw [h2, h1, hb.ok.latComb_eq]
    congr 1
    funext i
    simp only [Pi.add_apply, Pi.sub_apply]
    ring
  · intro r
    have h : ∀ i, b.separation r r i = 0 := by
      intro i
      have := hb.ok.pos i
      simp only [Ortho.separation, image1, sub_self, abs_zero, hb.ok.half]
      rw [if_neg (by linarith)]
    simp [Ortho.distanceSq, h]

theorem exact_ortho {b : Ortho} (hb : b.Reach) (x : ℝ) :
    ExactBelow b.toGen b.bravais b.distanceSq x := by
  rintro r1 r2 h1 h2 ⟨k, hk⟩
  have hc : ∀ r, InUnit (b.toGen r) → InCell b.lengths r := by
    intro r h i
    have hp := hb.ok.pos i
    have := h i
    simp only [Ortho.toGen, hb.ok.inv, ← div_eq_mul_inv] at this
    rw [le_div_iff₀ hp, div_lt_iff₀ hp] at this
    simpa using this
  have := (C24_ortho_minimum hb r1 r2 (withinPeriod_of_inCell (hc r1 h1) (hc r2 h2))).2
    ⟨k, rfl⟩
  refine lt_of_le_of_lt this ?_
  rw [hb.ok.latComb_eq] at hk
  rw [show r1 + latVec b.lengths k - r2 = r1 - r2 + latVec b.lengths k by
    funext i; simp only [Pi.add_apply, Pi.sub_apply]; ring]
  exact hk

theorem dist_mono {b : Mono} (hb : b.Reach) : Dist b.bravais b.distanceSq := by
  constructor
  · intro r1 r2
    obtain ⟨h1, h2⟩ := C26_mono_separation hb r1 r2
    exact ⟨(b.image r1 r2).2, by rw [h2, h1]⟩
  · intro r
    have p0 := hb.ok.pos 0
    have p1 := hb.ok.pos 1
    have p2 := hb.ok.pos 2
    have e : ∀ i, image1 (b.half i) (b.l i) 0 = (0, 0) := by
      intro i
      have := hb.ok.pos i
      simp only [image1, abs_zero, hb.ok.half]
      rw [if_neg (by linarith)]
    have e2 : ¬ |(0 : ℝ)| > b.half 2 := by rw [hb.ok.half, abs_zero]; linarith
    have e1 : ¬ |(0 : ℝ)| > b.half 1 := by rw [hb.ok.half, abs_zero]; linarith
    simp only [Mono.distanceSq, Mono.image, sub_self, e, mul_zero, add_zero, if_neg e1, if_neg e2]
    simp

theorem exact_mono {b : Mono} (hb : b.Reach) {x : ℝ} (hx0 : 0 ≤ x) (hx : x ≤ b.minLength / 2) :
    ExactBelow b.toGen b.bravais b.distanceSq x := by
  rintro r1 r2 h1 h2 ⟨k, hk⟩
  have hw : WithinPeriod (fun _ => 1) (b.toGen r1) (b.toGen r2) := by
    intro i
    have a1 := h1 i
    have a2 := h2 i
    rw [abs_le]
    constructor <;> linarith
  have hk' : normSq (r1 - r2 + latComb b.bravais k) < (b.minLength / 2) ^ 2 :=
    lt_of_lt_of_le hk (pow_le_pow_left₀ hx0 hx 2)
  exact lt_of_le_of_lt ((C26_mono_minimum hb r1 r2 hw k hk').2.2 ⟨k, rfl⟩) hk

/-! ### Norms -/

/-- Triangle inequality for bounds on squared norms. -/
theorem normSq_add_lt {u v : Vec} {a c : ℝ} (ha : 0 ≤ a) (hc : 0 ≤ c) (hu : normSq u < a ^ 2)
    (hv : normSq v ≤ c ^ 2) : normSq (u + v) < (a + c) ^ 2 := by
  have hcs : (u 0 * v 0 + u 1 * v 1 + u 2 * v 2) ^ 2 ≤ normSq u * normSq v := by
    unfold normSq
    nlinarith [sq_nonneg (u 0 * v 1 - u 1 * v 0), sq_nonneg (u 0 * v 2 - u 2 * v 0),
      sq_nonneg (u 1 * v 2 - u 2 * v 1)]
  have hu0 : 0 ≤ normSq u := by unfold normSq; positivity
  have hv0 : 0 ≤ normSq v := by unfold normSq; positivity
  have hle : (u 0 * v 0 + u 1 * v 1 + u 2 * v 2) ^ 2 ≤ (a * c) ^ 2 := by
    refine le_trans hcs ?_
    rw [mul_pow]
    exact mul_le_mul hu.le hv hv0 (by positivity)
  have hdot := abs_le_of_sq_le_sq hle (mul_nonneg ha hc)
  have h1 := (abs_le.1 hdot).2
  have e : normSq (u + v) = normSq u + normSq v + 2 * (u 0 * v 0 + u 1 * v 1 + u 2 * v 2) := by
    unfold normSq; simp only [Pi.add_apply]; ring
  rw [e]
  nlinarith

theorem normSq_neg (v : Vec) : normSq (-v) = normSq v := by
  unfold normSq; simp only [Pi.neg_apply]; ring

theorem latComb_add (a : Fin 3 → Vec) (k l : IVec) :
    latComb a (k + l) = latComb a k + latComb a l := by
  unfold latComb
  funext i
  simp only [Pi.add_apply, Pi.smul_apply, smul_eq_mul]
  push_cast
  ring

theorem latComb_neg (a : Fin 3 → Vec) (k : IVec) : latComb a (-k) = -latComb a k := by
  unfold latComb
  funext i
  simp only [Pi.add_apply, Pi.smul_apply, smul_eq_mul, Pi.neg_apply]
  push_cast
  ring

end Verif.Boundary
