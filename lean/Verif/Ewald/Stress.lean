import Verif.Ewald.Force
import Verif.Ewald.RSpace
import Mathlib.LinearAlgebra.Matrix.NonsingularInverse
import Mathlib.Analysis.Calculus.Deriv.Inv

/-! # Ewald summation: stress as the derivative of the energy with respect to strain -/

set_option autoImplicit false

namespace Verif.Ewald

open Verif.Boundary Verif.Cpp Verif.Cpp.Out Filter Topology

/-! ## Bases -/

theorem Box.OK.complete {b : Box} (hb : b.OK) (i j : Fin 3) :
    ∑ l, b.bravais l i * b.reciprocal l j = if i = j then 2 * Real.pi else 0 := by
  have hp : (2 * Real.pi) ≠ 0 := by have := Real.pi_pos; positivity
  set A : Matrix (Fin 3) (Fin 3) ℝ := Matrix.of fun i j => b.reciprocal i j / (2 * Real.pi) with hA
  set B : Matrix (Fin 3) (Fin 3) ℝ := Matrix.of fun i j => b.bravais j i with hB
  have h1 : A * B = 1 := by
    ext i j
    rw [Matrix.mul_apply, Matrix.one_apply]
    have := hb.recip i j
    simp only [hA, hB, Matrix.of_apply, Fin.sum_univ_three]
    unfold dot at this
    rw [show b.reciprocal i 0 / (2 * Real.pi) * b.bravais j 0 +
      b.reciprocal i 1 / (2 * Real.pi) * b.bravais j 1 +
      b.reciprocal i 2 / (2 * Real.pi) * b.bravais j 2 = (b.reciprocal i 0 * b.bravais j 0 +
      b.reciprocal i 1 * b.bravais j 1 + b.reciprocal i 2 * b.bravais j 2) / (2 * Real.pi) by ring,
      this]
    split
    · exact div_self hp
    · exact zero_div _
  have h2 : B * A = 1 := mul_eq_one_comm.1 h1
  have h3 := congrFun (congrFun h2 i) j
  rw [Matrix.mul_apply, Matrix.one_apply] at h3
  simp only [hA, hB, Matrix.of_apply, Fin.sum_univ_three] at h3
  rw [Fin.sum_univ_three]
  have e : b.bravais 0 i * b.reciprocal 0 j + b.bravais 1 i * b.reciprocal 1 j +
      b.bravais 2 i * b.reciprocal 2 j = (b.bravais 0 i * (b.reciprocal 0 j / (2 * Real.pi)) +
      b.bravais 1 i * (b.reciprocal 1 j / (2 * Real.pi)) +
      b.bravais 2 i * (b.reciprocal 2 j / (2 * Real.pi))) * (2 * Real.pi) := by field_simp
  rw [e, h3]
  split <;> simp

/-- A vector with zero scalar products with the basis vectors is zero. -/
theorem Box.OK.eq_zero {b : Box} (hb : b.OK) {v : Vec} (h : ∀ j, dot v (b.bravais j) = 0) : v = 0 := by
  funext j
  have hp := Real.pi_pos
  have e : v j * (2 * Real.pi) = ∑ l, dot v (b.bravais l) * b.reciprocal l j := by
    have h0 := hb.complete 0 j
    have h1 := hb.complete 1 j
    have h2 := hb.complete 2 j
    rw [Fin.sum_univ_three] at h0 h1 h2 ⊢
    unfold dot
    have : v j * (2 * Real.pi) = v 0 * (if 0 = j then 2 * Real.pi else 0) +
        v 1 * (if 1 = j then 2 * Real.pi else 0) + v 2 * (if 2 = j then 2 * Real.pi else 0) := by
      fin_cases j <;> simp
    rw [this, ← h0, ← h1, ← h2]; ring
  simp only [h, zero_mul, Finset.sum_const_zero] at e
  rcases mul_eq_zero.1 e with h | h
  · simpa using h
  · exact absurd h (by positivity)

/-- A vector in terms of its scaled coordinates. -/
theorem Box.OK.expand {b : Box} (hb : b.OK) (r : Vec) :
    r = b.gen r 0 • b.bravais 0 + b.gen r 1 • b.bravais 1 + b.gen r 2 • b.bravais 2 := by
  have hp := Real.pi_pos
  funext j
  have h0 := hb.complete j 0
  have h1 := hb.complete j 1
  have h2 := hb.complete j 2
  rw [Fin.sum_univ_three] at h0 h1 h2
  have g0 := hb.gen r 0
  have g1 := hb.gen r 1
  have g2 := hb.gen r 2
  unfold dot at g0 g1 g2
  simp only [Pi.add_apply, Pi.smul_apply, smul_eq_mul]
  have e : (2 * Real.pi) * r j = (2 * Real.pi) * (b.gen r 0 * b.bravais 0 j +
      b.gen r 1 * b.bravais 1 j + b.gen r 2 * b.bravais 2 j) := by
    have : (2 * Real.pi) * r j = r 0 * (if j = 0 then 2 * Real.pi else 0) +
        r 1 * (if j = 1 then 2 * Real.pi else 0) + r 2 * (if j = 2 then 2 * Real.pi else 0) := by
      fin_cases j <;> simp <;> ring
    rw [this, ← h0, ← h1, ← h2]
    have : 2 * Real.pi * (b.gen r 0 * b.bravais 0 j + b.gen r 1 * b.bravais 1 j +
        b.gen r 2 * b.bravais 2 j) = (2 * Real.pi * b.gen r 0) * b.bravais 0 j +
        (2 * Real.pi * b.gen r 1) * b.bravais 1 j + (2 * Real.pi * b.gen r 2) * b.bravais 2 j := by ring
    rw [this, g0, g1, g2]; ring
  exact mul_left_cancel₀ (by positivity) e

/-- Reciprocal basis vectors by cross products. -/
noncomputable def recipOf (a : Fin 3 → Vec) (l : Fin 3) : Vec :=
  fun i => 2 * Real.pi * (a (l + 1) (i + 1) * a (l + 2) (i + 2) - a (l + 1) (i + 2) * a (l + 2) (i + 1)) /
    triple a

theorem Box.OK.recip_eq {b : Box} (hb : b.OK) (l : Fin 3) : b.reciprocal l = recipOf b.bravais l := by
  have hv : triple b.bravais ≠ 0 := by rw [← hb.det]; exact hb.vol.ne'
  have : b.reciprocal l - recipOf b.bravais l = 0 := by
    apply hb.eq_zero
    intro j
    have h1 := hb.recip l j
    have e : dot (b.reciprocal l - recipOf b.bravais l) (b.bravais j) =
        dot (b.reciprocal l) (b.bravais j) - dot (recipOf b.bravais l) (b.bravais j) := by
      simp [dot]; ring
    rw [e, h1, sub_eq_zero]
    have e2 : dot (recipOf b.bravais l) (b.bravais j) = 2 * Real.pi *
        ((b.bravais (l + 1) 1 * b.bravais (l + 2) 2 - b.bravais (l + 1) 2 * b.bravais (l + 2) 1) * b.bravais j 0 +
         (b.bravais (l + 1) 2 * b.bravais (l + 2) 0 - b.bravais (l + 1) 0 * b.bravais (l + 2) 2) * b.bravais j 1 +
         (b.bravais (l + 1) 0 * b.bravais (l + 2) 1 - b.bravais (l + 1) 1 * b.bravais (l + 2) 0) * b.bravais j 2) /
        triple b.bravais := by
      simp only [dot, recipOf]
      simp only [zero_add, show (1 : Fin 3) + 1 = 2 from rfl, show (1 : Fin 3) + 2 = 0 from rfl,
        show (2 : Fin 3) + 1 = 0 from rfl, show (2 : Fin 3) + 2 = 1 from rfl]
      ring
    rw [e2, eq_div_iff hv]
    unfold triple
    fin_cases l <;> fin_cases j <;> simp [show (1 : Fin 3) + 1 = 2 from rfl,
      show (1 : Fin 3) + 2 = 0 from rfl, show (2 : Fin 3) + 1 = 0 from rfl,
      show (2 : Fin 3) + 2 = 1 from rfl] <;> ring
  exact sub_eq_zero.1 this

/-! ## Homogeneous strain -/

/-- A vector after strain `t e`. -/
def strain (e : Fin 3 → Fin 3 → ℝ) (t : ℝ) (v : Vec) : Vec :=
  fun i => v i + t * (e i 0 * v 0 + e i 1 * v 1 + e i 2 * v 2)

/-- Boxes `B t` that arise from `B 0` by strain `t e`, for `t` near 0. -/
structure Strained (B : ℝ → Box) (e : Fin 3 → Fin 3 → ℝ) : Prop where
  ok : ∀ᶠ t in 𝓝 (0 : ℝ), (B t).OK
  bravais : ∀ᶠ t in 𝓝 (0 : ℝ), ∀ j, (B t).bravais j = strain e t ((B 0).bravais j)

theorem strain_zero (e : Fin 3 → Fin 3 → ℝ) (v : Vec) : strain e 0 v = v := by
  funext i; simp [strain]

theorem Strained.ok0 {B : ℝ → Box} {e : Fin 3 → Fin 3 → ℝ} (h : Strained B e) : (B 0).OK :=
  h.ok.self_of_nhds

/-- Scaled coordinates do not change when the atoms move with the box. -/
theorem Strained.gen {B : ℝ → Box} {e : Fin 3 → Fin 3 → ℝ} (h : Strained B e) :
    ∀ᶠ t in 𝓝 (0 : ℝ), ∀ r, (B t).gen (strain e t r) = (B 0).gen r := by
  filter_upwards [h.ok, h.bravais] with t ht ha r
  have hp := Real.pi_pos
  have hx := h.ok0.expand r
  have hs : strain e t r = (B 0).gen r 0 • (B t).bravais 0 + (B 0).gen r 1 • (B t).bravais 1 +
      (B 0).gen r 2 • (B t).bravais 2 := by
    rw [ha 0, ha 1, ha 2]
    have lin : ∀ (x y z : ℝ) (u v w : Vec), strain e t (x • u + y • v + z • w) =
        x • strain e t u + y • strain e t v + z • strain e t w := by
      intro x y z u v w; funext i
      simp [strain]; ring
    rw [← lin, ← hx]
  funext j
  have g := ht.gen (strain e t r) j
  rw [hs] at g
  have e2 : dot ((B t).reciprocal j) ((B 0).gen r 0 • (B t).bravais 0 + (B 0).gen r 1 • (B t).bravais 1 +
      (B 0).gen r 2 • (B t).bravais 2) = (B 0).gen r 0 * dot ((B t).reciprocal j) ((B t).bravais 0) +
      (B 0).gen r 1 * dot ((B t).reciprocal j) ((B t).bravais 1) +
      (B 0).gen r 2 * dot ((B t).reciprocal j) ((B t).bravais 2) := by
    simp [dot]; ring
  rw [e2, ht.recip, ht.recip, ht.recip, ← hs] at g
  have : 2 * Real.pi * (B t).gen (strain e t r) j = 2 * Real.pi * (B 0).gen r j := by
    rw [g]; fin_cases j <;> simp <;> ring
  exact mul_left_cancel₀ (by positivity) this

theorem hasDerivAt_triple (a : Fin 3 → Vec) (e : Fin 3 → Fin 3 → ℝ) :
    HasDerivAt (fun t => triple fun j => strain e t (a j)) ((e 0 0 + e 1 1 + e 2 2) * triple a) 0 := by
  have h : ∀ j i, HasDerivAt (fun t : ℝ => strain e t (a j) i)
      (e i 0 * a j 0 + e i 1 * a j 1 + e i 2 * a j 2) 0 := by
    intro j i
    unfold strain
    simpa using ((hasDerivAt_id (0 : ℝ)).mul_const (e i 0 * a j 0 + e i 1 * a j 1 + e i 2 * a j 2)).const_add (a j i)
  unfold triple
  refine ((((h 0 0).mul (((h 1 1).mul (h 2 2)).sub ((h 1 2).mul (h 2 1)))).add
    ((h 0 1).mul (((h 1 2).mul (h 2 0)).sub ((h 1 0).mul (h 2 2))))).add
    ((h 0 2).mul (((h 1 0).mul (h 2 1)).sub ((h 1 1).mul (h 2 0))))).congr_deriv ?_
  simp only [strain_zero, Pi.sub_apply, Pi.mul_apply]
  ring

theorem Strained.volume {B : ℝ → Box} {e : Fin 3 → Fin 3 → ℝ} (h : Strained B e) :
    HasDerivAt (fun t => (B t).volume) ((e 0 0 + e 1 1 + e 2 2) * (B 0).volume) 0 := by
  have h1 := hasDerivAt_triple (B 0).bravais e
  rw [← h.ok0.det] at h1
  refine h1.congr_of_eventuallyEq ?_
  filter_upwards [h.ok, h.bravais] with t ht ha
  rw [ht.det]
  congr 1
  funext j
  exact ha j

/-- How a wavevector with fixed indices changes. -/
theorem Strained.wave {B : ℝ → Box} {e : Fin 3 → Fin 3 → ℝ} (h : Strained B e) (k : IVec) (i : Fin 3) :
    HasDerivAt (fun t => (B t).wave k i) (-(e 0 i * (B 0).wave k 0 + e 1 i * (B 0).wave k 1 +
      e 2 i * (B 0).wave k 2)) 0 := by
  have hv : triple (B 0).bravais ≠ 0 := by rw [← h.ok0.det]; exact h.ok0.vol.ne'
  have hd : ∀ i, ∃ d, HasDerivAt (fun t => (B t).wave k i) d 0 := by
    intro i
    have hst : ∀ j i, DifferentiableAt ℝ (fun t : ℝ => strain e t ((B 0).bravais j) i) 0 := by
      intro j i; unfold strain; fun_prop
    have hr : ∀ l, DifferentiableAt ℝ
        (fun t => recipOf (fun j => strain e t ((B 0).bravais j)) l i) 0 := by
      intro l
      unfold recipOf
      refine DifferentiableAt.div ?_ (hasDerivAt_triple _ e).differentiableAt ?_
      · exact (((hst _ _).mul (hst _ _)).sub ((hst _ _).mul (hst _ _))).const_mul _
      · simp only [strain_zero]; exact hv
    have hw : DifferentiableAt ℝ (fun t => (k 0 : ℝ) * recipOf (fun j => strain e t ((B 0).bravais j)) 0 i +
        (k 1 : ℝ) * recipOf (fun j => strain e t ((B 0).bravais j)) 1 i +
        (k 2 : ℝ) * recipOf (fun j => strain e t ((B 0).bravais j)) 2 i) 0 :=
      (((hr 0).const_mul _).add ((hr 1).const_mul _)).add ((hr 2).const_mul _)
    refine ⟨_, hw.hasDerivAt.congr_of_eventuallyEq ?_⟩
    filter_upwards [h.ok, h.bravais] with t ht ha
    have e1 : (B t).bravais = fun j => strain e t ((B 0).bravais j) := funext ha
    simp only [Box.wave, latComb, Pi.add_apply, Pi.smul_apply, smul_eq_mul, ht.recip_eq, e1]
  choose d hd using hd
  have key : d + (fun i => e 0 i * (B 0).wave k 0 + e 1 i * (B 0).wave k 1 +
      e 2 i * (B 0).wave k 2 : Vec) = 0 := by
    apply h.ok0.eq_zero
    intro j
    have hs : ∀ i, HasDerivAt (fun t : ℝ => strain e t ((B 0).bravais j) i)
        (e i 0 * (B 0).bravais j 0 + e i 1 * (B 0).bravais j 1 + e i 2 * (B 0).bravais j 2) 0 := by
      intro i
      unfold strain
      simpa using ((hasDerivAt_id (0 : ℝ)).mul_const (e i 0 * (B 0).bravais j 0 +
        e i 1 * (B 0).bravais j 1 + e i 2 * (B 0).bravais j 2)).const_add ((B 0).bravais j i)
    have h1 := (((hd 0).mul (hs 0)).add ((hd 1).mul (hs 1))).add ((hd 2).mul (hs 2))
    have h2 : HasDerivAt (fun _ : ℝ => 2 * Real.pi * (k j : ℝ)) 0 0 := hasDerivAt_const _ _
    have h3 : (fun t : ℝ => 2 * Real.pi * (k j : ℝ)) =ᶠ[𝓝 0]
        (fun t => (B t).wave k 0) * (fun t => strain e t ((B 0).bravais j) 0) +
        (fun t => (B t).wave k 1) * (fun t => strain e t ((B 0).bravais j) 1) +
        (fun t => (B t).wave k 2) * (fun t => strain e t ((B 0).bravais j) 2) := by
      filter_upwards [h.ok, h.bravais] with t ht ha
      rw [← dot_wave ht k j, ha j]; rfl
    have h4 := (h1.congr_of_eventuallyEq h3).unique h2
    simp only [strain_zero] at h4
    unfold dot
    simp only [Pi.add_apply]
    linarith
  have := congrFun key i
  simp only [Pi.add_apply, Pi.zero_apply] at this
  rw [show -(e 0 i * (B 0).wave k 0 + e 1 i * (B 0).wave k 1 + e 2 i * (B 0).wave k 2) = d i by linarith]
  exact hd i

/-- Double contraction of the strain with a vector. -/
def quad (e : Fin 3 → Fin 3 → ℝ) (q : Vec) : ℝ := ∑ i, ∑ j, e i j * (q i * q j)

theorem Strained.waveSq {B : ℝ → Box} {e : Fin 3 → Fin 3 → ℝ} (h : Strained B e) (k : IVec) :
    HasDerivAt (fun t => normSq ((B t).wave k)) (-2 * quad e ((B 0).wave k)) 0 := by
  unfold Verif.Boundary.normSq
  refine ((((h.wave k 0).pow 2).add ((h.wave k 1).pow 2)).add ((h.wave k 2).pow 2)).congr_deriv ?_
  simp only [quad, Fin.sum_univ_three]
  push_cast
  ring

theorem hasDerivAt_kPot {s : Inter} (h : s.OK) {x : ℝ} (hx : x ≠ 0) :
    HasDerivAt s.kPot (-(s.kPot x * (1 / 4 / (s.alpha * s.alpha) + 1 / x))) x := by
  have h1 : HasDerivAt (fun y => s.cg * y) s.cg x := by
    simpa using (hasDerivAt_id x).const_mul s.cg
  have h2 : HasDerivAt (fun y => y * s.epsilon) s.epsilon x := by
    simpa using (hasDerivAt_id x).mul_const s.epsilon
  have he := h.eps.ne'
  have ha := h.alp.ne'
  unfold Inter.kPot
  refine (h1.exp.div h2 (mul_ne_zero hx he)).congr_deriv ?_
  rw [h.cg]
  field_simp
  ring

/-- Stress summed over listed waves. -/
noncomputable def kStress (b : Box) (i : Inter) (waves : List Wave) (atoms : List Atom)
    (x y : Fin 3) : ℝ :=
  (waves.map fun w => waveStress b (1 / 4 / (i.alpha * i.alpha)) w (factor atoms (b.wave w.k)) x y).sum /
    (b.volume * b.volume)

theorem foldl_tensor {α : Type} (f : α → Fin 3 → Fin 3 → ℝ) (l : List α) (t : Fin 3 → Fin 3 → ℝ) :
    l.foldl (fun t p => fun i j => t i j + f p i j) t =
      fun i j => t i j + (l.map fun p => f p i j).sum := by
  induction l generalizing t with
  | nil => simp
  | cons a l ih => rw [List.foldl_cons, ih]; funext i j; simp [add_assoc]

theorem computeStress_has {b : Box} (hb : b.OK) {s : St} (h : s.hasWaves = true)
    (atoms : List Atom) : s.computeStress b atoms =
      .ok { s with kSpaceStress := some (kStress b s.inter s.waves atoms) } := by
  unfold St.computeStress
  rw [charge_has hb h, ok_bind]
  simp only [zip_map_self, List.foldl_map]
  rw [foldl_tensor (fun (w : Wave) i j => waveStress b (1 / 4 / (s.inter.alpha * s.inter.alpha)) w
    (factor atoms (b.wave w.k)) i j)]
  simp only [zero_add]
  rfl

theorem factor_strain {B : ℝ → Box} {e : Fin 3 → Fin 3 → ℝ} (h : Strained B e) (atoms : List Atom) :
    ∀ᶠ t in 𝓝 (0 : ℝ), ∀ k, factor (atoms.map fun a => ⟨a.q, strain e t a.r⟩) ((B t).wave k) =
      factor atoms ((B 0).wave k) := by
  filter_upwards [h.ok, h.gen] with t ht hg k
  unfold factor
  rw [List.map_map]
  congr 1
  refine List.map_congr_left fun a _ => ?_
  simp only [Function.comp_apply]
  rw [← phase_eq ht, ← phase_eq h.ok0, hg]

theorem sum_add2 (e f g : Fin 3 → Fin 3 → ℝ) : ∑ x, ∑ y, e x y * (f x y + g x y) =
    ∑ x, ∑ y, e x y * f x y + ∑ x, ∑ y, e x y * g x y := by
  simp only [mul_add, Finset.sum_add_distrib]

/-- The derivative for a fixed list of waves. -/
theorem hasDerivAt_strain {B : ℝ → Box} {e : Fin 3 → Fin 3 → ℝ} (h : Strained B e) {i : Inter}
    (hi : i.OK) (waves : List Wave) (hw : ∀ w ∈ waves, w = (B 0).record i w.k ∧ w.ksq ≠ 0)
    (atoms : List Atom) :
    HasDerivAt (fun t => (waves.map fun w => i.kPot (normSq ((B t).wave w.k)) *
      Complex.normSq (factor atoms ((B 0).wave w.k))).sum / (B t).volume)
      (-((B 0).volume * ∑ x, ∑ y, e x y * kStress (B 0) i waves atoms x y)) 0 := by
  have hv := h.ok0.vol.ne'
  have h1 : HasDerivAt (fun t => (waves.map fun w => i.kPot (normSq ((B t).wave w.k)) *
      Complex.normSq (factor atoms ((B 0).wave w.k))).sum)
      (waves.map fun w => w.g * (1 / 4 / (i.alpha * i.alpha) + 1 / w.ksq) * (2 * quad e ((B 0).wave w.k)) *
        Complex.normSq (factor atoms ((B 0).wave w.k))).sum 0 := by
    refine hasDerivAt_listSum waves (fun w t => i.kPot (normSq ((B t).wave w.k)) *
      Complex.normSq (factor atoms ((B 0).wave w.k))) _ 0 ?_
    intro w hwm
    obtain ⟨hr, hk⟩ := hw w hwm
    have eg : w.g = i.kPot (normSq ((B 0).wave w.k)) := congrArg Wave.g hr
    have ek : w.ksq = normSq ((B 0).wave w.k) := congrArg Wave.ksq hr
    have hk' : normSq ((B 0).wave w.k) ≠ 0 := by rw [← ek]; exact hk
    refine ((HasDerivAt.comp (h₂ := i.kPot) (h := fun t => normSq ((B t).wave w.k)) 0
      (hasDerivAt_kPot hi hk') (h.waveSq w.k)).mul_const _).congr_deriv ?_
    rw [eg, ek]; ring
  refine (h1.div h.volume hv).congr_deriv ?_
  have e0 : ∀ w ∈ waves, i.kPot (normSq ((B 0).wave w.k)) = w.g := fun w hwm =>
    (congrArg Wave.g (hw w hwm).1).symm
  have e1 : (waves.map fun w => i.kPot (normSq ((B 0).wave w.k)) *
      Complex.normSq (factor atoms ((B 0).wave w.k))).sum =
      (waves.map fun w => w.g * Complex.normSq (factor atoms ((B 0).wave w.k))).sum := by
    congr 1
    exact List.map_congr_left fun w hwm => by rw [e0 w hwm]
  rw [e1]
  unfold kStress
  have e2 : (B 0).volume * ∑ x, ∑ y, e x y * ((waves.map fun w =>
      waveStress (B 0) (1 / 4 / (i.alpha * i.alpha)) w (factor atoms ((B 0).wave w.k)) x y).sum /
      ((B 0).volume * (B 0).volume)) = (∑ x, ∑ y, e x y * (waves.map fun w =>
      waveStress (B 0) (1 / 4 / (i.alpha * i.alpha)) w (factor atoms ((B 0).wave w.k)) x y).sum) /
      (B 0).volume := by
    simp only [Fin.sum_univ_three]; field_simp
  rw [e2]
  have e3 : ∑ x, ∑ y, e x y * (waves.map fun w =>
      waveStress (B 0) (1 / 4 / (i.alpha * i.alpha)) w (factor atoms ((B 0).wave w.k)) x y).sum =
      (e 0 0 + e 1 1 + e 2 2) * (waves.map fun w => w.g *
        Complex.normSq (factor atoms ((B 0).wave w.k))).sum -
      (waves.map fun w => w.g * (1 / 4 / (i.alpha * i.alpha) + 1 / w.ksq) * (2 * quad e ((B 0).wave w.k)) *
        Complex.normSq (factor atoms ((B 0).wave w.k))).sum := by
    clear h1 e0 e1 e2 hw
    induction waves with
    | nil => simp
    | cons w ws ih =>
      simp only [List.map_cons, List.sum_cons]
      rw [sum_add2, ih]
      have : ∑ x, ∑ y, e x y * waveStress (B 0) (1 / 4 / (i.alpha * i.alpha)) w
          (factor atoms ((B 0).wave w.k)) x y = (e 0 0 + e 1 1 + e 2 2) * (w.g *
          Complex.normSq (factor atoms ((B 0).wave w.k))) -
          w.g * (1 / 4 / (i.alpha * i.alpha) + 1 / w.ksq) * (2 * quad e ((B 0).wave w.k)) *
          Complex.normSq (factor atoms ((B 0).wave w.k)) := by
        unfold waveStress
        simp only
        change ∑ x, ∑ y, e x y * ((delta x y + (B 0).wave w.k x * (B 0).wave w.k y * _) * _) = _
        simp only [Complex.normSq_apply, quad, Fin.sum_univ_three, delta]
        simp
        ring
      rw [this]
      generalize (ws.map fun w => w.g * (1 / 4 / (i.alpha * i.alpha) + 1 / w.ksq) *
        (2 * quad e ((B 0).wave w.k)) * Complex.normSq (factor atoms ((B 0).wave w.k))).sum = X
      generalize (ws.map fun w => w.g * Complex.normSq (factor atoms ((B 0).wave w.k))).sum = Y
      ring
  rw [e3]
  generalize (waves.map fun w => w.g * (1 / 4 / (i.alpha * i.alpha) + 1 / w.ksq) *
    (2 * quad e ((B 0).wave w.k)) * Complex.normSq (factor atoms ((B 0).wave w.k))).sum = X
  generalize (waves.map fun w => w.g * Complex.normSq (factor atoms ((B 0).wave w.k))).sum = Y
  field_simp
  ring

end Verif.Ewald
