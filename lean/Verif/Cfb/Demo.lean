/-
Configurational bias in orthorhombic cells, an example, and interactions that violate detailed
balance.
-/
import Verif.Cfb.Props
import Verif.McMoves.Props

set_option autoImplicit false

namespace Verif.Cfb

open Verif.Boundary Verif.McCellList Verif.McCell Verif.McMoves MeasureTheory
open Verif.Cpp
open scoped ENNReal

variable {w : World}

/-! ### Orthorhombic cells -/

/-- In an orthorhombic cell bonds up to half the length of its edges are allowed. -/
theorem chain_ortho {b : Ortho} (hb : b.Reach) (hg : w.gen = b.toGen) (hsh : w.shift = b.shift)
    (hd : w.dsq = b.distanceSq) {c : Chain} (hv : c.dvec = b.separation) {R : ℝ} (hR : 0 < R)
    (h2 : ∀ i, 2 * R ≤ b.lengths i)
    (inj : ∀ i j, Site c i → Site c j → c.atom i = c.atom j → i = j)
    (mem : ∀ i, Site c i → c.atom i ∈ w.atoms) : c.OK w b.bravais R where
  pos := hR
  wide := by
    intro k hk
    rw [hb.ok.latComb_eq] at hk ⊢
    obtain ⟨i, hi⟩ : ∃ i, k i ≠ 0 := by
      by_contra h
      push Not at h
      exact hk (by funext i; simp [latVec, h i])
    have h1 : (1 : ℝ) ≤ (k i : ℝ) ^ 2 := by
      have : (1 : ℤ) ≤ k i ^ 2 := by
        have := sq_nonneg (k i)
        rcases this.lt_or_eq with h | h
        · omega
        · exact absurd (pow_eq_zero_iff (two_ne_zero) |>.1 h.symm) hi
      exact_mod_cast this
    have h3 : (2 * R) ^ 2 ≤ (k i * b.lengths i) ^ 2 := by
      have := h2 i
      have h4 : (2 * R) ^ 2 ≤ b.lengths i ^ 2 := by nlinarith
      rw [mul_pow]
      nlinarith [sq_nonneg (b.lengths i)]
    have h5 : (k i * b.lengths i) ^ 2 ≤ normSq (latVec b.lengths k) := by
      unfold normSq latVec
      fin_cases i
      · have := sq_nonneg ((k 1 : ℝ) * b.lengths 1)
        have := sq_nonneg ((k 2 : ℝ) * b.lengths 2)
        simp only [Fin.zero_eta]
        linarith
      · have := sq_nonneg ((k 0 : ℝ) * b.lengths 0)
        have := sq_nonneg ((k 2 : ℝ) * b.lengths 2)
        simp only [Fin.mk_one]
        linarith
      · have := sq_nonneg ((k 0 : ℝ) * b.lengths 0)
        have := sq_nonneg ((k 1 : ℝ) * b.lengths 1)
        simp only [Fin.reduceFinMk]
        linarith
    linarith
  exact := by rw [hg, hd]; exact exact_ortho hb R
  wraps := wraps_ortho hb hg hsh fun i => by have := h2 i; linarith
  inj := inj
  mem := mem
  image r r' := ⟨b.translate r r', by
    rw [hv, (C24_ortho_separation hb r r').1, hb.ok.latComb_eq]; abel⟩
  normSq r r' := by rw [hv, hd, (C24_ortho_separation hb r r').2]

theorem separation_measurable (b : Ortho) : Measurable (Function.uncurry b.separation) := by
  refine measurable_pi_lambda _ fun i => ?_
  unfold Function.uncurry Ortho.separation image1
  have hd : Measurable fun a : Vec × Vec => a.1 i - a.2 i :=
    ((measurable_pi_apply i).comp measurable_fst).sub ((measurable_pi_apply i).comp measurable_snd)
  simp only [apply_ite Prod.fst]
  refine Measurable.ite (measurableSet_lt measurable_const
    (continuous_abs.measurable.comp hd)) (Measurable.ite (measurableSet_lt measurable_const hd) ?_ ?_) hd
  · exact hd.sub measurable_const
  · exact hd.add measurable_const

theorem dsq_ortho_measurable (b : Ortho) : Measurable (Function.uncurry b.distanceSq) := by
  have h := separation_measurable b
  have hi : ∀ i, Measurable fun a : Vec × Vec => b.separation a.1 a.2 i := fun i =>
    (measurable_pi_apply i).comp h
  exact (((hi 0).mul (hi 0)).add ((hi 1).mul (hi 1))).add ((hi 2).mul (hi 2))

/-! ### A chain of three atoms in the unit cube -/

theorem near_separation {r r' : Vec} (h : ∀ i, |r i - r' i| ≤ 1 / 2) :
    Ortho.default.separation r r' = r - r' := by
  funext i
  unfold Ortho.separation image1
  rw [if_neg (by have := h i; simp only [Ortho.default]; linarith)]
  rfl

theorem near_distanceSq {r r' : Vec} (h : ∀ i, |r i - r' i| ≤ 1 / 2) :
    Ortho.default.distanceSq r r' =
      (r 0 - r' 0) ^ 2 + (r 1 - r' 1) ^ 2 + (r 2 - r' 2) ^ 2 := by
  have := near_separation h
  rw [(C24_ortho_separation .default r r').2, this]
  simp only [normSq, Pi.sub_apply]

/-- Three atoms of one molecule. -/
noncomputable def tri (pair : ℝ → ℕ → ℕ → ℝ) (bonded links : List Term) : World where
  atoms := {0, 1, 2}
  molAtoms m := if m = 0 then [0, 1, 2] else []
  molOf _ := 0
  masked a b := decide ((a + 1 = b ∨ b + 1 = a) ∧ a < 3 ∧ b < 3)
  pair := pair
  bonded := bonded
  links := links
  ext _ _ := 0
  tether _ _ := 0
  beta := 1
  gen := Ortho.default.toGen
  shift := Ortho.default.shift
  dsq := Ortho.default.distanceSq
  cellCap := 61
  stateType := ![0, 1]
  weight _ := 1

/-- The terms of a list depend on their atoms only. -/
def LocalTerms (l : List Term) : Prop :=
  ∀ x ∈ l, ∀ p p' : ℕ → Vec, (∀ a ∈ x.atoms, p a = p' a) → x.energy p = x.energy p'

theorem tri_ok {pair : ℝ → ℕ → ℕ → ℝ} {bonded links : List Term}
    (hr : ∀ x t t', (1 / 4 : ℝ) ^ 2 ≤ x → pair x t t' = 0) (hp : ∀ x t t', pair x t t' = pair x t' t)
    (hb : LocalTerms bonded) (hl : LocalTerms links) :
    (tri pair bonded links).OK Ortho.default.lengths Ortho.default.bravais (1 / 4) where
  geo := geo_ortho .default
  dist := dist_ortho .default
  dsymm := dsymm_ortho .default
  cut := by norm_num
  range := hr
  psymm := hp
  msymm a b := by
    simp only [tri, decide_eq_decide]
    omega
  molMem := by
    intro m a ha
    change a ∈ (if m = 0 then [0, 1, 2] else []) at ha
    split at ha
    · next hm =>
      subst hm
      refine ⟨?_, rfl⟩
      change a ∈ ({0, 1, 2} : Finset ℕ)
      simpa using ha
    · simp at ha
  molAll := by
    intro a ha
    change a ∈ ({0, 1, 2} : Finset ℕ) at ha
    change a ∈ (if (0 : ℕ) = 0 then [0, 1, 2] else [])
    simpa using ha
  molNodup := by
    intro m
    change (if m = 0 then [0, 1, 2] else [] : List ℕ).Nodup
    split <;> simp
  bonded := hb
  links := hl

/-- The molecule. -/
noncomputable def triChain (angles : Bool) (angleType : ℕ) (bondE angleE : ℝ → ℕ → ℝ) : Chain where
  nAtom := 3
  atom i := i.toNat
  atomType _ := 0
  bondType _ := 0
  angleType _ := angleType
  hasAngles := angles
  bondE := bondE
  angleE := angleE
  dvec := Ortho.default.separation

section

variable {pair : ℝ → ℕ → ℕ → ℝ} {bonded links : List Term} {angles : Bool} {aty : ℕ}
  {bondE angleE : ℝ → ℕ → ℝ}

theorem tri_card : (tri pair bonded links).atoms.card < (tri pair bonded links).cellCap := by
  change ({0, 1, 2} : Finset ℕ).card < 61
  decide

theorem triChain_ok :
    (triChain angles aty bondE angleE).OK (tri pair bonded links) Ortho.default.bravais (1 / 2) := by
  refine chain_ortho .default rfl rfl rfl rfl (by norm_num) (fun i => ?_) ?_ ?_
  · simp [Ortho.default]
  · intro i j hi hj h
    unfold Site triChain at *
    simp only at *
    omega
  · intro i hi
    unfold Site triChain at *
    simp only [tri, Finset.mem_insert, Finset.mem_singleton] at *
    omega

theorem tri_meas (hp : ∀ t t', Measurable fun x => pair x t t') (hb : ∀ t, Measurable fun x => bondE x t)
    (ha : ∀ t, Measurable fun x => angleE x t) :
    Meas (tri pair bonded links) (triChain angles aty bondE angleE) where
  pair := hp
  dsq := dsq_ortho_measurable _
  ext _ := measurable_const
  dvec := separation_measurable _
  bondE := hb
  angleE := ha

theorem tri_state : ∃ st : Conf → Sys, ∀ q,
    (∀ b ∈ (tri pair bonded links).atoms, q b ∈ cell (tri pair bonded links).gen) →
    (st q).pos = q ∧ (st q).typ = (fun _ => 0) ∧
      At (tri pair bonded links) Ortho.default.lengths (1 / 4) (st q).cells q := by
  classical
  have h : ∀ q : Conf, ∃ s : Sys,
      (∀ b ∈ (tri pair bonded links).atoms, q b ∈ cell (tri pair bonded links).gen) →
      s.pos = q ∧ s.typ = (fun _ => 0) ∧
        At (tri pair bonded links) Ortho.default.lengths (1 / 4) s.cells q := by
    intro q
    by_cases hq : ∀ b ∈ (tri pair bonded links).atoms, q b ∈ cell (tri pair bonded links).gen
    · obtain ⟨cl, hc⟩ := at_exists (w := tri pair bonded links) (lengths := Ortho.default.lengths)
        (cutoff := 1 / 4) (by norm_num) tri_card q hq
      exact ⟨⟨q, fun _ => 0, cl, 0, 0, fun _ => none, fun _ => 0⟩, fun _ => ⟨rfl, rfl, hc⟩⟩
    · exact ⟨⟨fun _ _ => 0, id, ⟨fun _ => 0, fun _ => Cell.clear, fun _ => none⟩, 0, 0, fun _ => none,
        fun _ => 0⟩, fun h => absurd h hq⟩
  choose st hst using h
  exact ⟨st, hst⟩

/-- Bond lengths below 1/2 with the distribution that the move needs. -/
noncomputable def triLaw (bondE : ℝ → ℕ → ℝ) : ℕ → Measure ℝ := fun t =>
  (volume.restrict (Set.Ioo 0 (1 / 2))).withDensity fun ℓ =>
    1 * (ENNReal.ofReal (ℓ ^ 2) * ENNReal.ofReal (Real.exp (-1 * bondE (ℓ ^ 2) t)))

theorem triLaw_ok (t : ℕ) : LengthLaw 1 (fun x => bondE x t) (1 / 2) (triLaw bondE t) 1 := by
  unfold LengthLaw triLaw
  rw [restrict_withDensity measurableSet_Iio, Measure.restrict_restrict measurableSet_Iio]
  congr 2
  ext x
  simp only [Set.mem_inter_iff, Set.mem_Iio, Set.mem_Ioo]
  tauto

end

/-- Harmonic bonds, a bending energy and a pair potential between the ends: the hypotheses of
`C62_end_partial` are met. -/
noncomputable def demoTerms (f : ℝ → ℝ) : List Term :=
  [⟨[0, 1], fun p => f (Ortho.default.distanceSq (p 0) (p 1))⟩,
   ⟨[1, 2], fun p => f (Ortho.default.distanceSq (p 1) (p 2))⟩,
   ⟨[0, 1, 2], fun p => 1 - dot
      ((Real.sqrt (Ortho.default.distanceSq (p 0) (p 1)))⁻¹ • Ortho.default.separation (p 0) (p 1))
      ((Real.sqrt (Ortho.default.distanceSq (p 1) (p 2)))⁻¹ • Ortho.default.separation (p 1) (p 2))⟩]

theorem demo_linear (f : ℝ → ℝ) (l : List ℤ) : Linear (tri (fun x _ _ => if x < 1 / 16 then 16 * x - 1 else 0)
      (demoTerms f) [])
    (triChain true 0 (fun x _ => f x) (fun x _ => 1 - x)) l where
  anti r r' := (C24_ortho_symm .default r r').1
  types _ _ _ _ := rfl
  bonded := by
    refine ⟨fun _ => 0, fun _ _ _ => rfl, fun p => ?_⟩
    have e1 : Finset.Ico (0 : ℤ) ((3 : ℤ) - 1) = {0, 1} := by decide
    have e2 : Finset.Ico (0 : ℤ) ((3 : ℤ) - 2) = {0} := by decide
    simp only [tri, demoTerms, triChain, List.map_cons, List.map_nil, List.sum_cons, List.sum_nil,
      if_true, e1, e2]
    rw [Finset.sum_pair (by decide), Finset.sum_singleton]
    have t0 : Int.toNat 0 = 0 := rfl
    have t1 : Int.toNat (0 + 1) = 1 := rfl
    have t2 : Int.toNat (0 + 2) = 2 := rfl
    have t3 : Int.toNat (1 + 1) = 2 := rfl
    have t4 : Int.toNat 1 = 1 := rfl
    simp only [bondTerm, angleTerm, angleCos, t0, t1, t2, t3, t4]
    ring
  links := by intro x hx; cases hx
  tethers _ _ _ := rfl

theorem demo_local (f : ℝ → ℝ) : LocalTerms (demoTerms f) := by
  intro x hx p p' h
  simp only [demoTerms, List.mem_cons, List.not_mem_nil, or_false] at hx
  rcases hx with rfl | rfl | rfl
  · dsimp only; rw [h 0 (by simp), h 1 (by simp)]
  · dsimp only; rw [h 1 (by simp), h 2 (by simp)]
  · dsimp only; rw [h 0 (by simp), h 1 (by simp), h 2 (by simp)]

/-- The system of the examples. -/
noncomputable def demoWorld (f : ℝ → ℝ) : World :=
  tri (fun x _ _ => if x < 1 / 16 then 16 * x - 1 else 0) (demoTerms f) []

/-- Its molecule. -/
noncomputable def demoChain (f : ℝ → ℝ) : Chain := triChain true 0 (fun x _ => f x) (fun x _ => 1 - x)

theorem demoWorld_ok (f : ℝ → ℝ) :
    (demoWorld f).OK Ortho.default.lengths Ortho.default.bravais (1 / 4) := by
  refine tri_ok ?_ (fun _ _ _ => rfl) (demo_local f) (by intro x hx; cases hx)
  intro x _ _ hx
  rw [if_neg (by norm_num at hx ⊢; exact hx)]

theorem demoWorld_meas {f : ℝ → ℝ} (hf : Measurable f) : Meas (demoWorld f) (demoChain f) := by
  refine tri_meas ?_ ?_ ?_
  · intro _ _
    exact Measurable.ite (measurableSet_lt measurable_id measurable_const)
      ((measurable_const.mul measurable_id).sub measurable_const) measurable_const
  · intro _; exact hf
  · intro _; exact measurable_const.sub measurable_id

example (A B : Set Conf) (hA : MeasurableSet A) (hB : MeasurableSet B) (m : ℕ) {e : ℝ}
    (hAs : A ⊆ Short (demoWorld (100 * ·)) (demoChain (100 * ·)) 2 e (1 / 2))
    (hBs : B ⊆ Short (demoWorld (100 * ·)) (demoChain (100 * ·)) 2 e (1 / 2)) : ∃ st : Conf → Sys,
    endFlow (demoWorld (100 * ·)) (demoChain (100 * ·)) 2 m e (1 / 2) (triLaw fun x _ => 100 * x) st A B
      (fun _ _ => 1 / 2) =
    endFlow (demoWorld (100 * ·)) (demoChain (100 * ·)) 2 m e (1 / 2) (triLaw fun x _ => 100 * x) st B A
      (fun _ _ => 1 / 2) := by
  obtain ⟨st, hst⟩ := tri_state (pair := fun x _ _ => if x < 1 / 16 then 16 * x - 1 else 0)
    (bonded := demoTerms (100 * ·)) (links := [])
  refine ⟨st, C62_end_partial (cst := fun _ => 1) (t := fun _ => 0) (demoWorld_ok _) triChain_ok
    (demoWorld_meas (measurable_const.mul measurable_id)) tri_card m ?_ (demo_linear _ _)
    (fun i _ => triLaw_ok _) (fun _ => ⟨one_ne_zero, ENNReal.one_ne_top⟩) (fun _ _ => rfl) hst ?_ hA hB
    hAs hBs⟩
  · simp [triChain]
  · intro b _
    exact demo_unit fun i => by norm_num

/-- Configurations with short bonds exist. -/
example (e : ℝ) : (fun a => ![1 / 4 + a / 10, 1 / 2, 1 / 2] : Conf) ∈
    Short (tri (fun x _ _ => if x < 1 / 16 then 16 * x - 1 else 0) (demoTerms (100 * ·)) [])
      (triChain true 0 (fun x _ => 100 * x) (fun x _ => 1 - x)) 2 e (1 / 2) := by
  have key : ∀ i j : ℤ, Site (triChain true 0 (fun x _ => 100 * x) (fun x _ => 1 - x)) i →
      (j = i + 1 ∨ j = i - 1) → Site (triChain true 0 (fun x _ => 100 * x) (fun x _ => 1 - x)) j →
      Ortho.default.distanceSq ![1 / 4 + (i.toNat : ℝ) / 10, 1 / 2, 1 / 2]
        ![1 / 4 + (j.toNat : ℝ) / 10, 1 / 2, 1 / 2] = 1 / 100 := by
    intro i j hi hj hj'
    have h3 : (triChain true 0 (fun x _ => 100 * x) (fun x _ => 1 - x)).nAtom = 3 := rfl
    unfold Site at hi hj'
    rw [h3] at hi hj'
    obtain ⟨hi0, hi1⟩ := hi
    obtain ⟨hj0, hj1⟩ := hj'
    have t : (i.toNat : ℝ) - j.toNat = 1 ∨ (i.toNat : ℝ) - j.toNat = -1 := by
      have hi' : ((i.toNat : ℕ) : ℝ) = (i : ℝ) := by exact_mod_cast Int.toNat_of_nonneg hi0
      have hj' : ((j.toNat : ℕ) : ℝ) = (j : ℝ) := by exact_mod_cast Int.toNat_of_nonneg hj0
      rw [hi', hj']
      rcases hj with h | h
      · right; rw [h]; push_cast; ring
      · left; rw [h]; push_cast; ring
    have h0 : (![1 / 4 + (i.toNat : ℝ) / 10, 1 / 2, 1 / 2] : Vec) 0 -
        (![1 / 4 + (j.toNat : ℝ) / 10, 1 / 2, 1 / 2] : Vec) 0 = ((i.toNat : ℝ) - j.toNat) / 10 := by
      simp only [Matrix.cons_val_zero]; ring
    have h1 : (![1 / 4 + (i.toNat : ℝ) / 10, 1 / 2, 1 / 2] : Vec) 1 -
        (![1 / 4 + (j.toNat : ℝ) / 10, 1 / 2, 1 / 2] : Vec) 1 = 0 := by
      simp only [Matrix.cons_val_one, Matrix.cons_val_zero]; ring
    have h2 : (![1 / 4 + (i.toNat : ℝ) / 10, 1 / 2, 1 / 2] : Vec) 2 -
        (![1 / 4 + (j.toNat : ℝ) / 10, 1 / 2, 1 / 2] : Vec) 2 = 0 := by
      simp only [Matrix.cons_val]; ring
    rw [near_distanceSq, h0, h1, h2]
    · rcases t with t | t <;> rw [t] <;> norm_num
    · intro k
      fin_cases k
      · rw [show (⟨0, by decide⟩ : Fin 3) = 0 from rfl, h0, abs_le]
        rcases t with t | t <;> rw [t] <;> norm_num
      · rw [show (⟨1, by decide⟩ : Fin 3) = 1 from rfl, h1]; norm_num
      · rw [show (⟨2, by decide⟩ : Fin 3) = 2 from rfl, h2]; norm_num
  intro j hj
  have hs := signOf_cases e
  obtain ⟨h1, h2⟩ := regrown_site (by simp [triChain]) hs hj
  have := key j (j - signOf e) h1 (by rcases hs with h | h <;> rw [h] <;> simp) h2
  have hl : lenOf (tri (fun x _ _ => if x < 1 / 16 then 16 * x - 1 else 0) (demoTerms (100 * ·)) [])
      (triChain true 0 (fun x _ => 100 * x) (fun x _ => 1 - x)) (signOf e) j
      (fun a => ![1 / 4 + a / 10, 1 / 2, 1 / 2] : Conf) = 1 / 10 := by
    unfold lenOf
    change Real.sqrt (Ortho.default.distanceSq ![1 / 4 + (j.toNat : ℝ) / 10, 1 / 2, 1 / 2]
      ![1 / 4 + ((j - signOf e).toNat : ℝ) / 10, 1 / 2, 1 / 2]) = _
    rw [this, show (1 / 100 : ℝ) = (1 / 10) ^ 2 by norm_num, Real.sqrt_sq (by norm_num)]
  rw [hl]
  norm_num

end Verif.Cfb
