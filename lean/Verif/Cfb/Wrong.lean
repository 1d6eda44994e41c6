/-
Interactions with which configurational-bias moves of chain ends violate detailed balance: links,
and angles whose type differs from the type of the bond.
-/
import Verif.Cfb.Demo

set_option autoImplicit false

namespace Verif.Cfb

open Verif.Boundary Verif.McCellList Verif.McCell Verif.McMoves MeasureTheory
open Verif.Cpp
open scoped ENNReal

/-- **C62 (links are ignored).**  The move does not depend on links, tethers and bonded terms of
the system, nor on the types of angles. -/
theorem endMove_ignores (w : World) (c : Chain) (bonded links : List Term) (tether : ℕ → Vec → ℝ)
    (angleType : ℤ → ℕ) : endMove { w with bonded := bonded, links := links, tether := tether }
      { c with angleType := angleType } = endMove w c := rfl

/-- A cube of edge length 1/10. -/
def box (y : Vec) : Set Vec := Set.pi Set.univ fun i => Set.Ioo (y i - 1 / 20) (y i + 1 / 20)

theorem box_measurable (y : Vec) : MeasurableSet (box y) :=
  MeasurableSet.univ_pi fun _ => measurableSet_Ioo

theorem box_volume (y : Vec) : volume (box y) = ENNReal.ofReal (1 / 10) ^ 3 := by
  unfold box
  rw [Real.volume_pi_Ioo]
  have : ∀ i : Fin 3, ENNReal.ofReal (y i + 1 / 20 - (y i - 1 / 20)) = ENNReal.ofReal (1 / 10) :=
    fun i => by congr 1; ring
  simp only [this, Finset.prod_const, Finset.card_univ, Fintype.card_fin]

/-- Positions of the last atom on either side of the middle atom. -/
noncomputable def right : Vec := ![7 / 10, 1 / 2, 1 / 2]
noncomputable def left : Vec := ![3 / 10, 1 / 2, 1 / 2]
noncomputable def centre : Vec := fun _ => 1 / 2

theorem box_near {y x : Vec} (hy : y = right ∨ y = left) (hx : x ∈ box y) (i : Fin 3) :
    |x i - centre i| ≤ 1 / 4 := by
  have h := hx i (Set.mem_univ i)
  rw [Set.mem_Ioo] at h
  rw [abs_le]
  unfold centre
  rcases hy with rfl | rfl <;> fin_cases i <;> simp [right, left] at h ⊢ <;> constructor <;> linarith

theorem box_far {y x : Vec} (hy : y = right ∨ y = left) (hx : x ∈ box y) :
    (1 / 10) ^ 2 ≤ (x 0 - centre 0) ^ 2 := by
  have h := hx 0 (Set.mem_univ _)
  rw [Set.mem_Ioo] at h
  unfold centre
  rcases hy with rfl | rfl <;> simp [right, left] at h ⊢ <;> nlinarith

theorem box_dsq {y x : Vec} (hy : y = right ∨ y = left) (hx : x ∈ box y) :
    0 < Ortho.default.distanceSq x centre ∧ Ortho.default.distanceSq x centre < (1 / 2) ^ 2 := by
  have h := fun i => abs_le.1 (box_near hy hx i)
  have h' := box_far hy hx
  rw [near_distanceSq fun i => (box_near hy hx i).trans (by norm_num)]
  have h0 := h 0
  have h1 := h 1
  have h2 := h 2
  constructor <;> nlinarith [sq_nonneg (x 1 - centre 1), sq_nonneg (x 2 - centre 2)]

theorem box_cell {y x : Vec} (hy : y = right ∨ y = left) (hx : x ∈ box y) :
    x ∈ cell Ortho.default.toGen := by
  refine demo_unit fun i => ?_
  have h := abs_le.1 (box_near hy hx i)
  unfold centre at h
  constructor <;> linarith [h.1, h.2]

section

variable {bonded links : List Term} {angles : Bool} {aty : ℕ} {angleE : ℝ → ℕ → ℝ}

theorem grown_two : regrown (triChain angles aty (fun _ _ => 0) angleE) 1 (signOf 1) = [2] := by
  have : signOf 1 = 1 := if_pos (by norm_num)
  rw [this]
  rfl

/-- Configurations with the last atom in a cube. -/
def lastIn (y : Vec) : Set Conf := {q | q 1 = centre ∧ q 2 ∈ box y}

theorem lastIn_measurable (y : Vec) : MeasurableSet (lastIn y) :=
  MeasurableSet.inter (s₁ := {q : Conf | q 1 = centre}) (s₂ := {q : Conf | q 2 ∈ box y})
    (measurableSet_eq_fun (measurable_pi_apply 1) measurable_const)
    ((measurable_pi_apply (X := fun _ : ℕ => Vec) 2) (box_measurable y))

theorem lastIn_short {y : Vec} (hy : y = right ∨ y = left) :
    lastIn y ⊆ Short (tri (fun _ _ _ => 0) bonded links) (triChain angles aty (fun _ _ => 0) angleE)
      1 1 (1 / 2) := by
  intro q hq j hj
  rw [grown_two, List.mem_singleton] at hj
  have hs : signOf 1 = 1 := if_pos (by norm_num)
  subst hj
  rw [hs]
  have hb := box_dsq hy hq.2
  have hl : lenOf (tri (fun _ _ _ => 0) bonded links) (triChain angles aty (fun _ _ => 0) angleE) 1 2 q
      = Real.sqrt (Ortho.default.distanceSq (q 2) (q 1)) := rfl
  rw [hl, hq.1]
  exact ⟨Real.sqrt_pos.2 hb.1, (Real.sqrt_lt' (by norm_num)).2 hb.2⟩

/-- The probability of a move of the last atom without interactions. -/
theorem free_prob (hb : LocalTerms bonded) (hl : LocalTerms links) (hm : ∀ t, Measurable fun x => angleE x t)
    (h0 : ∀ x, angleE x 0 = 0) {s : Sys}
    (hs : At (tri (fun _ _ _ => 0) bonded links) Ortho.default.lengths (1 / 4) s.cells s.pos)
    (ht : s.typ = fun _ => 0) {y y' : Vec} (hy : y = right ∨ y = left) (hy' : y' = right ∨ y' = left)
    (hq : s.pos ∈ lastIn y) :
    moveProb (tri (fun _ _ _ => 0) bonded links) (triChain angles aty (fun _ _ => 0) angleE) 1 0 1 (1 / 2)
      (triLaw fun _ _ => 0) (lastIn y') s = 1 * (area Set.univ)⁻¹ * volume (box y') := by
  obtain ⟨w, hw⟩ : ∃ w, w = tri (fun _ _ _ => 0) bonded links := ⟨_, rfl⟩
  obtain ⟨c, hc⟩ : ∃ c, c = triChain angles aty (fun _ _ => 0) angleE := ⟨_, rfl⟩
  have ok : w.OK Ortho.default.lengths Ortho.default.bravais (1 / 4) := by
    rw [hw]; exact tri_ok (fun _ _ _ _ => rfl) (fun _ _ _ => rfl) hb hl
  have hcok : c.OK w Ortho.default.bravais (1 / 2) := by rw [hw, hc]; exact triChain_ok
  have hmeas : Meas w c := by
    rw [hw, hc]
    exact tri_meas (fun _ _ => measurable_const) (fun _ => measurable_const) hm
  have hcap : w.atoms.card < w.cellCap := by rw [hw]; exact tri_card
  have hs1 : signOf 1 = 1 := if_pos (by norm_num)
  have hgr : regrown c 1 (signOf 1) = [2] := by rw [hc]; exact grown_two
  have hatom : c.atom 2 = 2 := by rw [hc]; rfl
  have hatom' : c.atom (2 - 1) = 1 := by rw [hc]; rfl
  have hsite : Site c 2 ∧ Site c (2 - 1) := by
    rw [hc]; constructor <;> constructor <;> norm_num [triChain]
  have hgen : w.gen = Ortho.default.toGen := by rw [hw]; rfl
  have hlaw : ∀ i ∈ regrown c 1 (signOf 1), LengthLaw w.beta
      (fun x => c.bondE x (c.bondType (bondId (signOf 1) i))) (1 / 2)
      (triLaw (fun _ _ => 0) (c.bondType (bondId (signOf 1) i)))
      ((fun _ => 1 : ℕ → ℝ≥0∞) (c.bondType (bondId (signOf 1) i))) := by
    intro i _
    have : w.beta = 1 := by rw [hw]; rfl
    rw [this, hc]
    exact triLaw_ok _
  obtain ⟨S, hS⟩ : ∃ S, S = stepOf w c s.typ 1 (1 / 2) (triLaw fun _ _ => 0)
    (fun x => (fun _ => 1 : ℕ → ℝ≥0∞) x * (area Set.univ)⁻¹) 2 := ⟨_, rfl⟩
  have hφ : ∀ q, S.φ q = 1 := by
    intro q
    rw [hS]
    change Real.exp (-w.beta * restE w c s.typ 1 2 q) = 1
    have : restE w c s.typ 1 2 q = 0 := by
      have h1 : pairWith w s.typ (beyond c 1 2) (c.atom 2) q = 0 := by
        unfold pairWith
        refine Finset.sum_eq_zero fun b _ => ?_
        have : pairE w q s.typ (c.atom 2) b = 0 := by
          rw [hw]; simp [pairE, tri]
        rw [this]; simp
      have h2 : ∀ x, c.angleE x (c.bondType (angleId 1 2)) = 0 := by
        intro x; rw [hc]; exact h0 x
      have h3 : ∀ x t, w.ext x t = 0 := by intro x t; rw [hw]; rfl
      unfold restE
      rw [h1, h2, h3]
      simp
    rw [this, mul_zero, Real.exp_zero]
  have hSok : S.OK (cell w.gen) (reduce w.gen Ortho.default.bravais) direction := by
    rw [hS]
    exact step_ok ok hcok hmeas (Or.inl rfl)
      (by have := hlaw 2 (by rw [hgr]; simp); rw [hs1] at this; exact this) hsite.1 hsite.2
  have hSb : S.b = 1 := by rw [hS]; exact hatom'
  have hSa : S.a = 2 := by rw [hS]; exact hatom
  have hmem : ∀ b ∈ w.atoms, s.pos b ∈ cell w.gen := by
    rw [hw]; exact fun b hb => hs.unit hb
  have hn : ((1 : ℕ) : ℤ) < c.nAtom := by rw [hc]; norm_num [triChain]
  have hAt : At w Ortho.default.lengths (1 / 4) s.cells s.pos := by rw [hw]; exact hs
  have htyp : ∀ j, Site c j → s.typ (c.atom j) = c.atomType j := fun j _ => by rw [ht, hc]; rfl
  have hsh : s.pos ∈ Short w c 1 1 (1 / 2) := by rw [hw, hc]; exact lastIn_short hy hq
  have main := moveProb_eq (m := 0) (κ := fun x => (fun _ => 1 : ℕ → ℝ≥0∞) x * (area Set.univ)⁻¹)
    (n := 1) (e := 1) (law := triLaw fun _ _ => 0) (cst := fun _ => 1) (R := 1 / 2) ok hcok hcap hn hlaw hAt htyp hsh (lastIn y')
  rw [hgr, hs1, List.map_singleton, ← hS] at main
  rw [← hw, ← hc, main]
  have hwt : ∀ q us, wt (reduce w.gen Ortho.default.bravais) 0 S q us = 1 := by
    intro q us
    unfold wt
    rw [hφ]
    simp
  have hweights : ∀ q, weights (reduce w.gen Ortho.default.bravais) 0 [S] q = [fun _ => 1] := by
    intro q
    unfold weights
    rw [List.map_singleton]
    congr 1
    funext us
    exact hwt q us
  rw [hweights]
  have hind : Measurable ((lastIn y').indicator (1 : Conf → ℝ≥0∞)) :=
    measurable_one.indicator (lastIn_measurable y')
  simp only [List.reverse_singleton, avgP, lintegral_const, measure_univ, mul_one]
  rw [growth (reduce_measurable ok.geo) (cell_measurable ok.geo) (fun x => (reduction ok.geo).mem x)
    [S] (by intro s' h; rw [List.mem_singleton.1 h]; exact hSok) (List.pairwise_singleton _ _) s.pos
    (by
      intro s' h
      rw [List.mem_singleton.1 h, hSb]
      exact hmem 1 (by rw [hw]; simp [tri])) _ (by
      refine (hind.comp measurable_fst).mul (ENNReal.measurable_ofReal.comp ?_)
      exact measurable_const.min (measurable_snd.div_const _))]
  simp only [List.map_singleton, hweights, sweep, avgP, lintegral_const, measure_univ, mul_one, product,
    List.prod_singleton, hφ, ENNReal.ofReal_one, div_one, min_self, Nat.cast_one, zero_add, one_mul, hSa]
  have hψ : ∀ x, S.ψ (Function.update s.pos 2 x) * (lastIn y').indicator 1 (Function.update s.pos 2 x) =
      (box y').indicator (fun _ => 1 * (area Set.univ)⁻¹) x := by
    intro x
    have hq1 : Function.update s.pos 2 x 1 = centre := by
      rw [Function.update_of_ne (by norm_num)]; exact hq.1
    have hq2 : Function.update s.pos 2 x 2 = x := Function.update_self _ _ _
    by_cases hx : x ∈ box y'
    · rw [Set.indicator_of_mem (show Function.update s.pos 2 x ∈ lastIn y' from
        ⟨hq1, by rw [hq2]; exact hx⟩), Set.indicator_of_mem hx, Pi.one_apply, mul_one, hS]
      change 1 * (area Set.univ)⁻¹ * (ite (w.dsq (Function.update s.pos 2 x (c.atom 2))
        (Function.update s.pos 2 x (c.atom (2 - 1))) < (1 / 2) ^ 2) _ _) = _
      have hd : w.dsq = Ortho.default.distanceSq := by rw [hw]; rfl
      rw [hatom, hatom', hq1, hq2, hd, if_pos (box_dsq hy' hx).2]
      have : ∀ x t, c.bondE x t = 0 := by intro x t; rw [hc]; rfl
      rw [this, mul_zero, Real.exp_zero, ENNReal.ofReal_one, mul_one]
    · rw [Set.indicator_of_notMem (fun h : Function.update s.pos 2 x ∈ lastIn y' => hx (by
        have := h.2; rwa [hq2] at this)), Set.indicator_of_notMem hx, mul_zero]
  simp only [hψ]
  rw [lintegral_indicator (box_measurable y'), Measure.restrict_restrict (box_measurable y'),
    setLIntegral_const, one_mul, Set.inter_eq_left.2 (fun x hx => by rw [hgen]; exact box_cell hy' hx)]

/-- The flow, if the energy is constant in the cube. -/
theorem free_flow (hb : LocalTerms bonded) (hl : LocalTerms links) (hm : ∀ t, Measurable fun x => angleE x t)
    (h0 : ∀ x, angleE x 0 = 0) {st : Conf → Sys}
    (hst : ∀ q, (∀ b ∈ (tri (fun _ _ _ => 0) bonded links).atoms,
        q b ∈ cell (tri (fun _ _ _ => 0) bonded links).gen) →
      (st q).pos = q ∧ (st q).typ = (fun _ => 0) ∧
        At (tri (fun _ _ _ => 0) bonded links) Ortho.default.lengths (1 / 4) (st q).cells q)
    {p : Conf} (hp : ∀ b, p b ∈ cell Ortho.default.toGen) (hp1 : p 1 = centre) {y y' : Vec}
    (hy : y = right ∨ y = left) (hy' : y' = right ∨ y' = left) {E : ℝ}
    (hE : ∀ x ∈ box y, (bonded.map fun t => t.energy (Function.update p 2 x)).sum +
      (links.map fun t => t.energy (Function.update p 2 x)).sum = E) :
    endFlow (tri (fun _ _ _ => 0) bonded links) (triChain angles aty (fun _ _ => 0) angleE) 1 0 1 (1 / 2)
      (triLaw fun _ _ => 0) st (lastIn y) (lastIn y') p =
      ENNReal.ofReal (Real.exp (-E)) * (1 * (area Set.univ)⁻¹ * volume (box y')) * volume (box y) := by
  unfold endFlow
  rw [grown_two]
  simp only [List.map_singleton, sweep]
  change ∫⁻ x in cell Ortho.default.toGen, (lastIn y).indicator 1 (Function.update p 2 x) *
    boltzmannWeight _ (st (Function.update p 2 x)) * moveProb _ _ _ _ _ _ _ _ (st (Function.update p 2 x)) = _
  rw [setLIntegral_congr_fun (g := (box y).indicator fun _ =>
    ENNReal.ofReal (Real.exp (-E)) * (1 * (area Set.univ)⁻¹ * volume (box y')))
    (cell_measurable (geo_ortho .default)) (fun x hx => ?_)]
  · rw [lintegral_indicator (box_measurable y), Measure.restrict_restrict (box_measurable y),
      setLIntegral_const, Set.inter_eq_left.2 (fun x hx => box_cell hy hx)]
  · have hq2 : Function.update p 2 x 2 = x := Function.update_self _ _ _
    by_cases hxb : x ∈ box y
    · have hin : Function.update p 2 x ∈ lastIn y := ⟨by
        rw [Function.update_of_ne (by norm_num)]; exact hp1, by rw [hq2]; exact hxb⟩
      obtain ⟨g1, g2, g3⟩ := hst (Function.update p 2 x) (by
        intro b _
        by_cases hb2 : b = 2
        · rw [hb2, hq2]; exact hx
        · rw [Function.update_of_ne hb2]; exact hp b)
      rw [Set.indicator_of_mem hin, Set.indicator_of_mem hxb, Pi.one_apply, one_mul,
        free_prob hb hl hm h0 (by rw [g1]; exact g3) g2 hy hy' (by rw [g1]; exact hin)]
      congr 2
      unfold boltzmannWeight
      have hen : energy (tri (fun _ _ _ => 0) bonded links) (Function.update p 2 x) (fun _ => 0) = E := by
        rw [← hE x hxb]
        simp [energy, pairE, tri]
      rw [g1, g2, hen]
      simp [tri]
    · rw [Set.indicator_of_notMem (fun h : Function.update p 2 x ∈ lastIn y => hxb (by
        have := h.2; rwa [hq2] at this)), Set.indicator_of_notMem hxb]
      simp

/-- Positions of the first two atoms. -/
noncomputable def start : Conf := fun a => if a = 0 then left else centre

theorem start_cell (b : ℕ) : start b ∈ cell Ortho.default.toGen := by
  refine demo_unit fun i => ?_
  unfold start
  split
  · fin_cases i <;> norm_num [left]
  · norm_num [centre]

/-- Different energies in the two cubes. -/
theorem unbalanced (hb : LocalTerms bonded) (hl : LocalTerms links) (hm : ∀ t, Measurable fun x => angleE x t)
    (h0 : ∀ x, angleE x 0 = 0) {E E' : ℝ} (hne : E ≠ E')
    (hE : ∀ x ∈ box right, (bonded.map fun t => t.energy (Function.update start 2 x)).sum +
      (links.map fun t => t.energy (Function.update start 2 x)).sum = E)
    (hE' : ∀ x ∈ box left, (bonded.map fun t => t.energy (Function.update start 2 x)).sum +
      (links.map fun t => t.energy (Function.update start 2 x)).sum = E') : ∃ st : Conf → Sys,
    (∀ q, (∀ b ∈ (tri (fun _ _ _ => 0) bonded links).atoms,
        q b ∈ cell (tri (fun _ _ _ => 0) bonded links).gen) →
      (st q).pos = q ∧ (st q).typ = (fun _ => 0) ∧
        At (tri (fun _ _ _ => 0) bonded links) Ortho.default.lengths (1 / 4) (st q).cells q) ∧
    endFlow (tri (fun _ _ _ => 0) bonded links) (triChain angles aty (fun _ _ => 0) angleE) 1 0 1 (1 / 2)
      (triLaw fun _ _ => 0) st (lastIn right) (lastIn left) start ≠
    endFlow (tri (fun _ _ _ => 0) bonded links) (triChain angles aty (fun _ _ => 0) angleE) 1 0 1 (1 / 2)
      (triLaw fun _ _ => 0) st (lastIn left) (lastIn right) start := by
  obtain ⟨st, hst⟩ := tri_state (pair := fun _ _ _ => 0) (bonded := bonded) (links := links)
  refine ⟨st, hst, ?_⟩
  have h1 : start 1 = centre := by simp [start]
  rw [free_flow hb hl hm h0 hst start_cell h1 (Or.inl rfl) (Or.inr rfl) hE,
    free_flow hb hl hm h0 hst start_cell h1 (Or.inr rfl) (Or.inl rfl) hE', box_volume, box_volume]
  intro h
  have hv : ENNReal.ofReal (1 / 10) ^ 3 ≠ 0 :=
    pow_ne_zero _ (by rw [Ne, ENNReal.ofReal_eq_zero, not_le]; norm_num)
  have hv' : ENNReal.ofReal (1 / 10) ^ 3 ≠ ∞ := ENNReal.pow_ne_top ENNReal.ofReal_ne_top
  have hk : 1 * (area Set.univ)⁻¹ * ENNReal.ofReal (1 / 10) ^ 3 ≠ 0 := by
    rw [one_mul]
    exact mul_ne_zero (ENNReal.inv_ne_zero.2 area_ne_top) hv
  have hk' : 1 * (area Set.univ)⁻¹ * ENNReal.ofReal (1 / 10) ^ 3 ≠ ∞ := by
    rw [one_mul]
    exact ENNReal.mul_ne_top (ENNReal.inv_ne_top.2 area_ne_zero) hv'
  rw [ENNReal.mul_left_inj hv hv', ENNReal.mul_left_inj hk hk',
    ENNReal.ofReal_eq_ofReal_iff (Real.exp_pos _).le (Real.exp_pos _).le, Real.exp_eq_exp] at h
  exact hne (by linarith)

end

/-- **C62, violated by links.**  A link of the last atom of a chain (here with an energy of 1 if the
atoms are close in one direction) is ignored by the move; flows from `A` to `B` and back differ
although all other hypotheses of `C62_end_partial` are met. -/
theorem C62_links_violated : ∃ (link : Term) (st : Conf → Sys) (A B : Set Conf) (p : Conf),
    (tri (fun _ _ _ => 0) [] [link]).OK Ortho.default.lengths Ortho.default.bravais (1 / 4) ∧
    (∀ q, (∀ b ∈ (tri (fun _ _ _ => 0) [] [link]).atoms,
        q b ∈ cell (tri (fun _ _ _ => 0) [] [link]).gen) →
      (st q).pos = q ∧ (st q).typ = (fun _ => 0) ∧
        At (tri (fun _ _ _ => 0) [] [link]) Ortho.default.lengths (1 / 4) (st q).cells q) ∧
    (∀ b, p b ∈ cell Ortho.default.toGen) ∧ MeasurableSet A ∧ MeasurableSet B ∧
    A ⊆ Short (tri (fun _ _ _ => 0) [] [link]) (triChain false 0 (fun _ _ => 0) (fun _ _ => 0)) 1 1 (1 / 2) ∧
    B ⊆ Short (tri (fun _ _ _ => 0) [] [link]) (triChain false 0 (fun _ _ => 0) (fun _ _ => 0)) 1 1 (1 / 2) ∧
    endFlow (tri (fun _ _ _ => 0) [] [link]) (triChain false 0 (fun _ _ => 0) (fun _ _ => 0)) 1 0 1 (1 / 2)
      (triLaw fun _ _ => 0) st A B p ≠
    endFlow (tri (fun _ _ _ => 0) [] [link]) (triChain false 0 (fun _ _ => 0) (fun _ _ => 0)) 1 0 1 (1 / 2)
      (triLaw fun _ _ => 0) st B A p := by
  classical
  obtain ⟨link, hlink⟩ : ∃ l : Term, l = ⟨[0, 2], fun p => if p 2 0 - p 0 0 < 1 / 5 then 1 else 0⟩ := ⟨_, rfl⟩
  have hl : LocalTerms [link] := by
    intro x hx p p' h
    rw [List.mem_singleton.1 hx, hlink] at h ⊢
    dsimp only at h ⊢
    rw [h 0 (by simp), h 2 (by simp)]
  have hb : LocalTerms [] := by intro x hx; cases hx
  have hs0 : ∀ x : Vec, Function.update start 2 x 0 0 = 3 / 10 := fun x => by
    rw [Function.update_of_ne (by norm_num)]; simp [start, left]
  have hs2 : ∀ x : Vec, Function.update start 2 x 2 = x := fun x => Function.update_self _ _ _
  obtain ⟨st, h1, h2⟩ := unbalanced (angles := false) (aty := 0) (bonded := []) (links := [link])
    (angleE := fun _ _ => 0) hb hl (fun _ => measurable_const) (fun _ => rfl) (E := 0) (E' := 1)
    (by norm_num) (by
      intro x hx
      have h := hx 0 (Set.mem_univ _)
      rw [hlink]
      simp only [List.map_nil, List.sum_nil, List.map_singleton, List.sum_singleton, hs0, hs2]
      rw [if_neg, add_zero]
      rw [Set.mem_Ioo] at h
      simp [right] at h ⊢
      linarith) (by
      intro x hx
      have h := hx 0 (Set.mem_univ _)
      rw [hlink]
      simp only [List.map_nil, List.sum_nil, List.map_singleton, List.sum_singleton, hs0, hs2]
      rw [if_pos, zero_add]
      rw [Set.mem_Ioo] at h
      simp [left] at h ⊢
      linarith)
  exact ⟨link, st, lastIn right, lastIn left, start, tri_ok (fun _ _ _ _ => rfl) (fun _ _ _ => rfl) hb hl, h1,
    start_cell, lastIn_measurable _, lastIn_measurable _, lastIn_short (Or.inl rfl),
    lastIn_short (Or.inr rfl), h2⟩

/-- Bending energy of angles of type 1. -/
noncomputable def bend : ℝ → ℕ → ℝ := by
  classical exact fun x t => if t = 1 ∧ x ≤ 0 then 1 else 0

/-- **C62, violated by the types of angles.**  If angles and bonds are numbered differently (here
angles have the type 1 and bonds the type 0), the move computes the energy of angles of another
type, and flows from `A` to `B` and back differ.  The system has no interactions but the angle of
the chain. -/
theorem C62_angles_violated : ∃ (angle : Term) (st : Conf → Sys) (A B : Set Conf) (p : Conf),
    (tri (fun _ _ _ => 0) [angle] []).OK Ortho.default.lengths Ortho.default.bravais (1 / 4) ∧
    (∀ p, angle.energy p = angleTerm (tri (fun _ _ _ => 0) [angle] [])
      (triChain true 1 (fun _ _ => 0) bend) p 0) ∧
    (∀ q, (∀ b ∈ (tri (fun _ _ _ => 0) [angle] []).atoms,
        q b ∈ cell (tri (fun _ _ _ => 0) [angle] []).gen) →
      (st q).pos = q ∧ (st q).typ = (fun _ => 0) ∧
        At (tri (fun _ _ _ => 0) [angle] []) Ortho.default.lengths (1 / 4) (st q).cells q) ∧
    (∀ b, p b ∈ cell Ortho.default.toGen) ∧ MeasurableSet A ∧ MeasurableSet B ∧
    A ⊆ Short (tri (fun _ _ _ => 0) [angle] []) (triChain true 1 (fun _ _ => 0) bend) 1 1 (1 / 2) ∧
    B ⊆ Short (tri (fun _ _ _ => 0) [angle] []) (triChain true 1 (fun _ _ => 0) bend) 1 1 (1 / 2) ∧
    endFlow (tri (fun _ _ _ => 0) [angle] []) (triChain true 1 (fun _ _ => 0) bend) 1 0 1 (1 / 2)
      (triLaw fun _ _ => 0) st A B p ≠
    endFlow (tri (fun _ _ _ => 0) [angle] []) (triChain true 1 (fun _ _ => 0) bend) 1 0 1 (1 / 2)
      (triLaw fun _ _ => 0) st B A p := by
  classical
  obtain ⟨angle, hangle⟩ : ∃ l : Term, l = ⟨[0, 1, 2], fun p => bend (dot
      ((Real.sqrt (Ortho.default.distanceSq (p 0) (p 1)))⁻¹ • Ortho.default.separation (p 0) (p 1))
      ((Real.sqrt (Ortho.default.distanceSq (p 1) (p 2)))⁻¹ • Ortho.default.separation (p 1) (p 2))) 1⟩ :=
    ⟨_, rfl⟩
  have hb : LocalTerms [angle] := by
    intro x hx p p' h
    rw [List.mem_singleton.1 hx, hangle] at h ⊢
    dsimp only at h ⊢
    rw [h 0 (by simp), h 1 (by simp), h 2 (by simp)]
  have hl : LocalTerms [] := by intro x hx; cases hx
  have hs0 : ∀ x : Vec, Function.update start 2 x 0 = left := fun x => by
    rw [Function.update_of_ne (by norm_num)]; simp [start]
  have hs1 : ∀ x : Vec, Function.update start 2 x 1 = centre := fun x => by
    rw [Function.update_of_ne (by norm_num)]; simp [start]
  have hs2 : ∀ x : Vec, Function.update start 2 x 2 = x := fun x => Function.update_self _ _ _
  have hsep0 : Ortho.default.separation left centre = left - centre := near_separation fun i => by
    fin_cases i <;> simp [left, centre] <;> rw [abs_le] <;> constructor <;> norm_num
  have hd0 : 0 < Ortho.default.distanceSq left centre := by
    rw [near_distanceSq fun i => by
      fin_cases i <;> simp [left, centre] <;> rw [abs_le] <;> constructor <;> norm_num]
    have l2 : left 2 = 1 / 2 := rfl
    rw [l2]
    norm_num [left, centre]
  have hen : ∀ y x, y = right ∨ y = left → x ∈ box y →
      angle.energy (Function.update start 2 x) = if x 0 ≤ 1 / 2 then 1 else 0 := by
    intro y x hy hx
    have hd := (box_dsq hy hx).1
    rw [hangle]
    dsimp only
    rw [hs0, hs1, hs2, hsep0, near_separation fun i => by
      rw [abs_sub_comm]; exact (box_near hy hx i).trans (by norm_num)]
    have hd1 : 0 < Ortho.default.distanceSq centre x := by rwa [dsymm_ortho .default]
    have e1 : ∀ a b : ℝ, dot (a • (left - centre)) (b • (centre - x)) = a * b * (1 / 5) * (x 0 - 1 / 2) := by
      intro a b
      have l0 : left 0 = 3 / 10 := rfl
      have l1 : left 1 = 1 / 2 := rfl
      have l2 : left 2 = 1 / 2 := rfl
      simp only [dot, Pi.smul_apply, Pi.sub_apply, smul_eq_mul, l0, l1, l2, centre]
      ring
    rw [e1]
    unfold bend
    have hp1 := inv_pos.2 (Real.sqrt_pos.2 hd0)
    have hp2 := inv_pos.2 (Real.sqrt_pos.2 hd1)
    congr 1
    simp only [true_and, eq_iff_iff]
    have hpp : 0 < (√(Ortho.default.distanceSq left centre))⁻¹ *
      (√(Ortho.default.distanceSq centre x))⁻¹ * (1 / 5) := by positivity
    constructor
    · intro h
      by_contra hx0
      push Not at hx0
      have := mul_pos hpp (sub_pos.2 hx0)
      linarith
    · intro h
      exact mul_nonpos_of_nonneg_of_nonpos hpp.le (by linarith)
  obtain ⟨st, h1, h2⟩ := unbalanced (angles := true) (aty := 1) (bonded := [angle]) (links := [])
    (angleE := bend) hb hl (fun t => by
      unfold bend
      refine Measurable.ite ?_ measurable_const measurable_const
      by_cases ht : t = 1
      · simp only [ht, true_and]; exact measurableSet_Iic
      · simp only [ht, false_and]; exact MeasurableSet.empty) (fun x => by simp [bend]) (E := 0) (E' := 1)
    (by norm_num) (by
      intro x hx
      have h := hx 0 (Set.mem_univ _)
      simp only [List.map_nil, List.sum_nil, List.map_singleton, List.sum_singleton]
      rw [hen right x (Or.inl rfl) hx, if_neg, add_zero]
      rw [Set.mem_Ioo] at h
      simp [right] at h ⊢
      linarith) (by
      intro x hx
      have h := hx 0 (Set.mem_univ _)
      simp only [List.map_nil, List.sum_nil, List.map_singleton, List.sum_singleton]
      rw [hen left x (Or.inr rfl) hx, if_pos, add_zero]
      rw [Set.mem_Ioo] at h
      simp [left] at h ⊢
      linarith)
  exact ⟨angle, st, lastIn right, lastIn left, start, tri_ok (fun _ _ _ _ => rfl) (fun _ _ _ => rfl) hb hl,
    fun p => by rw [hangle]; rfl, h1, start_cell, lastIn_measurable _, lastIn_measurable _,
    lastIn_short (Or.inl rfl), lastIn_short (Or.inr rfl), h2⟩

end Verif.Cfb
