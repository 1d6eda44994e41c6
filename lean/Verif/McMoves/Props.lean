/-
C39, C40: the hypotheses hold for both boundaries; examples; moves that do not
satisfy detailed balance.
-/
import Verif.McMoves.Seq
import Verif.Cluster.Cells

set_option autoImplicit false

namespace Verif.McMoves

open Verif.Boundary Verif.McCellList Verif.McCell MeasureTheory
open Verif.Cpp
open Verif.Cpp.Out
open scoped ENNReal

variable {w : World} {lengths : Vec} {bravais : Fin 3 → Vec} {cutoff : ℝ}

/-! ### Boundaries -/

theorem image1_neg (half len dr : ℝ) (hh : 0 ≤ half) :
    (image1 half len (-dr)).1 = -(image1 half len dr).1 := by
  unfold image1
  rw [abs_neg]
  by_cases h : |dr| > half
  · have hne : dr ≠ 0 := by rintro rfl; simp at h; linarith
    by_cases hp : dr > 0
    · have : ¬ -dr > 0 := by linarith
      simp only [h, hp, this, if_true, if_false]; ring
    · have : -dr > 0 := by
        rcases lt_or_gt_of_ne hne with h | h
        · linarith
        · exact absurd h hp
      simp only [h, hp, this, if_true, if_false]; ring
  · simp only [h, if_false]

/-- `distanceSq` does not depend on the order of the positions. -/
theorem dsymm_ortho {b : Ortho} (hb : b.Reach) (r r' : Vec) :
    b.distanceSq r r' = b.distanceSq r' r := by
  have hh : ∀ i, 0 ≤ b.half i := fun i => by
    rw [hb.ok.half]; have := hb.ok.pos i; linarith
  have e : ∀ i, b.separation r r' i = -b.separation r' r i := fun i => by
    unfold Ortho.separation
    rw [← image1_neg _ _ _ (hh i), neg_sub]
  unfold Ortho.distanceSq
  simp only [e]
  ring

theorem dsymm_mono {b : Mono} (hb : b.Reach) (r r' : Vec) :
    b.distanceSq r r' = b.distanceSq r' r := by
  have hh : ∀ i, 0 ≤ b.half i := fun i => by
    rw [hb.ok.half]; have := hb.ok.pos i; linarith
  have e : ∀ i, (b.image r r').1 i = -(b.image r' r).1 i := by
    have h0 := image1_neg (b.half 0) (b.l 0) (r' 0 - r 0) (hh 0)
    rw [neg_sub] at h0
    have h1 := hh 1
    have h2 := hh 2
    have ey : r 1 - r' 1 = -(r' 1 - r 1) := by ring
    have ez : r 2 - r' 2 = -(r' 2 - r 2) := by ring
    have eu : r 2 - r' 2 + b.c3 * (r 1 - r' 1) = -(r' 2 - r 2 + b.c3 * (r' 1 - r 1)) := by ring
    intro i
    unfold Mono.image
    dsimp only
    rw [eu, ey, ez]
    generalize r' 1 - r 1 = y at *
    generalize r' 2 - r 2 = z at *
    generalize z + b.c3 * y = u at *
    simp only [abs_neg]
    have hy : |y| > b.half 1 → (¬ -y > 0 ↔ y > 0) := fun h => by
      have hne : y ≠ 0 := by rintro rfl; simp at h; linarith
      constructor
      · intro h'; rcases lt_or_gt_of_ne hne with h | h
        · exact absurd (by linarith) h'
        · exact h
      · intro h'; linarith
    have hu : |u| > b.half 2 → (¬ -u > 0 ↔ u > 0) := fun h => by
      have hne : u ≠ 0 := by rintro rfl; simp at h; linarith
      constructor
      · intro h'; rcases lt_or_gt_of_ne hne with h | h
        · exact absurd (by linarith) h'
        · exact h
      · intro h'; linarith
    by_cases c1 : |y| > b.half 1 <;> by_cases c2 : |u| > b.half 2 <;>
      by_cases c3 : -y > 0 <;> by_cases c4 : -u > 0 <;>
      first
      | (have d3 := fun h => (hy h); have d4 := fun h => (hu h)
         simp only [c1, c2, c3, c4, not_true_eq_false, not_false_eq_true, false_iff, true_iff,
           forall_const, true_implies] at d3 d4
         fin_cases i
         · simpa using h0
         · simp [c1, c2, c3, c4, d3, d4] <;> ring
         · simp [c1, c2, c3, c4, d3, d4] <;> ring)
      | (fin_cases i
         · simpa using h0
         · simp [c1, c2, c3, c4] <;> ring
         · simp [c1, c2, c3, c4] <;> ring)
  unfold Mono.distanceSq
  simp only [e]
  ring

/-- Displacements that are at most one period along every axis are wrapped. -/
theorem wraps_of (g : Geo w.gen lengths bravais) {δ : ℝ}
    (hs : ∀ r, NearCell (fun _ => 1) (w.gen r) →
      InUnit (w.gen (w.shift r)) ∧ ∃ k : IVec, r = w.shift r + latComb bravais k)
    (hd : ∀ u ∈ displacements δ, ∀ i, |w.gen u i| ≤ 1) : Wraps w bravais δ := by
  intro r hr u hu
  have hadd : w.gen (r + u) = w.gen r + w.gen u := by
    have h0 : w.gen 0 = 0 := by simpa using gen_sub g 0 0
    have h1 := gen_sub g r (-u)
    have h2 := gen_sub g 0 u
    rw [zero_sub, h0, zero_sub] at h2
    rw [sub_neg_eq_add, h2, sub_neg_eq_add] at h1
    exact h1
  obtain ⟨h1, k, h2⟩ := hs (r + u) (by
    intro i
    rw [hadd]
    have h3 := hr i
    have h4 := abs_le.1 (hd u hu i)
    simp only [Pi.add_apply]
    constructor <;> linarith [h3.1, h3.2, h4.1, h4.2])
  refine ⟨h1, mem_lattice.2 ⟨-k, ?_⟩⟩
  rw [latComb_neg]
  nth_rewrite 2 [h2]
  abel

/-- C23 supplies the wrapping for an orthorhombic cell. -/
theorem wraps_ortho {b : Ortho} (hb : b.Reach) (hg : w.gen = b.toGen) (hs : w.shift = b.shift)
    {δ : ℝ} (hδ : ∀ i, δ ≤ b.lengths i) : Wraps w b.bravais δ := by
  have hpos := hb.ok.pos
  have hgi : ∀ r i, b.toGen r i = r i / b.lengths i := fun r i => by
    simp only [Ortho.toGen, hb.ok.inv]; rw [div_eq_mul_inv]
  refine wraps_of (lengths := b.lengths) (by rw [hg]; exact geo_ortho hb) ?_ ?_
  · intro r hr
    rw [hg] at hr ⊢
    rw [hs]
    obtain ⟨h1, k, h2⟩ := C23_ortho_shift hb r (fun i => by
      have := hr i
      rw [hgi] at this
      have hp := hpos i
      rw [le_div_iff₀ hp, div_lt_iff₀ hp] at this
      constructor <;> linarith [this.1, this.2])
    refine ⟨fun i => ?_, k, by rw [hb.ok.latComb_eq]; exact h2⟩
    have hp := hpos i
    rw [hgi, le_div_iff₀ hp, div_lt_iff₀ hp]
    have := h1 i
    constructor <;> linarith [this.1, this.2]
  · intro u hu i
    rw [hg, hgi, abs_div, abs_of_pos (hpos i), div_le_one (hpos i)]
    have := hu i (Set.mem_univ i)
    simp only [Set.mem_Ico] at this
    rw [abs_le]
    constructor <;> linarith [this.1, this.2, hδ i]

/-- C23 supplies the wrapping for a monoclinic cell. -/
theorem wraps_mono {b : Mono} (hb : b.Reach) (hg : w.gen = b.toGen) (hs : w.shift = b.shift)
    {δ : ℝ} (h0 : δ ≤ b.l 0) (h1 : δ ≤ b.l 1) (h2 : δ * (1 + |b.c3|) ≤ b.l 2) :
    Wraps w b.bravais δ := by
  have hpos := hb.ok.pos
  refine wraps_of (lengths := b.lengths) (by rw [hg]; exact geo_mono hb) ?_ ?_
  · intro r hr
    rw [hg] at hr ⊢
    rw [hs]
    exact C23_mono_shift hb r hr
  · intro u hu
    have hu' : ∀ i, |u i| ≤ δ := fun i => by
      have := hu i (Set.mem_univ i)
      simp only [Set.mem_Ico] at this
      rw [abs_le]
      constructor <;> linarith [this.1, this.2]
    have p0 := hpos 0
    have p1 := hpos 1
    have p2 := hpos 2
    rw [hg]
    intro i
    fin_cases i
    · simp only [Mono.toGen, hb.ok.inv]
      change |u 0 * (b.l 0)⁻¹| ≤ 1
      rw [← div_eq_mul_inv, abs_div, abs_of_pos p0, div_le_one p0]
      linarith [hu' 0]
    · simp only [Mono.toGen, hb.ok.inv]
      change |u 1 * (b.l 1)⁻¹| ≤ 1
      rw [← div_eq_mul_inv, abs_div, abs_of_pos p1, div_le_one p1]
      linarith [hu' 1]
    · simp only [Mono.toGen, hb.ok.inv]
      change |(u 2 + b.c3 * u 1) * (b.l 2)⁻¹| ≤ 1
      rw [← div_eq_mul_inv, abs_div, abs_of_pos p2, div_le_one p2]
      calc |u 2 + b.c3 * u 1| ≤ |u 2| + |b.c3 * u 1| := abs_add_le _ _
        _ = |u 2| + |b.c3| * |u 1| := by rw [abs_mul]
        _ ≤ δ + |b.c3| * δ := by
          have := mul_le_mul_of_nonneg_left (hu' 1) (abs_nonneg b.c3)
          linarith [hu' 2]
        _ = δ * (1 + |b.c3|) := by ring
        _ ≤ b.l 2 := h2

/-- A cell list for given positions exists: clear it and add the atoms. -/
theorem at_exists (hc : 0 < cutoff) (hcap : w.atoms.card < w.cellCap)
    (p : ℕ → Vec) (hp : ∀ a ∈ w.atoms, InUnit (w.gen (p a))) : ∃ c, At w lengths cutoff c p := by
  obtain ⟨s0, hs⟩ := (setup_isSome lengths cutoff).2 hc
  have hn : s0.n = grid lengths cutoff := by
    unfold setup at hs
    rw [if_neg (by linarith)] at hs
    simp only at hs
    split at hs
    · cases hs
    · cases hs; rfl
  have hal : AllowedHist w.gen w.cellCap s0.n ⟨∅, fun _ _ => 0⟩
      (w.atoms.toList.map fun a => Op.add a (p a)) := by
    refine Cluster.adds_allowed _ p _ (by simp) w.atoms.nodup_toList (by simp)
      (fun a ha => hp a (Finset.mem_toList.1 ha)) ?_
    intro c T hT
    refine lt_of_le_of_lt (Finset.card_le_card fun a ha => ?_) hcap
    simpa using (hT a ha).1
  have hrun := Cluster.adds_run w.atoms.toList p ⟨∅, fun _ _ => 0⟩ (by simp)
  obtain ⟨s, -, h2, h3⟩ := run_rel (A := ⟨∅, fun _ _ => 0⟩) (rel_setup hs _) hal
  have hS : ((w.atoms.toList.map fun a => Op.add a (p a)).foldl Abs.step
      (⟨∅, fun _ _ => 0⟩ : Abs)).S = w.atoms := by
    rw [hrun.1]; simp
  refine ⟨s, At.congr (q := ((w.atoms.toList.map fun a => Op.add a (p a)).foldl Abs.step
    (⟨∅, fun _ _ => 0⟩ : Abs)).pos) ⟨?_, by rw [h2, hn]⟩ fun a ha => hrun.2 a (by rw [hS]; exact ha)⟩
  rw [hS] at h3
  exact h3

/-! ### A small world -/

/-- Two atoms in one molecule, in the unit cube; an attractive potential with
cutoff 1/4. -/
noncomputable def demo (mask : Bool) (ext : Vec → ℕ → ℝ) : World where
  atoms := {0, 1}
  molAtoms m := if m = 0 then [0, 1] else []
  molOf _ := 0
  masked _ _ := mask
  pair x _ _ := if x < 1 / 16 then 16 * x - 1 else 0
  bonded := []
  links := []
  ext := ext
  tether _ _ := 0
  beta := 1
  gen := Ortho.default.toGen
  shift := Ortho.default.shift
  dsq := Ortho.default.distanceSq
  cellCap := 61
  stateType := ![0, 1]
  weight _ := 1

theorem demo_ok (mask : Bool) (ext : Vec → ℕ → ℝ) :
    (demo mask ext).OK Ortho.default.lengths Ortho.default.bravais (1 / 4) where
  geo := geo_ortho .default
  dist := dist_ortho .default
  dsymm := dsymm_ortho .default
  cut := by norm_num
  range := by
    intro x t t' h
    change (if x < 1 / 16 then 16 * x - 1 else 0) = 0
    rw [if_neg (by norm_num at h ⊢; exact h)]
  psymm := fun _ _ _ => rfl
  msymm := fun _ _ => rfl
  molMem := by
    intro m a ha
    change a ∈ (if m = 0 then [0, 1] else []) at ha
    split at ha
    · next hm =>
      subst hm
      refine ⟨?_, rfl⟩
      change a ∈ ({0, 1} : Finset ℕ)
      simpa using ha
    · simp at ha
  molAll := by
    intro a ha
    change a ∈ ({0, 1} : Finset ℕ) at ha
    change a ∈ (if (0 : ℕ) = 0 then [0, 1] else [])
    simpa using ha
  molNodup := by
    intro m
    change (if m = 0 then [0, 1] else [] : List ℕ).Nodup
    split <;> simp
  bonded := by intro x hx; cases hx
  links := by intro x hx; cases hx

theorem demo_card (mask : Bool) (ext : Vec → ℕ → ℝ) :
    (demo mask ext).atoms.card < (demo mask ext).cellCap := by
  change ({0, 1} : Finset ℕ).card < 61
  decide

theorem demo_wraps (mask : Bool) (ext : Vec → ℕ → ℝ) :
    Wraps (demo mask ext) Ortho.default.bravais (1 / 4) :=
  wraps_ortho .default rfl rfl fun i => by simp [Ortho.default]; norm_num

theorem demo_unit {r : Vec} (h : ∀ i, 0 ≤ r i ∧ r i < 1) : InUnit (Ortho.default.toGen r) := by
  intro i
  simpa [Ortho.toGen, Ortho.default] using h i

theorem demo_cell {r : Vec} (mask : Bool) (ext : Vec → ℕ → ℝ) (h : r ∈ cell (demo mask ext).gen) :
    ∀ i, 0 ≤ r i ∧ r i < 1 := by
  intro i
  simpa [cell, InUnit, demo, Ortho.toGen, Ortho.default] using h i

/-- States of the small world exist for all positions in the cell. -/
theorem demo_state (mask : Bool) (ext : Vec → ℕ → ℝ) (p : ℕ → Vec) (t : ℕ → ℕ)
    (x : ℕ → Option (Fin 2)) (hp : ∀ a, ∀ i, 0 ≤ p a i ∧ p a i < 1) :
    ∃ s : Sys, s.pos = p ∧ s.typ = t ∧ s.state = x ∧
      At (demo mask ext) Ortho.default.lengths (1 / 4) s.cells s.pos := by
  obtain ⟨c, hc⟩ := at_exists (w := demo mask ext) (lengths := Ortho.default.lengths)
    (cutoff := 1 / 4) (by norm_num) (demo_card mask ext) p fun a _ => demo_unit (hp a)
  exact ⟨⟨p, t, c, 0, 0, x, fun _ => 0⟩, rfl, rfl, rfl, hc⟩

/-- The hypotheses of `C39_sequence` are met: a rigid move, a displacement and a
swap of two atoms. -/
example : ∃ s s' : Sys, ∃ bs, Good (demo false fun _ _ => 0) Ortho.default.lengths (1 / 4) id
      (fun _ => False) s ∧ runMoves (demo false fun _ _ => 0)
      [(.rigid 0 fun _ => 1 / 8, 1 / 2), (.atom 1 fun _ => -1 / 8, 1 / 3), (.swap 0 [0, 1], 0)] s =
        .ok (s', bs) ∧ s'.nAttempt = s.nAttempt + 3 := by
  obtain ⟨s, h1, h2, h3, h4⟩ := demo_state false (fun _ _ => 0)
    (fun a i => if a = 0 then 1 / 2 else 9 / 16) id (fun _ => none) (by
      intro a i; split <;> norm_num)
  have hg : Good (demo false fun _ _ => 0) Ortho.default.lengths (1 / 4) id (fun _ => False) s :=
    ⟨h4, fun _ h => h.elim, fun _ _ a _ => by rw [h2]⟩
  have hd : ∀ x : ℝ, -(1 / 4) ≤ x → x < 1 / 4 → (fun _ => x : Vec) ∈ displacements (1 / 4) :=
    fun x h1 h2 i _ => ⟨h1, h2⟩
  obtain ⟨s', bs, h5, -, -, -, h6, -⟩ := C39_sequence (demo_ok false _) (demo_wraps false _)
    (demo_card false _)
    [(.rigid 0 fun _ => 1 / 8, 1 / 2), (.atom 1 fun _ => -1 / 8, 1 / 3), (.swap 0 [0, 1], 0)] s hg (by
      intro x hx
      simp only [List.mem_cons, List.not_mem_nil, or_false] at hx
      rcases hx with rfl | rfl | rfl
      · exact hd _ (by norm_num) (by norm_num)
      · exact ⟨by simp [demo], hd _ (by norm_num) (by norm_num)⟩
      · exact ⟨id, by simp [demo]⟩)
  exact ⟨s, s', bs, hg, h5, h6⟩

/-- The hypotheses of `C40_atom` are met: one atom is fixed, the other one may be
anywhere in the cell. -/
example (A B : Set Vec) : ∃ st, (∀ r ∈ cell (demo false fun _ _ => 0).gen, (st r).pos 1 = r) ∧
    atomFlow (demo false fun _ _ => 0) 1 (1 / 4) st A B =
      atomFlow (demo false fun _ _ => 0) 1 (1 / 4) st B A := by
  classical
  have h : ∀ r : Vec, ∃ s : Sys, r ∈ cell (demo false fun _ _ => 0).gen →
      s.pos = Function.update (fun _ _ => 1 / 2 : ℕ → Vec) 1 r ∧ s.typ = id ∧
      At (demo false fun _ _ => 0) Ortho.default.lengths (1 / 4) s.cells s.pos := by
    intro r
    by_cases hr : r ∈ cell (demo false fun _ _ => 0).gen
    · obtain ⟨s, h1, h2, -, h4⟩ := demo_state false (fun _ _ => 0)
        (Function.update (fun _ _ => 1 / 2 : ℕ → Vec) 1 r) id (fun _ => none) (by
          intro a i
          by_cases ha : a = 1
          · subst ha; rw [Function.update_self]; exact demo_cell _ _ hr i
          · rw [Function.update_of_ne ha]; norm_num)
      exact ⟨s, fun _ => ⟨h1, h2, h4⟩⟩
    · exact ⟨⟨fun _ _ => 0, id, ⟨fun _ => 0, fun _ => Cell.clear, fun _ => none⟩, 0, 0, fun _ => none,
        fun _ => 0⟩, fun h => absurd h hr⟩
  choose st hst using h
  refine ⟨st, fun r hr => by rw [(hst r hr).1, Function.update_self], ?_⟩
  exact C40_atom (demo_ok false _) (by simp [demo]) (demo_wraps false _) hst
    (fun _ _ => fits_one (demo_card false _) _ _) A B

/-! ### Moves that violate detailed balance -/

/-- Pair energy of an atom if all atoms are close to it, also at the positions
held by the cell list. -/
theorem atomPair_close (ok : w.OK lengths bravais cutoff) {s : Sys} {q : ℕ → Vec} {a : ℕ}
    (h : At w lengths cutoff s.cells q) (hr : InUnit (w.gen (s.pos a)))
    (hq : ∀ b ∈ w.atoms, normSq (s.pos a - q b) < cutoff ^ 2) :
    atomPair w s a = .ok (atomPairE w s.pos s.typ a) := by
  obtain ⟨l, h1, h2, h3, h4⟩ := near_ok ok h hr
  have hl : l.toFinset = w.atoms := by
    ext b
    rw [List.mem_toFinset]
    refine ⟨h3 b, fun hb => h4 b hb ⟨0, ?_⟩⟩
    have : latComb bravais 0 = 0 := by simp [latComb]
    rw [this, add_zero]
    exact hq b hb
  unfold atomPair
  rw [h1, ok_bind, ← List.sum_toFinset _ h2, hl]
  congr 1
  unfold atomPairE
  refine Finset.sum_congr rfl fun b _ => ?_
  unfold atomPairOne pairE pairOne
  by_cases hba : b ≠ a <;> by_cases hm : w.masked a b = false <;> simp [hba, hm]

/-- A point on the line through the centre along the first axis. -/
noncomputable def pt (x : ℝ) : Vec := ![x, 1 / 2, 1 / 2]

theorem pt_dsq {x y : ℝ} (h : |x - y| < 1 / 2) :
    Ortho.default.distanceSq (pt x) (pt y) = (x - y) ^ 2 := by
  have e : image1 (1 / 2) 1 (x - y) = (x - y, 0) := by
    unfold image1
    rw [if_neg (by linarith)]
  have e0 : image1 (1 / 2) 1 ((1 / 2 : ℝ) - 1 / 2) = (0, 0) := by
    unfold image1; norm_num
  simp only [Ortho.distanceSq, Ortho.separation, Ortho.default, pt, Matrix.cons_val_zero,
    Matrix.cons_val_one, Matrix.cons_val, e, e0]
  ring

theorem pt_normSq (x y : ℝ) : normSq (pt x - pt y) = (x - y) ^ 2 := by
  simp [normSq, pt]

theorem pt_unit {x : ℝ} (h0 : 0 ≤ x) (h1 : x < 1) : ∀ i, 0 ≤ pt x i ∧ pt x i < 1 := by
  intro i
  fin_cases i
  · exact ⟨h0, h1⟩
  · simp [pt]; norm_num
  · simp [pt]; norm_num

theorem pt_shift {x d : ℝ} (h0 : 0 ≤ x + d) (h1 : x + d < 1) :
    Ortho.default.shift (pt x + ![d, 0, 0]) = pt (x + d) := by
  have e : pt x + ![d, 0, 0] = pt (x + d) := by
    funext i; fin_cases i <;> simp [pt]
  rw [e]
  funext i
  have := pt_unit h0 h1 i
  have e1 : Ortho.default.maxima i = 1 := by simp [Ortho.default]
  have e2 : Ortho.default.minima i = 0 := by simp [Ortho.default]
  unfold Ortho.shift shift1
  rw [if_neg (by rw [e1]; linarith [this.2]), if_neg (by rw [e2]; linarith [this.1])]

/-- Rigid move of two atoms on a line by `d`, none of them crossing the boundary:
the number that decides is the energy of the pair with only the first atom
displaced, minus the energy of the pair. -/
theorem rigid_line {s : Sys} {x y d v : ℝ}
    (h : At (demo false fun _ _ => 0) Ortho.default.lengths (1 / 4) s.cells s.pos)
    (hs : s.pos 0 = pt x ∧ s.pos 1 = pt y)
    (hx : 0 ≤ x ∧ x < 1) (hy : 0 ≤ y ∧ y < 1) (hx' : 0 ≤ x + d ∧ x + d < 1)
    (hy' : 0 ≤ y + d ∧ y + d < 1) (h1 : |x - y| < 1 / 4) (h2 : |x + d - y| < 1 / 4)
    (h3 : |y + d - x| < 1 / 4) (h4 : |d| < 1 / 4) :
    (∃ s', rigidDisplace (demo false fun _ _ => 0) 0 ![d, 0, 0] v s = .ok (s', true)) ↔
      metropolis (Real.exp (-(16 * (x + d - y) ^ 2 - 16 * (x - y) ^ 2))) v = true := by
  have ok := demo_ok false fun _ _ => 0
  set w := demo false fun _ _ => 0 with hw
  have hmol : w.molAtoms 0 = [0, 1] := rfl
  have hsh : ∀ r, w.shift r = Ortho.default.shift r := fun _ => rfl
  have sq : ∀ {z : ℝ}, |z| < 1 / 4 → z ^ 2 < (1 / 4) ^ 2 := fun {z} hz =>
    sq_lt_sq' (by linarith [(abs_lt.1 hz).1]) (abs_lt.1 hz).2
  have hx0 : Ortho.default.shift (pt x + ![d, 0, 0]) = pt (x + d) := pt_shift hx'.1 hx'.2
  have hy0 : Ortho.default.shift (pt y + ![d, 0, 0]) = pt (y + d) := pt_shift hy'.1 hy'.2
  have at_ : ∀ (s' : Sys) (a : ℕ), s'.cells = s.cells → InUnit (w.gen (s'.pos a)) →
      normSq (s'.pos a - pt x) < (1 / 4) ^ 2 → normSq (s'.pos a - pt y) < (1 / 4) ^ 2 →
      rigidAtom w s' a = .ok (atomPairE w s'.pos s'.typ a) := by
    intro s' a hc hu g1 g2
    unfold rigidAtom
    rw [atomPair_close ok (s := s') (q := s.pos) (by rw [hc]; exact h) hu, ok_bind]
    · change Out.ok (atomPairE w s'.pos s'.typ a + 0 + 0) = _
      simp
    · intro b hb
      change b ∈ ({0, 1} : Finset ℕ) at hb
      simp only [Finset.mem_insert, Finset.mem_singleton] at hb
      rcases hb with rfl | rfl
      · rw [hs.1]; exact g1
      · rw [hs.2]; exact g2
  have pe : ∀ (p : ℕ → Vec) (t : ℕ → ℕ) (a b : ℕ) (x' y' : ℝ), (a = 0 ∧ b = 1 ∨ a = 1 ∧ b = 0) →
      p a = pt x' → p b = pt y' → |x' - y'| < 1 / 4 →
      atomPairE w p t a = 16 * (x' - y') ^ 2 - 1 := by
    intro p t a b x' y' hab ha hb hlt
    have hp : pairE w p t a b = 16 * (x' - y') ^ 2 - 1 := by
      change (if false = false then (if Ortho.default.distanceSq (p a) (p b) < 1 / 16
        then 16 * Ortho.default.distanceSq (p a) (p b) - 1 else 0) else 0) = _
      rw [if_pos rfl, ha, hb, pt_dsq (by linarith), if_pos]
      have := sq hlt
      norm_num at this ⊢
      exact this
    change (∑ c ∈ ({0, 1} : Finset ℕ), if c ≠ a then pairE w p t a c else 0) = _
    rw [Finset.sum_insert (by decide), Finset.sum_singleton]
    rcases hab with ⟨rfl, rfl⟩ | ⟨rfl, rfl⟩
    · simp [hp]
    · simp [hp]
  have a0 := at_ s.attempt 0 rfl (by rw [hs.1]; exact demo_unit (pt_unit hx.1 hx.2))
    (by rw [hs.1, pt_normSq]; norm_num) (by rw [hs.1, pt_normSq]; exact sq h1)
  have a1 := at_ s.attempt 1 rfl (by rw [hs.2]; exact demo_unit (pt_unit hy.1 hy.2))
    (by rw [hs.2, pt_normSq]; rw [abs_sub_comm] at h1; exact sq h1)
    (by rw [hs.2, pt_normSq]; norm_num)
  have e1 : rigidOld w (w.molAtoms 0) s.attempt = .ok (0 + (16 * (x - y) ^ 2 - 1) +
      (16 * (y - x) ^ 2 - 1)) := by
    unfold rigidOld
    rw [hmol]
    simp only [loop_cons, loop_nil, a0, a1, ok_bind]
    rw [pe s.pos s.typ 0 1 x y (Or.inl ⟨rfl, rfl⟩) hs.1 hs.2 h1,
      pe s.pos s.typ 1 0 y x (Or.inr ⟨rfl, rfl⟩) hs.2 hs.1 (by rwa [abs_sub_comm])]
  have step_ : ∀ (s' : Sys) (e E : ℝ) (a : ℕ),
      rigidAtom w (s'.setPos a (w.shift (s'.pos a + ![d, 0, 0]))) a = .ok E →
      rigidStep w ![d, 0, 0] (s', e) a =
        .ok (s'.setPos a (w.shift (s'.pos a + ![d, 0, 0])), e + E) := by
    intro s' e E a he
    unfold rigidStep
    simp only [he]
    rfl
  have e2 : ∃ s2, rigidNew w (w.molAtoms 0) ![d, 0, 0] s.attempt = .ok (s2,
      0 + (16 * (x + d - y) ^ 2 - 1) + (16 * (y + d - (x + d)) ^ 2 - 1)) := by
    have p00 : (s.attempt.setPos 0 (w.shift (s.attempt.pos 0 + ![d, 0, 0]))).pos 0 = pt (x + d) := by
      simp only [Function.update_self]; rw [hsh, hs.1, hx0]
    have p01 : (s.attempt.setPos 0 (w.shift (s.attempt.pos 0 + ![d, 0, 0]))).pos 1 = pt y := by
      change Function.update s.pos 0 (w.shift (s.pos 0 + ![d, 0, 0])) 1 = _
      rw [Function.update_of_ne (by decide)]; exact hs.2
    have b0 := at_ (s.attempt.setPos 0 (w.shift (s.attempt.pos 0 + ![d, 0, 0]))) 0 rfl
      (by rw [p00]; exact demo_unit (pt_unit hx'.1 hx'.2))
      (by rw [p00, pt_normSq]; have := sq h4; rwa [add_sub_cancel_left])
      (by rw [p00, pt_normSq]; exact sq h2)
    rw [pe _ _ 0 1 (x + d) y (Or.inl ⟨rfl, rfl⟩) p00 p01 h2] at b0
    have c0 := step_ s.attempt 0 _ 0 b0
    obtain ⟨s1, hs1⟩ : ∃ s1, s1 = s.attempt.setPos 0 (w.shift (s.attempt.pos 0 + ![d, 0, 0])) :=
      ⟨_, rfl⟩
    rw [← hs1] at c0 p00 p01
    have hcell : s1.cells = s.cells := by rw [hs1]
    have p11 : (s1.setPos 1 (w.shift (s1.pos 1 + ![d, 0, 0]))).pos 1 = pt (y + d) := by
      change Function.update s1.pos 1 (w.shift (s1.pos 1 + ![d, 0, 0])) 1 = _
      rw [Function.update_self, p01, hsh, hy0]
    have p10 : (s1.setPos 1 (w.shift (s1.pos 1 + ![d, 0, 0]))).pos 0 = pt (x + d) := by
      change Function.update s1.pos 1 (w.shift (s1.pos 1 + ![d, 0, 0])) 0 = _
      rw [Function.update_of_ne (by decide)]; exact p00
    have b1 := at_ (s1.setPos 1 (w.shift (s1.pos 1 + ![d, 0, 0]))) 1 hcell
      (by rw [p11]; exact demo_unit (pt_unit hy'.1 hy'.2))
      (by rw [p11, pt_normSq]; exact sq h3)
      (by rw [p11, pt_normSq]; have := sq h4; rwa [add_sub_cancel_left])
    rw [pe _ _ 1 0 (y + d) (x + d) (Or.inr ⟨rfl, rfl⟩) p11 p10 (by
        rw [add_sub_add_right_eq_sub, abs_sub_comm]; exact h1)] at b1
    have c1 := step_ s1 (0 + (16 * (x + d - y) ^ 2 - 1)) _ 1 b1
    exact ⟨_, by rw [rigidNew_eq, hmol, loop_cons, c0, ok_bind, loop_cons, c1, ok_bind, loop_nil]⟩
  obtain ⟨s2, e2⟩ := e2
  obtain ⟨c, acc, -, hc⟩ := C39_rigid ok h 0 ![d, 0, 0] v (by
    intro a ha
    rw [hmol] at ha
    simp only [List.mem_cons, List.not_mem_nil, or_false] at ha
    rcases ha with rfl | rfl
    · rw [hs.1, hsh, hx0]; exact demo_unit (pt_unit hx'.1 hx'.2)
    · rw [hs.2, hsh, hy0]; exact demo_unit (pt_unit hy'.1 hy'.2)) (fits_all (demo_card _ _) _ _ _)
  have hrun : rigidDisplace w 0 ![d, 0, 0] v s = finishRigid w (w.molAtoms 0) s.attempt.pos s2
      (metropolis (Real.exp (-(16 * (x + d - y) ^ 2 - 16 * (x - y) ^ 2))) v) := by
    unfold rigidDisplace
    simp only [e1, e2, ok_bind]
    congr 2
    change Real.exp (-1 * _) = _
    congr 1
    ring
  constructor
  · rintro ⟨s', hs'⟩
    rw [hrun] at hs'
    cases hm : metropolis (Real.exp (-(16 * (x + d - y) ^ 2 - 16 * (x - y) ^ 2))) v
    · rw [hm] at hs'
      simp [finishRigid] at hs'
    · rfl
  · intro hm
    rw [hm] at hrun
    rw [hrun] at hc
    cases acc
    · simp only [finishRigid, Bool.false_eq_true, if_false] at hc
      cases hu : loop (updateCell w) (w.molAtoms 0) s2 <;> rw [hu] at hc <;> simp at hc
    · rw [hrun, hc]
      exact ⟨_, rfl⟩

/-- **C40 fails for `RigidDisplaceMove`** when pairs within the molecule
interact.  Two atoms at distance 1/16 are displaced by 1/8 and back.  The states
have the same energy; the move forth is always accepted, the move back only with
probability exp(-1/2), because the energy of the first atom is computed while
the second is still at its old position. -/
theorem C40_rigid_violated : ∃ (s s' : Sys),
    At (demo false fun _ _ => 0) Ortho.default.lengths (1 / 4) s.cells s.pos ∧
    At (demo false fun _ _ => 0) Ortho.default.lengths (1 / 4) s'.cells s'.pos ∧
    s'.pos = displaced (demo false fun _ _ => 0) [0, 1] ![1 / 8, 0, 0] s.pos ∧
    s.pos = displaced (demo false fun _ _ => 0) [0, 1] ![-1 / 8, 0, 0] s'.pos ∧
    boltzmannWeight (demo false fun _ _ => 0) s = boltzmannWeight (demo false fun _ _ => 0) s' ∧
    prob (fun v => ∃ s2, rigidDisplace (demo false fun _ _ => 0) 0 ![1 / 8, 0, 0] v s =
      .ok (s2, true)) = 1 ∧
    prob (fun v => ∃ s2, rigidDisplace (demo false fun _ _ => 0) 0 ![-1 / 8, 0, 0] v s' =
      .ok (s2, true)) = ENNReal.ofReal (Real.exp (-(1 / 2))) ∧
    ENNReal.ofReal (Real.exp (-(1 / 2))) ≠ 1 := by
  obtain ⟨s, h1, h2, -, h4⟩ := demo_state false (fun _ _ => 0)
    (fun a => if a = 0 then pt (1 / 2) else if a = 1 then pt (9 / 16) else pt 0) id (fun _ => none) (by
      intro a; split
      · exact pt_unit (by norm_num) (by norm_num)
      · split
        · exact pt_unit (by norm_num) (by norm_num)
        · exact pt_unit (by norm_num) (by norm_num))
  obtain ⟨s', h1', h2', -, h4'⟩ := demo_state false (fun _ _ => 0)
    (fun a => if a = 0 then pt (5 / 8) else if a = 1 then pt (11 / 16) else pt 0) id (fun _ => none) (by
      intro a; split
      · exact pt_unit (by norm_num) (by norm_num)
      · split
        · exact pt_unit (by norm_num) (by norm_num)
        · exact pt_unit (by norm_num) (by norm_num))
  have hsh : ∀ r, (demo false fun _ _ => 0).shift r = Ortho.default.shift r := fun _ => rfl
  have en : ∀ s : Sys, ∀ x y : ℝ, s.pos 0 = pt x → s.pos 1 = pt y → y - x = 1 / 16 →
      boltzmannWeight (demo false fun _ _ => 0) s = ENNReal.ofReal (Real.exp (15 / 16)) := by
    intro s x y hx hy hxy
    have : energy (demo false fun _ _ => 0) s.pos s.typ = -(15 / 16) := by
      have hp : pairE (demo false fun _ _ => 0) s.pos s.typ 0 1 = -(15 / 16) := by
        change (if false = false then (if Ortho.default.distanceSq (s.pos 0) (s.pos 1) < 1 / 16
          then 16 * Ortho.default.distanceSq (s.pos 0) (s.pos 1) - 1 else 0) else 0) = _
        have e : x - y = -(1 / 16) := by linarith
        rw [if_pos rfl, hx, hy, pt_dsq (by rw [e]; norm_num [abs_of_pos]), e, if_pos (by norm_num)]
        norm_num
      unfold energy
      change (∑ a ∈ ({0, 1} : Finset ℕ), ∑ b ∈ ({0, 1} : Finset ℕ), _) + 0 + 0 +
        (∑ a ∈ ({0, 1} : Finset ℕ), (0 : ℝ)) + (∑ a ∈ ({0, 1} : Finset ℕ), (0 : ℝ)) = _
      simp [Finset.sum_insert, hp]
    unfold boltzmannWeight
    rw [this]
    congr 2
    change -1 * _ = _
    norm_num
  have l1 := fun v => rigid_line (s := s) (x := 1 / 2) (y := 9 / 16) (d := 1 / 8) (v := v) h4
    (by rw [h1]; simp) (by norm_num) (by norm_num) (by norm_num) (by norm_num)
    (by rw [abs_lt]; norm_num) (by rw [abs_lt]; norm_num) (by rw [abs_lt]; norm_num)
    (by rw [abs_lt]; norm_num)
  have l2 := fun v => rigid_line (s := s') (x := 5 / 8) (y := 11 / 16) (d := -1 / 8) (v := v) h4'
    (by rw [h1']; simp) (by norm_num) (by norm_num) (by norm_num) (by norm_num)
    (by rw [abs_lt]; norm_num) (by rw [abs_lt]; norm_num) (by rw [abs_lt]; norm_num)
    (by rw [abs_lt]; norm_num)
  refine ⟨s, s', h4, h4', ?_, ?_, ?_, ?_, ?_, ?_⟩
  · rw [h1, h1']
    funext a
    unfold displaced
    by_cases ha : a = 0
    · subst ha
      rw [if_pos (show (0 : ℕ) ∈ [0, 1] by simp)]
      change pt (5 / 8) = Ortho.default.shift (pt (1 / 2) + ![1 / 8, 0, 0])
      rw [pt_shift (by norm_num) (by norm_num)]
      norm_num
    · by_cases hb : a = 1
      · subst hb
        rw [if_pos (show (1 : ℕ) ∈ [0, 1] by simp)]
        change pt (11 / 16) = Ortho.default.shift (pt (9 / 16) + ![1 / 8, 0, 0])
        rw [pt_shift (by norm_num) (by norm_num)]
        norm_num
      · simp [ha, hb]
  · rw [h1, h1']
    funext a
    unfold displaced
    by_cases ha : a = 0
    · subst ha
      rw [if_pos (show (0 : ℕ) ∈ [0, 1] by simp)]
      change pt (1 / 2) = Ortho.default.shift (pt (5 / 8) + ![-1 / 8, 0, 0])
      rw [pt_shift (by norm_num) (by norm_num)]
      norm_num
    · by_cases hb : a = 1
      · subst hb
        rw [if_pos (show (1 : ℕ) ∈ [0, 1] by simp)]
        change pt (9 / 16) = Ortho.default.shift (pt (11 / 16) + ![-1 / 8, 0, 0])
        rw [pt_shift (by norm_num) (by norm_num)]
        norm_num
      · simp [ha, hb]
  · rw [en s (1 / 2) (9 / 16) (by rw [h1]; simp) (by rw [h1]; simp) (by norm_num),
      en s' (5 / 8) (11 / 16) (by rw [h1']; simp) (by rw [h1']; simp) (by norm_num)]
  · rw [prob_congr fun v _ _ => l1 v, prob_metropolis (Real.exp_pos _).le]
    norm_num
  · rw [prob_congr fun v _ _ => l2 v, prob_metropolis (Real.exp_pos _).le]
    congr 1
    norm_num
  · rw [Ne, ENNReal.ofReal_eq_one]
    rw [← Real.exp_zero]
    exact (Real.exp_lt_exp.2 (by norm_num)).ne

/-- **C40 fails for the semigrand move** when the external energy depends on the
type: the move is always accepted in both directions although the energies of
the two states differ. -/
theorem C40_semigrand_violated : ∃ (s s' : Sys),
    At (demo true fun _ t => t) Ortho.default.lengths (1 / 4) s.cells s.pos ∧
    At (demo true fun _ t => t) Ortho.default.lengths (1 / 4) s'.cells s'.pos ∧
    s'.pos = s.pos ∧ s.state 0 = some 0 ∧ s'.state 0 = some 1 ∧
    (∀ a, s.typ a = 0) ∧ s'.typ = typesOf (demo true fun _ t => t) 0 1 s.typ ∧
    sgWeight (demo true fun _ t => t) s 0 * prob (fun v => ∃ s2,
        semiGrand (demo true fun _ t => t) 0 v s = .ok (s2, true) ∧ s2.typ = s'.typ) ≠
      sgWeight (demo true fun _ t => t) s' 1 * prob (fun v => ∃ s2,
        semiGrand (demo true fun _ t => t) 0 v s' = .ok (s2, true) ∧ s2.typ = s.typ) := by
  obtain ⟨s, h1, h2, h3, h4⟩ := demo_state true (fun _ t => t) (fun _ => pt (1 / 2)) (fun _ => 0)
    (fun _ => some 0) fun _ => pt_unit (by norm_num) (by norm_num)
  obtain ⟨s', h1', h2', h3', h4'⟩ := demo_state true (fun _ t => t) (fun _ => pt (1 / 2))
    (typesOf (demo true fun _ t => t) 0 1 fun _ => 0) (fun _ => some 1)
    fun _ => pt_unit (by norm_num) (by norm_num)
  have ok := demo_ok true fun _ t => (t : ℝ)
  set w := demo true fun _ t => (t : ℝ) with hw
  have hpair : ∀ p t a b, pairE w p t a b = 0 := fun p t a b => if_neg (show ¬ true = false by decide)
  have hmol : ∀ p t, molPairE w p t 0 = 0 := fun p t => by
    unfold molPairE
    refine Finset.sum_eq_zero fun a _ => Finset.sum_eq_zero fun b _ => ?_
    rw [hpair, ite_self]
  have hratio : ∀ s : Sys, ∀ c, sgRatio w s 0 c = 1 := fun s c => by
    unfold sgRatio
    rw [hmol, hmol]
    simp [hw, demo]
  have hone : prob (fun v => metropolis 1 v = true) = 1 := by
    rw [prob_metropolis (by norm_num)]; simp
  have p1 : prob (fun v => ∃ s2, semiGrand w 0 v s = .ok (s2, true) ∧ s2.typ = s'.typ) = 1 := by
    rw [← hone]
    refine prob_congr fun v _ _ => ?_
    rw [C39_semigrand ok h4 0 v (c := 0) (by rw [h3]) (by intro a _; rw [h2]; rfl), hratio]
    cases metropolis 1 v
    · simp
    · simp only [if_true, iff_true]
      exact ⟨_, rfl, by rw [h2', h2]; rfl⟩
  have p2 : prob (fun v => ∃ s2, semiGrand w 0 v s' = .ok (s2, true) ∧ s2.typ = s.typ) = 1 := by
    rw [← hone]
    refine prob_congr fun v _ _ => ?_
    rw [C39_semigrand ok h4' 0 v (c := 1) (by rw [h3']) (by
      intro a ha; rw [h2']; simp only [typesOf, ha, if_true]), hratio]
    cases metropolis 1 v
    · simp
    · simp only [if_true, iff_true]
      refine ⟨_, rfl, ?_⟩
      simp only [h2, h2']
      funext a
      unfold typesOf
      split
      · rfl
      · rfl
  have en : ∀ s : Sys, energy w s.pos s.typ = s.typ 0 + s.typ 1 := by
    intro s
    unfold energy
    simp only [hpair]
    change (∑ a ∈ ({0, 1} : Finset ℕ), ∑ b ∈ ({0, 1} : Finset ℕ), _) + 0 + 0 +
        (∑ a ∈ ({0, 1} : Finset ℕ), (s.typ a : ℝ)) + (∑ a ∈ ({0, 1} : Finset ℕ), (0 : ℝ)) = _
    simp
  refine ⟨s, s', h4, h4', by rw [h1, h1'], by rw [h3], by rw [h3'], fun a => by rw [h2],
    by rw [h2', h2], ?_⟩
  rw [p1, p2, mul_one, mul_one]
  unfold sgWeight
  rw [en, en, h2, h2']
  have t0 : typesOf w 0 1 (fun _ => 0) 0 = 1 := rfl
  have t1 : typesOf w 0 1 (fun _ => 0) 1 = 1 := rfl
  rw [t0, t1]
  change ENNReal.ofReal (Real.exp (-1 * _) * 1) ≠ ENNReal.ofReal (Real.exp (-1 * _) * 1)
  intro h
  rw [ENNReal.ofReal_eq_ofReal_iff (by positivity) (by positivity), mul_one, mul_one,
    Real.exp_eq_exp] at h
  norm_num at h

/-- The hypotheses of `C40_rigid` are met: both atoms may be anywhere. -/
example : ∃ st : (Mol (demo true fun _ _ => 0) 0 → Vec) → Sys,
    (∀ x ∈ cells (Mol (demo true fun _ _ => 0) 0) (demo true fun _ _ => 0).gen,
      ∀ i, (st x).pos i.1 = x i) ∧
    ∀ A B, rigidFlow (demo true fun _ _ => 0) 0 (1 / 4) st A B =
      rigidFlow (demo true fun _ _ => 0) 0 (1 / 4) st B A := by
  classical
  set w := demo true fun _ _ => 0
  have h : ∀ x : Mol w 0 → Vec, ∃ s : Sys, x ∈ cells (Mol w 0) w.gen →
      s.pos = place w 0 (fun _ _ => 1 / 2) x ∧ s.typ = id ∧
      At w Ortho.default.lengths (1 / 4) s.cells s.pos := by
    intro x
    by_cases hx : x ∈ cells (Mol w 0) w.gen
    · obtain ⟨s, h1, h2, -, h4⟩ := demo_state true (fun _ _ => 0) (place w 0 (fun _ _ => 1 / 2) x) id
        (fun _ => none) (by
          intro a i
          unfold place
          split
          · next ha => exact demo_cell true (fun _ _ => 0) (hx ⟨a, ha⟩ (Set.mem_univ _)) i
          · norm_num)
      exact ⟨s, fun _ => ⟨h1, h2, h4⟩⟩
    · exact ⟨⟨fun _ _ => 0, id, ⟨fun _ => 0, fun _ => Cell.clear, fun _ => none⟩, 0, 0, fun _ => none,
        fun _ => 0⟩, fun h => absurd h hx⟩
  choose st hst using h
  refine ⟨st, fun x hx i => by rw [(hst x hx).1, place_mem], ?_⟩
  exact C40_rigid (demo_ok true _) (demo_wraps true _) (fun _ _ _ _ _ => rfl) hst
    (fun _ _ _ _ => fits_all (demo_card true _) _ _ _) (fun _ _ _ _ => rfl) (fun _ _ _ _ => rfl)

/-- The hypotheses of `C40_swap` are met: two atoms of different types. -/
example : ∃ s s' : Sys, s.typ = id ∧ s.pos 0 ≠ s'.pos 0 ∧
    boltzmannWeight (demo false fun r t => r 0 * t) s * prob (fun v => ∃ s2,
        endSwap (demo false fun r t => r 0 * t) 0 [0, 1] v s = .ok (s2, true) ∧ s2.pos = s'.pos) =
      boltzmannWeight (demo false fun r t => r 0 * t) s' * prob (fun v => ∃ s2,
        endSwap (demo false fun r t => r 0 * t) 0 [0, 1] v s' = .ok (s2, true) ∧ s2.pos = s.pos) := by
  have hu : ∀ a : ℕ, ∀ i, 0 ≤ (if a = 0 then pt (1 / 2) else pt (3 / 4)) i ∧
      (if a = 0 then pt (1 / 2) else pt (3 / 4)) i < 1 := by
    intro a; split
    · exact pt_unit (by norm_num) (by norm_num)
    · exact pt_unit (by norm_num) (by norm_num)
  obtain ⟨s, h1, h2, -, h4⟩ := demo_state false (fun r t => r 0 * t)
    (fun a => if a = 0 then pt (1 / 2) else pt (3 / 4)) id (fun _ => none) hu
  obtain ⟨s', h1', h2', -, h4'⟩ := demo_state false (fun r t => r 0 * t)
    ((fun a => if a = 0 then pt (1 / 2) else pt (3 / 4)) ∘ flip [0, 1]) id (fun _ => none)
    fun a => hu _
  refine ⟨s, s', h2, ?_, ?_⟩
  · rw [h1, h1']
    change pt (1 / 2) ≠ pt (3 / 4)
    intro h
    have := congrFun h 0
    simp only [pt, Matrix.cons_val_zero] at this
    norm_num at this
  · have := C40_swap (demo_ok false fun r t => r 0 * t) (s := s) (s' := s') 0 h4 h4'
      (by rw [h1, h1']; rfl) (by rw [h2, h2']) (fits_all (demo_card false _) _ _ _)
      (fun _ _ => rfl) (by
        unfold TermsSymmetric
        change ([].sum + [].sum + ∑ a ∈ ({0, 1} : Finset ℕ), (0 : ℝ) : ℝ) =
          [].sum + [].sum + ∑ a ∈ ({0, 1} : Finset ℕ), (0 : ℝ)
        rfl)
    have hm : ((demo false fun r t => r 0 * t).molAtoms 0).map s.typ = [0, 1] := by rw [h2]; rfl
    rw [hm] at this
    exact this

/-- The hypotheses of `C40_semigrand` are met. -/
example : ∃ s s' : Sys, s.state 0 = some 0 ∧ s'.state 0 = some 1 ∧
    sgWeight (demo false fun _ _ => 0) s 0 * prob (fun v => ∃ s2,
        semiGrand (demo false fun _ _ => 0) 0 v s = .ok (s2, true) ∧ s2.typ = s'.typ) =
      sgWeight (demo false fun _ _ => 0) s' 1 * prob (fun v => ∃ s2,
        semiGrand (demo false fun _ _ => 0) 0 v s' = .ok (s2, true) ∧ s2.typ = s.typ) := by
  obtain ⟨s, h1, h2, h3, h4⟩ := demo_state false (fun _ _ => 0) (fun _ => pt (1 / 2)) (fun _ => 0)
    (fun _ => some 0) fun _ => pt_unit (by norm_num) (by norm_num)
  obtain ⟨s', h1', h2', h3', h4'⟩ := demo_state false (fun _ _ => 0) (fun _ => pt (1 / 2))
    (typesOf (demo false fun _ _ => 0) 0 1 fun _ => 0) (fun _ => some 1)
    fun _ => pt_unit (by norm_num) (by norm_num)
  refine ⟨s, s', by rw [h3], by rw [h3'], ?_⟩
  exact C40_semigrand (demo_ok false _) 0 h4 h4' (c := 0) (by rw [h3]) (by rw [h3']; rfl)
    (by intro a _; rw [h2]; rfl) (by rw [h1, h1']) (by rw [h2, h2']; rfl) (fun _ _ _ => rfl)
    (fun _ => by norm_num [demo])

end Verif.McMoves
