/-
C71: boundaries, examples and violations.
-/
import Verif.Generate.Props
import Verif.McMoves.Props

set_option autoImplicit false

namespace Verif.Generate

open Verif.Boundary Verif.McCellList Verif.McCell
open Run

variable {g : Setting} {bravais : Fin 3 → Vec} {A S : Finset ℕ}

/-! ### Boundaries -/

/-- Few atoms cannot fill a cell. -/
theorem room_of_few (h : A.card < g.cellCap) : ∀ S ⊆ A, ∀ q, (∀ a ∈ S, InUnit (g.gen (q a))) →
    Apart g S q → Roomy g.gen g.cellCap
      (fun i => axisCells (g.lengths i) (maxDiameter g.diams)) ⟨S, q⟩ :=
  fun _ hS _ _ _ => roomy_of_few (lt_of_le_of_lt (Finset.card_le_card hS) h)

theorem ok_ortho {b : Ortho} (hb : b.Reach) (h1 : g.lengths = b.lengths) (h2 : g.gen = b.toGen)
    (h3 : g.shift = b.shift) (h4 : g.dsq = b.distanceSq)
    (site : ∀ j, InUnit (g.gen (g.site j))) (bond : ∀ j i, |g.gen (g.bond 1 0 j) i| ≤ 1)
    (diams : ∀ d ∈ g.diams, 0 ≤ d)
    (room : ∀ S ⊆ A, ∀ q, (∀ a ∈ S, InUnit (g.gen (q a))) → Apart g S q →
      Roomy g.gen g.cellCap (fun i => axisCells (g.lengths i) (maxDiameter g.diams)) ⟨S, q⟩) :
    g.OK b.bravais A where
  geo := by rw [h1, h2]; exact geo_ortho hb
  dist := by rw [h4]; exact dist_ortho hb
  dsymm := by rw [h4]; exact McMoves.dsymm_ortho hb
  wrap := by
    rw [h2, h3]
    intro r hr
    have hpos := hb.ok.pos
    have hgi : ∀ r i, b.toGen r i = r i / b.lengths i := fun r i => by
      simp only [Ortho.toGen, hb.ok.inv]; rw [div_eq_mul_inv]
    obtain ⟨h1, k, h2⟩ := C23_ortho_shift hb r (fun i => by
      have := hr i
      rw [hgi] at this
      have hp := hpos i
      rw [le_div_iff₀ hp, div_lt_iff₀ hp] at this
      constructor <;> linarith [this.1, this.2])
    refine ⟨fun i => ?_, k, by rw [hb.ok.latComb_eq]; exact h2⟩
    have hp := hpos i
    rw [hgi, le_div_iff₀ hp, div_lt_iff₀ hp]
    have := h1 i
    constructor <;> linarith [this.1, this.2]
  site := site
  bond := bond
  diams := diams
  room := room

theorem ok_mono {b : Mono} (hb : b.Reach) (h1 : g.lengths = b.lengths) (h2 : g.gen = b.toGen)
    (h3 : g.shift = b.shift) (h4 : g.dsq = b.distanceSq)
    (site : ∀ j, InUnit (g.gen (g.site j))) (bond : ∀ j i, |g.gen (g.bond 1 0 j) i| ≤ 1)
    (diams : ∀ d ∈ g.diams, 0 ≤ d)
    (room : ∀ S ⊆ A, ∀ q, (∀ a ∈ S, InUnit (g.gen (q a))) → Apart g S q →
      Roomy g.gen g.cellCap (fun i => axisCells (g.lengths i) (maxDiameter g.diams)) ⟨S, q⟩) :
    g.OK b.bravais A where
  geo := by rw [h1, h2]; exact geo_mono hb
  dist := by rw [h4]; exact dist_mono hb
  dsymm := by rw [h4]; exact McMoves.dsymm_mono hb
  wrap := by
    rw [h2, h3]
    exact fun r hr => C23_mono_shift hb r hr
  site := site
  bond := bond
  diams := diams
  room := room

/-- For orthorhombic boundaries the atoms generated do not overlap any periodic
image of each other. -/
theorem apart_images {b : Ortho} (hb : b.Reach) (h2 : g.gen = b.toGen)
    (h4 : g.dsq = b.distanceSq) {q : ℕ → Vec} (hu : ∀ a ∈ S, InUnit (g.gen (q a)))
    (h : Apart g S q) {a c : ℕ} (ha : a ∈ S) (hc : c ∈ S) (hac : a ≠ c) (k : IVec) :
    ((g.diam a + g.diam c) / 2) ^ 2 ≤ normSq (q a - q c + latComb b.bravais k) := by
  refine (h a ha c hc hac).trans ?_
  rw [h4]
  have hgi : ∀ r i, b.toGen r i = r i / b.lengths i := fun r i => by
    simp only [Ortho.toGen, hb.ok.inv]; rw [div_eq_mul_inv]
  have hx : ∀ x ∈ S, ∀ i, 0 ≤ q x i ∧ q x i < b.lengths i := fun x hx i => by
    have := hu x hx i
    have hp := hb.ok.pos i
    rw [h2, hgi, le_div_iff₀ hp, div_lt_iff₀ hp] at this
    constructor <;> linarith [this.1, this.2]
  refine (C24_ortho_minimum hb (q a) (q c) (fun i => ?_)).2 ⟨k, ?_⟩
  · have h1 := hx a ha i
    have h2 := hx c hc i
    have hp := hb.ok.pos i
    rw [abs_le]
    constructor <;> linarith [h1.1, h1.2, h2.1, h2.2]
  · rw [hb.ok.latComb_eq]
    congr 1
    abel

/-! ### A cube -/

/-- Atoms of diameter `d` in the unit cube. -/
noncomputable def cube (d : ℝ) (site : ℕ → Vec) (bond : ℝ → ℕ → ℕ → Vec) : Setting where
  lengths := Ortho.default.lengths
  gen := Ortho.default.toGen
  shift := Ortho.default.shift
  dsq := Ortho.default.distanceSq
  cellCap := 61
  typ := fun _ => 0
  diams := [d]
  site := site
  bond := bond

variable {d : ℝ} {site : ℕ → Vec} {bond : ℝ → ℕ → ℕ → Vec}

theorem cube_ok (hA : A.card < 61) (hd : 0 ≤ d)
    (hs : ∀ j, InUnit (Ortho.default.toGen (site j)))
    (hb : ∀ j i, |Ortho.default.toGen (bond 1 0 j) i| ≤ 1) :
    (cube d site bond).OK Ortho.default.bravais A :=
  ok_ortho .default rfl rfl rfl rfl hs hb (by simpa [cube] using hd) (room_of_few hA)

theorem cube_max (hd : 0 ≤ d) : maxDiameter (cube d site bond).diams = d := by
  simp only [cube, maxDiameter, List.foldl_cons, List.foldl_nil]
  split
  · rfl
  · rename_i h; linarith [not_lt.1 h]

theorem cube_near {r r' : Vec} (hr : InUnit (Ortho.default.toGen r))
    (hr' : InUnit (Ortho.default.toGen r')) : Ortho.default.distanceSq r r' < 4 := by
  have h1 : ∀ i, 0 ≤ r i ∧ r i < 1 := fun i => by simpa [Ortho.toGen, Ortho.default] using hr i
  have h2 : ∀ i, 0 ≤ r' i ∧ r' i < 1 := fun i => by
    simpa [Ortho.toGen, Ortho.default] using hr' i
  have hle := (C24_ortho_minimum .default r r' (fun i => by
    change |r i - r' i| ≤ 3 / 2 * 1
    rw [abs_le]
    constructor <;> linarith [(h1 i).1, (h1 i).2, (h2 i).1, (h2 i).2])).2 ⟨0, rfl⟩
  refine lt_of_le_of_lt hle ?_
  have hb : ∀ i, (r i - r' i) ^ 2 ≤ 1 := fun i => by
    rw [sq_le_one_iff_abs_le_one, abs_le]
    constructor <;> linarith [(h1 i).1, (h1 i).2, (h2 i).1, (h2 i).2]
  simp only [normSq, latVec, Pi.add_apply, Pi.sub_apply, Pi.zero_apply, Int.cast_zero, zero_mul,
    add_zero]
  linarith [hb 0, hb 1, hb 2]

/-- A single atom is always placed. -/
theorem pointLoop_post (ok : g.OK bravais A) (hd : 0 < maxDiameter g.diams) {s : St}
    (h : Held g S s) (hS : S ⊆ A) {a : ℕ} (haA : a ∈ A) (ha : a ∉ S) :
    (whileLoop (going 200) (molBody g false [a]) (s, false, 0)).Post fun x =>
      x.2.1 = true ∧ Held g (insert a S) x.1 ∧ ∀ c, c ≠ a → x.1.pos c = s.pos c := by
  rw [whileLoop_eq, if_pos (by simp [going])]
  have h1 := siteLoop_post ok hd h hS haA ha (m := 1) (by norm_num)
  have e : molBody g false [a] (s, false, 0) =
      (whileLoop (going 1) (siteBody g a) (s, false, 0) >>= fun x => Run.ok (x.1, x.2.1, 1)) := by
    change ((whileLoop (going 1) (siteBody g a) (s, false, 0) >>= fun x => Run.ok (x.1, x.2.1)) >>=
      fun y => Run.ok (y.1, y.2, 1)) = _
    cases whileLoop (going 1) (siteBody g a) (s, false, 0) <;> rfl
  rw [e]
  have h2 : (whileLoop (going 1) (siteBody g a) (s, false, 0) >>= fun x =>
      Run.ok ((x.1, x.2.1, 1) : Loop)).Post fun x => x.2.1 = true ∧ Held g (insert a S) x.1 ∧
        ∀ c, c ≠ a → x.1.pos c = s.pos c := by
    cases hw : whileLoop (going 1) (siteBody g a) (s, false, 0) with
    | hang => trivial
    | throw => rw [hw] at h1; exact h1.elim
    | ub => rw [hw] at h1; exact h1.elim
    | ok x => rw [hw] at h1; exact h1
  refine h2.bind fun x hx => ?_
  rw [whileLoop_eq, if_neg (by simp [going, hx.1])]
  exact hx

/-- **C71 (end) fails.**  For a density that cannot be reached the generators do
not give up: `maxAttempt` has no effect, since `iAttempt` is not incremented.
Two atoms of diameter 2 in the unit cube: generation runs forever, whatever the
random numbers. -/
theorem C71_ends_violated (hs : ∀ j, InUnit (Ortho.default.toGen (site j)))
    (hb : ∀ j i, |Ortho.default.toGen (bond 1 0 j) i| ≤ 1) (s : St) :
    generateMolecules (cube 2 site bond) [⟨2, false, [[0], [1]]⟩] s = .hang := by
  have ok : (cube 2 site bond).OK Ortho.default.bravais {0, 1} :=
    cube_ok (by decide) (by norm_num) hs hb
  unfold generateMolecules
  rcases setupCells_ok (g := cube 2 site bond) s with ⟨-, h⟩ | ⟨c, h1, h2, h3⟩
  · rw [cube_max (by norm_num)] at h; norm_num at h
  rw [h1, ok_bind]
  have hp := pointLoop_post ok h2 h3 (Finset.empty_subset _) (a := 0) (by simp) (by simp)
  simp only [placeKinds, List.length_cons, List.length_nil, gt_iff_lt, generate, check, placeMols]
  rw [if_pos (by norm_num), if_pos (by norm_num), ok_bind]
  cases hw : whileLoop (going 200) (molBody (cube 2 site bond) false [0])
      ({ s with cells := c }, false, 0) with
  | hang => rfl
  | throw => rw [hw] at hp; exact hp.elim
  | ub => rw [hw] at hp; exact hp.elim
  | ok x =>
    rw [hw] at hp
    obtain ⟨k1, k2, -⟩ := hp
    rw [ok_bind, k1, if_pos rfl]
    have hS : (insert 0 ∅ : Finset ℕ) ⊆ {0, 1} := by decide
    have hhang : place (cube 2 site bond) false [1] x.1 = .hang := by
      refine (C71_hang_iff ok h2 k2 hS (linear := false) (mol := [1])
        ⟨by simp, by simp, by simp⟩ (by simp)).2 fun j _ => ⟨0, by simp, ?_⟩
      have hd : ∀ a, (cube 2 site bond).diam a = 2 := fun a => rfl
      rw [hd, hd]
      refine lt_of_lt_of_eq (cube_near (k2.unit (by simp)) (ok.wrap _ fun i => ?_).1) (by norm_num)
      have := ok.site j i
      constructor <;> linarith [this.1, this.2]
    have : whileLoop (going 200) (molBody (cube 2 site bond) false [1]) (x.1, false, 0) = .hang := by
      rw [whileLoop_eq, if_pos (by simp [going])]
      unfold molBody
      rw [show place (cube 2 site bond) false [1] (x.1, false, 0).1 = .hang from hhang]
      rfl
    rw [this]
    rfl

/-- **C71 (configurations) fails for a system that has molecules already.**  The
cell list of the generators holds only atoms that they place: a new atom of
diameter 2 is placed in the unit cube in which there is an atom already. -/
theorem C71_existing_violated (hs : ∀ j, InUnit (Ortho.default.toGen (site j)))
    (hb : ∀ j i, |Ortho.default.toGen (bond 1 0 j) i| ≤ 1) (s : St)
    (h7 : InUnit (Ortho.default.toGen (s.pos 7))) :
    ∃ s', generateMolecules (cube 2 site bond) [⟨1, false, [[0]]⟩] s = .ok s' ∧
      s'.pos 7 = s.pos 7 ∧
      ¬ Apart (cube 2 site bond) {0, 7} s'.pos := by
  have ok : (cube 2 site bond).OK Ortho.default.bravais {0} :=
    cube_ok (by decide) (by norm_num) hs hb
  unfold generateMolecules
  rcases setupCells_ok (g := cube 2 site bond) s with ⟨-, h⟩ | ⟨c, h1, h2, h3⟩
  · rw [cube_max (by norm_num)] at h; norm_num at h
  rw [h1, ok_bind]
  have hp := pointLoop_post ok h2 h3 (Finset.empty_subset _) (a := 0) (by simp) (by simp)
  have he := molLoop_ends ok h2 (fun S hS q _ _ a ha haS n => ⟨n, le_rfl, by
    rintro ⟨b, hb, -⟩
    have hb0 := Finset.mem_singleton.1 (hS hb)
    have ha0 := Finset.mem_singleton.1 ha
    exact haS (by rw [ha0, ← hb0]; exact hb)⟩) h3 (Finset.empty_subset _) (linear := false)
    (mol := [0]) ⟨by simp, by simp, by simp⟩ (by simp) 200
  simp only [placeKinds, List.length_cons, List.length_nil, gt_iff_lt, generate, check, placeMols]
  rw [if_pos (by norm_num), if_pos (by norm_num), ok_bind]
  cases hw : whileLoop (going 200) (molBody (cube 2 site bond) false [0])
      ({ s with cells := c }, false, 0) with
  | hang => exact absurd hw he
  | throw => rw [hw] at hp; exact hp.elim
  | ub => rw [hw] at hp; exact hp.elim
  | ok x =>
    rw [hw] at hp
    obtain ⟨k1, k2, k3⟩ := hp
    refine ⟨x.1, ?_, k3 7 (by norm_num), fun hap => ?_⟩
    · rw [ok_bind, k1, if_pos rfl]
      rfl
    · have h4 := hap 0 (by simp) 7 (by simp) (by norm_num)
      have hd : ∀ a, (cube 2 site bond).diam a = 2 := fun a => rfl
      rw [hd, hd] at h4
      have h5 : (cube 2 site bond).dsq (x.1.pos 0) (x.1.pos 7) < 4 :=
        cube_near (k2.unit (by simp)) (by rw [k3 7 (by norm_num)]; exact h7)
      norm_num at h4
      linarith

/-! ### Bond types -/

/-- **C71 (bonds) fails for other bond types and temperatures.**  The lengths of
the bonds do not depend on the distributions for any bond type other than 0 or
any temperature other than 1. -/
theorem C71_bond_type_violated (g : Setting) (bond' : ℝ → ℕ → ℕ → Vec)
    (h : bond' 1 0 = g.bond 1 0) (kinds : List Kind) (s : St) :
    generateMolecules { g with bond := bond' } kinds s = generateMolecules g kinds s := by
  have e1 : ∀ prev a, bondBody { g with bond := bond' } prev a = bondBody g prev a := by
    intro prev a
    funext x
    unfold bondBody
    simp only [h]
    rfl
  have e2 : ∀ rest done prev s, placeRest { g with bond := bond' } done prev rest s =
      placeRest g done prev rest s := by
    intro rest
    induction rest with
    | nil => intros; rfl
    | cons a rest ih =>
      intro done prev s
      simp only [placeRest, e1, ih]
  have e3 : ∀ linear mol s, place { g with bond := bond' } linear mol s = place g linear mol s := by
    intro linear mol s
    unfold place
    split
    · unfold placeLinear
      simp only [e2]
      rfl
    · rfl
  have e4 : ∀ linear mol, molBody { g with bond := bond' } linear mol = molBody g linear mol := by
    intro linear mol
    funext x
    unfold molBody
    simp only [e3]
  have e5 : ∀ linear mols s, placeMols { g with bond := bond' } linear mols s =
      placeMols g linear mols s := by
    intro linear mols
    induction mols with
    | nil => intros; rfl
    | cons mol mols ih =>
      intro s
      simp only [placeMols, e4, ih]
  have e6 : ∀ kinds s, placeKinds { g with bond := bond' } kinds s = placeKinds g kinds s := by
    intro kinds
    induction kinds with
    | nil => intros; rfl
    | cons k kinds ih =>
      intro s
      simp only [placeKinds, generate, e5, ih]
  unfold generateMolecules
  simp only [e6]
  rfl

/-! ### Examples -/

/-- Two positions in turn. -/
noncomputable def turns (j : ℕ) : Vec := fun i => if i = 0 ∧ j % 2 = 1 then 1 / 2 else 0

theorem turns_unit (j : ℕ) : InUnit (Ortho.default.toGen (turns j)) := by
  intro i
  simp only [Ortho.toGen, Ortho.default, turns]
  split <;> norm_num

/-- Bond vectors of length 1/5. -/
noncomputable def rods : ℝ → ℕ → ℕ → Vec := fun _ _ _ => ![1 / 5, 0, 0]

theorem rods_short (j : ℕ) (i : Fin 3) : |Ortho.default.toGen (rods 1 0 j) i| ≤ 1 := by
  fin_cases i <;> simp [Ortho.toGen, Ortho.default, rods]
  norm_num [abs_le]

/-- Hypotheses of `C71_generated` and `C71_generate`: a chain of three atoms and a
point, of diameter 1/10. -/
example : (cube (1 / 10) turns rods).OK Ortho.default.bravais {0, 1, 2, 3} ∧
    Supply {0, 1, 2, 3} ∅ [⟨1, true, [[0, 1, 2]]⟩, ⟨5, false, [[3]]⟩] :=
  ⟨cube_ok (by decide) (by norm_num) turns_unit rods_short,
    ⟨by simp, by decide, by decide, by simp⟩⟩

/-- Hypotheses of `C71_ends`: one atom cannot block both positions. -/
theorem turns_free : FreeSites (cube (1 / 10) turns rods) {0, 1} := by
  intro S hS q hu _ a ha haS n
  have ok : (cube (1 / 10) turns rods).OK Ortho.default.bravais {0, 1} :=
    cube_ok (by decide) (by norm_num) turns_unit rods_short
  by_contra hall
  push Not at hall
  have hd : ∀ a, (cube (1 / 10) turns rods).diam a = 1 / 10 := fun a => rfl
  have hclose : ∀ j, n ≤ j → ∃ b ∈ S, ∃ m : ℤ, |q b 0 - turns j 0 + m| < 1 / 10 := by
    intro j hj
    obtain ⟨b, hb, hlt⟩ := hall j hj
    refine ⟨b, hb, ?_⟩
    rw [hd, hd] at hlt
    obtain ⟨-, k', hk'⟩ := ok.wrap (turns j) fun i => by
      have : 0 ≤ (cube (1 / 10) turns rods).gen (turns j) i ∧
        (cube (1 / 10) turns rods).gen (turns j) i < 1 := ok.site j i
      constructor <;> linarith [this.1, this.2]
    obtain ⟨k, hk⟩ := ok.dist.image (q b) ((cube (1 / 10) turns rods).shift (turns j))
    have hlt' : normSq (q b - (cube (1 / 10) turns rods).shift (turns j)
        + latComb Ortho.default.bravais k) < (1 / 10) ^ 2 := by
      rw [← hk]
      refine lt_of_lt_of_eq hlt (by norm_num)
    have hc : (q b 0 - (cube (1 / 10) turns rods).shift (turns j) 0 + (k 0 : ℝ)) ^ 2
        < (1 / 10) ^ 2 := by
      refine lt_of_le_of_lt ?_ hlt'
      rw [Ortho.Reach.default.ok.latComb_eq]
      simp only [normSq, latVec, Pi.add_apply, Pi.sub_apply, Ortho.default, mul_one]
      nlinarith [sq_nonneg (q b 1 - (cube (1 / 10) turns rods).shift (turns j) 1 + (k 1 : ℝ)),
        sq_nonneg (q b 2 - (cube (1 / 10) turns rods).shift (turns j) 2 + (k 2 : ℝ))]
    have h0 := congrFun hk' 0
    rw [Ortho.Reach.default.ok.latComb_eq] at h0
    simp only [Pi.add_apply, latVec, Ortho.default, mul_one] at h0
    refine ⟨k 0 + k' 0, ?_⟩
    have := abs_lt_of_sq_lt_sq hc (by norm_num)
    push_cast
    rwa [show q b 0 - turns j 0 + ((k 0 : ℝ) + (k' 0 : ℝ)) =
      q b 0 - (cube (1 / 10) turns rods).shift (turns j) 0 + (k 0 : ℝ) by rw [h0]; ring]
  obtain ⟨b, hb, m, hm⟩ := hclose (2 * n) (by omega)
  obtain ⟨b', hb', m', hm'⟩ := hclose (2 * n + 1) (by omega)
  have hbb : b = b' := by
    have h1 : b = 0 ∨ b = 1 := by simpa using hS hb
    have h2 : b' = 0 ∨ b' = 1 := by simpa using hS hb'
    have h3 : a = 0 ∨ a = 1 := by simpa using ha
    have h4 : a ≠ b := fun e => haS (e ▸ hb)
    have h5 : a ≠ b' := fun e => haS (e ▸ hb')
    omega
  subst hbb
  have t0 : turns (2 * n) 0 = 0 := by simp [turns]
  have t1 : turns (2 * n + 1) 0 = 1 / 2 := by
    unfold turns
    rw [if_pos ⟨rfl, by omega⟩]
  rw [t0] at hm
  rw [t1] at hm'
  rw [abs_lt] at hm hm'
  have c1 : ((m - m' : ℤ) : ℝ) < 0 := by push_cast; linarith [hm.2, hm'.1]
  have c2 : (-1 : ℝ) < ((m - m' : ℤ) : ℝ) := by push_cast; linarith [hm.1, hm'.2]
  have c1' : m - m' < 0 := by exact_mod_cast c1
  have c2' : -1 < m - m' := by exact_mod_cast c2
  omega

example (s : St) : generateMolecules (cube (1 / 10) turns rods) [⟨1, true, [[0, 1]]⟩] s ≠ .hang :=
  C71_ends (cube_ok (by decide) (by norm_num) turns_unit rods_short) turns_free
    ⟨by simp, by decide, by decide, by simp⟩ s

end Verif.Generate
